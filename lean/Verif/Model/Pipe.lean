/-
Model of `LowLevelPipeConnection` (`src/rdiff_backup/connection.py` 181-405): what is written to the pipe for each thing sent, and how it
is read back from the pieces in which the bytes arrive.

`pickle` is a parameter (a pair of functions of which one undoes the other); Python objects of the various types are given by their pickled values.
-/
namespace Verif.Pipe

/-- Python's `bytes` -/
abbrev Bytes := List UInt8

/-- `int.from_bytes(b, byteorder="big")` (`_b2i` 334-336) -/
def b2i (b : Bytes) : Nat := b.foldl (fun n x => n * 256 + x.toNat) 0

/-- the last `size` digits of `i` to base 256 -/
def digits (i : Nat) : Nat → Bytes
  | 0 => []
  | size + 1 => digits (i / 256) size ++ [UInt8.ofNat (i % 256)]

/-- the number of bytes needed: `(i.bit_length() + 7) // 8` -/
def byteLength (i : Nat) : Nat := if i = 0 then 0 else byteLength (i / 256) + 1
decreasing_by omega

/-- `i.to_bytes(size, byteorder="big")`, `none`: OverflowError -/
def toBytes (i size : Nat) : Option Bytes := if i < 256 ^ size then some (digits i size) else none

/-- 338-342 `_i2b`: size 0 stands for as many as necessary -/
def i2b (i size : Nat) : Option Bytes := toBytes i (if size = 0 then byteLength i else size)

/-- `pickle.dumps` and `pickle.loads` for one type of objects -/
structure Pickle (X : Type) where
  dumps : X → Bytes
  loads : Bytes → Option X

variable {O R Q : Type}

/-- What can be sent: a generic object, bytes, a file or an iterator, known to the other side by its number (`VirtualFile.new`), an RORPath (index and data), an
RPath, QuotedRPath or StoredRPath (connection number, base, index and data), a connection (its number). -/
inductive Item (O R Q : Type) where
  | obj (o : O)
  | buf (b : Bytes)
  | file (id : Nat)
  | iter (id : Nat)
  | rorp (r : R)
  | rpath (q : Q)
  | quoted (q : Q)
  | stored (q : Q)
  | conn (n : Nat)
  deriving DecidableEq

/-- the pickles: of generic objects, of RORPaths as pairs, of RPaths as quadruples -/
structure Pickles (O R Q : Type) where
  obj : Pickle O
  rorp : Pickle R
  rpath : Pickle Q

/-- letter and data for an item: 256-311 -/
def payload (P : Pickles O R Q) : Item O R Q → Option (UInt8 × Bytes)
  | .obj o => some (111, P.obj.dumps o)
  | .buf b => some (98, b)
  | .file id => (i2b id 0).map (102, ·)
  | .iter id => (i2b id 0).map (105, ·)
  | .rorp r => some (114, P.rorp.dumps r)
  | .rpath q => some (82, P.rpath.dumps q)
  | .quoted q => some (81, P.rpath.dumps q)
  | .stored q => some (83, P.rpath.dumps q)
  | .conn n => (i2b n 0).map (99, ·)

/-- 313-326 `_write`: `none`: OverflowError -/
def write (letter : UInt8) (data : Bytes) (req : Nat) : Option Bytes :=
  (i2b req 1).bind fun r => (i2b data.length 7).map fun n => letter :: r ++ n ++ data

/-- 234-254 `_put` -/
def putMsg (P : Pickles O R Q) (i : Item O R Q) (req : Nat) : Option Bytes := (payload P i).bind fun x => write x.1 x.2 req

/-- 306-308 `_putquit` -/
def putQuit : Option Bytes := write 113 [] 255

/-- `inpipe.read(n)` of a buffered reader: pieces are read until there are `n` bytes or the other side has closed the pipe. What is left of a piece stays in
the buffer. -/
def readPipe : List Bytes → Nat → Bytes × List Bytes
  | [], _ => ([], [])
  | c :: cs, n =>
    if n ≤ c.length then (c.take n, c.drop n :: cs)
    else
      let r := readPipe cs (n - c.length)
      (c ++ r.1, r.2)

/-- the results of `_get` -/
inductive Got (O R Q : Type) where
  | item (req : Nat) (i : Item O R Q)
  | quit
  | truncated
  | invalid
  deriving DecidableEq

/-- 361-387: the data are converted according to the letter (for `c`, the number is then looked up in the table of connections) -/
def decode (P : Pickles O R Q) (letter : UInt8) (data : Bytes) : Option (Item O R Q) :=
  if letter = 111 then (P.obj.loads data).map .obj
  else if letter = 98 then some (.buf data)
  else if letter = 102 then some (.file (b2i data))
  else if letter = 105 then some (.iter (b2i data))
  else if letter = 114 then (P.rorp.loads data).map .rorp
  else if letter = 82 then (P.rpath.loads data).map .rpath
  else if letter = 83 then (P.rpath.loads data).map .stored
  else if letter = 81 then (P.rpath.loads data).map .quoted
  else if letter = 99 then some (.conn (b2i data))
  else none

/-- 344-390 `_get`: the result and what remains in the pipe; MemoryError (357-361) isn't modelled -/
def getMsg (P : Pickles O R Q) (pipe : List Bytes) : Got O R Q × List Bytes :=
  let h := readPipe pipe 9
  if h.1.length ≠ 9 then (.truncated, h.2)
  else
    let letter := h.1.headD 0
    let req := b2i ((h.1.drop 1).take 1)
    let length := b2i (h.1.drop 2)
    if letter = 113 then (.quit, h.2)
    else
      let d := readPipe h.2 length
      match decode P letter d.1 with
      | some i => (.item req i, d.2)
      | none => (.invalid, d.2)

end Verif.Pipe
