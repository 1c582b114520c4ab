import Verif.Model.Pipe
/-
Model of the file-like objects through which contents of files pass:
`src/rdiff_backup/librsync.py` (LikeFile 46-119, of which SigFile, DeltaFile and PatchedFile differ in the librsync job only),
`src/_librsyncmodule.c` (the three functions `cycle`, which are the same but for the job: 103-133, 242-272, 389-...),
`src/rdiff_backup/hash.py` (FileWrapper 25-47, Report 50-69, compute_sha1_fp 82-87),
`src/rdiff_backup/rpath.py` (copyfileobj 1441-1468, _cmp_file_obj 1880-1895), `src/rdiff_backup/Rdiff.py` (_find_blocksize 106-119).

librsync itself is a parameter: the function `rs_job_iter` of a job. SHA1 is a parameter: the function from bytes to the digest; that `update` can be called
with pieces is taken for granted (`hashlib`).
-/
namespace Verif.FileObj
open Verif.Pipe (Bytes)

/-- a file-like object with states `F`, exceptions `X` and close values `C`; `read none`: `read()` or `read(-1)` -/
structure FileObj (F X C : Type) where
  read : Option Nat → F → Except X Bytes × F
  close : F → C × F

/-- `rs_result`, as far as it is distinguished -/
inductive JobResult where
  | done
  | blocked
  | failed
  deriving DecidableEq

/-- `rs_job_iter(job, buf)`: the state, the input, `eof_in`, `avail_out` give the result, how many bytes were used, the output and the new state -/
abbrev JobIter (S : Type) := S → Bytes → Bool → Nat → JobResult × Nat × Bytes × S

/-- RSM_JOB_BLOCKSIZE, `blocksize` -/
def blocksize : Nat := 65536

/-- `cycle(inbuf)`: `none`: librsyncError -/
def cycle {S : Type} (iter : JobIter S) (s : S) (inbuf : Bytes) : Option (Bool × Nat × Bytes) × S :=
  match iter s inbuf (inbuf.length == 0) blocksize with
  | (.done, n, o, s') => (some (true, n, o), s')
  | (.blocked, n, o, s') => (some (false, n, o), s')
  | (.failed, _, _, s') => (none, s')

variable {F X C S : Type}

/-- exceptions: those of the input, librsyncError; `fuel`: more passes through the loop than allowed for -/
inductive LErr (X : Type) where
  | input (x : X)
  | librsync
  | assertion
  | fuel
  deriving DecidableEq

/-- LikeFile 55-62; `closeval`: `infile_closeval`, if `infile_closed` -/
structure LikeFile (F C S : Type) where
  infile : F
  inbuf : Bytes
  outbuf : Bytes
  eof : Bool
  infileEof : Bool
  closeval : Option C
  job : S

/-- librsync.py 54-61 `__init__`: empty buffers, nothing read -/
def LikeFile.new (f : F) (s : S) : LikeFile F C S := ⟨f, [], [], false, false, none, s⟩

variable (fo : FileObj F X C) (iter : JobIter S)

/-- 106-115 `_add_to_inbuf` -/
def addToInbuf (l : LikeFile F C S) : Except (LErr X) Unit × LikeFile F C S :=
  if l.inbuf.length < blocksize then
    match fo.read (some blocksize) l.infile with
    | (.error x, f) => (.error (.input x), { l with infile := f })
    | (.ok [], f) =>
      let r := fo.close f
      (.ok (), { l with infile := r.2, infileEof := true, closeval := some r.1 })
    | (.ok (b :: bs), f) => addToInbuf { l with infile := f, inbuf := l.inbuf ++ b :: bs }
  else (.ok (), l)
termination_by blocksize - l.inbuf.length
decreasing_by simp; omega

/-- 95-104 `_add_to_outbuf_once` -/
def addToOutbuf (l : LikeFile F C S) : Except (LErr X) Unit × LikeFile F C S :=
  match (if l.infileEof then (.ok (), l) else addToInbuf fo l : Except (LErr X) Unit × LikeFile F C S) with
  | (.error e, l') => (.error e, l')
  | (.ok (), l') =>
    match cycle iter l'.job l'.inbuf with
    | (none, s) => (.error .librsync, { l' with job := s })
    | (some (eof, n, o), s) => (.ok (), { l' with eof := eof, inbuf := l'.inbuf.drop n, outbuf := l'.outbuf ++ o, job := s })

/-- 66-72: the loops of `read` -/
def fill (length : Option Nat) : Nat → LikeFile F C S → Except (LErr X) Unit × LikeFile F C S
  | 0, l => (.error .fuel, l)
  | n + 1, l =>
    if !l.eof && length.all (l.outbuf.length < ·) then
      match addToOutbuf fo iter l with
      | (.ok (), l') => fill length n l'
      | (.error e, l') => (.error e, l')
    else (.ok (), l)

/-- 64-77 `read` -/
def LikeFile.read (fuel : Nat) (length : Option Nat) (l : LikeFile F C S) : Except (LErr X) Bytes × LikeFile F C S :=
  match fill fo iter length fuel l with
  | (.error e, l') => (.error e, l')
  | (.ok (), l') =>
    let n := match length with
      | none => l'.outbuf.length
      | some n => min n l'.outbuf.length
    (.ok (l'.outbuf.take n), { l' with outbuf := l'.outbuf.drop n })

/-- 79-85 `close` -/
def LikeFile.close (l : LikeFile F C S) : C × LikeFile F C S :=
  match l.closeval with
  | some c => (c, l)
  | none =>
    let r := fo.close l.infile
    (r.1, { l with infile := r.2 })

/-- a LikeFile as a file object -/
def LikeFile.obj (fuel : Nat) : FileObj (LikeFile F C S) (LErr X) C := ⟨LikeFile.read fo iter fuel, LikeFile.close fo⟩

/-! ### hash.py -/

/-- what `close` of a file returns: nothing or a Report with a digest; `bad`: an AssertionError of Report (59-68) -/
inductive CloseVal (D : Type) where
  | nothing
  | report (d : D)
  | bad
  deriving DecidableEq

variable {D : Type}

/-- FileWrapper: `seen`: all the data given to `sha1.update` -/
structure Wrapped (F : Type) where
  file : F
  seen : Bytes
  closed : Bool

/-- hash.py 36-39 `__init__` -/
def Wrapped.new (f : F) : Wrapped F := ⟨f, [], false⟩

/-- 41-45 `read`; `none`: AssertionError -/
def Wrapped.read (fo : FileObj F X (CloseVal D)) (length : Option Nat) (w : Wrapped F) : Except (Option X) Bytes × Wrapped F :=
  if w.closed then (.error none, w)
  else
    match fo.read length w.file with
    | (.ok b, f) => (.ok b, { w with file := f, seen := w.seen ++ b })
    | (.error x, f) => (.error (some x), { w with file := f })

/-- 47-49 `close`, Report 55-69 -/
def Wrapped.close [DecidableEq D] (sha1 : Bytes → D) (fo : FileObj F X (CloseVal D)) (w : Wrapped F) : CloseVal D × Wrapped F :=
  let r := fo.close w.file
  let w' := { w with file := r.2, closed := true }
  let d := sha1 w.seen
  match r.1 with
  | .nothing => (.report d, w')
  | .report d' => (if d' = d then .report d else .bad, w')
  | .bad => (.bad, w')

/-- hash.py 25-49: the wrapper is again a file object -/
def Wrapped.obj [DecidableEq D] (sha1 : Bytes → D) (fo : FileObj F X (CloseVal D)) : FileObj (Wrapped F) (Option X) (CloseVal D) :=
  ⟨Wrapped.read fo, Wrapped.close sha1 fo⟩

/-- consts.py 37 -/
def BLOCKSIZE : Nat := 131072

/-- 85-86: the loop of compute_sha1_fp -/
def readLoop (fo : FileObj F X C) : Nat → F → Option (Except X Unit) × F
  | 0, f => (none, f)
  | n + 1, f =>
    match fo.read (some BLOCKSIZE) f with
    | (.error x, f') => (some (.error x), f')
    | (.ok [], f') => (some (.ok ()), f')
    | (.ok (_ :: _), f') => readLoop fo n f'

/-- 82-87 `compute_sha1_fp`: the digest; `none`: an exception (or not enough fuel) -/
def computeSha1Fp [DecidableEq D] (sha1 : Bytes → D) (fo : FileObj F X (CloseVal D)) (fuel : Nat) (f : F) : Option D :=
  match readLoop (Wrapped.obj sha1 fo) fuel (Wrapped.new f) with
  | (some (.ok ()), w) =>
    match (w.close sha1 fo).1 with
    | .report d => some d
    | _ => none
  | _ => none

/-! ### copying -/

/-- an output file: contents and position -/
structure Out where
  data : Bytes
  pos : Nat
  deriving DecidableEq

/-- write(2): a hole before the position is filled with zeros -/
def Out.write (o : Out) (b : Bytes) : Out :=
  ⟨(o.data ++ List.replicate (o.pos - o.data.length) 0).take o.pos ++ b ++ o.data.drop (o.pos + b.length), o.pos + b.length⟩

/-- seek(n, SEEK_CUR) -/
def Out.seek (o : Out) (n : Nat) : Out := { o with pos := o.pos + n }
/-- `seek(-n, 1)` on the output file (rpath.py 1450-1464) -/
def Out.seekBack (o : Out) (n : Nat) : Out := { o with pos := o.pos - n }

/-- 1450-1464; `none`: not enough fuel; the result: whether `sparse` -/
def copyLoop (fo : FileObj F X C) (compressed : Bool) : Nat → Bool → F → Out → Option (Except X Bool) × F × Out
  | 0, _, f, o => (none, f, o)
  | n + 1, sparse, f, o =>
    match fo.read (some BLOCKSIZE) f with
    | (.error x, f') => (some (.error x), f', o)
    | (.ok [], f') => (some (.ok sparse), f', o)
    | (.ok (b :: bs), f') =>
      let inbuf := b :: bs
      if !compressed && inbuf == List.replicate inbuf.length 0 then copyLoop fo compressed n true f' (o.seek inbuf.length)
      else copyLoop fo compressed n false f' (o.write inbuf)

/-- 1441-1468 `copyfileobj` -/
def copyfileobj (fo : FileObj F X C) (compressed : Bool) (fuel : Nat) (f : F) (o : Out) : Option (Except X Unit) × F × Out :=
  match copyLoop fo compressed fuel false f o with
  | (some (.ok sparse), f', o') => (some (.ok ()), f', if sparse then (o'.seekBack 1).write [0] else o')
  | (some (.error x), f', o') => (some (.error x), f', o')
  | (none, f', o') => (none, f', o')

/-- 1883-1891 `_cmp_file_obj` -/
def cmpFileObj {F' : Type} (fo : FileObj F X C) (fo' : FileObj F' X C) : Nat → F → F' → Option (Except X Bool)
  | 0, _, _ => none
  | n + 1, f, f' =>
    match fo.read (some BLOCKSIZE) f with
    | (.error x, _) => some (.error x)
    | (.ok b, f1) =>
      match fo'.read (some BLOCKSIZE) f' with
      | (.error x, _) => some (.error x)
      | (.ok b', f1') => if b ≠ b' then some (.ok false) else if b = [] then some (.ok true) else cmpFileObj fo fo' n f1 f1'

/-- `int.bit_length` -/
def bitLength (n : Nat) : Nat := if n = 0 then 0 else bitLength (n / 2) + 1
decreasing_by omega

/-- Rdiff.py 101-114 `_find_blocksize` -/
def findBlocksize (fileLen : Nat) : Nat := if fileLen < 10240 then 64 else (fileLen >>> (bitLength fileLen / 2 + 4)) <<< 4

end Verif.FileObj
