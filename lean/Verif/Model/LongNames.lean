import Verif.Model.MetaRecord
/-
Substitutes for file names that are too long: `src/rdiffbackup/locations/map/longnames.py`.
-/
namespace Verif.LongNames
open Verif.Quoting Verif.MetaRecord

/-- The directory `long_filename_data` and the variable `_free_name_counter` (longnames.py 45-58).
`given`: the names returned so far, only there to talk about them. -/
structure St where
  /-- the names of the files in the directory, except `next_free` -/
  dir : List Bytes := []
  /-- content of `next_free` -/
  file : Option Bytes := none
  counter : Option Nat := none
  given : List Bytes := []
  deriving DecidableEq

/-- `filename.split(b".")[0]` -/
def base (f : Bytes) : Bytes := f.takeWhile (· ≠ 46)

/-- longnames.py 271-285 `scan_next_free`. Names are made of digits or are no numbers (`int` accepts more than that, but no
such names are made). -/
def scanNextFree (dir : List Bytes) : Nat :=
  dir.foldl (fun high f =>
    match parseNat (base f) with
    | some i => if i > high then i else high
    | none => high) 0 + 1

/-- Python's `not x` for None or a number -/
def falsy : Option Nat → Bool
  | some n => n == 0
  | none => true

/-- longnames.py 287-294 `read_next_free`; the outer `none` is a ValueError -/
def readNextFree (file : Option Bytes) : Option (Option Nat) :=
  match file with
  | none => some none
  | some s => (parseNat s).map some

/-- longnames.py 306-309: the number to use; `none` is an exception -/
def nextNumber (st : St) : Option Nat :=
  match (if falsy st.counter then readNextFree st.file else some st.counter) with
  | none => none
  | some c =>
    match c with
    | some n => if n = 0 then some (scanNextFree st.dir) else some n
    | none => some (scanNextFree st.dir)

/-- longnames.py 306-315 `_get_next_free_filename`: the name; `none` is an exception (also of the assertion). -/
def alloc (st : St) : Option (Bytes × St) :=
  match nextNumber st with
  | none => none
  | some n =>
    if fmtNat n ∈ st.dir then none
    else some (fmtNat n, { st with counter := some (n + 1), file := some (fmtNat (n + 1)), given := fmtNat n :: st.given })

/-- How far `write_next_free` (longnames.py 296-304) comes before the program is killed. The few digits are
taken to be written at once. -/
inductive Crash where
  | before | deleted | empty | written
  deriving DecidableEq

/-- The program is killed during `_get_next_free_filename`. -/
def crashAlloc (p : Crash) (st : St) : Option St :=
  match nextNumber st with
  | none => none
  | some n =>
    if fmtNat n ∈ st.dir then none
    else some { st with
      counter := none
      file := match p with
        | .before => st.file
        | .deleted => none
        | .empty => some []
        | .written => some (fmtNat (n + 1)) }

/-- What may happen to the directory. -/
inductive Op where
  | alloc
  | crash (p : Crash)
  /-- the program ends and is started again -/
  | restart
  /-- a file or an increment with a name that was returned (`suffix` is empty, or starts with a dot) -/
  | create (name suffix : Bytes)
  | delete (f : Bytes)
  deriving DecidableEq

/-- one of the operations: `_get_next_free_filename` (longnames.py 266-315), a crash within it, a restart (`_free_name_counter` is None again), files created and deleted in the directory -/
def step (st : St) : Op → Option St
  | .alloc => (alloc st).map Prod.snd
  | .crash p => crashAlloc p st
  | .restart => some { st with counter := none }
  | .create name suffix =>
    if name ∈ st.given ∧ (suffix = [] ∨ suffix.head? = some 46) then some { st with dir := (name ++ suffix) :: st.dir } else none
  | .delete f => some { st with dir := st.dir.filter (· ≠ f) }

/-- any history of such operations -/
def run (st : St) : List Op → Option St
  | [] => some st
  | op :: ops => (step st op).bind fun st => run st ops

/-! ### Which names files get (longnames.py 87-181) -/

/-- the alternate names recorded for a file (stdattr.py `AlternateMirrorName`, `AlternateIncrementName`) -/
structure Names where
  mirror : Option Bytes := none
  inc : Option Bytes := none
  deriving DecidableEq

/-- where a file or its increments are: in the usual place, or in the directory for long names -/
inductive Loc where
  | usual
  | long (name : Bytes)
  deriving DecidableEq

/-- One file of a session: its records, if any, in the old and new metadata; are its path and the path of its
increments short enough? -/
structure Item where
  old : Option Names
  new : Bool
  root : Bool := false
  fitsMirror : Bool
  fitsInc : Bool
  deriving DecidableEq

/-- longnames.py 100-126 `mir_triple_old`, `mir_triple_new`: location of the mirror file, alternate names -/
def mirTriple (it : Item) (st : St) : Option ((Loc × Option Bytes × Option Bytes) × St) :=
  match it.old with
  | some o =>
    match o.mirror with
    | some m => some ((.long m, some m, none), st)
    | none => some ((.usual, none, o.inc), st)
  | none =>
    if it.new then
      if it.fitsMirror then some ((.usual, none, none), st)
      else
        match alloc st with
        | some (n, st) => some ((.long n, some n, none), st)
        | none => none
    else none

/-- longnames.py 140-158 `find_inc_pair` -/
def findIncPair (it : Item) (mirror : Loc) (altMirror altInc : Option Bytes) (st : St) : Option ((Option Bytes × Loc) × St) :=
  match altMirror, altInc with
  | some _, _ => some ((none, mirror), st)
  | none, some i => some ((some i, .long i), st)
  | none, none =>
    if it.root then some ((none, .usual), st)
    else if it.fitsInc then some ((none, .usual), st)
    else
      match alloc st with
      | some (n, st) => some ((some n, .long n), st)
      | none => none

/-- The result: location of the mirror file and of the increments, names recorded for the new file. -/
structure Placed where
  mirror : Loc
  inc : Loc
  recorded : Option Names
  deriving DecidableEq

/-- longnames.py 98-176 `get_mirror_inc_rps` with `update_rorp` -/
def place (it : Item) (st : St) : Option (Placed × St) :=
  match mirTriple it st with
  | none => none
  | some ((m, altMirror, altInc), st) =>
    match findIncPair it m altMirror altInc st with
    | none => none
    | some ((altInc, i), st) =>
      let rec' : Names :=
        match altMirror with
        | some a => { mirror := some a }
        | none => { inc := altInc }
      some (⟨m, i, if it.new then some rec' else none⟩, st)

/-- the files of a session, one after the other -/
def placeAll (st : St) : List Item → Option (List Placed × St)
  | [] => some ([], st)
  | it :: its =>
    match place it st with
    | none => none
    | some (p, st) =>
      match placeAll st its with
      | none => none
      | some (ps, st) => some (p :: ps, st)

end Verif.LongNames
