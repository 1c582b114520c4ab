import Verif.Model.MetaRecord
/-
Temporary files: how their names are found (`src/rdiff_backup/rpath.py`), and what becomes of them when a directory is updated, in a
repository (`src/rdiffbackup/locations/_repo_shadow.py`) or by restoring (`_dir_shadow.py`).

Simplifications: files which aren't directories are their contents; attributes, hard links (C31, C66), increments (C01), files whose
writing fails, and the unchanged among the files whose temporary file is dropped again, are left out.
-/
namespace Verif.TempFiles
open Verif.Quoting Verif.MetaRecord

abbrev Path := List Bytes

inductive Node (C : Type) where
  | file (c : C)
  | dir
  deriving DecidableEq

/-- a file system: the first entry of a path counts -/
abbrev Fs (C : Type) := List (Path × Node C)

variable {C : Type}

def get (fs : Fs C) (p : Path) : Option (Node C) := (fs.find? fun x => x.1 = p).map Prod.snd
def del (fs : Fs C) (p : Path) : Fs C := fs.filter fun x => !(x.1 = p : Bool)
def put (fs : Fs C) (p : Path) (v : Node C) : Fs C := (p, v) :: del fs p

/-- create a file; fails if there is something already, or no directory to put it into (rpath.py 1105-1119, 1483-1534) -/
def create (fs : Fs C) (d : Path) (n : Bytes) (v : Node C) : Option (Fs C) :=
  if get fs (d ++ [n]) = none ∧ get fs d matches some .dir then some (put fs (d ++ [n]) v) else none

/-- rpath.py 1642-1698 `rename`, of an existing file. A file can be renamed to itself. -/
def mv (fs : Fs C) (p q : Path) : Fs C :=
  match get fs p with
  | none => fs
  | some v => if p = q then fs else put (del fs p) q v

/-- rpath.py 851-858 `rmdir`: fails if it isn't an empty directory -/
def rmdir (fs : Fs C) (p : Path) : Option (Fs C) :=
  if (get fs p matches some .dir) && fs.all (fun x => !(x.1 ≠ [] && x.1.dropLast = p)) then some (del fs p) else none

/-- rpath.py 1336 -/
def limit : Nat := 100000000

/-- rpath.py 1331-1339 `_get_next_tempfile_name`: the number, if `n` comes after the last one; and the name: rdiff-backup.tmp. and the number -/
def nextNumber (n : Nat) : Nat := if n > limit then 0 else n
def tempName (k : Nat) : Bytes := [114, 100, 105, 102, 102, 45, 98, 97, 99, 107, 117, 112, 46, 116, 109, 112, 46] ++ fmtNat k

/-- rpath.py 1084-1088: look for a name. The loop of the code has no end of its own; `none` after as many rounds as there are numbers. -/
def search (fs : Fs C) (d : Path) : Nat → Nat → Option Nat
  | 0, _ => none
  | f + 1, n => if get fs (d ++ [tempName (nextNumber n)]) = none then some (nextNumber n) else search fs d f (nextNumber n + 1)

/-- `next`: `_temp_file_index` + 1 (rpath.py 654: 0 when a process starts) -/
structure St (C : Type) where
  next : Nat
  fs : Fs C

/-- rpath.py 1062-1088 `get_temp_rpath`, in the directory `d`: the name, and the counter moves on -/
def getTemp (s : St C) (d : Path) : Option (Bytes × St C) :=
  (search s.fs d (limit + 1) s.next).map fun k => (tempName k, { s with next := k + 1 })

/-- What is to be done in a directory: for entries one after the other. `file`: neither there nor in the new tree a directory.
`dir n none sub`: a directory in the new tree. `dir n (some x) sub`: a directory that is replaced by a file, or by nothing. -/
inductive Plan (C : Type) where
  | nil
  | file (n : Bytes) (new : Option C) (rest : Plan C)
  | dir (n : Bytes) (repl : Option (Option C)) (sub rest : Plan C)

/-- `_patch_to_temp` (_repo_shadow.py 2564-2600, _dir_shadow.py 461-477): nothing is written if there is nothing -/
def writeTemp (fs : Fs C) (d : Path) (t : Bytes) : Option C → Option (Fs C)
  | none => some fs
  | some c => create fs d t (.file c)

/-- _repo_shadow.py 2505-2532 and 2745-2780 `fast_process_file` with `cleanup`; _dir_shadow.py 421-426 without. What was there (`was`) is known from before. -/
def fileStep (cleanup : Bool) (d : Path) (n : Bytes) (new : Option C) (s : St C) : Option (St C) :=
  match getTemp s d with
  | none => none
  | some (t, s) =>
    let was := (get s.fs (d ++ [n])).isSome
    match writeTemp s.fs d t new with
    | none => none
    | some fs =>
      let fs := if new.isSome then mv fs (d ++ [t]) (d ++ [n]) else if was then del fs (d ++ [n]) else fs
      -- "final clean-up" (2529-2532, 2777-2780)
      let fs := if cleanup then del fs (d ++ [t]) else fs
      some { s with fs }

/-- _repo_shadow.py 2534-2546, 2693-2729; _dir_shadow.py 428-441, 505-530: the name of the temporary file, if there is one -/
def startDir (d : Path) (n : Bytes) (repl : Option (Option C)) (s : St C) : Option (Option Bytes × St C) :=
  match repl with
  | none =>
    match get s.fs (d ++ [n]) with
    | some .dir => some (none, s)
    | _ => (create (del s.fs (d ++ [n])) d n .dir).map fun fs => (none, { s with fs })
  | some x =>
    match getTemp s d with
    | none => none
    | some (t, s) => (writeTemp s.fs d t x).map fun fs => (some t, { s with fs })

/-- _repo_shadow.py 2548-2568, _dir_shadow.py 443-454 `end_process_directory` -/
def endDir (d : Path) (n : Bytes) (t : Option Bytes) (s : St C) : Option (St C) :=
  match t with
  | none => some s
  | some t => (rmdir s.fs (d ++ [n])).map fun fs => { s with fs := mv fs (d ++ [t]) (d ++ [n]) }

/-- one entry after the other; what is in a directory between its start and its end (C13) -/
def run (cleanup : Bool) (d : Path) : Plan C → St C → Option (St C)
  | .nil, s => some s
  | .file n new rest, s =>
    match fileStep cleanup d n new s with
    | none => none
    | some s => run cleanup d rest s
  | .dir n repl sub rest, s =>
    match startDir d n repl s with
    | none => none
    | some (t, s) =>
      match run cleanup (d ++ [n]) sub s with
      | none => none
      | some s =>
        match endDir d n t s with
        | none => none
        | some s => run cleanup d rest s

end Verif.TempFiles
