import Mathlib.Data.List.Lex
import Verif.Model.Sort
/-
Model of `src/rdiff_backup/selection.py` (`Select`, `FilterIter`), without the parsing of globs (see `Model/Glob.lean`).

An index is a list of names (`List α`). Conditions which look at the path (globs, regular expressions) are predicates on the index: the
path is the fixed base directory with the index appended.
-/
namespace Verif.Selection
variable {α : Type} [LinearOrder α]

/-- selection.py 92-94: EXCLUDE, INCLUDE, DOSCAN -/
inductive Val
  | excl | incl | scan
  deriving DecidableEq

/-- file types (`data['type']`) -/
inductive Kind
  | reg | dir | sym | sock | fifo | dev
  deriving DecidableEq

/-- what conditions see of a file -/
structure File where
  kind : Kind
  size : Nat := 0
  devloc : Nat := 0
  deriving DecidableEq

/-- `rpath.isdir()` -/
def File.isdir (f : File) : Bool := f.kind == .dir

/-- selection conditions; `incl`: the option includes (otherwise it excludes) -/
inductive Cond (α : Type) where
  /-- 605-617 `_special_get_sf` -/
  | special (incl : Bool)
  /-- 571-603 `_gen_get_sf` for devices, links, sockets, fifos -/
  | kind (k : Kind) (incl : Bool)
  /-- 500-518 `_other_filesystems_get_sf` -/
  | otherFs (root : Nat) (incl : Bool)
  /-- 520-545 `_regexp_get_sf` -/
  | regexp (p : List α → Bool) (incl : Bool)
  /-- 547-569 `_presence_get_sf`: `here i`: the readable directory `i` contains the file, `parent i`: the parent of `i` does -/
  | presence (here parent : List α → Bool) (incl : Bool)
  /-- 619-642 `_size_get_sf`: `max`: maximum size (otherwise minimum) -/
  | size (n : Nat) (max : Bool)
  /-- 653-656 `**` -/
  | all (incl : Bool)
  /-- 682-704 `_glob_get_tuple_sf` -/
  | tuple (t : List α) (incl : Bool)
  /-- 706-761 `_glob_get_normal_sf`: `glob`: glob_comp_re, `scan`: scan_comp_re -/
  | glob (glob scan : List α → Bool) (incl : Bool)
  /-- 355-388 `_filelist_get_sf`: the rest of the sorted list (from `i[0]` on), and the attribute `exclude` -/
  | filelist (rest : List (List α × Bool)) (exclude : Bool)

/-- the attribute `exclude` -/
def Cond.exclude : Cond α → Bool
  | .special i | .kind _ i | .otherFs _ i | .regexp _ i | .presence _ _ i | .all i | .tuple _ i | .glob _ _ i => !i
  | .size _ _ => true
  | .filelist _ e => e

/-- the attribute `check_filename` -/
def Cond.checkFilename : Cond α → Bool
  | .regexp .. | .all .. | .tuple .. | .glob .. => true
  | _ => false

/-- selection.py 571-587: the value which a selection function returns, 1 for include options and 0 for exclude options -/
def val (incl : Bool) : Val := if incl then .incl else .excl

/-- 443-476 `_filelist_pair_match`: (include, move_on) -/
def pairMatch (i : List α) (pair : List α × Bool) : Option Val × Bool :=
  let (index, inc) := pair
  if inc then
    if index < i then (none, true)
    else if index = i then (some .incl, true)
    else if index.take i.length = i then (some .incl, false)
    else (none, false)
  else
    if i.take index.length = index then (some .excl, false)
    else if index < i then (none, true)
    else (none, false)

/-- 373-383 the selection function of a file list: result and rest of the list -/
def filelistFn (i : List α) : List (List α × Bool) → Option Val × List (List α × Bool)
  | [] => (none, [])
  | t :: ts =>
    match pairMatch i t with
    | (none, true) => filelistFn i ts
    | (some v, true) => (some v, ts)
    | (r, false) => (r, t :: ts)

/-- the order of Python's tuples (index, include) -/
def tupleLe (a b : List α × Bool) : Bool := a.1 < b.1 || (a.1 = b.1 && (!a.2 || b.2))

/-- 355-388 `_filelist_get_sf`: sorted list and attribute `exclude` (426, 387); `incDefault`: the option is `--include-filelist` -/
def mkFilelist (entries : List (List α × Bool)) (incDefault : Bool) : Cond α :=
  .filelist (Sort.sortBy tupleLe entries) (entries.any (fun t => !t.2) || !incDefault)

/-- A condition applied to the file at index `i`; `file = none`: the empty path used by `_select_filename` (262), which has no type.
The result is the answer (`none`: nothing to say) and the condition afterwards; `none` if an exception is raised. -/
def Cond.apply (c : Cond α) (i : List α) (file : Option File) : Option (Option Val × Cond α) :=
  let kind := file.map (·.kind)
  match c with
  | .special incl =>
    some (if kind = some .sym ∨ kind = some .sock ∨ kind = some .fifo ∨ kind = some .dev then some (val incl) else none, c)
  | .kind k incl => some (if kind = some k then some (val incl) else none, c)
  | .otherFs root incl =>
    match file with
    | none => none                                  -- KeyError: no devloc
    | some f => some (if f.devloc = root then none else some (val incl), c)
  | .regexp p incl => some (if p i then some (val incl) else none, c)
  | .presence here parent incl =>
    some (if kind = some .dir ∧ here i then some (val incl)
      else if incl ∧ kind ≠ some .dir ∧ parent i then some .incl else none, c)
  | .size n mx =>
    match file with
    | some ⟨.reg, sz, _⟩ => some (if mx then (if sz ≤ n then none else some .excl) else (if n ≤ sz then none else some .excl), c)
    | _ => some (none, c)
  | .all incl => some (some (val incl), c)
  | .tuple t incl =>
    some (if incl then (if i = t.take i.length ∨ i.take t.length = t then some .incl else none)
      else (if i.take t.length = t then some .excl else none), c)
  | .glob g sc incl =>
    some (if g i then some (val incl) else if incl ∧ sc i then some .scan else none, c)
  | .filelist rest e => let (r, rest') := filelistFn i rest; some (r, .filelist rest' e)

/-- 137-148 `select_default`, from the value of `scanned`; result and conditions afterwards -/
def selectFrom (scanned : Val) (i : List α) (file : Option File) : List (Cond α) → Option (Val × List (Cond α))
  | [] => some (.incl, [])
  | c :: cs =>
    match c.apply i file with
    | none => none
    | some (some .incl, c') => some (.incl, c' :: cs)
    | some (some .excl, c') => some (scanned, c' :: cs)
    | some (some .scan, c') => (selectFrom .scan i file cs).map fun r => (r.1, c' :: r.2)
    | some (none, c') => (selectFrom scanned i file cs).map fun r => (r.1, c' :: r.2)

/-- selection.py 137-148 `select_default`: the conditions in order, include if none decides -/
def selectDefault (cs : List (Cond α)) (i : List α) (file : Option File) : Option (Val × List (Cond α)) := selectFrom .excl i file cs

/-- 122-135 `_select_filename` -/
def selectNameFrom (scanned : Val) (i : List α) : List (Cond α) → Option (Val × List (Cond α))
  | [] => some (.incl, [])
  | c :: cs =>
    if !c.checkFilename && !c.exclude then some (.incl, c :: cs)
    else
      match c.apply i none with
      | none => none
      | some (some .incl, c') => some (.incl, c' :: cs)
      | some (some .excl, c') => some (scanned, c' :: cs)
      | some (some .scan, c') => (selectNameFrom .scan i cs).map fun r => (r.1, c' :: r.2)
      | some (none, c') => (selectNameFrom scanned i cs).map fun r => (r.1, c' :: r.2)

/-- selection.py 122-135 for a whole list of conditions -/
def selectFilename (cs : List (Cond α)) (i : List α) : Option (Val × List (Cond α)) := selectNameFrom .excl i cs

/-- 196-199 `parse_rbdir_exclude`; `rb`: the name `rdiff-backup-data` -/
def withRbdir (rb : α) (cs : List (Cond α)) : List (Cond α) := .tuple [rb] false :: cs

/-- 259-273 `diryield`: one name of the directory. The first component is INCLUDE or DOSCAN if the file is to be generated. -/
def entry (cs : List (Cond α)) (i : List α) (file : File) : Option (Option Val × List (Cond α)) :=
  match selectFilename cs i with
  | none => none
  | some (.excl, cs') => some (none, cs')
  | some (_, cs') =>
    match selectDefault cs' i (some file) with
    | none => none
    | some (.incl, cs'') => some (some .incl, cs'')
    | some (.scan, cs'') => some (if file.isdir then some .scan else none, cs'')
    | some (.excl, cs'') => some (none, cs'')

/-! ### walking through a directory -/

/-- the content of a directory: names with files and the contents of these (not looked at for other files than directories) -/
inductive Forest (α : Type) where
  | nil
  | cons (name : α) (file : File) (children rest : Forest α)

/-- not in the code: number of files (termination measure) -/
def Forest.size : Forest α → Nat
  | .nil => 1
  | .cons _ _ ch rest => 1 + ch.size + rest.size

/-- 278-298: the loop of `_iterate_rpath`; `stack`: diryield_stack, innermost first, each generator by the directory and the names still
to come; `delayed`: delayed_rp_stack, innermost first. Result: the indices generated; `none` if an exception is raised.
(Generators run only when the next element is wanted, so conditions are asked in the order of this loop.) -/
def walkLoop (cs : List (Cond α)) (delayed : List (List α)) : List (List α × Forest α) → Option (List (List α))
  | [] => some []
  | (_, .nil) :: st => walkLoop cs delayed.tail st
  | (d, .cons n f ch rest) :: st =>
    match entry cs (d ++ [n]) f with
    | none => none
    | some (some .incl, cs') =>
      if f.isdir then (walkLoop cs' [] ((d ++ [n], ch) :: (d, rest) :: st)).map (delayed.reverse ++ (d ++ [n]) :: ·)
      else (walkLoop cs' [] ((d, rest) :: st)).map (delayed.reverse ++ (d ++ [n]) :: ·)
    | some (some .scan, cs') => walkLoop cs' ((d ++ [n]) :: delayed) ((d ++ [n], ch) :: (d, rest) :: st)
    | some (_, cs') => walkLoop cs' delayed ((d, rest) :: st)
  termination_by st => (st.map fun x => x.2.size).sum
  decreasing_by all_goals (simp [Forest.size]; try omega)

/-- 240-298 `_iterate_rpath` for the root directory (or another root file) -/
def iterate (cs : List (Cond α)) (root : File) (content : Forest α) : Option (List (List α)) :=
  if root.isdir then (walkLoop cs [] [([], content)]).map ([] :: ·) else some [[]]

/-! ### filtering a list of files -/

/-- `FilterIter` 839-880 and the branches of its `IterTreeReducer` (rorpiter.py 93-196): `branches`: base_index and branch_excluded,
innermost first; `queue`: base_queue, last first -/
structure FSt (α : Type) where
  cs : List (Cond α)
  index : Option (List α)
  branches : List (List α × Bool)
  queue : List (List α)

/-- 907-920 `fast_process_file`: new state and output -/
def fastFile (s : FSt α) (excluded : Bool) (i : List α) (f : File) : Option (FSt α × List (List α)) :=
  if excluded then some (s, [])
  else
    match selectDefault s.cs i (some f) with
    | none => none
    | some (.incl, cs) => some ({ s with cs, queue := [] }, s.queue.reverse ++ [i])
    | some (.excl, cs) => some ({ s with cs }, [])
    | some (.scan, _) => none                       -- ValueError

/-- 922-941 `start_process_directory` of the new branch -/
def startDir (s : FSt α) (i : List α) (f : File) : Option (FSt α × List (List α)) :=
  match selectDefault s.cs i (some f) with
  | none => none
  | some (.excl, cs) => some ({ s with cs, branches := (i, true) :: s.branches }, [])
  | some (.incl, cs) => some ({ s with cs, branches := (i, false) :: s.branches, queue := [] }, s.queue.reverse ++ [i])
  | some (.scan, cs) =>
    some ({ s with cs, branches := (i, false) :: s.branches, queue := i :: s.queue.dropWhile (· ≠ i.dropLast) }, [])

/-- rorpiter.py 115-153 `__call__` (called at selection.py 879) -/
def filterStep (s : FSt α) (i : List α) (f : File) : Option (FSt α × List (List α)) :=
  match s.index with
  | none =>
    (if f.isdir then startDir s i f else fastFile { s with branches := [(i, false)] } false i f).map
      fun r => ({ r.1 with index := some i }, r.2)
  | some cur =>
    if i = cur then some (s, [])
    else if i < cur then none
    else if s.branches = [] then none
    else
      match s.branches.dropWhile fun b => b.1 ≠ i.take b.1.length with
      | [] => some ({ s with branches := [] }, [])
      | (b, e) :: bs =>
        let s := { s with branches := (b, e) :: bs }
        (if f.isdir then startDir s i f else fastFile s e i f).map fun r => ({ r.1 with index := some i }, r.2)

/-- selection.py 839-880 `FilterIter`: one record after the other -/
def filterFrom (s : FSt α) : List (List α × File) → Option (List (List α))
  | [] => some []
  | (i, f) :: r =>
    match filterStep s i f with
    | none => none
    | some (s', out) => (filterFrom s' r).map (out ++ ·)

/-- `FilterIter(select, rorp_iter)` -/
def filterIter (cs : List (Cond α)) (rorps : List (List α × File)) : Option (List (List α)) := filterFrom ⟨cs, none, [], []⟩ rorps

/-- the paths of a directory in index order, as the metadata file lists them -/
def listing (d : List α) : Forest α → List (List α × File)
  | .nil => []
  | .cons n f ch rest => (d ++ [n], f) :: (if f.isdir then listing (d ++ [n]) ch else []) ++ listing d rest

/-- the records of a whole tree in order: root first (the metadata of a mirror) -/
def metadata (root : File) (content : Forest α) : List (List α × File) := ([], root) :: (if root.isdir then listing [] content else [])

end Verif.Selection
