import Verif.Model.Compress
/-
The files in `rdiff-backup-data`, written compressed or not, and how they are found again by their names: `src/rdiff_backup/rpath.py`
1090-1103, 1359-1418 (`MaybeGzip`), `src/rdiffbackup/meta/__init__.py` 157-296 (`FlatFile`), `src/rdiffbackup/meta_mgr.py` 116-148
(`recreate_attr`), 165-208, `src/rdiffbackup/locations/_repo_shadow.py` 240-253, 1187-1199, 1341-1398, 1618-1631.

Simplifications: writing into a gzip file is packing all that was written; `fsync` is left out (C78, C79).
-/
namespace Verif.MetaWrite
open Verif.IncName Verif.Compress

/-- the files of the directory: the first entry of a name counts -/
abbrev Dir := List (Name × Bytes)

def get (d : Dir) (n : Name) : Option Bytes := (d.find? fun x => x.1 = n).map Prod.snd
def put (d : Dir) (n : Name) (b : Bytes) : Dir := (n, b) :: d.filter fun x => !(x.1 = n : Bool)
def del (d : Dir) (n : Name) : Dir := d.filter fun x => !(x.1 = n : Bool)

/-- an open file for writing: `maybe` a `MaybeGzip`, whose file isn't there before there are data, or a file, and what was written -/
inductive Out
  | maybe (base : Name)
  | file (name : Name) (compress : Bool) (written : Bytes)

/-- rpath.py 1412-1418 `_get_gzipped_rp` -/
def gzipped (n : Name) : Name := n ++ ".gz".toList

/-- rpath.py 1386-1399 `MaybeGzip.write`, or of a file -/
def Out.write (b : Bytes) : Out → Out
  | .maybe n => if b.isEmpty then .maybe n else .file (gzipped n) true b
  | .file n c w => .file n c (w ++ b)

/-- rpath.py 1401-1410 `MaybeGzip.close`, or of a file: the file, and its name -/
def Out.close (C : Codec) (d : Dir) : Out → Dir × Name
  | .maybe n => (put d n [], n)
  | .file n c w => (put d n (encode C c w), n)

/-- rpath.py 1369-1379 `MaybeGzip.__init__`: fails if the file exists -/
def openMaybe (d : Dir) (n : Name) : Option Out := if get d n = none then some (.maybe n) else none

/-- meta/__init__.py 219-262 `FlatFile.__init__` for writing. The name must be one of an increment (230-234, with `check_path`); what it is an increment of is
left out. -/
def openWrite (d : Dir) (n : Name) (checkPath compress : Bool) : Option Out :=
  if checkPath && (parseIncName n).isNone then none
  else if compress && checkPath && !((parseIncName n).any (·.compressed)) then openMaybe d n
  else if get d n = none then some (.file n compress []) else none

/-- meta/__init__.py 264-296 `write_object`, `close`: records are collected, and written together when there are `max` (170: 100) -/
def writeRecords (max : Nat) : List Bytes → List Bytes → Out → Out
  | buf, [], o => if buf.isEmpty then o else o.write buf.flatten
  | buf, r :: rs, o =>
    if max ≤ (buf ++ [r]).length then writeRecords max [] rs (o.write (buf ++ [r]).flatten) else writeRecords max (buf ++ [r]) rs o

/-- write a file, and close it: what is then in the directory, and under which name (that is given to `callback`) -/
def writeFile (C : Codec) (max : Nat) (d : Dir) (n : Name) (checkPath compress : Bool) (records : List Bytes) : Option (Dir × Name) :=
  (openWrite d n checkPath compress).map fun o => (writeRecords max [] records o).close C d

/-- meta/__init__.py 235-241; _repo_shadow.py 1194, 1349: open a file for reading, compressed if its name says so, and read all -/
def readFile (C : Codec) (d : Dir) (n : Name) : Option Bytes :=
  match parseIncName n, get d n with
  | some i, some b => decode C i.compressed b
  | _, _ => none

/-- meta_mgr.py 184-208 `_writer_helper`: the name of a metadata file without .gz; it mustn't exist -/
def writeMeta (C : Codec) (max : Nat) (compat : Bool) (off : Int) (compression : Bool) (d : Dir) (pre : Name) (t : Int) (ty : IncType) (records : List Bytes) : Option (Dir × Name) :=
  if get d (incName compat off pre t ty false) = none then writeFile C max d (incName compat off pre t ty false) true compression records else none

/-- rpath.py 1642-1698 `rename` of a file that exists -/
def mv (d : Dir) (m n : Name) : Dir :=
  match get d m with
  | none => d
  | some b => if m = n then d else put (del d m) n b

/-- meta_mgr.py 116-148 `recreate_attr`: written to a temporary file `tmp`, compressed if compression is on; then renamed to mirror_metadata.….snapshot.gz -/
def recreate (C : Codec) (max : Nat) (compat : Bool) (off : Int) (compression : Bool) (d : Dir) (tmp pre : Name) (t : Int) (records : List Bytes) : Option (Dir × Name) :=
  match writeFile C max d tmp false compression records with
  | none => none
  | some (d, m) =>
    if get d (incName compat off pre t .snapshot true) = none then some (mv d m (incName compat off pre t .snapshot true), incName compat off pre t .snapshot true) else none

/-- _repo_shadow.py 1618-1631 `_open_stats_file`, and what is written to it -/
def writeStats (C : Codec) (compat : Bool) (off : Int) (compression : Bool) (d : Dir) (pre : Name) (t : Int) (lines : List Bytes) : Option (Dir × Name) :=
  if get d (incName compat off pre t .data compression) = none then
    some ((lines.foldl (fun o l => o.write l) (Out.file (incName compat off pre t .data compression) compression [])).close C d)
  else none

/-- _repo_shadow.py 1341-1398 `_remove_from_metadata`: read, and written to a temporary file with the same compression, which takes the place of the old one if
something was removed; `f`: what is left of the text, if anything is to be removed -/
def rewrite (C : Codec) (d : Dir) (n tmp : Name) (f : Bytes → Option Bytes) : Option Dir :=
  match parseIncName n, readFile C d n with
  | some i, some b =>
    match f b with
    | none => some d
    | some b' => some (mv (put d tmp (encode C i.compressed b')) tmp n)
  | _, _ => none

end Verif.MetaWrite
