import Verif.Model.Selection
import Verif.Model.Glob
import Verif.Proof.MetaFile
/-
From the selection options to the conditions: `src/rdiff_backup/selection.py` 100-109, 150-239, 300-309, 322-498, 644-680; `src/rdiffbackup/utils/argopts.py` 107-140 (the options are
kept in their order, with the contents of the files named by them).

Left out: messages; `int()` and `re.compile` are given (`Env`). Any error ends the program.
-/
namespace Verif.SelParse
open Verif.Quoting Verif.Selection Verif.MetaRecord

/-- 108, 304: the components of a path, `x for x in path.split(b"/") if x` -/
def comps (p : Bytes) : List Bytes := (splitOn 47 p).filter (· ≠ [])

/-- 300-309 `_get_relative_index`; `none`: FilePrefixError -/
def relIndex (base p : Bytes) : Option (List Bytes) :=
  if (comps p).take (comps base).length = comps base then some ((comps p).drop (comps base).length) else none

/-- 90, 658: `glob_re` -/
def isGlob (g : Bytes) : Bool := g.any (fun c => c = 42 || c = 63 || c = 91 || c = 92) || (g.take 11).map Glob.lower = Glob.ignorecase

/-- how parsing the options fails -/
inductive Err where
  /-- 322-338: a path or pattern which can't match anything below the base directory, or one which isn't right -/
  | spec
  /-- 340-346: the last condition includes only -/
  | lastIncludes
  /-- 624-629 -/
  | size
  /-- 529-534 -/
  | regexp
deriving DecidableEq, Repr

/-- 644-668 `_glob_get_sf`, 670-680 `_glob_get_filename_sf` -/
def globSf (base g : Bytes) (incl : Bool) : Except Err (Cond Bytes) :=
  if g = [42, 42] then .ok (.all incl)
  else if isGlob g then
    match Glob.normalSf base g with
    | some (gl, sc) => .ok (.glob (fun i => gl (Glob.path base i)) (fun i => sc (Glob.path base i)) incl)
    | none => .error .spec
  else match relIndex base g with
    | some i => .ok (.tuple i incl)
    | none => .error .spec

/-- `line.rstrip(b"\r")` -/
def rstripCr (l : Bytes) : Bytes := (l.reverse.dropWhile (· = 13)).reverse

/-- 408-412, 487-492: the lines of a list -/
def lines (sep : UInt8) (content : Bytes) : List Bytes := ((splitOn sep content).map rstripCr).filter (· ≠ [])

/-- 433-438, 493-498: the sign at the beginning of a line -/
def signOf (incl : Bool) : Bytes → Bool × Bytes
  | 43 :: 32 :: r => (true, r)
  | 45 :: 32 :: r => (false, r)
  | l => (incl, l)

/-- 424-441 `_filelist_parse_line`; `none`: FilePrefixError -/
def parseLine (base : Bytes) (incl : Bool) (line : Bytes) : Option (List Bytes × Bool) :=
  (relIndex base (signOf incl line).2).map fun i => (i, (signOf incl line).1)

/-- 390-422 `_filelist_read`: lines with other paths are ignored -/
def readList (base : Bytes) (sep : UInt8) (incl : Bool) (content : Bytes) : List (List Bytes × Bool) := (lines sep content).filterMap (parseLine base incl)

/-- the selection options -/
inductive Opt where
  | special (incl : Bool)
  | symlinks (incl : Bool)
  | devices
  | sockets
  | fifos
  | otherFs
  | glob (g : Bytes) (incl : Bool)
  | regexp (r : Bytes) (incl : Bool)
  | presence (f : Bytes) (incl : Bool)
  | size (text : Bytes) (max : Bool)
  | filelist (content : Bytes) (incl : Bool)
  | globlist (content : Bytes) (incl : Bool)
deriving DecidableEq

/-- what else is needed: the base directory and its device, the separator (`--null-separator`), Python's `int` and regular expressions, and which directories have a file
of a given name -/
structure Env where
  base : Bytes
  device : Nat
  sep : UInt8
  int : Bytes → Option Int
  re : Bytes → Option (Bytes → Bool)
  here : Bytes → List Bytes → Bool
  parent : Bytes → List Bytes → Bool

/-- 160-189: the conditions of one option (202-238 `_init_parsing_mapping`) -/
def condsOf (e : Env) : Opt → Except Err (List (Cond Bytes))
  | .special i => .ok [.special i]
  | .symlinks i => .ok [.kind .sym i]
  | .devices => .ok [.kind .dev false]
  | .sockets => .ok [.kind .sock false]
  | .fifos => .ok [.kind .fifo false]
  | .otherFs => .ok [.otherFs e.device false]
  | .glob g i => (globSf e.base g i).map fun c => [c]
  | .regexp r i =>
      match e.re r with
      | none => .error .regexp
      | some p => .ok [.regexp (fun ix => p (Glob.path e.base ix)) i]
  | .presence f i => .ok [.presence (e.here f) (e.parent f) i]
  | .size t m =>
      match e.int t with
      | none => .error .size
      | some n => if n ≤ 0 then .error .size else .ok [.size n.toNat m]
  | .filelist c i => .ok [mkFilelist (readList e.base e.sep i c) i]
  | .globlist c i => (lines e.sep c).mapM fun l => globSf e.base (signOf i l).2 (signOf i l).1

/-- 160-189: all options -/
def allConds (e : Env) : List Opt → Except Err (List (Cond Bytes))
  | [] => .ok []
  | o :: os =>
      match condsOf e o with
      | .error x => .error x
      | .ok cs =>
          match allConds e os with
          | .error x => .error x
          | .ok ds => .ok (cs ++ ds)

/-- `rdiff-backup-data` -/
def dataDir : Bytes := [114, 100, 105, 102, 102, 45, 98, 97, 99, 107, 117, 112, 45, 100, 97, 116, 97]

/-- 150-200 `parse_selection_args` -/
def parseArgs (e : Env) (opts : List Opt) : Except Err (List (Cond Bytes)) :=
  match allConds e opts with
  | .error x => .error x
  | .ok cs =>
      if cs.getLast?.any (fun c => !c.exclude) then .error .lastIncludes
      else .ok (withRbdir dataDir cs)

end Verif.SelParse
