import Verif.Model.MetaRecord
import Verif.Model.AclQuote
/-
Model of what `rdiff-backup remove file` does with the text of a metadata file: `_repo_shadow.py` (RS) 1333-1397
`_remove_from_metadata`, with the table 1252-1288 `META_FILES`.

Simplifications: compression of the files and the temporary file (which replaces the old file at the end, 1390-1395) are left out: the
result is the new content. The long names found (1358-1384) are returned; what is stored under them is deleted by the caller.
-/
namespace Verif.RemoveLines
open Verif Verif.Quoting Verif.FlatFile Verif.MetaRecord

/-- the lines which successive calls of `readline` return, with their newlines -/
def toLines : Bytes → List Bytes
  | [] => []
  | c :: r =>
    if c = nl then [c] :: toLines r
    else
      match toLines r with
      | [] => [[c]]
      | x :: xs => (c :: x) :: xs

/-- RS 1252-1288: the kinds of metadata files; access control lists and extended attributes are alike -/
inductive Kind
  | fileStatistics | mirrorMetadata | attributes
  deriving DecidableEq

/-- RS 1254, 1261, 1268, 1275, 1282: `start_marker` -/
def Kind.marker : Kind → Bytes
  | .fileStatistics => []
  | .mirrorMetadata => lit "File "
  | .attributes => lit "# file: "

/-- RS 1255, 1262, 1269, 1276, 1283: `quote_fn` -/
def Kind.quote : Kind → Bytes → Bytes
  | .attributes => AclQuote.quote
  | _ => quotePath

/-- RS 1256, 1263, 1270, 1277, 1284: `unquote_fn` -/
def Kind.unquote : Kind → Bytes → Bytes
  | .attributes => AclQuote.unquote
  | _ => unquotePath

/-- RS 1257-1287: `matches(qpath, line)` -/
def Kind.hit (k : Kind) (qpath l : Bytes) : Bool :=
  match k with
  | .fileStatistics => (qpath ++ [32]).isPrefixOf l || (qpath ++ [47]).isPrefixOf l
  | k => l == k.marker ++ qpath ++ [nl] || (k.marker ++ qpath ++ [47]).isPrefixOf l

/-- RS 1359-1361: whether the line holds a long name -/
def isAlt (l : Bytes) : Bool := (lit "  AlternateIncrementName ").isPrefixOf l || (lit "  AlternateMirrorName ").isPrefixOf l

/-- RS 1362: `line.strip(b"\n").rsplit(b" ", 1)[1]` (the line starts with blanks and ends with at most one newline) -/
def lastWord (l : Bytes) : Bytes := ((l.reverse.dropWhile (· == nl)).takeWhile (· != 32)).reverse

/-- the new content, the long names met, and `anything_removed` -/
structure Result where
  out : Bytes
  alts : List Bytes
  removed : Bool
  deriving DecidableEq

/-- RS 1351-1388: the two loops; `skipping`: in the inner one (1356-1386) -/
def loop (k : Kind) (qpath : Bytes) : Bool → List Bytes → Result
  | _, [] => ⟨[], [], false⟩
  | skipping, l :: ls =>
    if skipping && !(k.marker.isPrefixOf l) then
      let r := loop k qpath true ls
      if isAlt l then { r with alts := k.unquote (lastWord l) :: r.alts } else r
    else if k.marker.isPrefixOf l && k.hit qpath l then { loop k qpath true ls with removed := true }
    else { loop k qpath false ls with out := l ++ (loop k qpath false ls).out }

/-- RS 1333-1397 `_remove_from_metadata` without `--dry-run`; `path`: the components of the path to be removed -/
def removeText (k : Kind) (path : List Bytes) (content : Bytes) : Result :=
  let r := loop k (k.quote (indexPath path)) false (toLines content)
  if r.removed then r else { r with out := content }

end Verif.RemoveLines
