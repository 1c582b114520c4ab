import Verif.Model.Security
/-
The warning of a repository within the source: `src/rdiffbackup/actions/backup.py` 157-177, with the paths as they come from the command line:
`src/rdiff_backup/SetConnections.py` 106-118 (`normalize`: Model/Security.lean). What is found at these paths (symbolic links) doesn't matter to it.
-/
namespace Verif.Inside
open Verif.Quoting Verif.Security

/-- backup.py 157-177 `_warn_if_infinite_recursion`: the code is a warning -/
def warns (sameConn : Bool) (rpin rpout : Bytes) : Bool :=
  if !sameConn then false
  else if rpout.length ≤ rpin.length + 1 then false
  else if rpout.take (rpin.length + 1) ≠ rpin ++ [47] then false
  else true

/-- backup.py 101-103, of the paths `source` and `repo` of the command line -/
def backupWarns (sameConn : Bool) (source repo : Bytes) : Bool := warns sameConn (normalize source) (normalize repo)

end Verif.Inside
