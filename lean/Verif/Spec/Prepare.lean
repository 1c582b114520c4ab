import Verif.Model.Prepare
/-
What preparing an action must not lose (C69).
-/
namespace Verif.Prepare
open Verif.Quoting Verif.FlatFile

/-- There is something at a path. -/
def There (fs : FS) (p : Path) : Prop := look fs p ≠ none

/-- In the data directory there is a file whose name begins like this, or two of them. -/
def HasOne (fs : FS) (r : Path) (s : Bytes) : Prop := ∃ n, s <+: n ∧ There fs (dataDir r ++ [n])
def HasTwo (fs : FS) (r : Path) (s : Bytes) : Prop := ∃ n m, n ≠ m ∧ s <+: n ∧ s <+: m ∧ There fs (dataDir r ++ [n]) ∧ There fs (dataDir r ++ [m])

/-- The repository has had a backup which was completed: a `current_mirror` marker, several metadata files, or several error logs. -/
def Completed (fs : FS) (r : Path) : Prop := HasOne fs r (lit "current_mirror") ∨ HasTwo fs r (lit "error_log") ∨ HasTwo fs r (lit "mirror_metadata")

/-- the repository to which an action writes -/
def Action.writes : Action → Option Path
  | .backup _ r => some r
  | .regress r => some r
  | .remove r => some r
  | _ => none

/-- the location which an action may make -/
def Action.makes : Action → Option Path
  | .backup _ r => some r
  | .regress r => some r
  | .remove r => some r
  | .restore _ t => some t
  | _ => none

/-- everything is in directories -/
def Closed (fs : FS) : Prop := ∀ p n, There fs (p ++ [n]) → look fs p = some .dir

/-- the directory has no entries -/
def EmptyDir (fs : FS) (p : Path) : Prop := look fs p = some .dir ∧ ∀ n, ¬ There fs (p ++ [n])

/-- nothing in the environment hinders -/
structure Permits (e : Env) : Prop where
  mkdir : ∀ p, e.mayMkdir p = true
  goes : ∀ p, e.stays p = false
  past : ∀ fs, e.notPast fs = false
  free : e.locked = false
  rest : e.rest = true

/-- no path is listed twice -/
def Unique (fs : FS) : Prop := (fs.map (·.1)).Nodup

end Verif.Prepare
