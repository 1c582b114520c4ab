import Verif.Model.ExitStatus
/-
What the exit status must tell (C70).
-/
namespace Verif.ExitStatus

/-- an action has done what it is for -/
def deed : Action → Event
  | .backup => .backedUp
  | .restore => .restored
  | .regress _ => .regressed
  | .removeIncrements => .removed
  | .removeFile => .removed
  | .verify => .verified
  | .compare => .compared
  | .listIncrements => .listed
  | .listFiles => .listed
  | .calculateStatistics => .calculated
  | .calculateAverage => .calculated
  | .test => .tested

def Done (w : World) (a : Action) : Prop := deed a ∈ (mainRun w a).1

/-- the events which change a repository or a directory, or report about it -/
def Event.acts : Event → Prop
  | .check => False
  | .setup => False
  | .run => False
  | _ => True

/-- the actions which use a directory besides the repository, those which check options, those which need a time from the beginning -/
def Action.usesDir : Action → Prop
  | .backup | .restore | .compare => True
  | _ => False
def Action.hasOptions : Action → Prop
  | .restore | .removeIncrements | .removeFile => True
  | _ => False
def Action.needsTime : Action → Prop
  | .restore | .verify | .compare | .listFiles => True
  | _ => False
/-- the actions which use a repository and look at it before -/
def Action.usesRepo : Action → Prop
  | .calculateStatistics | .calculateAverage | .test => False
  | _ => True

/-- all conditions for the start of an action are met -/
structure Ready (w : World) (a : Action) : Prop where
  args : w.args = true
  verbosity : w.verbosity = true
  values : w.preCheck = true
  connected : ∀ c ∈ w.connected, c = true
  repo : a.usesRepo → w.repoOk = true ∧ w.repoSetup = true
  dir : a.usesDir → w.dirOk = true ∧ w.dirSetup = true
  options : a.hasOptions → w.options = true
  time : a.needsTime → w.time = true

end Verif.ExitStatus
