/-
The exit status: `src/rdiffbackup/run.py` 38-157, `actions/*.py` (`pre_check`, `connect`, `check`, `setup`, `run` of the actions), `locations/location.py` 84-115, `_dir_shadow.py` 313-344, `repository.py` 70-109,
`_repo_shadow.py` (RS) 1206-1246, 1291-1330, 1520-1590, `rdiff_backup/SetConnections.py` 148-178, `singletons/consts.py` 28-36, `arguments.py` 37-52.

Simplifications: What the steps find and whether they succeed is in `World`, a record of answers; the steps themselves are the subject of the other models. Exceptions which aren't caught, and `FatalError` (log.py 174-179), end the
program with status 1. The messages aren't modelled.
-/
namespace Verif.ExitStatus

/-- consts.py 28-36: the codes are powers of two, combined by `|`: a set of four bits -/
structure Code where
  err : Bool := false
  warn : Bool := false
  fileErr : Bool := false
  fileWarn : Bool := false
  deriving DecidableEq

def OK : Code := {}
def ERR : Code := { err := true }
def WARN : Code := { warn := true }
def FILE_ERR : Code := { fileErr := true }
def FILE_WARN : Code := { fileWarn := true }

/-- `a | b` -/
def Code.or (a b : Code) : Code := ⟨a.err || b.err, a.warn || b.warn, a.fileErr || b.fileErr, a.fileWarn || b.fileWarn⟩

/-- the number -/
def Code.status (c : Code) : Nat := c.err.toNat + 2 * c.warn.toNat + 4 * c.fileErr.toNat + 8 * c.fileWarn.toNat

/-- what a step ends with: a code, or an exception -/
inductive Out where
  | code (c : Code)
  | raised
  deriving DecidableEq

/-- RS 1227-1242: the result of `_get_removal_time` -/
inductive Removal where
  | unparsed  -- or too many increments without `--force`
  | none
  | some
  deriving DecidableEq

/-- RS 1146-1164: the result of `get_statistics` -/
inductive Stats where
  | wrong
  | empty
  | found
  deriving DecidableEq

/-- the actions -/
inductive Action where
  | backup
  | restore
  | regress (force : Bool)
  | removeIncrements
  | removeFile
  | verify
  | compare
  | listIncrements
  | listFiles
  | calculateStatistics
  | calculateAverage
  | test
  deriving DecidableEq

/-- what is found in the world -/
structure World where
  /-- the arguments, the verbosities, and the checks of values before connecting -/
  args : Bool
  verbosity : Bool
  preCheck : Bool
  /-- which locations could be connected -/
  connected : List Bool
  /-- the source or target directory, and the repository, are as they must be -/
  dirOk : Bool
  repoOk : Bool
  /-- the target of a restore has files, but `--force` is given -/
  targetForced : Bool
  /-- the other checks of options -/
  options : Bool
  /-- the preparations succeed -/
  dirSetup : Bool
  repoSetup : Bool
  /-- the repository seems to be in the source -/
  inside : Bool
  /-- the time given could be parsed -/
  time : Bool
  /-- RS 1637-1689 `needs_regress`; `none`: `FatalError` -/
  needsRegress : Option Bool
  /-- RS 1691-1727, `force_regress` -/
  regressWorks : Bool
  canForce : Bool
  /-- actions/backup.py 118-126: the last backup is in the past -/
  past : Bool
  /-- the operation itself comes to its end -/
  works : Bool
  /-- the files which failed in a backup, a restore or a regress (error_log, session statistics) -/
  fileErrors : Nat
  removal : Removal
  /-- a file was found to be removed -/
  removed : Bool
  /-- the regular files of a verification: without digest, or with one which matches or doesn't -/
  digests : List (Option Bool)
  /-- the reported differences of a comparison -/
  reports : List Bool
  statistics : Stats
  /-- SetConnections.py 156-178: the number of connections, the results of the tests -/
  connections : Nat
  answers : List Bool

/-- what has been done -/
inductive Event where
  | check
  | setup
  | run
  | regressed
  | backedUp
  | restored
  | removed
  | verified
  | compared
  | listed
  | calculated
  | tested
  deriving DecidableEq

/-- a code for something which is right or an error -/
def good (b : Bool) : Code := if b then OK else ERR

/-! ### the steps of the actions -/

/-- `check` of the actions: location.py 84-99, DS 314-335, actions/backup.py 72-82, restore.py 79-146, regress.py 66-75, remove.py 87-130, compare.py 80-90, list_.py 95-104, verify.py 70-79, calculate.py (none), test.py 69-85 -/
def check (w : World) : Action → Code
  | .backup => (good w.dirOk).or (good w.repoOk)
  | .restore => ((good w.repoOk).or ((good w.dirOk).or (if w.targetForced then WARN else OK))).or (good w.options)
  | .regress _ => good w.repoOk
  | .removeIncrements => (good w.repoOk).or (good w.options)
  | .removeFile => (good w.repoOk).or (good w.options)
  | .verify => good w.repoOk
  | .compare => (good w.dirOk).or (good w.repoOk)
  | .listIncrements => good w.repoOk
  | .listFiles => good w.repoOk
  | .calculateStatistics => OK
  | .calculateAverage => OK
  | .test => if w.connected.all id then OK else if w.connected.any id then WARN else ERR

/-- `setup` of the actions: actions/backup.py 84-105, restore.py 148-185, regress.py 77-88, remove.py 132-143, compare.py 92-113, list_.py 106-124, verify.py 81-96 -/
def setup (w : World) : Action → Code
  | .backup => if !w.dirSetup then ERR else if !w.repoSetup then ERR else if w.inside then WARN else OK
  | .restore => if !w.repoSetup then ERR else if !w.dirSetup then ERR else if !w.time then ERR else OK
  | .regress _ => good w.repoSetup
  | .removeIncrements => good w.repoSetup
  | .removeFile => good w.repoSetup
  | .verify => if !w.repoSetup then ERR else if !w.time then ERR else OK
  | .compare => if !w.dirSetup then ERR else if !w.repoSetup then ERR else OK  -- 108-110: `ret_code & ERR` if the time could not be parsed
  | .listIncrements => good w.repoSetup
  | .listFiles => if !w.repoSetup then ERR else if !w.time then ERR else OK
  | .calculateStatistics => OK
  | .calculateAverage => OK
  | .test => OK

/-- actions/__init__.py 657-693 `_operate_regress` -/
def operateRegress (w : World) (tryRegress force : Bool) : List Event × Out :=
  match w.needsRegress with
  | none => ([], .raised)
  | some true =>
    if !tryRegress then ([], .code ERR)
    else if w.regressWorks then ([.regressed], .code (OK.or WARN)) else ([], .raised)
  | some false =>
    if force then
      if w.canForce then (if w.regressWorks then ([.regressed], .code OK) else ([], .raised))
      else ([], .code WARN)
    else ([], .code OK)

/-- RS 1537-1565: one file of `verify` -/
def verifyStep (c : Code) (d : Option Bool) : Code :=
  match d with
  | none => c.or FILE_WARN
  | some true => c
  | some false => c.or FILE_ERR

/-- RS 1536-1590 `verify` -/
def verifyCode (l : List (Option Bool)) : Code := l.foldl verifyStep OK

/-- actions/compare.py 155-198 `_print_reports` -/
def compareCode (l : List Bool) : Code := if l.length = 0 then OK else FILE_WARN

/-- SetConnections.py 148-178 `test_connections` -/
def testCode (w : World) : Code :=
  if w.connections = 1 then FILE_ERR
  else if w.connections ≠ w.connected.length + 1 then FILE_ERR
  else if w.answers.all id then OK
  else ERR

/-- `run` of the actions: actions/backup.py 107-152, restore.py 187-236, regress.py 90-100, remove.py 145-158, compare.py 115-129, list_.py 126-215, verify.py 98-105, calculate.py 115-168, test.py 87-92 -/
def run (w : World) : Action → List Event × Out
  | .backup =>
    match operateRegress w true false with
    | (l, .raised) => (l, .raised)
    | (l, .code c) =>
      if c.err then (l, .code c)
      else if !w.past then (l, .code (c.or ERR))
      else if w.works then (l ++ [.backedUp], .code (c.or OK)) else (l, .raised)
  | .restore =>
    match operateRegress w false false with
    | (l, .raised) => (l, .raised)
    | (l, .code c) =>
      if c.err then (l, .code c)
      else if w.works then (l ++ [.restored], .code (c.or OK)) else (l, .code (c.or ERR))
  | .regress force => operateRegress w true force
  | .removeIncrements =>
    match w.removal with
    | .unparsed => ([], .code ERR)
    | .none => ([], .code WARN)
    | .some => if w.works then ([.removed], .code OK) else ([], .raised)
  | .removeFile => if !w.works then ([], .raised) else if w.removed then ([.removed], .code OK) else ([], .code WARN)
  | .verify => if w.works then ([.verified], .code (OK.or (verifyCode w.digests))) else ([], .raised)
  | .compare => if w.time && w.works then ([.compared], .code (OK.or (compareCode w.reports))) else ([], .raised)  -- RS 940: comparing a time with `None`
  | .listIncrements => if w.works then ([.listed], .code OK) else ([], .raised)
  | .listFiles => if w.works then ([.listed], .code OK) else ([], .raised)
  | .calculateStatistics =>
    if !w.works then ([], .raised)
    else match w.statistics with
      | .wrong => ([], .code ERR)
      | .empty => ([], .code WARN)
      | .found => ([.calculated], .code OK)
  | .calculateAverage => if w.works then ([.calculated], .code OK) else ([], .raised)
  | .test => if (testCode w).fileErr then ([], .code (testCode w)) else ([.tested], .code (testCode w))

/-- run.py 38-157 `main_run`, with what has been done -/
def mainRun (w : World) (a : Action) : List Event × Out :=
  if !w.args then ([], .code ERR)
  else if !w.verbosity then ([], .code ERR)
  else if !w.preCheck then ([], .code ERR)
  else if !w.connected.all id then ([], .code ERR)
  else
    let c := check w a
    if c.err then ([.check], .code c)
    else
      let c := c.or (setup w a)
      if c.err then ([.check, .setup], .code c)
      else match run w a with
        | (l, .raised) => (.check :: .setup :: .run :: l, .raised)
        | (l, .code c') => (.check :: .setup :: .run :: l, .code (c.or c'))

/-- run.py 29-35 `main`: the code of the program's end -/
def exitCode (w : World) (a : Action) : Code :=
  match (mainRun w a).2 with
  | .code c => c
  | .raised => ERR

end Verif.ExitStatus
