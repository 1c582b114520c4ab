/-
Messages, where they are written: `src/rdiffbackup/singletons/log.py` 39-396, with `src/rdiffbackup/locations/repository.py` 84-119
(`Repo.setup`, `exit`) and `src/rdiffbackup/locations/_repo_shadow.py` 221-260, 1591-1606 (opening and closing the log files).

All processes of a session (sites) are numbered. Simplifications: texts are lists of characters (`to_safe_bytes` is left out); what
`textwrap.fill` does to a line is a parameter, and so is the time stamp of verbosity 9, for each site; calls between the sites succeed;
the verbosities don't change after the connections have been made (SetConnections.py 512).
-/
namespace Verif.Logging

abbrev Text := List Char

/-- log.py 40-46 -/
def NONE : Nat := 0
def ERROR : Nat := 1
def WARNING : Nat := 2
def NOTE : Nat := 3
def INFO : Nat := 5
def DEBUG : Nat := 8

/-- log.py 49-56; the prefixes of other verbosities, which no message has, would fail -/
def pre (v : Nat) : Text :=
  if v = ERROR then "ERROR:".toList else if v = WARNING then "WARNING:".toList else if v = NOTE then "NOTE:".toList
  else if v = INFO then "*".toList else if v = DEBUG then "DEBUG:".toList else []

/-- `{pre:<9}` -/
def pad9 (t : Text) : Text := t ++ List.replicate (9 - t.length) ' '

/-- log.py 287-318 `_format`; `stamp`: time, role and process -/
def format (stamp : Text) (verbosity v : Nat) (m : Text) : Text :=
  if verbosity ≤ DEBUG then
    if v = NONE ∨ (v = INFO ∧ '\n' ∈ m.dropLast) then m ++ ['\n'] else pad9 (pre v) ++ m ++ ['\n']
  else stamp ++ "  ".toList ++ pre v ++ [' '] ++ m ++ ['\n']

/-- a process; `logOpen`, `errOpen`: whether the log files are open, anywhere; `isWriter`: `specifics.is_backup_writer`; `writer`: `generics.backup_writer` -/
structure Site where
  server : Bool
  fileVerbosity : Nat
  termVerbosity : Nat
  parsable : Bool
  stamp : Text
  isWriter : Bool
  writer : Option Nat
  logOpen : Bool
  errOpen : Bool

/-- all processes, the files at each, and what has been written to standard output and standard error; `fill`: textwrap.fill -/
structure World where
  site : Nat → Site
  logFile : Nat → Text
  errFile : Nat → Text
  out : Nat → Text
  err : Nat → Text
  nullSeparator : Bool
  fill : Text → Text

def upd {A : Type} (f : Nat → A) (n : Nat) (a : A) : Nat → A := fun m => if m = n then a else f m

/-- log.py 121-146 `log_to_term`: what is written -/
def termText (fill : Text → Text) (s : Site) (v : Nat) (m : Text) : Text :=
  let t := format s.stamp s.termVerbosity v m
  if v ≠ NONE ∧ s.parsable = false ∧ s.termVerbosity < DEBUG ∧ '\n' ∉ t.dropLast then fill t ++ ['\n'] else t

/-- log.py 114-146 `log_to_term` -/
def logToTerm (W : World) (s v : Nat) (m : Text) : World :=
  let t := termText W.fill (W.site s) v m
  if v = ERROR ∨ v = WARNING ∨ (W.site s).server then { W with err := upd W.err s (W.err s ++ t) } else { W with out := upd W.out s (W.out s ++ t) }

/-- log.py 107-112 `log_to_file`, at the site `w` -/
def logToFile (W : World) (w v : Nat) (m : Text) : World :=
  { W with logFile := upd W.logFile w (W.logFile w ++ format (W.site w).stamp (W.site w).fileVerbosity v m) }

/-- log.py 89-105 `Logger.__call__` -/
def log (W : World) (s v : Nat) (m : Text) : World :=
  let S := W.site s
  if S.fileVerbosity < v ∧ S.termVerbosity < v then W
  else
    let W :=
      if v ≤ S.fileVerbosity ∧ S.logOpen then
        if S.isWriter then logToFile W s v m
        else match S.writer with | some w => logToFile W w v m | none => W
      else W
    if v ≤ S.termVerbosity then logToTerm W s v m else W

/-- log.py 42-44 -/
inductive LogType
  | normal | local_ | noFile
  deriving DecidableEq

/-- log.py 183-211 `exception` -/
def exception (W : World) (s : Nat) (ty : LogType) (v : Nat) (m : Text) : World :=
  let S := W.site s
  let m := if S.parsable then m.flatMap fun c => if c = '\n' then " | ".toList else [c] else m
  if ty = .normal ∨ (ty = .local_ ∧ S.logOpen) then log W s v m
  else if S.termVerbosity ≤ v then W else logToTerm W s v m

/-- log.py 401-412 `ErrorLogger.log_to_file`, at the site `w`. A newline in the text becomes a blank. -/
def errToFile (W : World) (w : Nat) (t : Text) : World :=
  let W := log W w WARNING t
  let line := if W.nullSeparator then t ++ ['\x00'] else t.map (fun c => if c = '\n' then ' ' else c) ++ ['\n']
  { W with errFile := upd W.errFile w (W.errFile w ++ line) }

/-- log.py 359-367 `ErrorLogger.__call__`; `t`: kind, path and exception (398-402) -/
def error (W : World) (s : Nat) (t : Text) : World :=
  let S := W.site s
  if S.errOpen then
    if S.isWriter then errToFile W s t
    else match S.writer with | some w => errToFile W w t | none => W
  else log W s WARNING t

/-- log.py 245-265 `open_logfile`, `open_logfile_local`; 267-278 `close_logfile`: all sites are told -/
def setLogOpen (W : World) (b : Bool) : World := { W with site := fun n => { W.site n with logOpen := b } }
/-- log.py 369-387 and 389-396: the same for the error log -/
def setErrOpen (W : World) (b : Bool) : World := { W with site := fun n => { W.site n with errOpen := b } }

/-- repository.py 84-108 `setup`, _repo_shadow.py 233-253 `_setup_logging`, when there is a source to be backed up: all sites are told who writes, then the files are
opened at `w` -/
def startBackup (W : World) (w : Nat) : World :=
  let W := { W with site := fun n => { W.site n with writer := some w, isWriter := if n = w then true else (W.site n).isWriter } }
  let W := if (W.site w).fileVerbosity > 0 then setLogOpen W true else W
  setErrOpen W true

/-- the same for an action which writes only into a repository (regress, remove): nobody is told who writes, and there is no error log -/
def startSingle (W : World) (w : Nat) : World :=
  if (W.site w).fileVerbosity > 0 then setLogOpen W true else W

/-- repository.py 110-119 `exit`, _repo_shadow.py 255-260 -/
def finish (W : World) (w : Nat) : World :=
  let W := { W with site := fun n => { W.site n with writer := none, isWriter := if n = w then false else (W.site n).isWriter } }
  setLogOpen (setErrOpen W false) false

/-- something is to be told: by `log.Log`, `log.ErrorLog`, `log.Log.exception` -/
inductive Event
  | log (s v : Nat) (m : Text)
  | error (s : Nat) (t : Text)
  | exception (s : Nat) (ty : LogType) (v : Nat) (m : Text)

def step (W : World) : Event → World
  | .log s v m => log W s v m
  | .error s t => error W s t
  | .exception s ty v m => exception W s ty v m

def runs (W : World) (es : List Event) : World := es.foldl step W

/-! ## The verbosities -/

/-- log.py 34: a number or a text -/
inductive Input
  | number (i : Int)
  | text (t : Text)

/-- how `"{vb}".format` shows it -/
def Input.show : Input → Text
  | .number i => (toString i).toList
  | .text t => t

/-- log.py 319-345 `validate_verbosity`; `int`: Python's function, for texts; `none`: ValueError -/
def validateVerbosity (int : Text → Option Int) (W : World) (s : Nat) (i : Input) : World × Option Nat :=
  match (match i with | .number i => some i | .text t => int t) with
  | none => (log W s ERROR ("Verbosity must be a number, received '".toList ++ i.show ++ "' instead".toList), none)
  | some v =>
    if 0 ≤ v ∧ v ≤ 9 then (W, some v.toNat)
    else (log W s ERROR ("Verbosity must be between 0 and 9, received '".toList ++ (toString v).toList ++ "' instead".toList), none)

def setTermVerbosity (W : World) (s v : Nat) : World := { W with site := fun n => if n = s then { W.site s with termVerbosity := v } else W.site n }
def setFileVerbosity (W : World) (s v : Nat) : World := { W with site := fun n => if n = s then { W.site s with fileVerbosity := v } else W.site n }

/-- log.py 209-234 `set_verbosity`; `false`: RET_CODE_ERR -/
def setVerbosity (int : Text → Option Int) (W : World) (s : Nat) (file : Input) (term : Option Input) : World × Bool :=
  match validateVerbosity int W s file with
  | (W, none) => (W, false)
  | (W, some tmp) =>
    match term with
    | none => (setFileVerbosity (setTermVerbosity W s tmp) s tmp, true)
    | some t =>
      match validateVerbosity int W s t with
      | (W, none) => (W, false)
      | (W, some v) => (setFileVerbosity (setTermVerbosity W s v) s tmp, true)

/-- log.py 236-243 `set_parsable` -/
def setParsable (W : World) (s : Nat) (b : Bool) : World := { W with site := fun n => if n = s then { W.site s with parsable := b } else W.site n }

/-- SetConnections.py 510-513 `_init_connection_settings`, for the new process `n`; the client is 0. The answers of the new process aren't looked at. -/
def initConnection (int : Text → Option Int) (W : World) (n : Nat) : World :=
  let W := (setVerbosity int W n (.number (W.site 0).fileVerbosity) (some (.number (W.site 0).termVerbosity))).1
  setParsable W n (W.site 0).parsable

end Verif.Logging
