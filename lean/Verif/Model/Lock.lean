/-
Model of the locking of a repository (`src/rdiffbackup/locations/_repo_shadow.py` 84-91, 151-190, 255-260, 350-444, 2060-2134 and
`src/rdiffbackup/utils/locking.py` 57-66), by any number of processes running at the same time. Each system call is a step of its own;
steps of different processes are interleaved in any way, and a process may die at any time.

Not modelled: the content of the lock file (which is only for information), the directory `increments` (401), the base directory
(location.py 162-191), the check of the time (157-159), errors of the file system, and Windows (locking.py 28-55).
-/
namespace Verif.Lock
variable {P : Type} [DecidableEq P]

/-- `writer`: `_must_be_writable` (True for backup, regress and remove); `force`: `--force` -/
structure Args where
  writer : Bool
  force : Bool
  deriving DecidableEq

/-- where a process is. `open_ a e`: after `lockfile.lstat()` (2086) with the result `e`; `opened a i`: the lock file with inode `i` has been opened
(2095); `active a l`: `setup` has been successful, and the process works in the repository, holding a lock on the inode `l` or none -/
inductive Pc where
  | idle
  | start (a : Args)
  | failed (a : Args)
  | remove (a : Args)
  | rmdir (a : Args)
  | mkdir (a : Args)
  | lock (a : Args)
  | open_ (a : Args) (present : Bool)
  | opened (a : Args) (i : Nat)
  | active (a : Args) (l : Option Nat)
  deriving DecidableEq

/-- `data`: the directory `rdiff-backup-data` exists; `marker`: there is a `current_mirror` file in it; `lock`: the inode of `lock.yml` in it;
`fresh`: the next inode number which is free (numbers of files which may be open are not used again); `held`: the operating system's table of
locks of `flock`: inode, and whether exclusive -/
structure State (P : Type) where
  data : Bool
  marker : Bool
  lock : Option Nat
  fresh : Nat
  proc : P → Pc
  held : P → Option (Nat × Bool)

/-- `fcntl.flock(fd, (LOCK_EX | LOCK_SH) | LOCK_NB)` succeeds (flock(2)): no other process has a lock on the file which is not compatible -/
def Grants (s : State P) (p : P) (i : Nat) (exclusive : Bool) : Prop :=
  ∀ q, q ≠ p → ∀ e, s.held q = some (i, e) → exclusive = false ∧ e = false

/-- process `p` goes on to `c` -/
def State.goto (s : State P) (p : P) (c : Pc) : State P := { s with proc := fun q => if q = p then c else s.proc q }

/-- the table of locks when process `p` gets or (`none`) gives back one -/
def State.hold (s : State P) (p : P) (l : Option (Nat × Bool)) : State P := { s with held := fun q => if q = p then l else s.held q }

/-- A step of process `p`. `rm = true`: a failed initial backup may be removed. -/
inductive Step (rm : Bool) : State P → State P → Prop
  /-- a new process -/
  | begin {s : State P} {p : P} (a : Args) : s.proc p = .idle → Step rm s (s.goto p (if a.writer then .start a else .lock a))
  /-- 356 `_is_failed_initial_backup` (416-435): False with a marker or without the directory -/
  | sound {s : State P} {p : P} {a : Args} : s.proc p = .start a → Step rm s (s.goto p (.mkdir a))
  | unsound {s : State P} {p : P} {a : Args} : s.proc p = .start a → s.data = true → s.marker = false → Step rm s (s.goto p (.failed a))
  /-- 360-377: the lock file exists: given up, unless `--force` -/
  | refuse {s : State P} {p : P} {a : Args} : s.proc p = .failed a → s.lock.isSome = true → a.force = false → Step rm s (s.goto p .idle)
  | clean {s : State P} {p : P} {a : Args} : s.proc p = .failed a → (s.lock = none ∨ a.force = true) → Step rm s (s.goto p (.remove a))
  /-- 438-443 `_clean_failed_initial_backup`: the files are removed one after the other, then the directory; it fails if a file has come in the meantime
  (rpath.py 949-958) -/
  | unlink {s : State P} {p : P} {a : Args} : rm = true → s.proc p = .remove a →
      Step rm s ({ s with lock := none, marker := false }.goto p (.rmdir a))
  | rmdir {s : State P} {p : P} {a : Args} : s.proc p = .rmdir a → s.lock = none → s.marker = false → Step rm s ({ s with data := false }.goto p (.mkdir a))
  /-- 386-388: the directory is made if it doesn't exist -/
  | mkdir {s : State P} {p : P} {a : Args} : s.proc p = .mkdir a → Step rm s ({ s with data := true }.goto p (.lock a))
  /-- 2085-2093 the lock file is looked for; without it a reader goes on without a lock (2090-2091, 182-188) -/
  | lstat {s : State P} {p : P} {a : Args} : s.proc p = .lock a → (a.writer = true ∨ s.lock.isSome = true) →
      Step rm s (s.goto p (.open_ a s.lock.isSome))
  | unlocked {s : State P} {p : P} {a : Args} : s.proc p = .lock a → a.writer = false → s.lock = none → Step rm s (s.goto p (.active a none))
  /-- 2095 `open`: an existing file is opened in all modes; mode "w" (after lstat found nothing) creates it; it is an error if it has disappeared -/
  | opens {s : State P} {p : P} {a : Args} {e : Bool} {i : Nat} : s.proc p = .open_ a e → s.lock = some i → Step rm s (s.goto p (.opened a i))
  | creates {s : State P} {p : P} {a : Args} : s.proc p = .open_ a false → s.lock = none → s.data = true →
      Step rm s ({ s with lock := some s.fresh, fresh := s.fresh + 1 }.goto p (.opened a s.fresh))
  /-- 2096 `flock` -/
  | locks {s : State P} {p : P} {a : Args} {i : Nat} : s.proc p = .opened a i → Grants s p i a.writer →
      Step rm s ((s.hold p (some (i, a.writer))).goto p (.active a (some i)))
  /-- 2105-2108, 164-181: the lock could not be had: given up, unless `--force` -/
  | blocked {s : State P} {p : P} {a : Args} {i : Nat} : s.proc p = .opened a i → ¬ Grants s p i a.writer → a.force = false → Step rm s (s.goto p .idle)
  | forced {s : State P} {p : P} {a : Args} {i : Nat} : s.proc p = .opened a i → ¬ Grants s p i a.writer → a.force = true →
      Step rm s (s.goto p (.active a none))
  /-- the backup writes `current_mirror` -/
  | mark {s : State P} {p : P} {a : Args} {l : Option Nat} : s.proc p = .active a l → a.writer = true → s.data = true → Step rm s { s with marker := true }
  /-- `exit` (255-260), `_unlock` (2126-2134), which leaves the lock file where it is -/
  | exit {s : State P} {p : P} {a : Args} {l : Option Nat} : s.proc p = .active a l → Step rm s ((s.hold p none).goto p .idle)
  /-- the process dies, at any point, also because of an exception: the operating system closes its files -/
  | dies {s : State P} {p : P} : Step rm s ((s.hold p none).goto p .idle)

/-- what can happen from `s` on -/
inductive Steps (rm : Bool) : State P → State P → Prop
  | refl (s : State P) : Steps rm s s
  | step {s t u : State P} : Steps rm s t → Step rm t u → Steps rm s u

end Verif.Lock
