/-
Model of remote calls over a PipeConnection (`src/rdiff_backup/connection.py` 413-640): `reval` (458-487), `_get_response` (519-545), `_answer_request` (547-572),
`_get_new_req_num` (597-601), `Server` (452-456), on the two sides of a connection, which run concurrently and send each other messages in order (C34).

A function which is executed on one side is a program which may make calls of functions of the other side. A value `V` stands for a result or an exception
(which `reval` raises: what is done with it is up to the caller, hence to the program). Not modelled: exceptions which close the connection (584-585), `quit`,
several connections, files and iterators as values (C35), restrictions of what may be called (C46).
-/
namespace Verif.Calls
variable {V : Type}

/-- what a function does: return a value, or call a function of the other side and go on with the result -/
inductive Prog (V : Type) where
  | ret (v : V)
  | call (fn : Nat) (args : List V) (k : V → Prog V)

/-- a ConnectionRequest (184-195: function and number of arguments), or an argument or result -/
inductive Msg (V : Type) where
  | req (fn : Nat) (n : Nat)
  | val (v : V)

/-- the functions on the call stack: `reval` waiting for the response `r`; `_answer_request` for `r`, executing a function -/
inductive Frame (V : Type) where
  | waiting (r : Nat) (k : V → Prog V)
  | answering (r : Nat)

/-- what one side of a connection is doing: connection.py 461-487 `reval`, 524-547 `_get_response`, 549-568 `_answer_request` -/
inductive Mode (V : Type) where
  /-- executing a function (or the client's main program) -/
  | run (p : Prog V)
  /-- writing messages to the pipe, then putting back the number `add`, then listening -/
  | sending (ms : List (Nat × Msg V)) (add : Option Nat)
  /-- in `_get_response` -/
  | listening
  /-- in `_answer_request`, getting the arguments -/
  | collecting (r fn left : Nat) (args : List V)
  | finished (v : V)
  /-- ConnectionError: no request number left (597-600). A server function which meets it would send it back as a result; here the system stops. -/
  | exhausted
  /-- AssertionError, KeyError or something which isn't a result being taken for one -/
  | failed

/-- one `PipeConnection` (connection.py 425-438): what it does, the calls which wait for it, and `unused_request_numbers` (438) -/
structure Side (V : Type) where
  mode : Mode V
  stack : List (Frame V)
  unused : Nat → Bool

/-- 601, 549: the number is taken out of `unused_request_numbers` -/
def take (un : Nat → Bool) (r : Nat) : Nat → Bool := fun i => if i = r then false else un i
/-- 471, 572 -/
def add (un : Nat → Bool) (r : Nat) : Nat → Bool := fun i => if i = r then true else un i

/-- the number which `_get_response` waits for; `none`: -1 -/
def desired : List (Frame V) → Option Nat
  | .waiting r _ :: _ => some r
  | _ => none

variable (fns : Nat → List V → Prog V)

/-- a step of one side: its state, what is in its pipe, the state and the pipe afterwards, and what is sent -/
inductive LStep : Side V → List (Nat × Msg V) → Side V → List (Nat × Msg V) → List (Nat × Msg V) → Prop
  /-- 571-572: the function returns, `_put(result, req_num)`, then the number is put back -/
  | ret {v r st un q} : LStep ⟨.run (.ret v), .answering r :: st, un⟩ q ⟨.sending [(r, .val v)] (some r), st, un⟩ q []
  | finish {v un q} : LStep ⟨.run (.ret v), [], un⟩ q ⟨.finished v, [], un⟩ q []
  /-- 458-470 `reval`: `set.pop` returns any number which is not in use -/
  | call {fn args k st un q} (r : Nat) (h : un r = true) :
      LStep ⟨.run (.call fn args k), st, un⟩ q
        ⟨.sending ((r, .req fn args.length) :: args.map fun a => (r, .val a)) none, .waiting r k :: st, take un r⟩ q []
  | exhausted {fn args k st un q} (h : ∀ r, un r = false) : LStep ⟨.run (.call fn args k), st, un⟩ q ⟨.exhausted, st, un⟩ q []
  | send {m ms a st un q} : LStep ⟨.sending (m :: ms) a, st, un⟩ q ⟨.sending ms a, st, un⟩ q [m]
  | sent {st un q} : LStep ⟨.sending [] none, st, un⟩ q ⟨.listening, st, un⟩ q []
  | sentAdd {r st un q} : LStep ⟨.sending [] (some r), st, un⟩ q ⟨.listening, st, add un r⟩ q []
  /-- 534-535, 471 -/
  | response {r v k st un q} :
      LStep ⟨.listening, .waiting r k :: st, un⟩ ((r, .val v) :: q) ⟨.run (k v), st, add un r⟩ q []
  /-- a request with the number of the response -/
  | badResponse {r fn n k st un q} : LStep ⟨.listening, .waiting r k :: st, un⟩ ((r, .req fn n) :: q) ⟨.failed, st, un⟩ q []
  /-- 537-541, 549 -/
  | request {r fn n st un q} (h : desired st ≠ some r) (hu : un r = true) :
      LStep ⟨.listening, st, un⟩ ((r, .req fn n) :: q) ⟨.collecting r fn n [], st, take un r⟩ q []
  /-- KeyError -/
  | badRequest {r fn n st un q} (h : desired st ≠ some r) (hu : un r = false) :
      LStep ⟨.listening, st, un⟩ ((r, .req fn n) :: q) ⟨.failed, st, un⟩ q []
  /-- AssertionError -/
  | notRequest {r v st un q} (h : desired st ≠ some r) : LStep ⟨.listening, st, un⟩ ((r, .val v) :: q) ⟨.failed, st, un⟩ q []
  /-- 550-558 -/
  | arg {r fn left v args st un q} :
      LStep ⟨.collecting r fn (left + 1) args, st, un⟩ ((r, .val v) :: q) ⟨.collecting r fn left (args ++ [v]), st, un⟩ q []
  | badArg {r r' m fn left args st un q} (h : r' ≠ r ∨ ∃ fn n, m = .req fn n) :
      LStep ⟨.collecting r fn (left + 1) args, st, un⟩ ((r', m) :: q) ⟨.failed, st, un⟩ q []
  /-- 563 -/
  | exec {r fn args st un q} : LStep ⟨.collecting r fn 0 args, st, un⟩ q ⟨.run (fns fn args), .answering r :: st, un⟩ q []

/-- both sides (`true`: the client), and the messages on their way to each of them -/
structure Sys (V : Type) where
  side : Bool → Side V
  queue : Bool → List (Nat × Msg V)

/-- one side has moved: it consumed from its own pipe (connection.py 326-331 `_read`) and wrote to the other's (310-324 `_write`) -/
def Sys.upd (g : Sys V) (x : Bool) (s : Side V) (q sent : List (Nat × Msg V)) : Sys V :=
  ⟨fun y => if y = x then s else g.side y, fun y => if y = x then q else g.queue y ++ sent⟩

variable (F : Bool → Nat → List V → Prog V)

/-- a step of either side -/
inductive Step : Sys V → Sys V → Prop
  | mk {g : Sys V} (x : Bool) {s q sent} (h : LStep (F x) (g.side x) (g.queue x) s q sent) : Step g (g.upd x s q sent)

/-- 438: `set(range(256))` -/
def allUnused : Nat → Bool := fun r => decide (r < 256)

/-- the client starts with its program, the server listens (452-456) -/
def Sys.init (p : Prog V) : Sys V :=
  ⟨fun x => if x then ⟨.run p, [], allUnused⟩ else ⟨.listening, [], allUnused⟩, fun _ => []⟩

/-- the states which a session can reach, with any interleaving of both processes (not a function of the code: the executions of connection.py 454-568) -/
inductive Reach (p : Prog V) : Sys V → Prop
  | init : Reach p (.init p)
  | step {g g'} : Reach p g → Step F g g' → Reach p g'

end Verif.Calls
