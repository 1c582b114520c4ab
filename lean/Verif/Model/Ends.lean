/-
The ends of a session: a client and the servers it starts. `src/rdiff_backup/SetConnections.py` (SC) 314-355 `_init_connection`, 357-493 `_validate_connection_version`,
495-515 `_init_connection_routing` and `_init_connection_settings`, 119-134 `init_connection_remote` and `add_redirected_conn`; `src/rdiffbackup/singletons/specifics.py`
48-51, 118-141 (API versions); `src/rdiffbackup/singletons/generics.py` 154-182 (settings common to all ends); `src/rdiffbackup/actions/__init__.py` 573-609 `connect`.

Not modelled: the messages which are sent and received (`Model/Calls.lean`), the requests which a server refuses (`Model/Security.lean`), failures of a connection after
it was made, and the levels of verbosity, which are sent along.
-/
namespace Verif.Ends

/-! ### API versions -/

/-- specifics.py 48: the API versions which an end knows, the one it would like, and the one it uses; 0 means that none was chosen -/
structure Api where
  default : Nat
  min : Nat
  max : Nat
  actual : Nat
deriving DecidableEq, Repr

/-- specifics.py 48: this version of rdiff-backup -/
def this : Api := { default := 219, min := 219, max := 299, actual := 0 }

/-- specifics.py 119-135 `set_api_version`, given a number; `none`: `FatalError` ends the program -/
def setApi (v : Nat) (a : Api) : Option Api :=
  if v < a.min ∨ v > a.max then none else some { a with actual := v }

/-- specifics.py 138-141 `get_api_version`: Python's `or` -/
def getApi (a : Api) : Nat := if a.actual ≠ 0 then a.actual else a.default

/-- A server, as the client meets it. -/
structure Server where
  /-- SC 367-393: it answers when it is asked for its version -/
  answers : Bool
  /-- SC 403: its version begins with `2.0.` -/
  is20 : Bool
  /-- SC 396-397: its API versions; `none`: it does not know about them -/
  api : Option Api
deriving DecidableEq, Repr

/-- SC 357-493 `_validate_connection_version` by the client: `none` if it returns False, and else what client and server use from then on. The case that
`set_api_version` ends the server (487) is also `none`. -/
def validate (c : Api) (s : Server) : Option (Api × Server) :=
  if !s.answers then none
  else match s.api with
  | none =>
      -- SC 399-425; line 406 compares where it should assign, and has no effect
      if s.is20 ∧ (if c.actual ≠ 0 then c.actual else c.min) = 200 then some (c, s) else none
  | some r =>
      -- SC 432-451
      if min r.max c.max < max r.min c.min then none
      -- SC 452-479
      else if c.actual ≠ 0 then
        if r.min ≤ c.actual ∧ c.actual ≤ r.max then
          match setApi c.actual r with
          | none => none
          | some r' => some (c, { s with api := some r' })
        else none
      -- SC 480-493
      else
        let v := max r.min (min r.max c.default)
        match setApi v r with
        | none => none
        | some r' => some ({ c with actual := v }, { s with api := some r' })

/-- actions/__init__.py 593-605, SC 103-115: the locations are connected one after the other, `none` standing for a local one. If one fails, the others are still
connected, and then the action fails (run.py 84-93): the result is `none`. -/
def connectAll : Api → List (Option Server) → Option (Api × List (Option Server))
  | c, [] => some (c, [])
  | c, none :: l =>
      match connectAll c l with
      | none => none
      | some (c', l') => some (c', none :: l')
  | c, some s :: l =>
      match validate c s with
      | none => none
      | some (c1, s1) =>
          match connectAll c1 l with
          | none => none
          | some (c', l') => some (c', some s1 :: l')

/-- run.py 170-171: the option `--api-version`, before anything is connected; then the locations -/
def session (c : Api) (opt : Option Nat) (l : List (Option Server)) : Option (Api × List (Option Server)) :=
  match opt with
  | none => connectAll c l
  | some v =>
      match setApi v c with
      | none => none
      | some c' => connectAll c' l

/-! ### Settings -/

/-- An end: the values of its settings, the settings which were changed by calls of `set` at this end (generics.py 151), and the numbers of the ends it can
reach (specifics.py 95 `connection_dict`). -/
structure End (S V : Type) where
  vals : S → V
  changed : List S
  dict : List Nat

/-- All ends by their numbers; the client has number 0. -/
abbrev World (S V : Type) := List (End S V)

variable {S V : Type} [DecidableEq S]

/-- generics.py 180-182 `set_local` -/
def setLocal (s : S) (v : V) (e : End S V) : End S V := { e with vals := fun t => if t = s then v else e.vals t }

/-- one end of the world changes -/
def upd (w : World S V) (i : Nat) (f : End S V → End S V) : World S V := w.modify i f

/-- generics.py 154-168 `set` at end `i`. `connection_dict` is never empty, it has at least the end itself (connection.py 746). -/
def setAt (i : Nat) (s : S) (v : V) (w : World S V) : World S V :=
  match w[i]? with
  | none => w
  | some e => e.dict.foldl (fun w j => upd w j (setLocal s v)) (upd w i fun e => { e with changed := e.changed ++ [s] })

/-- generics.py 171-177 `dispatch_settings`: the client's changed settings are sent to a new connection -/
def dispatch (client : End S V) (e : End S V) : End S V :=
  client.changed.foldl (fun e s => setLocal s (client.vals s) e) e

/-- SC 495-515 with SC 119-134: a new server with its own values gets the next number `n`; all others learn of it, and it learns of all others and gets the
changed settings of the client. Nothing else than its own values is taken over from its life before. -/
def connect (init : S → V) (w : World S V) : World S V :=
  match w with
  | [] => []
  | client :: _ =>
      let n := w.length
      let w' := w.map fun e => { e with dict := e.dict ++ [n] }
      w' ++ [dispatch client { vals := init, changed := [], dict := [0, n] ++ (List.range n).tail }]

/-- What happens: a new connection, or a call of `generics.set` by the code which runs at end `i`. -/
inductive Event (S V : Type) where
  | connect (init : S → V)
  | setAt (i : Nat) (s : S) (v : V)

def step (w : World S V) : Event S V → World S V
  | .connect init => connect init w
  | .setAt i s v => setAt i s v w

def steps (w : World S V) (l : List (Event S V)) : World S V := l.foldl step w

/-- connection.py 746: the client when it starts -/
def start (init : S → V) : World S V := [{ vals := init, changed := [], dict := [0] }]

end Verif.Ends
