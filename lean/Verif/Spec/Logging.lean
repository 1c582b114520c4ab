import Verif.Model.Logging

/-
What is to be read in the log, in the error log and on the terminals; in terms of the events of a session, not of how messages travel.
-/
namespace Verif.Spec.Logging
open Verif.Logging

/-- where something happened -/
def place : Event → Nat
  | .log s _ _ => s
  | .error s _ => s
  | .exception s _ _ _ => s

/-- how important it is; a recoverable error counts as a warning -/
def level : Event → Nat
  | .log _ v _ => v
  | .error _ _ => 2
  | .exception _ _ v _ => v

/-- it isn't kept out of the files on purpose -/
def fileable : Event → Bool
  | .exception _ .noFile _ _ => false
  | _ => true

/-- a text on one line -/
def joined (t : Text) : Text := t.flatMap fun c => if c = '\n' then [' ', '|', ' '] else [c]

/-- what is said; `parsable`: at which places an exception has to be told on one line -/
def words (parsable : Nat → Bool) : Event → Text
  | .log _ _ m => m
  | .error _ t => t
  | .exception s _ _ m => if parsable s then joined m else m

/-- the recoverable errors -/
def errors : List Event → List Text
  | [] => []
  | .error _ t :: es => t :: errors es
  | _ :: es => errors es

/-- what the log of verbosity `f` has to contain: `fmt v t` is the line made of a message -/
def logText (parsable : Nat → Bool) (fmt : Nat → Text → Text) (f : Nat) (es : List Event) : Text :=
  (es.filter fun e => fileable e && decide (level e ≤ f)).flatMap fun e => fmt (level e) (words parsable e)

/-- errors and warnings -/
def grave (v : Nat) : Bool := v == 1 || v == 2

/-- what has to be shown at the place `x` by those messages for which `ch` says so: every message where it has arisen, errors at `w` when there is an error log -/
def shown (parsable : Nat → Bool) (fmt : Nat → Text → Text) (verbosity : Nat) (at_ : Event → Nat) (ch : Nat → Bool) (x : Nat) (es : List Event) : Text :=
  (es.filter fun e => at_ e == x && decide (level e ≤ verbosity) && ch (level e)).flatMap fun e => fmt (level e) (words parsable e)

/-- while the error log at `w` is open -/
def atBackup (w : Nat) : Event → Nat
  | .error _ _ => w
  | e => place e

/-- no file is open at all, and nobody is to write -/
def Fresh (W : World) : Prop :=
  ∀ n, (W.site n).isWriter = false ∧ (W.site n).writer = none ∧ (W.site n).logOpen = false ∧ (W.site n).errOpen = false

/-- what may happen to the messages in the course of an action -/
inductive Act
  | startBackup (w : Nat)
  | startSingle (w : Nat)
  | finish (w : Nat)
  | event (e : Event)

def act (W : World) : Act → World
  | .startBackup w => Logging.startBackup W w
  | .startSingle w => Logging.startSingle W w
  | .finish w => Logging.finish W w
  | .event e => step W e

def acts (W : World) (as : List Act) : World := as.foldl act W

/-- a text, cut at each `c` which ends a piece -/
def pieces (c : Char) : Text → List Text
  | [] => []
  | x :: t =>
    if x = c then [] :: pieces c t
    else match pieces c t with
      | [] => [[x]]
      | p :: ps => (x :: p) :: ps

end Verif.Spec.Logging
