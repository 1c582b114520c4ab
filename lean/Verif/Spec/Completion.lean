import Verif.Model.Completion

/- Which parser a word on a command line belongs to, and what can be put there. -/
namespace Verif.Spec.Completion
open Verif.Completion

/-- this word is an option which is followed by a value -/
def Takes (P : Parser) (w : Word) : Prop := ∃ o, P.opts.lookup w = some o ∧ o.takes = true

/-- `Reads P seen ws Q since`: reading the words `ws`, after `seen`, leads from the parser `P` to `Q`: the name of an action leads to the parser of the action, unless
it is the value of an option. `since`: the words from the last action on. Left out are command lines on which the value of an option is called like an action, and
actions with a sub-action of their own name. -/
inductive Reads : Parser → List Word → List Word → Parser → List Word → Prop
  | done (P : Parser) (seen : List Word) : Reads P seen [] P seen
  | value {P Q : Parser} {seen ws since : List Word} {o v : Word} : Takes P o → o ∉ P.names → v ∉ P.names →
      Reads P (seen ++ [o, v]) ws Q since → Reads P seen (o :: v :: ws) Q since
  | option {P : Parser} {seen : List Word} {o : Word} : Takes P o → o ∉ P.names → Reads P seen [o] P (seen ++ [o])
  | action {P Q : Parser} {seen ws since : List Word} {w : Word} : w ∈ P.names → w ∉ (P.sub w).names → Reads (P.sub w) [w] ws Q since →
      Reads P seen (w :: ws) Q since
  | other {P Q : Parser} {seen ws since : List Word} {w : Word} : w ∉ P.names → ¬ Takes P w → Reads P (seen ++ [w]) ws Q since → Reads P seen (w :: ws) Q since

/-- there can be a location with the words `after` behind it -/
def Location (P : Parser) (after : List Word) : Prop :=
  match P.locs with
  | none => False
  | some .many => True
  | some .optional => after = []
  | some (.exactly n) => after.length < n

end Verif.Spec.Completion
