import Verif.Model.Schema
import Mathlib.Order.MinMax
import Mathlib.Data.List.Forall2

/-!
C74: the command which starts a server is exactly the one which the user described.

Specification: `Piece`, `render`, `meaning`, `Clear` below. The model: `Verif.Schema` (`fill`, `schemaOf`, `cmdPairs`).
-/

namespace Verif.C74
open Verif.Schema Verif.Quoting

/-! ### Specification: what a schema means -/

/-- A schema consists of other bytes than braces, of doubled braces, and of placeholders for the host and for the three numbers of the version. -/
inductive Piece where
  | lit (c : UInt8)
  | lb
  | rb
  | host
  | vx
  | vy
  | vz
deriving DecidableEq, Repr

def Piece.ok : Piece → Prop
  | .lit c => c ≠ 123 ∧ c ≠ 125
  | _ => True

/-- how it is written -/
def Piece.text : Piece → Bytes
  | .lit c => [c]
  | .lb => [123, 123]
  | .rb => [125, 125]
  | .host => [123, 104, 125]
  | .vx => [123, 86, 120, 125]
  | .vy => [123, 86, 121, 125]
  | .vz => [123, 86, 122, 125]

/-- what stands in the command for it -/
def Piece.mean (v : Vars) : Piece → Bytes
  | .lit c => [c]
  | .lb => [123]
  | .rb => [125]
  | .host => v.h
  | .vx => v.vx
  | .vy => v.vy
  | .vz => v.vz

def render (p : List Piece) : Bytes := p.flatMap Piece.text
def meaning (v : Vars) (p : List Piece) : Bytes := p.flatMap (Piece.mean v)

/-- No doubled opening brace is followed by something that looks like (the rest of) a placeholder: `{{h}`, `{{{h}`, and so on. -/
def Clear : List Piece → Prop
  | [] => True
  | .lb :: r => (name? (render r) = none ∧ ∀ t, render r = 123 :: t → name? t = none) ∧ Clear r
  | _ :: r => Clear r

/-! ### Formatting -/

theorem render_cons (a p) : render (a :: p) = a.text ++ render p := by simp [render]
theorem meaning_cons (v a p) : meaning v (a :: p) = a.mean v ++ meaning v p := by simp [meaning]

theorem format_lit {v c r} (h1 : c ≠ 123) (h2 : c ≠ 125) : format v none (c :: r) = (format v none r).pre [c] := by
  rw [format.eq_def]; simp [h1, h2]
theorem format_lb {v r} : format v none (123 :: 123 :: r) = (format v none r).pre [123] := by
  rw [format.eq_def]; simp
theorem format_rb {v r} : format v none (125 :: 125 :: r) = (format v none r).pre [125] := by
  rw [format.eq_def]; simp
theorem format_open {v c r} (h : c ≠ 123) : format v none (123 :: c :: r) = format v (some []) (c :: r) := by
  rw [format.eq_def]; simp [h]
theorem format_in {v acc c r} (h1 : c ≠ 123) (h2 : c ≠ 125) : format v (some acc) (c :: r) = format v (some (acc ++ [c])) r := by
  rw [format.eq_def]; simp [h1, h2]
theorem format_close {v acc r b} (h : value v acc = some b) : format v (some acc) (125 :: r) = (format v none r).pre b := by
  rw [format.eq_def]; simp [h]

theorem format_render (v : Vars) : ∀ p : List Piece, (∀ a ∈ p, a.ok) → format v none (render p) = .ok (meaning v p) := by
  intro p
  induction p with
  | nil => intro _; simp [render, meaning, format]
  | cons a p ih =>
      intro h
      have ih := ih fun b hb => h b (by simp [hb])
      rw [render_cons, meaning_cons]
      cases a with
      | lit c =>
          have hc := h (.lit c) (by simp)
          simp only [Piece.text, Piece.mean, List.cons_append, List.nil_append]
          rw [format_lit hc.1 hc.2, ih]; simp [Res.pre]
      | lb => simp only [Piece.text, Piece.mean, List.cons_append, List.nil_append]; rw [format_lb, ih]; simp [Res.pre]
      | rb => simp only [Piece.text, Piece.mean, List.cons_append, List.nil_append]; rw [format_rb, ih]; simp [Res.pre]
      | host =>
          simp only [Piece.text, Piece.mean, List.cons_append, List.nil_append]
          rw [format_open (by decide), format_in (by decide) (by decide), format_close (b := v.h) (by simp [value]), ih]; simp [Res.pre]
      | vx =>
          simp only [Piece.text, Piece.mean, List.cons_append, List.nil_append]
          rw [format_open (by decide), format_in (by decide) (by decide), format_in (by decide) (by decide), format_close (b := v.vx) (by simp [value]), ih]
          simp [Res.pre]
      | vy =>
          simp only [Piece.text, Piece.mean, List.cons_append, List.nil_append]
          rw [format_open (by decide), format_in (by decide) (by decide), format_in (by decide) (by decide), format_close (b := v.vy) (by simp [value]), ih]
          simp [Res.pre]
      | vz =>
          simp only [Piece.text, Piece.mean, List.cons_append, List.nil_append]
          rw [format_open (by decide), format_in (by decide) (by decide), format_in (by decide) (by decide), format_close (b := v.vz) (by simp [value]), ih]
          simp [Res.pre]

theorem pre_ok {a r b} (h : Res.pre a r = .ok b) : ∃ b', r = .ok b' ∧ b = a ++ b' := by
  cases r <;> simp [Res.pre] at h
  exact ⟨_, rfl, h.symm⟩

/-- a placeholder by its name -/
theorem piece_of_value {v n b} (h : value v n = some b) : ∃ a : Piece, a.ok ∧ a.text = 123 :: n ++ [125] ∧ a.mean v = b := by
  unfold value at h
  split at h
  · subst n; cases h; exact ⟨.host, trivial, rfl, rfl⟩
  · split at h
    · subst n; cases h; exact ⟨.vx, trivial, rfl, rfl⟩
    · split at h
      · subst n; cases h; exact ⟨.vy, trivial, rfl, rfl⟩
      · split at h
        · subst n; cases h; exact ⟨.vz, trivial, rfl, rfl⟩
        · cases h

theorem format_field_ok (v : Vars) : ∀ (s acc b : Bytes), format v (some acc) s = .ok b →
    ∃ n r b1 b2, s = n ++ 125 :: r ∧ value v (acc ++ n) = some b1 ∧ format v none r = .ok b2 ∧ b = b1 ++ b2 := by
  intro s
  induction s with
  | nil => intro acc b h; simp [format] at h
  | cons c s ih =>
      intro acc b h
      by_cases h1 : c = 123
      · rw [format.eq_def] at h
        simp only [h1, if_true] at h
        split at h <;> cases h
      · by_cases h2 : c = 125
        · subst h2
          rw [format.eq_def] at h
          simp only [show (125 : UInt8) ≠ 123 by decide, if_false, if_true] at h
          split at h
          · rename_i b1 hb1
            obtain ⟨b2, h2, h3⟩ := pre_ok h
            exact ⟨[], s, b1, b2, rfl, by simpa using hb1, h2, h3⟩
          · split at h <;> cases h
        · rw [format_in h1 h2] at h
          obtain ⟨n, r, b1, b2, rfl, hv, hr, hb⟩ := ih _ _ h
          exact ⟨c :: n, r, b1, b2, rfl, by simpa using hv, hr, hb⟩

theorem format_ok_pieces (v : Vars) : ∀ (n : Nat) (s b : Bytes), s.length ≤ n → format v none s = .ok b →
    ∃ p : List Piece, (∀ a ∈ p, a.ok) ∧ render p = s ∧ meaning v p = b := by
  intro n
  induction n with
  | zero =>
      intro s b hs h
      obtain rfl : s = [] := List.eq_nil_of_length_eq_zero (by omega)
      simp [format] at h
      exact ⟨[], by simp, rfl, by simpa [meaning] using h⟩
  | succ n ih =>
      intro s b hs h
      cases s with
      | nil =>
          simp [format] at h
          exact ⟨[], by simp, rfl, by simpa [meaning] using h⟩
      | cons c r =>
          simp only [List.length_cons] at hs
          by_cases h1 : c = 123
          · subst h1
            cases r with
            | nil => simp [format] at h
            | cons c' r' =>
                simp only [List.length_cons] at hs
                by_cases h2 : c' = 123
                · subst h2
                  rw [format_lb] at h
                  obtain ⟨b', hb', rfl⟩ := pre_ok h
                  obtain ⟨p, hp, rfl, rfl⟩ := ih r' b' (by omega) hb'
                  exact ⟨.lb :: p, by simpa [Piece.ok] using hp, by simp [render_cons, Piece.text], by simp [meaning_cons, Piece.mean]⟩
                · rw [format_open h2] at h
                  obtain ⟨m, r2, b1, b2, hm, hv, hr, rfl⟩ := format_field_ok v _ _ _ h
                  have hl : r2.length ≤ n := by
                    have := congrArg List.length hm
                    simp at this
                    omega
                  obtain ⟨p, hp, rfl, rfl⟩ := ih r2 b2 hl hr
                  obtain ⟨a, ha, ht, hme⟩ := piece_of_value hv
                  refine ⟨a :: p, by simpa [ha] using hp, ?_, by rw [meaning_cons, hme]⟩
                  rw [render_cons, ht, hm]; simp
          · by_cases h2 : c = 125
            · subst h2
              cases r with
              | nil => simp [format] at h
              | cons c' r' =>
                  simp only [List.length_cons] at hs
                  by_cases h3 : c' = 125
                  · subst h3
                    rw [format_rb] at h
                    obtain ⟨b', hb', rfl⟩ := pre_ok h
                    obtain ⟨p, hp, rfl, rfl⟩ := ih r' b' (by omega) hb'
                    exact ⟨.rb :: p, by simpa [Piece.ok] using hp, by simp [render_cons, Piece.text], by simp [meaning_cons, Piece.mean]⟩
                  · rw [format.eq_def] at h
                    simp [h3] at h
            · rw [format_lit h1 h2] at h
              obtain ⟨b', hb', rfl⟩ := pre_ok h
              obtain ⟨p, hp, rfl, rfl⟩ := ih r b' (by omega) hb'
              exact ⟨.lit c :: p, by simpa [Piece.ok, h1, h2] using hp, by simp [render_cons, Piece.text], by simp [meaning_cons, Piece.mean]⟩

/-! ### The check -/

theorem find1_false_lit {b c r} (h : c ≠ 123) : find1 b (c :: r) = find1 false r := by rw [find1.eq_def]; simp [h]
theorem find2_lit {c r} (h : c ≠ 123) : find2 (c :: r) = find2 r := by rw [find2.eq_def]; simp [h]
theorem find1_open {b r} : find1 b (123 :: r) = (if b then [] else match inner r with | none => [] | some (a, _) => [a]) ++ find1 true r := by
  rw [find1]; cases b <;> cases inner r <;> simp
theorem find2_open {r} : find2 (123 :: r) = (name? r).toList ++ find2 r := by rw [find2.eq_def]; simp

/-- the names which are found by the second expression, in a schema which `format` understands -/
def isName (n : Bytes) : Prop := n = [104] ∨ n = [86, 120] ∨ n = [86, 121] ∨ n = [86, 122]

theorem name_isName {s n} (h : name? s = some n) : isName n := by
  unfold name? at h
  unfold isName
  split at h <;> simp at h <;> simp [← h]

theorem find2_isName : ∀ s, ∀ n ∈ find2 s, isName n := by
  intro s
  induction s with
  | nil => simp [find2]
  | cons c r ih =>
      intro n hn
      rw [find2] at hn
      rcases List.mem_append.mp hn with h | h
      · split at h
        · cases hx : name? r with
          | none => rw [hx] at h; simp at h
          | some m => rw [hx] at h; simp at h; subst h; exact name_isName hx
        · simp at h
      · exact ih n h

/-- the byte before is an opening brace: what follows must not look like a placeholder -/
def after (b : Bool) (s : Bytes) : Prop := b = true → ∀ t, s = 123 :: t → name? t = none

theorem find_render (p : List Piece) (hp : ∀ a ∈ p, a.ok) : ∀ b : Bool,
    (find1 b (render p)).length ≤ (find2 (render p)).length ∧
    (find1 b (render p) = find2 (render p) ↔ after b (render p) ∧ Clear p) := by
  induction p with
  | nil => intro b; simp [render, find1, find2, after, Clear]
  | cons a p ih =>
      have ih := ih fun x hx => hp x (by simp [hx])
      intro b
      rw [render_cons]
      have hplace : ∀ n : Bytes, isName n → (a = .host ∨ a = .vx ∨ a = .vy ∨ a = .vz) → a.text = 123 :: n ++ [125] →
          (find1 b (a.text ++ render p)).length ≤ (find2 (a.text ++ render p)).length ∧
          (find1 b (a.text ++ render p) = find2 (a.text ++ render p) ↔ after b (a.text ++ render p) ∧ Clear (a :: p)) := by
        intro n hn ha ht
        have hclear : Clear (a :: p) ↔ Clear p := by rcases ha with rfl | rfl | rfl | rfl <;> simp [Clear]
        have h1 : find1 b (a.text ++ render p) = (if b then [] else [n]) ++ find1 false (render p) := by
          rcases hn with rfl | rfl | rfl | rfl <;> rw [ht] <;> simp [find1, inner]
        have h2 : find2 (a.text ++ render p) = n :: find2 (render p) := by
          rcases hn with rfl | rfl | rfl | rfl <;> rw [ht] <;> simp [find2, name?]
        have h3 : ∀ t, a.text ++ render p = 123 :: t → name? t = some n := by
          intro t hh
          rw [ht] at hh
          simp at hh
          rw [← hh]
          rcases hn with rfl | rfl | rfl | rfl <;> simp [name?]
        obtain ⟨l, e⟩ := ih false
        rw [h1, h2, hclear]
        cases b with
        | false =>
            simp only [Bool.false_eq_true, if_false, List.singleton_append, List.length_cons, List.cons.injEq, true_and, after, false_imp_iff]
            refine ⟨by omega, e.trans ?_⟩
            simp [after]
        | true =>
            simp only [if_true, List.nil_append, List.length_cons]
            refine ⟨by omega, ?_, ?_⟩
            · intro hh
              have := congrArg List.length hh
              simp at this
              omega
            · rintro ⟨ha, _⟩
              have := ha rfl (n ++ 125 :: render p) (by rw [ht]; simp)
              rw [h3 (n ++ 125 :: render p) (by rw [ht]; simp)] at this
              cases this
      cases a with
      | host => exact hplace [104] (by simp [isName]) (by simp) rfl
      | vx => exact hplace [86, 120] (by simp [isName]) (by simp) rfl
      | vy => exact hplace [86, 121] (by simp [isName]) (by simp) rfl
      | vz => exact hplace [86, 122] (by simp [isName]) (by simp) rfl
      | lit c =>
          have hc := hp (.lit c) (by simp)
          simp only [Piece.text, List.cons_append, List.nil_append]
          rw [find1_false_lit hc.1, find2_lit hc.1]
          obtain ⟨l, e⟩ := ih false
          refine ⟨l, e.trans ?_⟩
          simp only [after, Clear, Bool.false_eq_true, false_imp_iff, true_and]
          constructor
          · intro h; exact ⟨fun _ t ht => absurd (List.cons.inj ht).1 hc.1, h⟩
          · exact fun h => h.2
      | rb =>
          simp only [Piece.text, List.cons_append, List.nil_append]
          rw [find1_false_lit (by decide), find1_false_lit (by decide), find2_lit (by decide), find2_lit (by decide)]
          obtain ⟨l, e⟩ := ih false
          refine ⟨l, e.trans ?_⟩
          simp [after, Clear]
      | lb =>
          simp only [Piece.text, List.cons_append, List.nil_append]
          obtain ⟨l, e⟩ := ih true
          have h1 : find1 b (123 :: 123 :: render p) = find1 true (render p) := by
            rw [find1_open, find1_open]
            cases b <;> simp [inner]
          have h2 : find2 (123 :: 123 :: render p) = (name? (render p)).toList ++ find2 (render p) := by
            rw [find2_open, find2_open]; simp [name?]
          rw [h1, h2]
          refine ⟨by rw [List.length_append]; omega, ?_⟩
          simp only [Clear]
          cases hn : name? (render p) with
          | none =>
              simp only [Option.toList_none, List.nil_append]
              rw [e]
              simp only [after, true_imp_iff, true_and]
              constructor
              · rintro ⟨x, y⟩
                refine ⟨fun _ t ht => ?_, x, y⟩
                simp only [List.cons.injEq, true_and] at ht
                rw [← ht]; simp [name?]
              · rintro ⟨_, x, y⟩; exact ⟨x, y⟩
          | some m =>
              simp only [Option.toList_some, List.singleton_append, reduceCtorEq, false_and, and_false, iff_false]
              intro hh
              have := congrArg List.length hh
              simp at this
              omega

theorem host_mem (p : List Piece) (hp : ∀ a ∈ p, a.ok) (hc : Clear p) : [104] ∈ find2 (render p) ↔ .host ∈ p := by
  induction p with
  | nil => simp [render, find2]
  | cons a p ih =>
      have ih := fun h => ih (fun x hx => hp x (by simp [hx])) h
      rw [render_cons]
      cases a with
      | host => simp [Piece.text, find2, name?]
      | vx => have := ih (by simpa [Clear] using hc); simp [Piece.text, find2, name?, this]
      | vy => have := ih (by simpa [Clear] using hc); simp [Piece.text, find2, name?, this]
      | vz => have := ih (by simpa [Clear] using hc); simp [Piece.text, find2, name?, this]
      | lit c =>
          have hk := hp (.lit c) (by simp)
          have := ih (by simpa [Clear] using hc)
          simp [Piece.text, find2, hk.1, this]
      | rb => have := ih (by simpa [Clear] using hc); simp [Piece.text, find2, this]
      | lb =>
          have hc' : _ ∧ Clear p := hc
          have := ih hc'.2
          simp only [Piece.text, List.cons_append, List.nil_append]
          rw [find2_open, find2_open, hc'.1.1]
          simp [name?, this]

/-! ### The claims -/

/-- **C74 (meaning).** Whatever the schema, the host and the version: if a command comes out of it, then the schema is made of other bytes, doubled braces and
placeholders, one of them for the host, and the command has exactly the host and the numbers for these, single braces for doubled ones, and everything else as it is. In
particular braces in the name of the host are not taken for placeholders. -/
theorem command_exact (v : Vars) (schema b : Bytes) (h : fill v schema = .cmd b) :
    ∃ p : List Piece, (∀ a ∈ p, a.ok) ∧ .host ∈ p ∧ Clear p ∧ schema = render p ∧ b = meaning v p := by
  unfold fill at h
  split at h
  · cases h
  · rename_i hc
    simp only [Bool.not_eq_true', Bool.not_eq_false] at hc
    split at h <;> try cases h
    rename_i hf
    obtain ⟨p, hp, rfl, rfl⟩ := format_ok_pieces v _ schema _ (Nat.le_refl _) hf
    simp only [check, Bool.and_eq_true, decide_eq_true_eq, List.contains_iff_mem] at hc
    have hcl := ((find_render p hp false).2.mp hc.1).2
    exact ⟨p, hp, (host_mem p hp hcl).mp hc.2, hcl, rfl, rfl⟩

/-- **C74 (accepted).** Every schema of this kind gives its command, and no other one does. -/
theorem accepted (v : Vars) (p : List Piece) (hp : ∀ a ∈ p, a.ok) (hh : .host ∈ p) (hc : Clear p) :
    fill v (render p) = .cmd (meaning v p) := by
  have h1 := (find_render p hp false).2.mpr ⟨by simp [after], hc⟩
  have h2 := (host_mem p hp hc).mpr hh
  have : check (render p) = true := by
    simp only [check, Bool.and_eq_true, decide_eq_true_eq, List.contains_iff_mem]
    exact ⟨h1, h2⟩
  rw [fill, this, format_render v p hp]
  rfl

/-- The schema `ssh {h} '{{ rdiff-backup-{Vx}.{Vy}; }}'` with a host which has braces in its name, and pieces which meet the hypotheses -/
example : fill ⟨asc "me@{Vx}", asc "2", asc "3", asc "1"⟩ (asc "ssh {h} '{{ rdiff-backup-{Vx}.{Vy}; }}'") =
    .cmd (asc "ssh me@{Vx} '{ rdiff-backup-2.3; }'") := by decide +kernel
example : (∀ a ∈ [Piece.lit 115, .lb, .lit 104, .rb, .rb, .host, .lb], a.ok) ∧ Piece.host ∈ [Piece.lit 115, .lb, .lit 105, .rb, .host, .lb] ∧
    Clear [Piece.lit 115, .lb, .lit 105, .rb, .host, .lb] := by
  refine ⟨by simp [Piece.ok], by simp, ?_⟩
  simp [Clear, render, Piece.text, name?]

theorem pre_other {a r} : Res.pre a r = .other ↔ r = .other := by cases r <;> simp [Res.pre]

theorem format_field_other (v : Vars) : ∀ (s acc : Bytes), format v (some acc) s = .other →
    ∃ n r, inner s = some (n, r) ∧ (value v (acc ++ n) = none ∨ format v none r = .other) ∧ r.length < s.length ∧
      (∀ b, find1 b s = find1 false r) ∧ s = n ++ 125 :: r := by
  intro s
  induction s with
  | nil => intro acc h; simp [format] at h
  | cons c s ih =>
      intro acc h
      by_cases h1 : c = 123
      · rw [format.eq_def] at h
        simp only [h1, if_true] at h
        split at h <;> cases h
      · by_cases h2 : c = 125
        · subst h2
          rw [format.eq_def] at h
          simp only [show (125 : UInt8) ≠ 123 by decide, if_false, if_true] at h
          refine ⟨[], s, by simp [inner], ?_, by simp, fun b => find1_false_lit (by decide), rfl⟩
          split at h
          · exact Or.inr (pre_other.mp h)
          · rename_i hn
            exact Or.inl (by simpa using hn)
        · rw [format_in h1 h2] at h
          obtain ⟨n, r, hi, hv, hl, hf, hs⟩ := ih _ h
          refine ⟨c :: n, r, ?_, by simpa using hv, by simp; omega, fun b => ?_, by rw [hs]; rfl⟩
          · rw [inner]; simp [h1, h2, hi]
          · rw [find1_false_lit h1, hf]

theorem value_isName {v n} (h : isName n) : value v n ≠ none := by
  rcases h with rfl | rfl | rfl | rfl <;> simp [value]

theorem no_other (v : Vars) : ∀ (n : Nat) (b : Bool) (s : Bytes), s.length ≤ n → (∀ m ∈ find1 b s, isName m) → ¬ [123, 123, 123] <:+: s →
    (b = true → ∀ t, s ≠ 123 :: t) → format v none s ≠ .other := by
  intro n
  induction n with
  | zero =>
      intro b s hs _ _ _
      obtain rfl : s = [] := List.eq_nil_of_length_eq_zero (by omega)
      simp [format]
  | succ n ih =>
      intro b s hs hm ht hb
      cases s with
      | nil => simp [format]
      | cons c r =>
          simp only [List.length_cons] at hs
          have htr : ¬ [123, 123, 123] <:+: r := fun h => ht (h.trans (List.suffix_cons c r).isInfix)
          by_cases h1 : c = 123
          · subst h1
            have hbf : b = false := by
              cases b with
              | false => rfl
              | true => exact absurd rfl (hb rfl r)
            subst hbf
            cases r with
            | nil => simp [format]
            | cons c' r' =>
                simp only [List.length_cons] at hs
                by_cases h2 : c' = 123
                · subst h2
                  rw [format_lb]
                  intro h
                  refine ih true r' (by omega) ?_ ?_ ?_ (pre_other.mp h)
                  · intro m hmm
                    apply hm
                    rw [find1_open, find1_open]
                    simp [hmm]
                  · exact fun h => htr (h.trans (List.suffix_cons _ r').isInfix)
                  · rintro _ t rfl
                    exact ht ⟨[], t, rfl⟩
                · rw [format_open h2]
                  intro h
                  obtain ⟨m, r2, hi, hv, hl, hf, hs2⟩ := format_field_other v _ _ h
                  have hname : isName m := by
                    apply hm
                    rw [find1_open, hi]
                    simp
                  rcases hv with hv | hv
                  · exact value_isName hname hv
                  · refine ih false r2 (by simp at hl; omega) ?_ ?_ (by simp) hv
                    · intro k hk
                      apply hm
                      rw [find1_open, hf]
                      simp [hk]
                    · intro h
                      apply htr
                      rw [hs2]
                      exact h.trans ⟨m ++ [125], [], by simp⟩
          · by_cases h2 : c = 125
            · subst h2
              cases r with
              | nil => simp [format]
              | cons c' r' =>
                  simp only [List.length_cons] at hs
                  by_cases h3 : c' = 125
                  · subst h3
                    rw [format_rb]
                    intro h
                    refine ih false r' (by omega) ?_ ?_ (by simp) (pre_other.mp h)
                    · intro m hmm
                      apply hm
                      rw [find1_false_lit (by decide), find1_false_lit (by decide)]
                      exact hmm
                    · exact fun h => htr (h.trans (List.suffix_cons _ r').isInfix)
                  · rw [format.eq_def]
                    simp [h3]
            · rw [format_lit h1 h2]
              intro h
              refine ih false r (by omega) ?_ htr (by simp) (pre_other.mp h)
              intro m hmm
              apply hm
              rw [find1_false_lit h1]
              exact hmm

/-- **C74 (only these placeholders).** A schema without three opening braces in a row and without a field within a field is either refused as invalid, or ends the program
with Python's own message, or gives the command which it describes; no attribute, index, conversion or format of anything is ever put into the command. -/
theorem only_placeholders_partial (v : Vars) (schema : Bytes) (ht : ¬ [123, 123, 123] <:+: schema) (hn : format v none schema ≠ .nested) :
    fill v schema ≠ .unsafeField := by
  unfold fill
  split
  · simp
  · rename_i hc
    simp only [Bool.not_eq_true', Bool.not_eq_false, check, Bool.and_eq_true, decide_eq_true_eq] at hc
    have := no_other v _ false schema (Nat.le_refl _) (by rw [hc.1]; exact find2_isName schema) ht (by simp)
    split <;> simp_all

/-- F105: three opening braces in a row, or a field within the format of another one, get past the check, which is there for security reasons. -/
theorem not_only_placeholders : ∃ v : Vars,
    fill v (asc "ssh {h} {{{h.__class__}}}") = .unsafeField ∧ fill v (asc "ssh {h} {h:{h}}") = .unsafeField :=
  ⟨⟨asc "me", [50], [51], [49]⟩, by decide +kernel⟩

/-- F106: a single brace, as in shell functions, isn't told to be invalid, but ends the program with a traceback. -/
theorem single_brace : ∃ v : Vars, fill v (asc "{h} }") = .traceback ∧ fill v (asc "f() { ssh {h} server; }; f") = .traceback :=
  ⟨⟨asc "me", [50], [51], [49]⟩, by decide +kernel⟩

/-- F107: doubled braces around an `h`, which mean `{h}` itself, are refused. -/
theorem doubled_refused : ∃ v : Vars, fill v (asc "ssh {h} 'echo {{h}}'") = .invalid :=
  ⟨⟨asc "me", [50], [51], [49]⟩, by decide +kernel⟩

/-- **C74 (the user's schema).** The schema given by the user is taken as it is, whatever the other options are. -/
theorem user_command (v : Vars) (p : List Piece) (hp : ∀ a ∈ p, a.ok) (hh : Piece.host ∈ p) (hc : Clear p)
    (compression : Bool) (tempdir verb : Option Bytes) :
    fill v (schemaOf (some (render p)) compression tempdir verb) = .cmd (meaning v p) :=
  accepted v p hp hh hc

example : fill ⟨asc "me", [], [], []⟩ (schemaOf (some (asc "ssh -p 22 {h} rb")) true (some (asc "/tmp")) (some (asc "5"))) = .cmd (asc "ssh -p 22 me rb") := by
  decide +kernel

/-! ### The default command -/

/-- bytes as they are -/
theorem render_lit : ∀ s : Bytes, render (s.map .lit) = s := by
  intro s; induction s with
  | nil => rfl
  | cons c s ih => rw [List.map_cons, render_cons, ih]; rfl
theorem meaning_lit (v) : ∀ s : Bytes, meaning v (s.map .lit) = s := by
  intro s; induction s with
  | nil => rfl
  | cons c s ih => rw [List.map_cons, meaning_cons, ih]; rfl
theorem clear_lit : ∀ s : Bytes, Clear (s.map .lit) := by
  intro s; induction s with
  | nil => trivial
  | cons c s ih => exact ih
theorem clear_lit_append : ∀ (s : Bytes) (p : List Piece), Clear p → Clear (s.map .lit ++ p) := by
  intro s p hp; induction s with
  | nil => exact hp
  | cons c s ih => exact ih
theorem render_append (p q) : render (p ++ q) = render p ++ render q := by simp [render]
theorem meaning_append (v p q) : meaning v (p ++ q) = meaning v p ++ meaning v q := by simp [meaning]

theorem fill_around (v : Vars) (a b : Bytes) (ha : ∀ c ∈ a, c ≠ 123 ∧ c ≠ 125) (hb : ∀ c ∈ b, c ≠ 123 ∧ c ≠ 125) :
    fill v (a ++ [123, 104, 125] ++ b) = .cmd (a ++ v.h ++ b) := by
  have h1 : a ++ [123, 104, 125] ++ b = render (a.map .lit ++ (.host :: b.map .lit)) := by
    rw [render_append, render_cons, render_lit, render_lit]; simp [Piece.text]
  have h2 : a ++ v.h ++ b = meaning v (a.map .lit ++ (.host :: b.map .lit)) := by
    rw [meaning_append, meaning_cons, meaning_lit, meaning_lit]; simp [Piece.mean]
  rw [h1, h2]
  apply accepted
  · intro x hx
    simp only [List.mem_append, List.mem_map, List.mem_cons] at hx
    rcases hx with ⟨c, hc, rfl⟩ | rfl | ⟨c, hc, rfl⟩
    · exact ha c hc
    · trivial
    · exact hb c hc
  · simp
  · exact clear_lit_append a _ (clear_lit b)

/-- **C74 (default).** Without a schema of the user's, the command is `ssh`, with `-C` unless compression is off, the host, and `rdiff-backup` with the temporary directory
and the verbosity given, and the action `server`, if the directory has no braces in its name. -/
theorem default_command (v : Vars) (compression : Bool) (tempdir verb : Option Bytes) (ht : ∀ t, tempdir = some t → ∀ c ∈ t, c ≠ 123 ∧ c ≠ 125)
    (hv : ∀ d, verb = some d → ∀ c ∈ d, 48 ≤ c ∧ c ≤ 57) :
    fill v (schemaOf none compression tempdir verb) =
      .cmd ((if compression then asc "ssh -C " else asc "ssh ") ++ v.h ++ (asc " rdiff-backup" ++
        (tempdir.map (asc " --tempdir=" ++ ·)).getD [] ++
        (verb.map (asc " --terminal-verbosity " ++ ·)).getD [] ++ asc " server")) := by
  have e1 : asc "ssh -C {h} rdiff-backup" = asc "ssh -C " ++ [123, 104, 125] ++ asc " rdiff-backup" := by decide +kernel
  have e2 : asc "ssh {h} rdiff-backup" = asc "ssh " ++ [123, 104, 125] ++ asc " rdiff-backup" := by decide +kernel
  have h : schemaOf none compression tempdir verb = (if compression then asc "ssh -C " else asc "ssh ") ++ [123, 104, 125] ++ (asc " rdiff-backup" ++
        (tempdir.map (asc " --tempdir=" ++ ·)).getD [] ++
        (verb.map (asc " --terminal-verbosity " ++ ·)).getD [] ++ asc " server") := by
    cases compression <;> cases tempdir <;> cases verb <;> simp [schemaOf, e1, e2]
  rw [h]
  apply fill_around
  · cases compression
    · decide +kernel
    · decide +kernel
  · have k1 : ∀ c ∈ asc " rdiff-backup", c ≠ 123 ∧ c ≠ 125 := by decide +kernel
    have k2 : ∀ c ∈ asc " --tempdir=", c ≠ 123 ∧ c ≠ 125 := by decide +kernel
    have k3 : ∀ c ∈ asc " --terminal-verbosity ", c ≠ 123 ∧ c ≠ 125 := by decide +kernel
    have k4 : ∀ c ∈ asc " server", c ≠ 123 ∧ c ≠ 125 := by decide +kernel
    have k5 : ∀ d, verb = some d → ∀ c ∈ d, c ≠ 123 ∧ c ≠ 125 := by
      intro d hd c hc
      have := (hv d hd c hc).2
      constructor <;> rintro rfl <;> revert this <;> decide
    intro c hc
    simp only [List.mem_append] at hc
    rcases hc with ((hc | hc) | hc) | hc
    · exact k1 c hc
    · cases tempdir with
      | none => simp at hc
      | some t =>
          simp only [Option.map_some, Option.getD_some] at hc
          rcases List.mem_append.mp hc with hc | hc
          · exact k2 c hc
          · exact ht t rfl c hc
    · cases verb with
      | none => simp at hc
      | some d =>
          simp only [Option.map_some, Option.getD_some] at hc
          rcases List.mem_append.mp hc with hc | hc
          · exact k3 c hc
          · exact k5 d rfl c hc
    · exact k4 c hc

example : fill ⟨asc "me@host", [], [], []⟩ (schemaOf none true (some (asc "/tmp")) (some (asc "5"))) =
    .cmd (asc "ssh -C me@host rdiff-backup --tempdir=/tmp --terminal-verbosity 5 server") := by decide +kernel

/-- F108: the name of the temporary directory becomes part of the schema. `{h}` in it is replaced, doubled braces are halved, other braces are refused. -/
theorem tempdir_braces : fill ⟨asc "me", [], [], []⟩ (schemaOf none true (some (asc "/t/{h}/{{a}}")) none) = .cmd (asc "ssh -C me rdiff-backup --tempdir=/t/me/{a} server") ∧
    fill ⟨asc "me", [], [], []⟩ (schemaOf none true (some (asc "/t/{a}")) none) = .invalid := by
  constructor <;> decide +kernel

/-! ### The locations -/

/-- **C74 (locations).** Each location gets, in order, its path, and a command iff it has a host, which is the schema filled for this host. -/
theorem pairs (vars : Bytes → Vars) (schema : Bytes) (locs : List Bytes) (ps : List (Option Bytes × Bytes)) (h : cmdPairs vars schema locs = .ok ps) :
    List.Forall₂ (fun loc pr => (Location.parse loc = .ok (none, pr.2) ∧ pr.1 = none) ∨
      ∃ host c, Location.parse loc = .ok (some host, pr.2) ∧ pr.1 = some c ∧ fill (vars host) schema = .cmd c) locs ps := by
  have h1 : ∀ locs qs, parseAll locs = .ok qs → List.Forall₂ (fun loc q => Location.parse loc = .ok q) locs qs := by
    intro locs
    induction locs with
    | nil => intro qs h; simp only [parseAll, Except.ok.injEq] at h; subst h; exact .nil
    | cons l r ih =>
        intro qs h
        rw [parseAll] at h
        split at h
        · cases h
        · split at h
          · cases h
          · rename_i hp _ _ hr
            simp only [Except.ok.injEq] at h
            subst h
            exact .cons hp (ih _ hr)
  have h2 : ∀ qs ps, fillAll vars schema qs = .ok ps → List.Forall₂ (fun (q pr : Option Bytes × Bytes) => pr.2 = q.2 ∧ ((q.1 = none ∧ pr.1 = none) ∨
      ∃ host c, q.1 = some host ∧ pr.1 = some c ∧ fill (vars host) schema = .cmd c)) qs ps := by
    intro qs
    induction qs with
    | nil => intro ps h; simp only [fillAll, Except.ok.injEq] at h; subst h; exact .nil
    | cons q r ih =>
        intro ps h
        obtain ⟨ho, p⟩ := q
        cases ho with
        | none =>
            rw [fillAll] at h
            split at h
            · cases h
            · rename_i hr
              simp only [Except.ok.injEq] at h
              subst h
              exact .cons ⟨rfl, Or.inl ⟨rfl, rfl⟩⟩ (ih _ hr)
        | some host =>
            rw [fillAll] at h
            split at h
            · rename_i c hc
              split at h
              · cases h
              · rename_i hr
                simp only [Except.ok.injEq] at h
                subst h
                exact .cons ⟨rfl, Or.inr ⟨host, c, rfl, rfl, hc⟩⟩ (ih _ hr)
            · cases h
  unfold cmdPairs at h
  split at h
  · cases h
  · rename_i qs hq
    have a := h1 _ _ hq
    have b := h2 _ _ h
    clear h hq h1 h2
    induction a generalizing ps with
    | nil => cases b; exact .nil
    | cons hp _ ih =>
        cases b with
        | cons hb hbs =>
            refine .cons ?_ (ih _ hbs)
            obtain ⟨e, hb⟩ := hb
            rcases hb with ⟨h0, hn⟩ | ⟨host, c, h0, hc, hf⟩
            · exact Or.inl ⟨by rw [hp, e, ← h0], hn⟩
            · exact Or.inr ⟨host, c, by rw [hp, e, ← h0], hc, hf⟩

example : cmdPairs (fun h => ⟨h, asc "2", asc "3", asc "1"⟩) (schemaOf none false none none) [asc "/a", asc "me@x::/b"] =
    .ok [(none, asc "/a"), (some (asc "ssh me@x rdiff-backup server"), asc "/b")] := by decide +kernel

end Verif.C74
