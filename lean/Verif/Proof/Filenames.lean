import Verif.Model.Filenames
/- Lemmas for C17 and C18: a quoted name is a sequence of tokens, each a plain byte
different from `;` or an escape `;ddd`. -/
namespace Verif.Filenames

/-- One token: escaped or plain. -/
def tok (x : Bool × UInt8) : Bytes := if x.1 then esc x.2 else [x.2]

def enc : List (Bool × UInt8) → Bytes
  | [] => []
  | x :: l => tok x ++ enc l

/-- plain tokens are never `;` and not in `ctq`; escaped ones satisfy `P` -/
def OK (ctq : UInt8 → Bool) (P : UInt8 → Prop) (l : List (Bool × UInt8)) : Prop :=
  ∀ x ∈ l, (x.1 = false → ctq x.2 = false ∧ x.2 ≠ semi) ∧ (x.1 = true → P x.2)

theorem enc_cons (x) (l) : enc (x :: l) = tok x ++ enc l := rfl

theorem tok_ne_nil (x) : tok x ≠ [] := by
  unfold tok esc; split <;> simp

theorem enc_ne_nil (x l) : enc (x :: l) ≠ [] := by
  rw [enc_cons]; intro h; exact tok_ne_nil x (List.append_eq_nil_iff.mp h).1

theorem quoteChars_eq (ctq) (p : Bytes) :
    quoteChars ctq p = enc (p.map fun b => (ctq b || b == semi, b)) := by
  induction p with
  | nil => rfl
  | cons b bs ih =>
    rw [quoteChars, List.map_cons, enc_cons, ih]; simp [tok]

/-- digit bytes of `esc` -/
theorem esc_digits (b : UInt8) : ∃ x y z, esc b = [semi, x, y, z] ∧
    isDigit x ∧ isDigit y ∧ isDigit z ∧
    (x.toNat - 48) * 100 + (y.toNat - 48) * 10 + (z.toNat - 48) = b.toNat := by
  have hb := b.toNat_lt
  refine ⟨_, _, _, rfl, ?_, ?_, ?_, ?_⟩
  all_goals simp only [isDigit, UInt8.toNat_ofNat', Bool.and_eq_true, decide_eq_true_eq]
  all_goals omega

theorem digit_ne {c d : UInt8} (h : isDigit c) (hd : isDigit d = false) : c ≠ d := by
  intro e; subst e; simp_all

theorem escTrailing_append (a b : Bytes) (hb : b ≠ []) :
    escTrailing (a ++ b) = a ++ escTrailing b := by
  induction a with
  | nil => rfl
  | cons x xs ih =>
    have : xs ++ b ≠ [] := by simp [hb]
    cases hx : xs ++ b with
    | nil => exact absurd hx this
    | cons y ys =>
      rw [List.cons_append, hx, escTrailing, ← hx, ih, List.cons_append]

theorem escTrailing_esc (b : UInt8) : escTrailing (esc b) = esc b := by
  obtain ⟨x, y, z, h, -, -, hz, -⟩ := esc_digits b
  rw [h]
  have h1 : z ≠ 32 := digit_ne hz (by decide)
  have h2 : z ≠ 46 := digit_ne hz (by decide)
  simp [escTrailing, h1, h2]

theorem escTrailing_enc (ctq) (P : UInt8 → Prop) (h32 : P 32) (h46 : P 46) (l) (hl : OK ctq P l) :
    ∃ l', escTrailing (enc l) = enc l' ∧ l'.map Prod.snd = l.map Prod.snd ∧ OK ctq P l' := by
  induction l with
  | nil => exact ⟨[], rfl, rfl, hl⟩
  | cons x l ih =>
    have hl' : OK ctq P l := fun y hy => hl y (by simp [hy])
    have hx := hl x (by simp)
    cases l with
    | nil =>
      obtain ⟨f, b⟩ := x
      simp only [enc, List.append_nil]
      cases f with
      | true => exact ⟨[(true, b)], by simp [tok, enc, escTrailing_esc], rfl, hl⟩
      | false =>
        by_cases hb : b = 32 ∨ b = 46
        · refine ⟨[(true, b)], by simp [tok, enc, escTrailing, hb], rfl, ?_⟩
          intro y hy
          simp only [List.mem_singleton] at hy
          subst hy
          refine ⟨by simp, fun _ => ?_⟩
          rcases hb with h | h <;> (simp only [h]; assumption)
        · exact ⟨[(false, b)], by simp [tok, enc, escTrailing, hb], rfl, hl⟩
    | cons y r =>
      obtain ⟨l', h1, h2, h3⟩ := ih hl'
      refine ⟨x :: l', ?_, by simp [h2], ?_⟩
      · rw [enc_cons, escTrailing_append _ _ (enc_ne_nil y r), h1, enc_cons]
      · intro z hz
        rcases List.mem_cons.mp hz with h | h
        · subst h; exact hx
        · exact h3 z h

theorem dosPrefix_head {a : UInt8} {r s : Bytes} (h : dosPrefix (a :: r) = some s) :
    lower a = 97 ∨ lower a = 112 ∨ lower a = 99 ∨ lower a = 110 ∨ lower a = 108 := by
  match r, h with
  | b :: c :: r, h =>
    simp only [dosPrefix] at h
    split at h
    · next hh =>
      rcases hh with hh | hh | hh | hh <;>
        (injection hh with h1; simp [h1])
    · split at h
      · split at h
        · next hh => have := hh.1; injection this with h1; simp [h1]
        · split at h
          · next hh => have := hh.1; injection this with h1; simp [h1]
          · simp at h
      · simp at h
  | [], h => simp [dosPrefix] at h
  | [_], h => simp [dosPrefix] at h

theorem lower_letter {a : UInt8} (h : 97 ≤ (lower a).toNat ∧ (lower a).toNat ≤ 122) :
    a ≠ semi ∧ a.toNat < 128 := by
  unfold lower at h
  split at h
  · next hh =>
    refine ⟨?_, by omega⟩
    intro e; subst e; revert hh; decide
  · refine ⟨?_, by omega⟩
    intro e; subst e; revert h; decide

theorem dosMatch_head {a : UInt8} {r : Bytes} (h : dosMatch (a :: r) = true) :
    a ≠ semi ∧ a.toNat < 128 := by
  unfold dosMatch at h
  apply lower_letter
  cases hp : dosPrefix (a :: r) with
  | none => rw [hp] at h; simp at h
  | some s =>
    rcases dosPrefix_head hp with h | h | h | h | h <;> rw [h] <;> decide

theorem escDos_enc (ctq) (P : UInt8 → Prop) (hP : ∀ b : UInt8, b.toNat < 128 → P b) (l) (hl : OK ctq P l) :
    ∃ l', escDos (enc l) = enc l' ∧ l'.map Prod.snd = l.map Prod.snd ∧ OK ctq P l' := by
  cases l with
  | nil => exact ⟨[], rfl, rfl, hl⟩
  | cons x l =>
    obtain ⟨f, b⟩ := x
    cases f with
    | true =>
      refine ⟨(true, b) :: l, ?_, rfl, hl⟩
      rw [enc_cons]
      simp only [tok, esc, if_true, List.cons_append, List.nil_append]
      rw [escDos]
      split
      · next h => exact absurd rfl (dosMatch_head h).1
      · rfl
    | false =>
      by_cases hd : dosMatch (b :: enc l) = true
      · refine ⟨(true, b) :: l, ?_, rfl, ?_⟩
        · rw [enc_cons]
          simp only [tok, Bool.false_eq_true, if_false, List.singleton_append]
          rw [escDos, if_pos hd, enc_cons]
          simp [tok]
        · intro y hy
          rcases List.mem_cons.mp hy with h | h
          · subst h
            exact ⟨by simp, fun _ => hP _ (dosMatch_head hd).2⟩
          · exact hl y (by simp [h])
      · refine ⟨(false, b) :: l, ?_, rfl, hl⟩
        rw [enc_cons]
        simp only [tok, Bool.false_eq_true, if_false, List.singleton_append]
        rw [escDos, if_neg hd]

/-- The result of `quote` as tokens. -/
theorem quote_enc (ctq) (et ed : Bool) (p : Bytes) (P : UInt8 → Prop)
    (hctq : ∀ b, ctq b = true → P b) (hP : ∀ b : UInt8, b.toNat < 128 → P b) :
    ∃ l, quote ctq et ed p = enc l ∧ l.map Prod.snd = p ∧ OK ctq P l := by
  have h0 : OK ctq P (p.map fun b => (ctq b || b == semi, b)) := by
    intro x hx
    obtain ⟨b, -, rfl⟩ := List.mem_map.mp hx
    refine ⟨fun h => ?_, fun h => ?_⟩
    · simpa using h
    · simp at h
      rcases h with h | h
      · exact hctq b h
      · subst h; exact hP semi (by decide)
  have hm : ((p.map fun b => (ctq b || b == semi, b)).map Prod.snd) = p := by
    rw [List.map_map]; exact List.map_id p
  unfold quote
  simp only
  rw [quoteChars_eq]
  generalize (p.map fun b => (ctq b || b == semi, b)) = l0 at *
  have step1 : ∃ l1, (if et then escTrailing (enc l0) else enc l0) = enc l1 ∧
      l1.map Prod.snd = p ∧ OK ctq P l1 := by
    cases et with
    | false => exact ⟨l0, rfl, hm, h0⟩
    | true =>
      obtain ⟨l', h1, h2, h3⟩ := escTrailing_enc ctq P (hP _ (by decide)) (hP _ (by decide)) l0 h0
      exact ⟨l', h1, h2.trans hm, h3⟩
  obtain ⟨l1, e1, m1, o1⟩ := step1
  rw [e1]
  cases ed with
  | false => exact ⟨l1, rfl, m1, o1⟩
  | true =>
    obtain ⟨l', h1, h2, h3⟩ := escDos_enc ctq P hP l1 o1
    exact ⟨l', h1, h2.trans m1, h3⟩

theorem unquote_plain (b : UInt8) (rest : Bytes) (h : b ≠ semi) :
    unquote (b :: rest) = b :: unquote rest := by
  match rest with
  | [] => rfl
  | [_] => rfl
  | [_, _] => rfl
  | _ :: _ :: _ :: _ => rw [unquote, if_neg (fun hh => h hh.1)]

theorem unquote_esc (b : UInt8) (rest : Bytes) :
    unquote (esc b ++ rest) = fsencodeChr b.toNat ++ unquote rest := by
  obtain ⟨x, y, z, h, hx, hy, hz, hv⟩ := esc_digits b
  rw [h]
  simp only [List.cons_append, List.nil_append]
  rw [unquote, if_pos ⟨rfl, hx, hy, hz⟩, hv]

theorem unquote_enc (ctq) (l) (hl : OK ctq (fun b => b.toNat < 128) l) : unquote (enc l) = l.map Prod.snd := by
  induction l with
  | nil => rfl
  | cons x l ih =>
    have ih := ih (fun y hy => hl y (by simp [hy]))
    have hx := hl x (by simp)
    obtain ⟨f, b⟩ := x
    rw [enc_cons]
    cases f with
    | false =>
      simp only [tok, Bool.false_eq_true, if_false, List.singleton_append, List.map_cons]
      rw [unquote_plain _ _ (hx.1 rfl).2, ih]
    | true =>
      simp only [tok, if_true, List.map_cons]
      rw [unquote_esc, ih, fsencodeChr, if_pos (hx.2 rfl)]
      simp [UInt8.ofNat_toNat]

/-- Token sequences are uniquely decodable, whatever bytes are escaped. -/
theorem enc_injective (ctq) : ∀ (l l' : List (Bool × UInt8)), OK ctq (fun _ => True) l → OK ctq (fun _ => True) l' →
    enc l = enc l' → l.map Prod.snd = l'.map Prod.snd
  | [], [], _, _, _ => rfl
  | [], y :: l', _, _, h => absurd h.symm (enc_ne_nil _ _)
  | x :: l, [], _, _, h => absurd h (enc_ne_nil _ _)
  | (f, b) :: l, (g, c) :: l', hl, hl', h => by
    have ih := enc_injective ctq l l' (fun y hy => hl y (by simp [hy])) (fun y hy => hl' y (by simp [hy]))
    have hx := hl (f, b) (by simp)
    have hy := hl' (g, c) (by simp)
    rw [enc_cons, enc_cons] at h
    cases f <;> cases g
    · simp [tok] at h
      simp [h.1, ih h.2]
    · simp [tok, esc] at h
      exact absurd h.1 (hx.1 rfl).2
    · simp [tok, esc] at h
      exact absurd h.1.symm (hy.1 rfl).2
    · obtain ⟨x1, y1, z1, e1, -, -, -, v1⟩ := esc_digits b
      obtain ⟨x2, y2, z2, e2, -, -, -, v2⟩ := esc_digits c
      simp [tok, e1, e2] at h
      obtain ⟨ha, hb, hc, hd⟩ := h
      subst ha; subst hb; subst hc
      have : b = c := UInt8.toNat_inj.mp (v1.symm.trans v2)
      simp [this, ih hd]

theorem mem_enc {l} {c : UInt8} (h : c ∈ enc l) :
    c = semi ∨ isDigit c ∨ (false, c) ∈ l := by
  induction l with
  | nil => simp [enc] at h
  | cons x l ih =>
    obtain ⟨f, b⟩ := x
    rw [enc_cons, List.mem_append] at h
    rcases h with h | h
    · cases f with
      | false => simp [tok] at h; subst h; simp
      | true =>
        obtain ⟨x1, y1, z1, e1, h1, h2, h3, -⟩ := esc_digits b
        simp [tok, e1] at h
        rcases h with h | h | h | h
        · exact .inl h
        · subst h; exact .inr (.inl h1)
        · subst h; exact .inr (.inl h2)
        · subst h; exact .inr (.inl h3)
    · rcases ih h with h | h | h
      · exact .inl h
      · exact .inr (.inl h)
      · exact .inr (.inr (by simp [h]))

theorem escTrailing_last (p : Bytes) :
    (escTrailing p).getLast? ≠ some 32 ∧ (escTrailing p).getLast? ≠ some 46 := by
  match p with
  | [] => simp [escTrailing]
  | [b] =>
    rw [escTrailing]
    split
    · obtain ⟨x, y, z, e, -, -, hz, -⟩ := esc_digits b
      rw [e]
      have h1 : z ≠ 32 := digit_ne hz (by decide)
      have h2 : z ≠ 46 := digit_ne hz (by decide)
      simp [h1, h2]
    · next h => simpa using h
  | b :: c :: r =>
    have ih := escTrailing_last (c :: r)
    rw [escTrailing]
    cases he : escTrailing (c :: r) with
    | nil => 
      rw [List.getLast?_singleton]
      match r with
      | [] => rw [escTrailing] at he; revert he; split <;> simp [esc]
      | d :: r' => rw [escTrailing] at he; simp at he
    | cons y ys => rw [he] at ih; simpa using ih

theorem escDos_last (p : Bytes) (hp : dosMatch p = true) : (escDos p).getLast? = p.getLast? := by
  match p with
  | [] => rfl
  | [b] => simp [dosMatch, dosPrefix] at hp
  | b :: c :: r =>
    rw [escDos, if_pos hp]
    simp [esc]

end Verif.Filenames
