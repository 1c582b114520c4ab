import Verif.Spec.FsQuoting
import Verif.Props.C17
/-
Lemmas for C67.
-/
namespace Verif.FsQuoting
open Verif Verif.Filenames Verif.FilenamesSpec

theorem read_write (flip dos trailing : Bool) : readEscapes (writeEscapes flip dos trailing) = (dos, trailing) := by
  revert flip dos trailing
  decide +kernel

theorem toLower_eq : toLower = lower := rfl

theorem ofFin {p : UInt8 → Prop} (h : ∀ n : Fin 256, p (UInt8.ofNat n.val)) (x : UInt8) : p x := by
  have := h ⟨x.toNat, x.toNat_lt⟩
  simpa using this

/-- the suggested characters as a function of what matters -/
def chars (cs cs' : Bool) (e : Option Bool) (w : Bool) : Bytes := suggested ⟨cs, none, false, false, false⟩ ⟨cs', e, w, false, false⟩

theorem suggested_eq (src dst : Fsa) : suggested src dst = chars src.caseSensitive dst.caseSensitive dst.extended dst.winReserved := rfl

theorem class_upper (e : Option Bool) (w : Bool) (x : UInt8) (h : 65 ≤ x.toNat) (h' : x.toNat ≤ 90) : classOf (chars true false e w) x = true := by
  have key : ∀ (e : Option Bool) (w : Bool) (n : Fin 256), 65 ≤ (UInt8.ofNat n.val).toNat → (UInt8.ofNat n.val).toNat ≤ 90 →
      classOf (chars true false e w) (UInt8.ofNat n.val) = true := by
    intro e w
    rcases e with _ | e <;> (try cases e) <;> cases w <;> decide +kernel
  exact ofFin (p := fun x => 65 ≤ x.toNat → x.toNat ≤ 90 → classOf (chars true false e w) x = true) (key e w) x h h'

theorem class_ascii (cs cs' w : Bool) (x : UInt8) (h : x.toNat < 32 ∨ 128 ≤ x.toNat) : classOf (chars cs cs' (some false) w) x = true := by
  have key : ∀ (cs cs' w : Bool) (n : Fin 256), ((UInt8.ofNat n.val).toNat < 32 ∨ 128 ≤ (UInt8.ofNat n.val).toNat) →
      classOf (chars cs cs' (some false) w) (UInt8.ofNat n.val) = true := by
    intro cs cs' w
    cases cs <;> cases cs' <;> cases w <;> decide +kernel
  exact ofFin (p := fun x => x.toNat < 32 ∨ 128 ≤ x.toNat → classOf (chars cs cs' (some false) w) x = true) (key cs cs' w) x h

theorem class_reserved (cs cs' : Bool) (e : Option Bool) (x : UInt8)
    (h : x ∈ ([34, 42, 47, 58, 60, 62, 63, 92, 124, 127] : List UInt8) ∨ (e ≠ none ∧ x.toNat < 32)) : classOf (chars cs cs' e true) x = true := by
  have key : ∀ (cs cs' : Bool) (e : Option Bool) (n : Fin 256),
      (UInt8.ofNat n.val ∈ ([34, 42, 47, 58, 60, 62, 63, 92, 124, 127] : List UInt8) ∨ (e ≠ none ∧ (UInt8.ofNat n.val).toNat < 32)) →
      classOf (chars cs cs' e true) (UInt8.ofNat n.val) = true := by
    intro cs cs' e
    rcases e with _ | e <;> (try cases e) <;> cases cs <;> cases cs' <;> decide +kernel
  exact ofFin (p := fun x => x ∈ ([34, 42, 47, 58, 60, 62, 63, 92, 124, 127] : List UInt8) ∨ (e ≠ none ∧ x.toNat < 32) → classOf (chars cs cs' e true) x = true)
    (key cs cs' e) x h

theorem class_seven (cs cs' : Bool) (e : Option Bool) (w : Bool) (he : e ≠ some false) (x : UInt8) (h : classOf (chars cs cs' e w) x = true) : x.toNat < 128 := by
  have key : ∀ (cs cs' : Bool) (e : Option Bool) (w : Bool), e ≠ some false → ∀ n : Fin 256,
      classOf (chars cs cs' e w) (UInt8.ofNat n.val) = true → (UInt8.ofNat n.val).toNat < 128 := by
    intro cs cs' e w
    rcases e with _ | e <;> (try cases e) <;> cases cs <;> cases cs' <;> cases w <;> decide +kernel
  exact ofFin (p := fun x => classOf (chars cs cs' e w) x = true → x.toNat < 128) (key cs cs' e w he) x h

theorem chars_nil {cs cs' : Bool} {e : Option Bool} {w : Bool} (h : chars cs cs' e w = []) : (cs = true → cs' = true) ∧ e ≠ some false ∧ w = false := by
  revert h
  rcases e with _ | e <;> (try cases e) <;> cases cs <;> cases cs' <;> cases w <;> decide +kernel

/-- without option, the quoting is the suggested one, or none is -/
theorem ctq_of {flip : Bool} {src dst : Fsa} {cfg cfg' : Config} {q : Quoting} (h : backup flip none src dst cfg = some (q, cfg')) :
    q.ctq = suggested src dst ∨ suggested src dst = [] := by
  simp only [backup, Option.map_eq_some_iff, Prod.mk.injEq] at h
  obtain ⟨⟨a, c⟩, h1, rfl, -⟩ := h
  cases hc : cfg.ctq with
  | none =>
    rw [hc] at h1
    simp only [compareCtq, Option.getD_none, Option.some.injEq, Prod.mk.injEq] at h1
    exact .inl h1.1.symm
  | some p =>
    rw [hc] at h1
    simp only [compareCtq] at h1
    by_cases hs : suggested src dst = []
    · exact .inr hs
    · left
      by_cases hp : suggested src dst = p
      · have hn : ¬ (suggested src dst ≠ [] ∧ suggested src dst ≠ p) := fun h => h.2 hp
        simp only [if_neg hn, if_true] at h1
        simp only [Option.some.injEq, Prod.mk.injEq] at h1
        exact h1.1.symm.trans hp.symm
      · have hy : suggested src dst ≠ [] ∧ suggested src dst ≠ p := ⟨hs, hp⟩
        simp only [if_pos hy, if_neg hp] at h1
        cases h1

/-! ### tokens -/

theorem lower_semi {b : UInt8} (h : lower b = semi) : b = semi := by
  revert h
  exact ofFin (p := fun b => lower b = semi → b = semi) (by decide +kernel) b

theorem lower_semi' : lower semi = semi := rfl

theorem lower_digit {b : UInt8} (h : isDigit b = true) : lower b = b := by
  revert h
  exact ofFin (p := fun b => isDigit b = true → lower b = b) (by decide +kernel) b

theorem enc_fold (ctq : UInt8 → Bool) : ∀ (l l' : List (Bool × UInt8)), OK ctq (fun _ => True) l → OK ctq (fun _ => True) l' →
    (enc l).map lower = (enc l').map lower → (l.map Prod.snd).map lower = (l'.map Prod.snd).map lower
  | [], [], _, _, _ => rfl
  | [], y :: l', _, _, h => by
    have := enc_ne_nil y l'
    cases he : enc (y :: l') with
    | nil => exact absurd he this
    | cons a b => rw [he] at h; simp [enc] at h
  | x :: l, [], _, _, h => by
    have := enc_ne_nil x l
    cases he : enc (x :: l) with
    | nil => exact absurd he this
    | cons a b => rw [he] at h; simp [enc] at h
  | (f, b) :: l, (g, c) :: l', hl, hl', h => by
    have ih := enc_fold ctq l l' (fun y hy => hl y (by simp [hy])) (fun y hy => hl' y (by simp [hy]))
    have hx := hl (f, b) (by simp)
    have hy := hl' (g, c) (by simp)
    rw [enc_cons, enc_cons, List.map_append, List.map_append] at h
    cases f <;> cases g
    · simp only [tok, Bool.false_eq_true, if_false, List.map_cons, List.map_nil, List.cons_append, List.nil_append, List.cons.injEq] at h
      have := ih h.2
      simp only [List.map_cons, h.1, this]
    · exfalso
      simp only [tok, Bool.false_eq_true, if_false, if_true, esc, List.map_cons, List.map_nil, List.cons_append, List.nil_append, List.cons.injEq] at h
      exact (hx.1 rfl).2 (lower_semi (h.1.trans lower_semi'))
    · exfalso
      simp only [tok, Bool.false_eq_true, if_false, if_true, esc, List.map_cons, List.map_nil, List.cons_append, List.nil_append, List.cons.injEq] at h
      exact (hy.1 rfl).2 (lower_semi (h.1.symm.trans lower_semi'))
    · obtain ⟨x1, y1, z1, e1, d1, d2, d3, v1⟩ := esc_digits b
      obtain ⟨x2, y2, z2, e2, d4, d5, d6, v2⟩ := esc_digits c
      simp only [tok, if_true, e1, e2, List.map_cons, List.map_nil, List.cons_append, List.nil_append, List.cons.injEq, lower_digit d1, lower_digit d2, lower_digit d3,
        lower_digit d4, lower_digit d5, lower_digit d6, true_and] at h
      obtain ⟨ha, hb, hc, hd⟩ := h
      subst ha; subst hb; subst hc
      have : b = c := UInt8.toNat_inj.mp (v1.symm.trans v2)
      have ih := ih hd
      simp only [List.map_cons, this, ih]

/-- names whose quoted forms differ only by case differ only by case -/
theorem quote_fold (ctq : UInt8 → Bool) (et ed : Bool) {a b : Bytes} (h : (quote ctq et ed a).map lower = (quote ctq et ed b).map lower) : a.map lower = b.map lower := by
  obtain ⟨l, h1, h2, h3⟩ := quote_enc ctq et ed a (fun _ => True) (fun _ _ => trivial) (fun _ _ => trivial)
  obtain ⟨l', h1', h2', h3'⟩ := quote_enc ctq et ed b (fun _ => True) (fun _ _ => trivial) (fun _ _ => trivial)
  rw [h1, h1'] at h
  have := enc_fold ctq l l' h3 h3' h
  rwa [h2, h2'] at this

theorem escapeSyntax_not {b : UInt8} (h : escapeSyntax b) : b ∉ ([34, 42, 47, 58, 60, 62, 63, 92, 124, 127] : List UInt8) ∧ 32 ≤ b.toNat ∧ b.toNat < 128 ∧
    (b.toNat < 65 ∨ 90 < b.toNat) := by
  have key : ∀ n : Fin 256, (UInt8.ofNat n.val = 59 ∨ (48 ≤ (UInt8.ofNat n.val).toNat ∧ (UInt8.ofNat n.val).toNat ≤ 57)) →
      UInt8.ofNat n.val ∉ ([34, 42, 47, 58, 60, 62, 63, 92, 124, 127] : List UInt8) ∧ 32 ≤ (UInt8.ofNat n.val).toNat ∧ (UInt8.ofNat n.val).toNat < 128 ∧
        ((UInt8.ofNat n.val).toNat < 65 ∨ 90 < (UInt8.ofNat n.val).toNat) := by decide +kernel
  exact ofFin (p := fun b => (b = 59 ∨ (48 ≤ b.toNat ∧ b.toNat ≤ 57)) → b ∉ ([34, 42, 47, 58, 60, 62, 63, 92, 124, 127] : List UInt8) ∧ 32 ≤ b.toNat ∧ b.toNat < 128 ∧
    (b.toNat < 65 ∨ 90 < b.toNat)) key b h

/-- literal tokens at the start -/
theorem enc_prefix (ctq : UInt8 → Bool) (P : UInt8 → Prop) : ∀ (u v : Bytes) (l : List (Bool × UInt8)), OK ctq P l → semi ∉ u → enc l = u ++ v →
    ∃ l', l.map Prod.snd = u ++ l'.map Prod.snd ∧ enc l' = v ∧ OK ctq P l'
  | [], v, l, hl, _, h => ⟨l, rfl, h, hl⟩
  | c :: u, v, [], hl, _, h => by simp [enc] at h
  | c :: u, v, (f, b) :: l, hl, hs, h => by
    simp only [List.mem_cons, not_or] at hs
    rw [enc_cons] at h
    cases f with
    | true =>
      simp only [tok, if_true, esc, List.cons_append, List.cons.injEq] at h
      exact absurd h.1 hs.1
    | false =>
      simp only [tok, Bool.false_eq_true, if_false, List.cons_append, List.nil_append, List.cons.injEq] at h
      obtain ⟨rfl, h⟩ := h
      obtain ⟨l', h1, h2, h3⟩ := enc_prefix ctq P u v l (fun y hy => hl y (by simp [hy])) hs.2 h
      exact ⟨l', by simp [h1], h2, h3⟩

theorem map_split {f : UInt8 → UInt8} : ∀ {n a b : Bytes}, n.map f = a ++ b → ∃ u v, n = u ++ v ∧ u.map f = a ∧ v.map f = b
  | n, [], b, h => ⟨[], n, rfl, rfl, h⟩
  | [], c :: a, b, h => by simp at h
  | x :: n, c :: a, b, h => by
    simp only [List.map_cons, List.cons_append, List.cons.injEq] at h
    obtain ⟨u, v, rfl, rfl, rfl⟩ := map_split h.2
    exact ⟨x :: u, v, rfl, by simp [h.1], rfl⟩

/-- a name is that of a device if its quoted form is -/
theorem device_of_quoted (ctq : UInt8 → Bool) (et ed : Bool) {n : Bytes} (h : IsDosDevice (quote ctq et ed n)) : IsDosDevice n := by
  obtain ⟨l, h1, h2, h3⟩ := quote_enc ctq et ed n (fun _ => True) (fun _ _ => trivial) (fun _ _ => trivial)
  rw [h1] at h
  obtain ⟨dev, hdev, ext, he, hx⟩ := h
  rw [toLower_eq] at he
  obtain ⟨u, v, huv, hu, hv⟩ := map_split he
  have hs : semi ∉ u := by
    intro hm
    have : semi ∈ dev := by rw [← hu]; exact List.mem_map.2 ⟨semi, hm, rfl⟩
    revert this
    have key : ∀ d ∈ deviceNames, semi ∉ d := by decide +kernel
    exact key dev hdev
  obtain ⟨l', e1, e2, e3⟩ := enc_prefix ctq (fun _ => True) u v l h3 hs huv
  rw [h2] at e1
  refine ⟨dev, hdev, (l'.map Prod.snd).map lower, by rw [toLower_eq, e1, List.map_append, hu], ?_⟩
  rcases hx with rfl | hx
  · left
    have : v = [] := by simpa using hv
    subst this
    cases l' with
    | nil => rfl
    | cons x l' => exact absurd e2 (enc_ne_nil x l')
  · right
    cases v with
    | nil => rw [← hv] at hx; simp at hx
    | cons c v =>
      rw [← hv] at hx
      simp only [List.map_cons, List.head?_cons, Option.some.injEq] at hx
      have hc : c = 46 := by
        revert hx
        exact ofFin (p := fun c => lower c = 46 → c = 46) (by decide +kernel) c
      subst hc
      obtain ⟨l'', f1, -, -⟩ := enc_prefix ctq (fun _ => True) [46] v l' e3 (by decide) e2
      rw [f1]
      rfl

theorem quoteChars_append (ctq : UInt8 → Bool) (a b : Bytes) : quoteChars ctq (a ++ b) = quoteChars ctq a ++ quoteChars ctq b := by
  induction a with
  | nil => rfl
  | cons x a ih => simp [quoteChars, ih]

theorem escDos_last' (p : Bytes) : (escDos p).getLast? = p.getLast? := by
  by_cases h : dosMatch p = true
  · exact escDos_last p h
  · cases p with
    | nil => rfl
    | cons b r => rw [escDos, if_neg h]

/-- no blank or dot at the end -/
theorem quote_last (ctq : UInt8 → Bool) (et ed : Bool) {n : Bytes} (h : n.getLast? ≠ some 32 ∧ n.getLast? ≠ some 46) :
    (quote ctq et ed n).getLast? ≠ some 32 ∧ (quote ctq et ed n).getLast? ≠ some 46 := by
  cases et with
  | true => exact C18.no_trailing ctq ed n
  | false =>
    have e : (quote ctq false ed n).getLast? = (quoteChars ctq n).getLast? := by
      simp only [quote, Bool.false_eq_true, if_false]
      split
      · exact escDos_last' _
      · rfl
    rw [e]
    rcases List.eq_nil_or_concat n with rfl | ⟨i, b, rfl⟩
    · simp [quoteChars]
    · rw [List.concat_eq_append] at h ⊢
      rw [quoteChars_append]
      simp only [quoteChars, List.append_nil]
      split
      · obtain ⟨x, y, z, e1, -, -, d3, -⟩ := esc_digits b
        have h1 : z ≠ 32 := digit_ne d3 (by decide)
        have h2 : z ≠ 46 := digit_ne d3 (by decide)
        rw [e1]
        simp [h1, h2]
      · simpa using h

end Verif.FsQuoting
