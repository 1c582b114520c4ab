import Verif.Proof.Filenames
import Verif.Spec.Filenames
/-
C17  Repository file-name quoting is reversible.
C18  Trailing-space and DOS-device escaping is reversible and effective.
-/
namespace Verif.C17
open Verif.Filenames Verif.FilenamesSpec

/-- Unquoting a written name gives back the original name, for every set of characters to
quote consisting of 7-bit characters, every file name and every setting of the two escapes.
Partial: the restriction to 7-bit characters cannot be dropped, see `not_unquote_quote`. -/
theorem unquote_quote_partial (ctq : UInt8 → Bool) (escapeTrailing escapeDos : Bool) (p : Bytes)
    (h7 : ∀ b, ctq b = true → b.toNat < 128) :
    unquote (quote ctq escapeTrailing escapeDos p) = p := by
  obtain ⟨l, h1, h2, h3⟩ := quote_enc ctq escapeTrailing escapeDos p (fun b => b.toNat < 128)
    h7 (fun _ h => h)
  rw [h1, unquote_enc ctq l h3, h2]

/-- The full statement is false of the code: with the range `\200-\377` that
`fs_abilities.py:996` adds for file systems without extended file names, the name
consisting of the single byte 200 is read back as two bytes. -/
theorem not_unquote_quote : ¬ ∀ (ctq : UInt8 → Bool) (p : Bytes),
    unquote (quote ctq false false p) = p := by
  intro h
  have := h (fun b => decide (128 ≤ b.toNat)) [200]
  revert this
  decide

/-- Names written never collide, whatever set of characters is quoted (no restriction). -/
theorem quote_injective (ctq : UInt8 → Bool) (escapeTrailing escapeDos : Bool) {p q : Bytes}
    (h : quote ctq escapeTrailing escapeDos p = quote ctq escapeTrailing escapeDos q) : p = q := by
  obtain ⟨l, h1, h2, h3⟩ := quote_enc ctq escapeTrailing escapeDos p (fun _ => True)
    (fun _ _ => trivial) (fun _ _ => trivial)
  obtain ⟨l', h1', h2', h3'⟩ := quote_enc ctq escapeTrailing escapeDos q (fun _ => True)
    (fun _ _ => trivial) (fun _ _ => trivial)
  rw [h1, h1'] at h
  rw [← h2, ← h2']
  exact enc_injective ctq l l' h3 h3' h

/-- The names written contain none of the characters to quote (except that the escape
sequences themselves are made of `;` and digits). -/
theorem quote_avoids (ctq : UInt8 → Bool) (escapeTrailing escapeDos : Bool) (p : Bytes) :
    ∀ c ∈ quote ctq escapeTrailing escapeDos p, ctq c = true → escapeSyntax c := by
  obtain ⟨l, h1, -, h3⟩ := quote_enc ctq escapeTrailing escapeDos p (fun _ => True)
    (fun _ _ => trivial) (fun _ _ => trivial)
  rw [h1]
  intro c hc hq
  rcases mem_enc hc with h | h | h
  · exact .inl h
  · right; simpa [isDigit] using h
  · have := ((h3 _ h).1 rfl).1
    simp [hq] at this

-- upper case letters and ':' quoted, a name with an escape-looking part: "A;0"
example : (∀ b : UInt8, (65 ≤ b.toNat && b.toNat ≤ 90 || b == 58) = true → b.toNat < 128) := by
  intro b h
  simp at h
  rcases h with h | h
  · omega
  · subst h; decide
example : quote (fun b => 65 ≤ b.toNat && b.toNat ≤ 90 || b == 58) true true [65, 59, 48] =
    [59, 48, 54, 53, 59, 48, 53, 57, 48] := by decide
example : unquote [59, 48, 54, 53, 59, 48, 53, 57, 48] = [65, 59, 48] := by decide

end Verif.C17

namespace Verif.C18
open Verif.Filenames Verif.FilenamesSpec

/-- With the escaping of trailing spaces, no written name ends in a blank or a period. -/
theorem no_trailing (ctq : UInt8 → Bool) (escapeDos : Bool) (p : Bytes) :
    (quote ctq true escapeDos p).getLast? ≠ some 32 ∧
    (quote ctq true escapeDos p).getLast? ≠ some 46 := by
  simp only [quote, if_true]
  cases escapeDos with
  | false => simpa using escTrailing_last _
  | true =>
    by_cases hd : dosMatch (escTrailing (quoteChars ctq p)) = true
    · simp only [if_true, escDos_last _ hd]
      exact escTrailing_last _
    · have : escDos (escTrailing (quoteChars ctq p)) = escTrailing (quoteChars ctq p) := by
        generalize escTrailing (quoteChars ctq p) = q at *
        cases q with
        | nil => rfl
        | cons b r => rw [escDos, if_neg hd]
      simp only [if_true, this]
      exact escTrailing_last _

theorem dosMatch_of_device {p : Bytes} (h : IsDosDevice p) : dosMatch p = true := by
  obtain ⟨dev, hdev, ext, he, hx⟩ := h
  have hl : ∀ b, toLower b = lower b := fun _ => rfl
  have hl' : (toLower : UInt8 → UInt8) = lower := rfl
  have hdig : ∀ (d : UInt8) (v : UInt8), lower d = v → 48 ≤ v.toNat → v.toNat ≤ 57 → d = v := by
    intro d v h h1 h2
    unfold lower at h
    split at h
    · next hh =>
      exfalso
      have : (d + 32).toNat = v.toNat := by rw [h]
      rw [UInt8.toNat_add] at this
      have h32 : (32 : UInt8).toNat = 32 := rfl
      omega
    · exact h
  have hdot : ∀ d, lower d = 46 → d = 46 := by
    intro d h
    unfold lower at h
    split at h
    · next hh =>
      exfalso
      have : (d + 32).toNat = (46 : UInt8).toNat := by rw [h]
      rw [UInt8.toNat_add] at this
      have h32 : (32 : UInt8).toNat = 32 := rfl
      have h46 : (46 : UInt8).toNat = 46 := rfl
      omega
    · exact h
  rw [hl'] at he
  -- the part after the device name
  have tail : ∀ r : Bytes, r.map lower = ext →
      (match r with | [] => true | c :: r => c == 46 || (c == 10 && r == [])) = true := by
    intro r hr
    cases r with
    | nil => rfl
    | cons c r =>
      rcases hx with h | h
      · rw [h] at hr; simp at hr
      · rw [← hr] at h
        simp only [List.map_cons, List.head?_cons, Option.some.injEq] at h
        simp [hdot c h]
  have fin : ∀ r : Bytes, r.map lower = ext → dosPrefix p = some r → dosMatch p = true := by
    intro r hr hp
    unfold dosMatch
    rw [hp]
    have := tail r hr
    cases r with
    | nil => rfl
    | cons c r => exact this
  simp only [deviceNames, List.mem_cons, List.not_mem_nil, or_false] at hdev
  match p, he with
  | [], he => rcases hdev with h | h | h | h | h | h | h | h | h | h | h | h | h | h | h | h | h | h | h | h | h | h | h <;> (subst h; simp at he)
  | [_], he => rcases hdev with h | h | h | h | h | h | h | h | h | h | h | h | h | h | h | h | h | h | h | h | h | h | h <;> (subst h; simp at he)
  | [_, _], he => rcases hdev with h | h | h | h | h | h | h | h | h | h | h | h | h | h | h | h | h | h | h | h | h | h | h <;> (subst h; simp at he)
  | a :: b :: c :: r, he =>
    rcases hdev with h | h | h | h | h
    · subst h; simp only [List.map_cons, List.cons_append, List.nil_append, List.cons.injEq] at he
      obtain ⟨ha, hb, hc, hr⟩ := he
      exact fin r hr (by simp [dosPrefix, ha, hb, hc])
    · subst h; simp only [List.map_cons, List.cons_append, List.nil_append, List.cons.injEq] at he
      obtain ⟨ha, hb, hc, hr⟩ := he
      exact fin r hr (by simp [dosPrefix, ha, hb, hc])
    · subst h; simp only [List.map_cons, List.cons_append, List.nil_append, List.cons.injEq] at he
      obtain ⟨ha, hb, hc, hr⟩ := he
      exact fin r hr (by simp [dosPrefix, ha, hb, hc])
    · subst h; simp only [List.map_cons, List.cons_append, List.nil_append, List.cons.injEq] at he
      obtain ⟨ha, hb, hc, hr⟩ := he
      exact fin r hr (by simp [dosPrefix, ha, hb, hc])
    · cases r with
      | nil =>
        exfalso
        rcases h with h | h | h | h | h | h | h | h | h | h | h | h | h | h | h | h | h | h | h <;>
          (subst h; simp at he)
      | cons d r =>
        rcases h with h | h | h | h | h | h | h | h | h | h | h | h | h | h | h | h | h | h | h <;>
          (subst h
           simp only [List.map_cons, List.cons_append, List.nil_append, List.cons.injEq] at he
           obtain ⟨ha, hb, hc, hd, hr⟩ := he
           have hd := hdig d _ hd (by decide) (by decide)
           subst hd
           exact fin r hr (by simp [dosPrefix, ha, hb, hc]))

/-- With the escaping of DOS devices, no written name is a DOS device name. -/
theorem no_dos_device (ctq : UInt8 → Bool) (escapeTrailing : Bool) (p : Bytes) :
    ¬ IsDosDevice (quote ctq escapeTrailing true p) := by
  intro h
  have hd := dosMatch_of_device h
  have e : quote ctq escapeTrailing true p =
      escDos (if escapeTrailing then escTrailing (quoteChars ctq p) else quoteChars ctq p) := by
    simp [quote]
  rw [e] at hd
  generalize (if escapeTrailing then escTrailing (quoteChars ctq p) else quoteChars ctq p) = q at hd
  cases q with
  | nil => simp [escDos, dosMatch, dosPrefix] at hd
  | cons b r =>
    rw [escDos] at hd
    split at hd
    · exact (dosMatch_head (a := semi) hd).1 rfl
    · next hn => exact hn hd

/-- what may follow a device name -/
def tl : Bytes → Bool
  | [] => true
  | c :: r => c == 46 || (c == 10 && r == [])

/-- a name is taken for a device only if it is one (or a device name and a line feed) -/
theorem device_of_dosMatch {p : Bytes} (h : dosMatch p = true) : IsDosDevice p ∨ ∃ q, p = q ++ [10] ∧ IsDosDevice q := by
  have hl' : FilenamesSpec.toLower = lower := by funext b; rfl
  have hdig : ∀ d : UInt8, 48 ≤ d.toNat → d.toNat ≤ 57 → lower d = d := fun d h1 h2 => by
    rw [lower, if_neg (by omega)]
  have fin : ∀ q r dev : Bytes, p = q ++ r → q.map lower = dev → dev ∈ deviceNames →
      tl r = true → IsDosDevice p ∨ ∃ q, p = q ++ [10] ∧ IsDosDevice q := by
    rintro q r dev rfl hq hdev hr
    cases r with
    | nil => exact .inl ⟨dev, hdev, [], by rw [hl', List.append_nil, hq, List.append_nil], .inl rfl⟩
    | cons c r =>
      simp only [tl, Bool.or_eq_true, Bool.and_eq_true, beq_iff_eq] at hr
      rcases hr with rfl | ⟨rfl, rfl⟩
      · exact .inl ⟨dev, hdev, (46 :: r).map lower, by rw [hl', List.map_append, hq], .inr rfl⟩
      · exact .inr ⟨q, rfl, dev, hdev, [], by rw [hl', hq, List.append_nil], .inl rfl⟩
  unfold dosMatch at h
  cases hp : dosPrefix p with
  | none => rw [hp] at h; simp at h
  | some r =>
    rw [hp] at h
    have hr : tl r = true := by
      cases r with
      | nil => rfl
      | cons c r => exact h
    unfold dosPrefix at hp
    split at hp
    · next a b c s =>
      simp only at hp
      split at hp
      · next hw =>
        cases hp
        exact fin [a, b, c] _ [lower a, lower b, lower c] rfl rfl (by
          rcases hw with h | h | h | h <;> rw [h] <;> decide) hr
      · split at hp
        · next _ d s' =>
          have key : ∀ (u v w : UInt8), [lower a, lower b, lower c] = [u, v, w] → 48 ≤ d.toNat → d.toNat ≤ 57 → r = s' → [u, v, w, d] ∈ deviceNames →
              IsDosDevice (a :: b :: c :: d :: s') ∨ ∃ q, a :: b :: c :: d :: s' = q ++ [10] ∧ IsDosDevice q := by
            rintro u v w huvw h1 h2 rfl hm
            refine fin [a, b, c, d] _ [u, v, w, d] rfl ?_ hm hr
            simp only [List.cons.injEq, and_true] at huvw
            simp only [List.map_cons, List.map_nil, huvw.1, huvw.2.1, huvw.2.2, hdig d h1 h2]
          have hofNat : ∀ d : UInt8, d = UInt8.ofNat d.toNat := fun d => by simp
          split at hp
          · next hc =>
            cases hp
            refine key _ _ _ hc.1 hc.2.1 hc.2.2 rfl ?_
            have : ∀ n : Fin 256, 48 ≤ n.val → n.val ≤ 57 → [99, 111, 109, UInt8.ofNat n.val] ∈ deviceNames := by decide +kernel
            have := this ⟨d.toNat, UInt8.toNat_lt d⟩ hc.2.1 hc.2.2
            rwa [← hofNat] at this
          · split at hp
            · next hc =>
              cases hp
              refine key _ _ _ hc.1 (by omega) hc.2.2 rfl ?_
              have : ∀ n : Fin 256, 49 ≤ n.val → n.val ≤ 57 → [108, 112, 116, UInt8.ofNat n.val] ∈ deviceNames := by decide +kernel
              have := this ⟨d.toNat, UInt8.toNat_lt d⟩ hc.2.1 hc.2.2
              rwa [← hofNat] at this
            · cases hp
        · cases hp
    · cases hp

/-- Other names are not changed by the escaping of DOS devices. -/
theorem others_unchanged (ctq : UInt8 → Bool) (escapeTrailing : Bool) (p : Bytes) (h : ¬ IsDosDevice (quote ctq escapeTrailing false p))
    (h' : ∀ q, quote ctq escapeTrailing false p = q ++ [10] → ¬ IsDosDevice q) : quote ctq escapeTrailing true p = quote ctq escapeTrailing false p := by
  have e : quote ctq escapeTrailing true p = escDos (quote ctq escapeTrailing false p) := by simp [quote]
  rw [e]
  generalize quote ctq escapeTrailing false p = q at h h'
  cases q with
  | nil => rfl
  | cons b r =>
    rw [escDos, if_neg]
    intro hd
    rcases device_of_dosMatch hd with hd | ⟨q, hq, hd⟩
    · exact h hd
    · exact h' q hq hd

/-- ... and with both escapes on, unquoting still gives back the original name. -/
theorem unquote_quote (ctq : UInt8 → Bool) (p : Bytes) (h7 : ∀ b, ctq b = true → b.toNat < 128) :
    unquote (quote ctq true true p) = p :=
  C17.unquote_quote_partial ctq true true p h7

-- "com:" isn't one
example : quote (fun _ => false) true true [99, 111, 109, 58] = [99, 111, 109, 58] := by
  have hn : ∀ q : Bytes, q.length = 4 → q.map FilenamesSpec.toLower = [99, 111, 109, 58] → ¬ IsDosDevice q := by
    rintro q - hq ⟨dev, hdev, ext, he, hx⟩
    rw [hq] at he
    simp only [deviceNames, List.mem_cons, List.not_mem_nil, or_false] at hdev
    rcases hdev with h | h | h | h | h | h | h | h | h | h | h | h | h | h | h | h | h | h | h | h | h | h | h <;> subst h <;> simp at he
  exact others_unchanged (fun _ => false) true [99, 111, 109, 58] (hn _ rfl rfl) (fun q hq => by
    have h10 := congrArg List.getLast? hq
    rw [show quote (fun _ => false) true false [99, 111, 109, 58] = [99, 111, 109, 58] by decide] at h10
    simp at h10)
-- "AuX.txt " : device name with extension and trailing blank (nothing else quoted)
example : quote (fun _ => false) true true [65, 117, 88, 46, 116, 32] =
    [59, 48, 54, 53, 117, 88, 46, 116, 59, 48, 51, 50] := by decide
example : IsDosDevice [65, 117, 88, 46, 116] :=
  ⟨[97, 117, 120], by decide, [46, 116], by decide, by decide⟩

end Verif.C18
