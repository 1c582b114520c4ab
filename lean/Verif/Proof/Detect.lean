import Verif.Spec.Detect
import Verif.Proof.FsQuoting
import Mathlib.Tactic.Tauto
import Mathlib.Order.MinMax
import Mathlib.Tactic.Push

namespace Verif.Detect
open Verif Verif.Filenames Verif.FsQuoting Verif.FilenamesSpec

theorem device_prefix {n : Bytes} (h : IsDosDevice n) : (deviceNames.any fun d => d.isPrefixOf (n.map toLower)) = true := by
  obtain ⟨d, hd, ext, he, -⟩ := h
  rw [List.any_eq_true]
  refine ⟨d, hd, ?_⟩
  rw [he, List.isPrefixOf_iff_prefix]
  exact List.prefix_append _ _

theorem not_device {n : Bytes} (h : (deviceNames.any fun d => d.isPrefixOf (n.map toLower)) = false) : ¬ IsDosDevice n := fun hd => by
  rw [device_prefix hd] at h; cases h

theorem device_dot {n : Bytes} (h : IsDosDevice (n ++ [46])) : IsDosDevice n := by
  obtain ⟨d, hd, ext, he, hx⟩ := h
  have hl : ∀ d ∈ deviceNames, d.getLast? ≠ some 46 := by decide
  have e46 : toLower 46 = 46 := by decide
  rw [List.map_append, List.map_cons, List.map_nil, e46] at he
  rcases List.eq_nil_or_concat ext with rfl | ⟨ext', c, rfl⟩
  · exfalso
    rw [List.append_nil] at he
    apply hl d hd
    rw [← he]; simp
  · rw [List.concat_eq_append, ← List.append_assoc] at he
    have h1 := List.append_inj' he rfl
    refine ⟨d, hd, ext', h1.1, ?_⟩
    rcases hx with hx | hx
    · simp at hx
    · cases ext' with
      | nil => exact .inl rfl
      | cons a l => right; simpa using hx

theorem lower_swap (c : UInt8) : toLower (if 65 ≤ c.toNat ∧ c.toNat ≤ 90 then c + 32 else if 97 ≤ c.toNat ∧ c.toNat ≤ 122 then c - 32 else c) = toLower c := by
  have : ∀ n < 256, toLower (if 65 ≤ (UInt8.ofNat n).toNat ∧ (UInt8.ofNat n).toNat ≤ 90 then UInt8.ofNat n + 32
      else if 97 ≤ (UInt8.ofNat n).toNat ∧ (UInt8.ofNat n).toNat ≤ 122 then UInt8.ofNat n - 32 else UInt8.ofNat n) = toLower (UInt8.ofNat n) := by decide +kernel
  have h := this c.toNat c.toNat_lt
  rwa [UInt8.ofNat_toNat] at h

theorem swapcase_lower (n : Bytes) : (swapcase n).map toLower = n.map toLower := by
  unfold swapcase
  rw [List.map_map]
  apply List.map_congr_left
  intro c _
  exact lower_swap c

/-- the other way round -/
theorem swap_bytes (c : UInt8) : let c' := if 65 ≤ c.toNat ∧ c.toNat ≤ 90 then c + 32 else if 97 ≤ c.toNat ∧ c.toNat ≤ 122 then c - 32 else c
    (c' = 32 ∨ c' = 46 ↔ c = 32 ∨ c = 46) ∧ (32 ≤ c.toNat ∧ c.toNat < 128 → 32 ≤ c'.toNat ∧ c'.toNat < 128) ∧
    (c' ∈ ([34, 42, 47, 58, 60, 62, 63, 92, 124, 127] : List UInt8) → c ∈ ([34, 42, 47, 58, 60, 62, 63, 92, 124, 127] : List UInt8)) ∧ (32 ≤ c.toNat → 32 ≤ c'.toNat) := by
  have : ∀ n < 256, let c := UInt8.ofNat n
    let c' := if 65 ≤ c.toNat ∧ c.toNat ≤ 90 then c + 32 else if 97 ≤ c.toNat ∧ c.toNat ≤ 122 then c - 32 else c
    (c' = 32 ∨ c' = 46 ↔ c = 32 ∨ c = 46) ∧ (32 ≤ c.toNat ∧ c.toNat < 128 → 32 ≤ c'.toNat ∧ c'.toNat < 128) ∧
    (c' ∈ ([34, 42, 47, 58, 60, 62, 63, 92, 124, 127] : List UInt8) → c ∈ ([34, 42, 47, 58, 60, 62, 63, 92, 124, 127] : List UInt8)) ∧ (32 ≤ c.toNat → 32 ≤ c'.toNat) := by
    decide +kernel
  have h := this c.toNat c.toNat_lt
  rwa [UInt8.ofNat_toNat] at h

theorem swap_usable {f : Fsa} {n : Bytes} (h : Usable f n) : Usable f (swapcase n) := by
  constructor
  · intro hd hdev
    apply h.device hd
    obtain ⟨d, h1, ext, h2, h3⟩ := hdev
    rw [swapcase_lower] at h2
    exact ⟨d, h1, ext, h2, h3⟩
  · intro ht
    have := h.trailing ht
    unfold swapcase
    rw [List.getLast?_map]
    cases hn : n.getLast? with
    | none => simp
    | some c =>
      rw [hn] at this
      have hc := (swap_bytes c).1
      simp only [Option.map_some, ne_eq, Option.some.injEq] at this ⊢
      tauto
  · intro he b hb
    obtain ⟨c, hc, rfl⟩ := List.mem_map.mp hb
    exact (swap_bytes c).2.1 (h.ascii he c hc)
  · intro hr b hb
    obtain ⟨c, hc, rfl⟩ := List.mem_map.mp hb
    exact ⟨fun hm => (h.reserved hr c hc).1 ((swap_bytes c).2.2.1 hm), fun hx => (swap_bytes c).2.2.2 ((h.reserved hr c hc).2 hx)⟩

end Verif.Detect
