import Verif.Model.StatsChoice
import Verif.Props.C22
import Mathlib.Order.MinMax
import Mathlib.Data.List.Sort

/-!
C68 (chosen times): statistics between two times are made of exactly the backups between these times.

Specification: `Record`, `Holds` below. The model: `Verif.StatsChoice.chosen`.
-/

namespace Verif.C68
open Verif.StatsChoice Verif.IncName Verif.C22

/-- A backup as far as its statistics files go: its time, the time zone and format in which it was written, whether there are statistics of files (`--no-file-statistics`) and
whether these are compressed. -/
structure Record where
  t : Int
  compat : Bool
  off : Int
  files : Bool
  gz : Bool

/-- RS 713-715, 1622-1625: the names of both files -/
def Record.session (r : Record) : List Char := incName r.compat r.off "session_statistics".toList r.t .data false
def Record.file (r : Record) : List Char := incName r.compat r.off "file_statistics".toList r.t .data r.gz

/-- The data directory has the statistics files of these backups, the first one first; whatever else is in it isn't read as one. -/
structure Holds (dir : List (List Char)) (recs : List Record) : Prop where
  order : recs.Pairwise fun a b => a.t < b.t
  readable : ∀ r ∈ recs, Readable r.off r.t
  session : ∀ r ∈ recs, r.session ∈ dir
  file : ∀ r ∈ recs, r.files = true → r.file ∈ dir
  noSession : ∀ n ∈ dir, ∀ i, parseIncName n = some i → i.base = "session_statistics".toList → ∃ r ∈ recs, n = r.session
  noFile : ∀ n ∈ dir, ∀ i, parseIncName n = some i → i.base = "file_statistics".toList → ∃ r ∈ recs, r.files = true ∧ n = r.file

/-- between the times given, both of them included -/
def Within (b e : Option Int) (t : Int) : Prop := (∀ x, b = some x → x ≤ t) ∧ (∀ x, e = some x → t ≤ x)

instance (b e t) : Decidable (Within b e t) :=
  match b, e with
  | none, none => isTrue ⟨by simp, by simp⟩
  | some x, none => if h : x ≤ t then isTrue ⟨by simpa using h, by simp⟩ else isFalse fun k => h (k.1 x rfl)
  | none, some y => if h : t ≤ y then isTrue ⟨by simp, by simpa using h⟩ else isFalse fun k => h (k.2 y rfl)
  | some x, some y => if h : x ≤ t ∧ t ≤ y then isTrue ⟨by simpa using h.1, by simpa using h.2⟩ else isFalse fun k => h ⟨k.1 x rfl, k.2 y rfl⟩

theorem nodup_eraseDups {α : Type} [DecidableEq α] : ∀ (n : Nat) (l : List α), l.length ≤ n → l.eraseDups.Nodup := by
  intro n
  induction n with
  | zero => intro l hl; obtain rfl : l = [] := List.eq_nil_of_length_eq_zero (by omega); simp
  | succ n ih =>
      intro l hl
      cases l with
      | nil => simp
      | cons a l =>
          rw [List.eraseDups_cons, List.nodup_cons]
          have hlen := List.length_filter_le (fun b => !b == a) l
          simp only [List.length_cons] at hl
          exact ⟨by simp [List.mem_eraseDups], ih _ (by omega)⟩

theorem time_session {r : Record} (h : Readable r.off r.t) : incTime r.session = some r.t := by
  rw [incTime, Record.session, name_roundtrip_partial _ _ _ _ _ _ h]; rfl
theorem time_file {r : Record} (h : Readable r.off r.t) : incTime r.file = some r.t := by
  rw [incTime, Record.file, name_roundtrip_partial _ _ _ _ _ _ h]; rfl

theorem mem_session {dir recs} (h : Holds dir recs) (b e : Option Int) (n : List Char) :
    n ∈ incfilesList dir sessionBase b e ↔ ∃ r ∈ recs, Within b e r.t ∧ n = r.session := by
  constructor
  · intro hn
    obtain ⟨hd, gz, t, ty, hp, h1, h2⟩ := lookup_sound hn
    obtain ⟨r, hr, rfl⟩ := h.noSession n hd _ hp rfl
    have := time_session (h.readable r hr)
    rw [incTime, hp] at this
    simp only [Option.map_some, Option.some.injEq] at this
    subst this
    exact ⟨r, hr, ⟨h1, h2⟩, rfl⟩
  · rintro ⟨r, hr, hw, rfl⟩
    exact (lookup_exact dir sessionBase _ b e _ _ _ _ _ (h.readable r hr) (h.session r hr)).mpr ⟨rfl, hw⟩

theorem mem_file {dir recs} (h : Holds dir recs) (b e : Option Int) (n : List Char) :
    n ∈ incfilesList dir fileBase b e ↔ ∃ r ∈ recs, r.files = true ∧ Within b e r.t ∧ n = r.file := by
  constructor
  · intro hn
    obtain ⟨hd, gz, t, ty, hp, h1, h2⟩ := lookup_sound hn
    obtain ⟨r, hr, hf, rfl⟩ := h.noFile n hd _ hp rfl
    have := time_file (h.readable r hr)
    rw [incTime, hp] at this
    simp only [Option.map_some, Option.some.injEq] at this
    subst this
    exact ⟨r, hr, hf, ⟨h1, h2⟩, rfl⟩
  · rintro ⟨r, hr, hf, hw, rfl⟩
    exact (lookup_exact dir fileBase _ b e _ _ _ _ _ (h.readable r hr) (h.file r hr hf)).mpr ⟨rfl, hw⟩

theorem same_time {recs : List Record} (h : recs.Pairwise fun a b => a.t < b.t) {r r' : Record} (hr : r ∈ recs) (hr' : r' ∈ recs) (ht : r.t = r'.t) : r = r' := by
  induction h with
  | nil => cases hr
  | cons ha _ ih =>
      rcases List.mem_cons.mp hr with h1 | h1 <;> rcases List.mem_cons.mp hr' with h2 | h2
      · rw [h1, h2]
      · have := ha _ h2; rw [← h1] at this; omega
      · have := ha _ h1; rw [← h2] at this; omega
      · exact ih h1 h2

theorem getLast_all {α : Type} {l : List α} {a : α} (ha : a ∈ l) (h : ∀ x ∈ l, x = a) : l.getLast? = some a := by
  cases hl : l.getLast? with
  | none => rw [List.getLast?_eq_none_iff] at hl; rw [hl] at ha; cases ha
  | some x => rw [h x (List.mem_of_getLast? hl)]

/-- **C68 (chosen times).** With any directory which holds the statistics of the backups made, the statistics between any two times are made from exactly the backups which are
between these times (both included) and have statistics of files, each once, in the order of the backups, the file of the session with the one of the files of the same backup. -/
theorem chosen_exact {dir : List (List Char)} {recs : List Record} (h : Holds dir recs) (b e : Option Int) :
    chosen dir b e = (recs.filter fun r => r.files && decide (Within b e r.t)).map fun r => (r.session, r.file) := by
  have hk1 : ∀ t, t ∈ keysOf (incfilesList dir sessionBase b e) ↔ ∃ r ∈ recs, Within b e r.t ∧ r.t = t := by
    intro t
    simp only [keysOf, List.mem_eraseDups, List.mem_filterMap, mem_session h b e]
    constructor
    · rintro ⟨n, ⟨r, hr, hw, rfl⟩, ht⟩
      rw [time_session (h.readable r hr)] at ht
      exact ⟨r, hr, hw, Option.some.inj ht⟩
    · rintro ⟨r, hr, hw, rfl⟩
      exact ⟨_, ⟨r, hr, hw, rfl⟩, time_session (h.readable r hr)⟩
  have hk2 : ∀ t, t ∈ keysOf (incfilesList dir fileBase b e) ↔ ∃ r ∈ recs, r.files = true ∧ Within b e r.t ∧ r.t = t := by
    intro t
    simp only [keysOf, List.mem_eraseDups, List.mem_filterMap, mem_file h b e]
    constructor
    · rintro ⟨n, ⟨r, hr, hf, hw, rfl⟩, ht⟩
      rw [time_file (h.readable r hr)] at ht
      exact ⟨r, hr, hf, hw, Option.some.inj ht⟩
    · rintro ⟨r, hr, hf, hw, rfl⟩
      exact ⟨_, ⟨r, hr, hf, hw, rfl⟩, time_file (h.readable r hr)⟩
  set sel := recs.filter fun r => r.files && decide (Within b e r.t) with hsel
  have hselmem : ∀ r, r ∈ sel ↔ r ∈ recs ∧ r.files = true ∧ Within b e r.t := by
    intro r; simp [hsel]
  have hkeys : ((keysOf (incfilesList dir sessionBase b e)).filter fun t => (keysOf (incfilesList dir fileBase b e)).contains t).mergeSort (fun a b => a ≤ b) =
      sel.map (·.t) := by
    apply List.Perm.eq_of_pairwise (le := fun a b : Int => a ≤ b) (fun a b _ _ h1 h2 => by omega)
    · have := List.pairwise_mergeSort (le := fun a b : Int => decide (a ≤ b)) (by intro a b c; simp; omega) (by intro a b; simp; omega)
        ((keysOf (incfilesList dir sessionBase b e)).filter fun t => (keysOf (incfilesList dir fileBase b e)).contains t)
      simpa using this
    · rw [List.pairwise_map]
      exact (h.order.sublist List.filter_sublist).imp fun h => by omega
    · refine (List.mergeSort_perm _ _).trans ?_
      rw [List.perm_ext_iff_of_nodup]
      · intro t
        simp only [List.mem_filter, List.contains_iff_mem, hk1, hk2, List.mem_map, hselmem]
        constructor
        · rintro ⟨_, r, hr, hf, hw, rfl⟩; exact ⟨r, ⟨hr, hf, hw⟩, rfl⟩
        · rintro ⟨r, ⟨hr, hf, hw⟩, rfl⟩; exact ⟨⟨r, hr, hw, rfl⟩, r, hr, hf, hw, rfl⟩
      · exact (nodup_eraseDups _ _ (Nat.le_refl _)).filter _
      · have : sel.Pairwise fun a b => a.t < b.t := h.order.sublist List.filter_sublist
        rw [List.Nodup, List.pairwise_map]
        exact this.imp fun h => by omega
  have hd1 : ∀ r ∈ sel, dictOf (incfilesList dir sessionBase b e) r.t = some r.session := by
    intro r hr
    obtain ⟨hr, hf, hw⟩ := (hselmem r).mp hr
    apply getLast_all
    · simp only [List.mem_filter, decide_eq_true_eq]
      exact ⟨(mem_session h b e _).mpr ⟨r, hr, hw, rfl⟩, time_session (h.readable r hr)⟩
    · intro n hn
      simp only [List.mem_filter, decide_eq_true_eq] at hn
      obtain ⟨r', hr', _, rfl⟩ := (mem_session h b e n).mp hn.1
      have ht := hn.2
      rw [time_session (h.readable r' hr')] at ht
      rw [same_time h.order hr' hr (Option.some.inj ht)]
  have hd2 : ∀ r ∈ sel, dictOf (incfilesList dir fileBase b e) r.t = some r.file := by
    intro r hr
    obtain ⟨hr, hf, hw⟩ := (hselmem r).mp hr
    apply getLast_all
    · simp only [List.mem_filter, decide_eq_true_eq]
      exact ⟨(mem_file h b e _).mpr ⟨r, hr, hf, hw, rfl⟩, time_file (h.readable r hr)⟩
    · intro n hn
      simp only [List.mem_filter, decide_eq_true_eq] at hn
      obtain ⟨r', hr', _, _, rfl⟩ := (mem_file h b e n).mp hn.1
      have ht := hn.2
      rw [time_file (h.readable r' hr')] at ht
      rw [same_time h.order hr' hr (Option.some.inj ht)]
  rw [chosen, combinedPairs, hkeys, List.filterMap_map]
  clear hkeys hselmem hsel
  revert hd1 hd2
  generalize sel = sel
  intro hd1 hd2
  induction sel with
  | nil => rfl
  | cons r l ih =>
      simp only [List.filterMap_cons, Function.comp_apply, List.map_cons]
      rw [hd1 r (by simp), hd2 r (by simp)]
      simp only [List.cons.injEq, true_and]
      exact ih (fun r hr => hd1 r (by simp [hr])) (fun r hr => hd2 r (by simp [hr]))

/-- three backups, the second without statistics of files, and other files in the directory -/
def recs0 : List Record := [⟨1019820121, false, 0, true, true⟩, ⟨1019820122, false, 0, false, false⟩, ⟨1019820123, false, 60, true, false⟩]
def dir0 : List (List Char) :=
  ["backup.log".toList] ++ recs0.map (·.session) ++ ["session_statistics".toList] ++ (recs0.filter (·.files)).map (·.file) ++
    [incName false 0 "mirror_metadata".toList 1019820121 .diff true]

theorem holds0 : Holds dir0 recs0 := by
  have hp : ∀ n ∈ dir0, (∀ i, parseIncName n = some i → i.base = "session_statistics".toList → ∃ r ∈ recs0, n = r.session) ∧
      (∀ i, parseIncName n = some i → i.base = "file_statistics".toList → ∃ r ∈ recs0, r.files = true ∧ n = r.file) := by
    have : ∀ n ∈ dir0, ((parseIncName n).all fun i => !(i.base == "session_statistics".toList) || recs0.any fun r => n == r.session) = true ∧
        ((parseIncName n).all fun i => !(i.base == "file_statistics".toList) || recs0.any fun r => r.files && n == r.file) = true := by decide +kernel
    intro n hn
    obtain ⟨h1, h2⟩ := this n hn
    constructor
    · intro i hi hb
      rw [hi] at h1
      simpa [hb] using h1
    · intro i hi hb
      rw [hi] at h2
      simpa [hb] using h2
  refine ⟨by decide +kernel, ?_, by decide +kernel, by decide +kernel, fun n hn => (hp n hn).1, fun n hn => (hp n hn).2⟩
  intro r hr
  simp only [recs0, List.mem_cons, List.not_mem_nil, or_false] at hr
  rcases hr with rfl | rfl | rfl <;> exact ⟨by decide, by decide, by decide, .inl (by decide)⟩

example : chosen dir0 (some 1019820121) none = [(recs0[0].session, recs0[0].file), (recs0[2].session, recs0[2].file)] := by
  rw [chosen_exact holds0]; rfl

end Verif.C68
