import Verif.Model.PermChanger
import Verif.Proof.Index
import Mathlib.Order.MinMax
import Mathlib.Data.List.Infix
/-
C43: permissions which were relaxed to read files are put back.
-/
namespace Verif.C43
open Verif Verif.PermChanger
variable {α : Type} [LinearOrder α]

/-! ## Whatever is accessed in whatever order -/

/-- setting everything back -/
def undo (fs : FS α) (l : List (List α × Nat)) : FS α := l.foldl (fun fs e => setPerms fs e.1 e.2) fs

theorem chmod_eq {fs fs' : FS α} {p : List α} {n : Nat} (h : chmod fs p n = some fs') : fs' = setPerms fs p n := by
  simp only [chmod] at h
  split at h
  · split at h
    · cases h; rfl
    · cases h
  · cases h

omit [LinearOrder α] in
theorem lstat_eq {fs : FS α} {p : List α} {f : File} (h : lstat fs p = some (some f)) : fs p = some f := by
  simp only [lstat] at h
  split at h
  · simpa using h
  · split at h
    · split at h <;> cases h
    · cases h

theorem restoreOld_undo {index : List α} {fs fs' : FS α} {l l' : List (List α × Nat)} (h : restoreOld index fs l = some (fs', l')) :
    undo fs' l' = undo fs l := by
  induction l generalizing fs with
  | nil => simp only [restoreOld, Option.some.injEq, Prod.mk.injEq] at h; rw [← h.1, ← h.2]
  | cons e l ih =>
    simp only [restoreOld] at h
    split at h
    · split at h
      · cases h
      · next fs1 h1 => rw [ih h, chmod_eq h1]; rfl
    · simp only [Option.some.injEq, Prod.mk.injEq] at h; rw [← h.1, ← h.2]

theorem setPerms_back {fs : FS α} {p : List α} {f : File} {n : Nat} (h : fs p = some f) : setPerms (setPerms fs p n) p f.perms = fs := by
  funext q
  simp only [setPerms]
  split
  · next e => subst e; simp [h]
  · rfl

theorem addOne_undo {fs fs' : FS α} {l l' : List (List α × Nat)} {p : List α} (h : addOne fs l p = some (fs', l')) :
    undo fs' l' = undo fs l := by
  simp only [addOne] at h
  split at h
  · cases h
  · simp only [Option.some.injEq, Prod.mk.injEq] at h; rw [← h.1, ← h.2]
  · next f hf =>
    split at h
    · split at h
      · cases h
      · next fs1 h1 =>
        simp only [Option.some.injEq, Prod.mk.injEq] at h
        rw [← h.1, ← h.2, chmod_eq h1]
        simp only [undo, List.foldl_cons]
        rw [setPerms_back (lstat_eq hf)]
    · simp only [Option.some.injEq, Prod.mk.injEq] at h; rw [← h.1, ← h.2]

theorem addAll_undo {fs fs' : FS α} {l l' : List (List α × Nat)} {ps : List (List α)} (h : addAll fs l ps = some (fs', l')) :
    undo fs' l' = undo fs l := by
  induction ps generalizing fs l with
  | nil => simp only [addAll, Option.some.injEq, Prod.mk.injEq] at h; rw [← h.1, ← h.2]
  | cons p ps ih =>
    simp only [addAll] at h
    split at h
    · cases h
    · next fs1 l1 h1 => rw [ih h, addOne_undo h1]

theorem callAll_undo {st st' : St α} {is : List (List α)} (h : callAll st is = some st') : undo st'.fs st'.opened = undo st.fs st.opened := by
  induction is generalizing st with
  | nil => cases h; rfl
  | cons i is ih =>
    simp only [callAll] at h
    split at h
    · cases h
    · next st1 h1 =>
      rw [ih h]
      simp only [call] at h1
      split at h1
      · cases h1; rfl
      · split at h1
        · cases h1
        · next fs2 l2 h2 =>
          split at h1
          · cases h1
          · next fs3 l3 h3 =>
            cases h1
            rw [addAll_undo h3, restoreOld_undo h2]

theorem finish_undo {fs fs' : FS α} {l : List (List α × Nat)} (h : finish fs l = some fs') : fs' = undo fs l := by
  induction l generalizing fs with
  | nil => cases h; rfl
  | cons e l ih =>
    simp only [finish] at h
    split at h
    · cases h
    · next fs1 h1 => rw [ih h, chmod_eq h1]; rfl

/-- **C43**: after any calls, for any files in any order, if none of them fails and the final clean-up doesn't either, all files have
the permissions that they had at the beginning. -/
theorem all_restored {fs fs' : FS α} {is : List (List α)} {st : St α} (h : callAll { fs := fs } is = some st)
    (h' : finish st.fs st.opened = some fs') : fs' = fs := by
  rw [finish_undo h', callAll_undo h]
  rfl

/-! ## Files in order: nothing fails, and everything can be read -/

/-- a directory can be listed and searched, a file read -/
def Accessible (f : File) : Prop :=
  (f.kind = .dir → executable f = true ∧ readable f = true) ∧ (f.kind = .reg → readable f = true)

/-- Directories are above their files. -/
def IsTree (fs : FS α) : Prop := ∀ p a f, p ≠ [] → fs (p ++ [a]) = some f → ∃ d, fs p = some d ∧ d.kind = .dir

/-- what can't be read belongs to the user -/
def Own (fs : FS α) : Prop := ∀ p f, fs p = some f → f.cls = .owner ∨ Accessible f

theorem needs_iff {f : File} : needsChange f = false ↔ Accessible f := by
  obtain ⟨k, c, p⟩ := f
  cases k <;> simp [needsChange, Accessible]

theorem relaxed_accessible {f : File} (h : f.cls = .owner) : Accessible { f with perms := relaxed f } := by
  obtain ⟨k, c, p⟩ := f
  subst h
  have bit : ∀ (m i : Nat) (x : Nat), x.testBit i = true → i < m → 2 ^ i ≤ x % 2 ^ m := by
    intro m i x hb hi
    apply Nat.ge_two_pow_of_testBit
    rw [Nat.testBit_mod_two_pow]
    simp [hi, hb]
  constructor
  · rintro rfl
    refine ⟨?_, ?_⟩
    · have := bit 7 6 (0o700 ||| p) (by rw [Nat.testBit_or]; simp; left; decide) (by decide)
      simpa [executable, relaxed] using this
    · have := bit 9 8 (0o700 ||| p) (by rw [Nat.testBit_or]; simp; left; decide) (by decide)
      simpa [readable, relaxed] using this
  · rintro rfl
    have := bit 9 8 (0o400 ||| p) (by rw [Nat.testBit_or]; simp; left; decide) (by decide)
    simpa [readable, relaxed] using this

omit [LinearOrder α] in
/-- everything above `p` which is there is accessible -/
theorem lstat_of {fs : FS α} (ht : IsTree fs) {p : List α} (h : ∀ q, q <+: p → q ≠ [] → q ≠ p → ∀ f, fs q = some f → Accessible f) :
    lstat fs p = some (fs p) := by
  have down : ∀ (t : List α) (q : List α), q ≠ [] → t ≠ [] → q ++ t = p → (∃ f, fs p = some f) → ∃ d, fs q = some d ∧ d.kind = .dir := by
    intro t
    induction t with
    | nil => intro q _ h; exact absurd rfl h
    | cons a t ih =>
      intro q hq _ e ⟨f, hf⟩
      by_cases ht2 : t = []
      · subst ht2; rw [← e] at hf; exact ht q a f hq hf
      · obtain ⟨d, hd, _⟩ := ih (q ++ [a]) (by simp) ht2 (by simp [e]) ⟨f, hf⟩
        exact ht q a d hq hd
  simp only [lstat]
  split
  · rfl
  · next k hk =>
    have h1 := List.find?_some hk
    have h2 := List.mem_of_find?_eq_some hk
    simp only [List.mem_range'_1] at h2
    have hpre : p.take k <+: p := List.take_prefix _ _
    have hne : p.take k ≠ [] := by
      intro e; have := congrArg List.length e; rw [List.length_take, List.length_nil] at this; omega
    have hnp : p.take k ≠ p := by
      intro e; have := congrArg List.length e; rw [List.length_take] at this; omega
    have hnone : ¬ (∃ f, fs p = some f) := by
      intro hex
      obtain ⟨d, hd, hdir⟩ := down (p.drop k) (p.take k) hne (by intro e; have := congrArg List.length e; rw [List.length_drop, List.length_nil] at this; omega)
        (List.take_append_drop k p) hex
      have := (h _ hpre hne hnp d hd).1 hdir
      simp [hd, hdir, this.1] at h1
    have hn : fs p = none := by
      cases e : fs p with
      | none => rfl
      | some f => exact absurd ⟨f, e⟩ hnone
    rw [hn]
    split
    · next f hf =>
      split
      · next hdir =>
        have := (h _ hpre hne hnp f hf).1 hdir
        simp [hf, hdir, this.1] at h1
      · rfl
    · rfl

theorem setPerms_tree {fs : FS α} (ht : IsTree fs) (p : List α) (n : Nat) : IsTree (setPerms fs p n) := by
  intro q a f hq hf
  have : ∃ f', fs (q ++ [a]) = some f' := by
    simp only [setPerms] at hf
    split at hf
    · next e => rw [e]; obtain ⟨f', h, _⟩ := Option.map_eq_some_iff.mp hf; exact ⟨f', h⟩
    · exact ⟨f, hf⟩
  obtain ⟨f', hf'⟩ := this
  obtain ⟨d, hd, hk⟩ := ht q a f' hq hf'
  simp only [setPerms]
  split
  · next e => subst e; exact ⟨{ d with perms := n }, by simp [hd], hk⟩
  · exact ⟨d, hd, hk⟩

theorem setPerms_own {fs : FS α} (ho : Own fs) {p : List α} {f : File} (hf : fs p = some f) (hc : f.cls = .owner) (n : Nat) : Own (setPerms fs p n) := by
  intro q g hg
  simp only [setPerms] at hg
  split at hg
  · rw [hf] at hg; cases hg; exact .inl hc
  · exact ho q g hg

theorem chmod_of {fs : FS α} (ht : IsTree fs) {p : List α} (h : ∀ q, q <+: p → q ≠ [] → q ≠ p → ∀ f, fs q = some f → Accessible f)
    {f : File} (hf : fs p = some f) (hc : f.cls = .owner) (n : Nat) : chmod fs p n = some (setPerms fs p n) := by
  simp [chmod, lstat_of ht h, hf, hc]

/-- the stack: of prefixes of `top`, the longest first -/
structure Stack (fs : FS α) (top : List α) (l : List (List α × Nat)) : Prop where
  pre : ∀ e ∈ l, e.1 <+: top ∧ e.1 ≠ []
  desc : l.Pairwise (fun a b => b.1.length < a.1.length)
  own : ∀ e ∈ l, ∃ f, fs e.1 = some f ∧ f.cls = .owner

theorem own_setPerms {fs : FS α} {p q : List α} {n : Nat} (h : ∃ f, fs q = some f ∧ f.cls = .owner) :
    ∃ f, setPerms fs p n q = some f ∧ f.cls = .owner := by
  obtain ⟨f, h1, h2⟩ := h
  simp only [setPerms]
  split
  · next e => subst e; exact ⟨{ f with perms := n }, by simp [h1], h2⟩
  · exact ⟨f, h1, h2⟩

theorem setPerms_other {fs : FS α} {p q : List α} {n : Nat} (h : q ≠ p) : setPerms fs p n q = fs q := by
  simp [setPerms, h]

/-- a prefix of a path compares below the path's beginning, or is one -/
theorem lt_take {e x : List α} (h : e < x) (hn : ¬ e <+: x) : e < x.take e.length := by
  induction e generalizing x with
  | nil => exact absurd (List.nil_prefix) hn
  | cons a e ih =>
    cases x with
    | nil => exact absurd h (by simp)
    | cons b x =>
      rw [List.cons_lt_cons_iff] at h
      rw [List.length_cons, List.take_succ_cons, List.cons_lt_cons_iff]
      rcases h with h | ⟨rfl, h⟩
      · exact .inl h
      · refine .inr ⟨rfl, ih h ?_⟩
        intro hp; exact hn ((List.prefix_cons_inj a).mpr hp)

theorem not_lt_take {e x t : List α} (he : e <+: t) (hx : x <+: t) : ¬ e < x.take e.length := by
  have : x.take e.length <+: e := by
    apply List.prefix_of_prefix_length_le ((List.take_prefix _ _).trans hx) he
    simp
  exact not_lt.mpr (prefix_le this)

theorem prefix_not_lt_take {e x : List α} (h : e <+: x) : ¬ e < x.take e.length := not_lt_take h List.prefix_rfl

theorem restoreOld_of {fs : FS α} {top x : List α} {l : List (List α × Nat)} (ht : IsTree fs) (ho : Own fs) (hlt : top < x) (hs : Stack fs top l)
    (ha : ∀ e ∈ l, ∀ q, q <+: top → q ≠ [] → q.length ≤ e.1.length → ∀ f, fs q = some f → Accessible f)
    (hx : ∀ q, q <+: top → q <+: x → q ≠ [] → ∀ f, fs q = some f → Accessible f) :
    ∃ fs' l', restoreOld x fs l = some (fs', l') ∧ IsTree fs' ∧ Own fs' ∧ Stack fs' top l' ∧ (∀ e ∈ l', e.1 <+: x) ∧
      (∀ q, q <+: top → q <+: x → q ≠ [] → ∀ f, fs' q = some f → Accessible f) := by
  induction l generalizing fs with
  | nil => exact ⟨fs, [], rfl, ht, ho, hs, by simp, hx⟩
  | cons e l ih =>
    obtain ⟨hd, hds⟩ := List.pairwise_cons.mp hs.desc
    obtain ⟨hep, hen⟩ := hs.pre e (by simp)
    by_cases hpop : e.1 < x.take e.1.length
    · obtain ⟨f, hf, hc⟩ := hs.own e (by simp)
      have hch := chmod_of ht (p := e.1) (fun q hq hqn hqe f hf => ha e (by simp) q (hq.trans hep) hqn hq.length_le f hf) hf hc e.2
      have hnx : ¬ e.1 <+: x := fun hp => prefix_not_lt_take hp hpop
      obtain ⟨fs', l', h1, h2, h3, h4, h5, h6⟩ := ih (setPerms_tree ht e.1 e.2) (setPerms_own ho hf hc e.2)
        ⟨fun a h => hs.pre a (by simp [h]), hds, fun a h => own_setPerms (hs.own a (by simp [h]))⟩
        (by
          intro a ham q hq hqn hql g hg
          have hlen := hd a ham
          rw [setPerms_other (by rintro rfl; omega)] at hg
          exact ha a (by simp [ham]) q hq hqn hql g hg)
        (by
          intro q hq hqx hqn g hg
          rw [setPerms_other (by rintro rfl; exact hnx hqx)] at hg
          exact hx q hq hqx hqn g hg)
      exact ⟨fs', l', by simp only [restoreOld, if_pos hpop, hch, h1], h2, h3, h4, h5, h6⟩
    · have hex : e.1 <+: x := by
        by_contra hn
        exact hpop (lt_take (lt_of_le_of_lt (prefix_le hep) hlt) hn)
      refine ⟨fs, e :: l, by simp only [restoreOld, if_neg hpop], ht, ho, hs, ?_, hx⟩
      intro a ham
      rcases List.mem_cons.mp ham with rfl | ham
      · exact hex
      · exact (List.prefix_of_prefix_length_le (hs.pre a (by simp [ham])).1 hep (hd a ham).le).trans hex

/-- nothing is popped of the way to a directory above -/
theorem restoreOld_none {fs : FS α} {top x : List α} {l : List (List α × Nat)} (hx : x <+: top) (hs : ∀ e ∈ l, e.1 <+: top) :
    restoreOld x fs l = some (fs, l) := by
  cases l with
  | nil => rfl
  | cons e l => simp only [restoreOld, if_neg (not_lt_take (hs e (by simp)) hx)]

/-- the paths are added one after the other, from the outside -/
theorem addAll_of {x top : List α} (n k : Nat) {fs : FS α} {l : List (List α × Nat)} (hk : 0 < k) (hn : k + n = x.length + 1) (ht : IsTree fs) (ho : Own fs)
    (hpre : ∀ e ∈ l, e.1 <+: x ∧ e.1 ≠ [] ∧ (e.1.length < k ∨ e.1 <+: top))
    (hdesc : l.Pairwise (fun a b => b.1.length < a.1.length)) (hown : ∀ e ∈ l, ∃ f, fs e.1 = some f ∧ f.cls = .owner)
    (ha : ∀ q, q <+: x → q ≠ [] → (q.length < k ∨ q <+: top) → ∀ f, fs q = some f → Accessible f) :
    ∃ fs' l', addAll fs l ((List.range' k n).map x.take) = some (fs', l') ∧ IsTree fs' ∧ Own fs' ∧ Stack fs' x l' ∧
      ∀ q, q <+: x → q ≠ [] → ∀ f, fs' q = some f → Accessible f := by
  induction n generalizing k fs l with
  | zero =>
    refine ⟨fs, l, by simp [addAll], ht, ho, ⟨fun e he => ⟨(hpre e he).1, (hpre e he).2.1⟩, hdesc, hown⟩, ?_⟩
    intro q hq hqn
    exact ha q hq hqn (.inl (by have := hq.length_le; omega))
  | succ n ih =>
    have hlen : (x.take k).length = k := by simp; omega
    have htp : x.take k <+: x := List.take_prefix _ _
    have hls : lstat fs (x.take k) = some (fs (x.take k)) := by
      apply lstat_of ht
      intro q hq hqn hqe f hf
      refine ha q (hq.trans htp) hqn (.inl ?_) f hf
      have h1 := hq.length_le
      rcases Nat.lt_or_ge q.length k with h | h
      · exact h
      · exact absurd (hq.eq_of_length (by omega)) hqe
    rw [List.range'_succ, List.map_cons]
    simp only [addAll]
    -- unchanged
    have keep : (∀ f, fs (x.take k) = some f → Accessible f) → addOne fs l (x.take k) = some (fs, l) → ∃ fs' l',
        (match addOne fs l (x.take k) with
          | none => none
          | some (fs, opened) => addAll fs opened ((List.range' (k + 1) n).map x.take)) = some (fs', l') ∧ IsTree fs' ∧ Own fs' ∧ Stack fs' x l' ∧
        ∀ q, q <+: x → q ≠ [] → ∀ f, fs' q = some f → Accessible f := by
      intro hacc e
      rw [e]
      apply ih (k + 1) (by omega) (by omega) ht ho ?_ hdesc hown ?_
      · intro e he
        obtain ⟨a, b, c⟩ := hpre e he
        exact ⟨a, b, c.imp (by omega) id⟩
      · intro q hq hqn hqk f hf
        by_cases hqe : q = x.take k
        · exact hacc f (hqe ▸ hf)
        · refine ha q hq hqn (hqk.imp_left ?_) f hf
          intro hl
          rcases Nat.lt_or_ge q.length k with h | h
          · exact h
          · exact absurd ((List.prefix_of_prefix_length_le hq htp (by omega)).eq_of_length (by omega)) hqe
    cases hf : fs (x.take k) with
    | none => exact keep (by simp [hf]) (by simp [addOne, hls, hf])
    | some f =>
      by_cases hacc : Accessible f
      · exact keep (by rw [hf]; rintro g ⟨⟩; exact hacc) (by simp [addOne, hls, hf, needs_iff.mpr hacc])
      · have hneed : needsChange f = true := by
          cases h : needsChange f with
          | true => rfl
          | false => exact absurd (needs_iff.mp h) hacc
        have hc : f.cls = .owner := (ho _ f hf).resolve_right hacc
        have hch : chmod fs (x.take k) (relaxed f) = some (setPerms fs (x.take k) (relaxed f)) := by
          simp [chmod, hls, hf, hc]
        have hone : addOne fs l (x.take k) = some (setPerms fs (x.take k) (relaxed f), (x.take k, f.perms) :: l) := by
          simp [addOne, hls, hf, hneed, hch]
        have htop : ¬ x.take k <+: top := by
          intro h
          exact hacc (ha _ htp (by intro e; rw [e] at hlen; simp at hlen; omega) (.inr h) f hf)
        have hshort : ∀ e ∈ l, e.1.length < k := by
          intro e he
          obtain ⟨a, b, c⟩ := hpre e he
          rcases c with c | c
          · exact c
          · by_contra hge
            exact htop ((List.prefix_of_prefix_length_le htp a (by omega)).trans c)
        rw [hone]
        apply ih (k + 1) (by omega) (by omega) (setPerms_tree ht _ _) (setPerms_own ho hf hc _)
        · intro e he
          rcases List.mem_cons.mp he with rfl | he
          · exact ⟨htp, by intro e; rw [show x.take k = [] from e] at hlen; simp at hlen; omega, .inl (by show (x.take k).length < k + 1; omega)⟩
          · obtain ⟨a, b, c⟩ := hpre e he
            exact ⟨a, b, c.imp (by omega) id⟩
        · exact List.pairwise_cons.mpr ⟨fun e he => by simpa [hlen] using hshort e he, hdesc⟩
        · intro e he
          rcases List.mem_cons.mp he with rfl | he
          · exact own_setPerms ⟨f, hf, hc⟩
          · exact own_setPerms (hown e he)
        · intro q hq hqn hqk g hg
          by_cases hqe : q = x.take k
          · subst hqe
            simp only [setPerms, if_true, hf, Option.map_some, Option.some.injEq] at hg
            subst hg
            exact relaxed_accessible hc
          · rw [setPerms_other hqe] at hg
            refine ha q hq hqn (hqk.imp_left ?_) g hg
            intro hl
            rcases Nat.lt_or_ge q.length k with h | h
            · exact h
            · exact absurd ((List.prefix_of_prefix_length_le hq htp (by omega)).eq_of_length (by omega)) hqe

theorem addAll_none {fs : FS α} {l : List (List α × Nat)} {ps : List (List α)} (h : ∀ p ∈ ps, lstat fs p = some (fs p) ∧ ∀ f, fs p = some f → Accessible f) :
    addAll fs l ps = some (fs, l) := by
  induction ps with
  | nil => rfl
  | cons p ps ih =>
    obtain ⟨h1, h2⟩ := h p (by simp)
    have : addOne fs l p = some (fs, l) := by
      simp only [addOne, h1]
      cases hf : fs p with
      | none => rfl
      | some f => simp [needs_iff.mpr (h2 f hf)]
    simp only [addAll, this]
    exact ih fun q hq => h q (by simp [hq])

theorem common_spec (old x : List α) (h : x ≠ []) : old.take (common old x) = x.take (common old x) ∧ common old x < x.length := by
  have hl := List.length_pos_iff.mpr h
  simp only [common]
  cases hf : (List.range x.length).reverse.find? (fun i => old.take i = x.take i) with
  | none => exact ⟨by simp, by simpa using hl⟩
  | some i =>
    have h1 := List.find?_some hf
    have h2 := List.mem_of_find?_eq_some hf
    simp at h1 h2
    exact ⟨by simpa using h1, by simpa using h2⟩

/-- between the calls; `top` is the path up to which all is accessible -/
structure Inv (st : St α) (top : List α) : Prop where
  tree : IsTree st.fs
  own : Own st.fs
  cur : st.current <+: top
  stack : Stack st.fs top st.opened
  acc : ∀ q, q <+: top → q ≠ [] → ∀ f, st.fs q = some f → Accessible f

theorem Inv.call {st : St α} {top i x : List α} (h : Inv st top) (hi : i = [] ∨ top < i) (hx : x = i ∨ x = i.dropLast) :
    ∃ st' top', PermChanger.call st x = some st' ∧ Inv st' top' ∧ (top' = top ∨ top' = x) ∧ x <+: top' := by
  by_cases hx0 : x = []
  · subst hx0
    exact ⟨{ st with current := [] }, top, by simp [PermChanger.call], ⟨h.tree, h.own, List.nil_prefix, h.stack, h.acc⟩, .inl rfl, List.nil_prefix⟩
  have hi : top < i := hi.resolve_left (by rintro rfl; simp at hx; exact hx0 hx)
  have hxi : x <+: i := by rcases hx with rfl | rfl; exacts [List.prefix_rfl, List.dropLast_prefix i]
  have below : x ≤ top → x <+: top := fun hle => prefix_convex List.prefix_rfl hxi hle hi.le
  by_cases hle : x ≤ st.current
  · have hxt := below (hle.trans (prefix_le h.cur))
    exact ⟨{ st with current := x }, top, by simp [PermChanger.call, hle], ⟨h.tree, h.own, hxt, h.stack, h.acc⟩, .inl rfl, hxt⟩
  have hcs := common_spec st.current x hx0
  by_cases hxt : x ≤ top
  · have hxt := below hxt
    have h1 : restoreOld x st.fs st.opened = some (st.fs, st.opened) := restoreOld_none hxt fun e he => (h.stack.pre e he).1
    have h2 : addAll st.fs st.opened (newList st.current x) = some (st.fs, st.opened) := by
      apply addAll_none
      intro p hp
      simp only [newList, List.mem_map] at hp
      obtain ⟨k, hk, rfl⟩ := hp
      rw [List.mem_range'_1] at hk
      have hpt : x.take k <+: top := (List.take_prefix _ _).trans hxt
      refine ⟨lstat_of h.tree fun q hq hqn _ f hf => h.acc q (hq.trans hpt) hqn f hf, ?_⟩
      refine h.acc _ hpt ?_
      intro e; have := congrArg List.length e; simp at this; rcases this with rfl | rfl
      · omega
      · exact hx0 rfl
    refine ⟨{ fs := st.fs, current := x, opened := st.opened }, top, ?_, ⟨h.tree, h.own, hxt, h.stack, h.acc⟩, .inl rfl, hxt⟩
    simp only [PermChanger.call]
    rw [if_neg (by simp [hx0, hle])]
    simp only [h1, h2]
  · have hlt : top < x := not_le.mp hxt
    obtain ⟨fs1, l1, e1, t1, o1, s1, p1, a1⟩ := restoreOld_of h.tree h.own hlt h.stack
      (fun e he q hq hqn hql f hf => h.acc q hq hqn f hf) (fun q hq _ hqn f hf => h.acc q hq hqn f hf)
    obtain ⟨fs2, l2, e2, t2, o2, s2, a2⟩ := addAll_of (x := x) (top := top) (x.length - common st.current x) (common st.current x + 1) (by omega) (by omega)
      t1 o1 (fun e he => ⟨p1 e he, (s1.pre e he).2, .inr (s1.pre e he).1⟩) s1.desc s1.own (by
        intro q hq hqn hqk f hf
        refine a1 q ?_ hq hqn f hf
        rcases hqk with hl | hqt
        · have hq2 : q <+: x.take (common st.current x) := List.prefix_of_prefix_length_le hq (List.take_prefix _ _) (by simp; omega)
          rw [← hcs.1] at hq2
          exact hq2.trans ((List.take_prefix _ _).trans h.cur)
        · exact hqt)
    refine ⟨{ fs := fs2, current := x, opened := l2 }, x, ?_, ⟨t2, o2, List.prefix_rfl, s2, a2⟩, .inr rfl, List.prefix_rfl⟩
    simp only [PermChanger.call]
    rw [if_neg (by simp [hx0, hle])]
    simp only [e1, newList, e2]

theorem callAll_append (st : St α) (l r : List (List α)) : callAll st (l ++ r) = (callAll st l).bind fun st => callAll st r := by
  induction l generalizing st with
  | nil => rfl
  | cons i l ih =>
    simp only [List.cons_append, callAll]
    cases PermChanger.call st i with
    | none => rfl
    | some st => exact ih st

theorem Inv.access {st : St α} {top : List α} (h : Inv st top) (a : Access α) (hi : a.index = [] ∨ top < a.index) :
    ∃ st' top', callAll st a.calls = some st' ∧ Inv st' top' ∧ (top' = top ∨ top' <+: a.index) ∧
      (a.found = true → a.index <+: top') ∧ (a.lists = true → a.index.dropLast <+: top') := by
  have hd : a.index.dropLast <+: a.index := List.dropLast_prefix _
  obtain ⟨st1, top1, e1, i1, t1, p1⟩ : ∃ st1 top1, callAll st (if a.lists then [a.index.dropLast] else []) = some st1 ∧ Inv st1 top1 ∧
      (top1 = top ∨ top1 = a.index.dropLast) ∧ (a.lists = true → a.index.dropLast <+: top1) := by
    cases a.lists with
    | false => exact ⟨st, top, rfl, h, .inl rfl, by simp⟩
    | true =>
      obtain ⟨st1, top1, e, i, t, p⟩ := h.call hi (.inr rfl)
      exact ⟨st1, top1, by simp [callAll, e], i, t, fun _ => p⟩
  have hi1 : a.index = [] ∨ top1 < a.index := by
    by_cases h0 : a.index = []
    · exact .inl h0
    · refine .inr ?_
      rcases t1 with rfl | rfl
      · exact hi.resolve_left h0
      · refine lt_of_le_of_ne (prefix_le hd) ?_
        intro e; have := congrArg List.length e
        have := List.length_pos_iff.mpr h0
        simp at *; omega
  simp only [Access.calls, callAll_append, e1, Option.bind_some]
  cases a.found with
  | false => exact ⟨st1, top1, rfl, i1, t1.imp id (by rintro rfl; exact hd), by simp, p1⟩
  | true =>
    obtain ⟨st2, top2, e2, i2, t2, p2⟩ := i1.call hi1 (.inl rfl)
    refine ⟨st2, top2, by simp [callAll, e2], i2, ?_, fun _ => p2, fun _ => hd.trans p2⟩
    rcases t2 with rfl | rfl
    · exact t1.imp id (by rintro rfl; exact hd)
    · exact .inr List.prefix_rfl

theorem finish_of {fs : FS α} {top : List α} {l : List (List α × Nat)} (ht : IsTree fs) (hs : Stack fs top l)
    (ha : ∀ e ∈ l, ∀ q, q <+: top → q ≠ [] → q.length ≤ e.1.length → ∀ f, fs q = some f → Accessible f) : ∃ fs', finish fs l = some fs' := by
  induction l generalizing fs with
  | nil => exact ⟨fs, rfl⟩
  | cons e l ih =>
    obtain ⟨hd, hds⟩ := List.pairwise_cons.mp hs.desc
    obtain ⟨hep, hen⟩ := hs.pre e (by simp)
    obtain ⟨f, hf, hc⟩ := hs.own e (by simp)
    have hch := chmod_of ht (p := e.1) (fun q hq hqn hqe f hf => ha e (by simp) q (hq.trans hep) hqn hq.length_le f hf) hf hc e.2
    obtain ⟨fs', h⟩ := ih (setPerms_tree ht e.1 e.2) ⟨fun a h => hs.pre a (by simp [h]), hds, fun a h => own_setPerms (hs.own a (by simp [h]))⟩
      (by
        intro a ham q hq hqn hql g hg
        have hlen := hd a ham
        rw [setPerms_other (by rintro rfl; omega)] at hg
        exact ha a (by simp [ham]) q hq hqn hql g hg)
    exact ⟨fs', by simp only [finish, hch, h]⟩

/-- **C43**: files are asked for in order, as they are in a restore. Then nothing fails; when a file is read, its directories and
the file itself are accessible, and when a directory is listed it is accessible; and at the end all permissions are as before. -/
theorem readable_and_restored {fs : FS α} (ht : IsTree fs) (ho : Own fs) (accs : List (Access α)) (hord : (accs.map (·.index)).Pairwise (· < ·)) :
    ∃ st, callAll { fs := fs } (accs.flatMap Access.calls) = some st ∧
      (∀ a, accs.getLast? = some a →
        (a.found = true → ∀ q, q <+: a.index → q ≠ [] → ∀ f, st.fs q = some f → Accessible f) ∧
        (a.lists = true → ∀ q, q <+: a.index.dropLast → q ≠ [] → ∀ f, st.fs q = some f → Accessible f)) ∧
      finish st.fs st.opened = some fs := by
  have key : ∀ (accs : List (Access α)) (st0 : St α) (top : List α), Inv st0 top → (accs.map (·.index)).Pairwise (· < ·) →
      (∀ a ∈ accs, a.index = [] ∨ top < a.index) → ∃ st top', callAll st0 (accs.flatMap Access.calls) = some st ∧ Inv st top' ∧
      (top' = top ∨ ∃ a ∈ accs, top' <+: a.index) := by
    intro accs
    induction accs with
    | nil => intro st0 top h _ _; exact ⟨st0, top, rfl, h, .inl rfl⟩
    | cons a accs ih =>
      intro st0 top h hp hb
      obtain ⟨st1, top1, e1, i1, t1, f1, l1⟩ := h.access a (hb a (by simp))
      rw [List.map_cons, List.pairwise_cons] at hp
      obtain ⟨st2, top2, e2, i2, h2⟩ := ih st1 top1 i1 hp.2 (by
        intro b hbm
        have hab := hp.1 b.index (List.mem_map_of_mem hbm)
        rcases t1 with rfl | t1
        · exact hb b (by simp [hbm])
        · exact .inr (lt_of_le_of_lt (prefix_le t1) hab))
      refine ⟨st2, top2, by rw [List.flatMap_cons, callAll_append, e1]; exact e2, i2, ?_⟩
      rcases h2 with rfl | ⟨b, hb, h2⟩
      · exact t1.imp id fun h => ⟨a, by simp, h⟩
      · exact .inr ⟨b, by simp [hb], h2⟩
  have init : Inv ({ fs := fs } : St α) [] :=
    ⟨ht, ho, List.prefix_rfl, ⟨by simp, .nil, by simp⟩, fun q hq hqn => absurd (List.prefix_nil.mp hq) hqn⟩
  have nonempty : ∀ a : Access α, a.index = [] ∨ [] < a.index := by
    intro a
    cases h : a.index with
    | nil => exact .inl rfl
    | cons x l => exact .inr (by simp)
  have fin : ∀ {st : St α} {top : List α} {accs : List (Access α)}, Inv st top → callAll { fs := fs } (accs.flatMap Access.calls) = some st →
      finish st.fs st.opened = some fs := by
    intro st top accs h e
    obtain ⟨fs', hf⟩ := finish_of h.tree h.stack fun e he q hq hqn _ f hf => h.acc q hq hqn f hf
    rw [hf, all_restored e hf]
  rcases List.eq_nil_or_concat accs with rfl | ⟨l, a, rfl⟩
  · exact ⟨{ fs := fs }, rfl, by simp, rfl⟩
  · rw [List.concat_eq_append] at hord ⊢
    rw [List.map_append, List.pairwise_append] at hord
    obtain ⟨hl, -, hla⟩ := hord
    obtain ⟨st1, top1, e1, i1, t1⟩ := key l _ _ init hl (fun a _ => nonempty a)
    obtain ⟨st2, top2, e2, i2, -, f2, l2⟩ := i1.access a (by
      rcases t1 with rfl | ⟨b, hb, ht1⟩
      · exact nonempty a
      · exact .inr (lt_of_le_of_lt (prefix_le ht1) (hla b.index (List.mem_map_of_mem hb) a.index (by simp))))
    have e : callAll { fs := fs } ((l ++ [a]).flatMap Access.calls) = some st2 := by
      rw [List.flatMap_append, callAll_append, e1]; simpa using e2
    refine ⟨st2, e, ?_, fin i2 e⟩
    intro b hb
    rw [List.getLast?_concat, Option.some.injEq] at hb
    subst hb
    exact ⟨fun h q hq hqn f hf => i2.acc q (hq.trans (f2 h)) hqn f hf, fun h q hq hqn f hf => i2.acc q (hq.trans (l2 h)) hqn f hf⟩

/-! A tree with unreadable directories and files; files are read in two of them. -/

/-- `1` (mode 0), `1/1` (0), `1/1/5` (0), `1/2` (0200), `3` (0300), `3/7` (0644) -/
def exFS : FS Nat := fun p =>
  if p = [1] then some ⟨.dir, .owner, 0⟩
  else if p = [1, 1] then some ⟨.dir, .owner, 0⟩
  else if p = [1, 1, 5] then some ⟨.reg, .owner, 0⟩
  else if p = [1, 2] then some ⟨.reg, .owner, 0o200⟩
  else if p = [3] then some ⟨.dir, .owner, 0o300⟩
  else if p = [3, 7] then some ⟨.reg, .other, 0o644⟩
  else none

def exAccs : List (Access Nat) := [⟨[1, 1, 5], true, true⟩, ⟨[1, 2], true, true⟩, ⟨[3, 6], true, false⟩, ⟨[3, 7], false, true⟩]

example : (exAccs.map (·.index)).Pairwise (· < ·) := by decide +kernel

example : IsTree exFS := by
  intro p a f hp hf
  simp only [exFS] at hf
  have : p ++ [a] = [1, 1] ∨ p ++ [a] = [1, 1, 5] ∨ p ++ [a] = [1, 2] ∨ p ++ [a] = [3, 7] := by
    by_contra hc
    simp only [not_or] at hc
    obtain ⟨h1, h2, h3, h4⟩ := hc
    have h5 : ∀ n : Nat, p ++ [a] ≠ [n] := by
      intro n e; have := congrArg List.length e
      have := List.length_pos_iff.mpr hp
      simp only [List.length_append, List.length_cons, List.length_nil] at *; omega
    simp [h1, h2, h3, h4, h5] at hf
  have hd : ∀ l : List Nat, p ++ [a] = l → p = l.dropLast := by rintro l rfl; simp
  rcases this with h | h | h | h <;> rw [hd _ h] <;> exact ⟨_, rfl, rfl⟩

example : Own exFS := by
  intro p f hf
  simp only [exFS] at hf
  split_ifs at hf <;> cases hf <;> first | exact .inl rfl | (right; simp [Accessible, readable])

/-- some are open before the end, and all are closed then -/
example : (callAll { fs := exFS } (exAccs.flatMap Access.calls)).map (fun st => st.opened) = some [([3], 0o300)] ∧
    (callAll { fs := exFS } ((exAccs.take 1).flatMap Access.calls)).map (fun st => st.opened) = some [([1, 1, 5], 0), ([1, 1], 0), ([1], 0)] := by
  decide +kernel

/-- Out of order it does not work: going back to a directory that was passed, it is not made accessible. -/
theorem backwards_fails : ∃ st, callAll { fs := exFS } [[3, 7], [1]] = some st ∧ ∀ f, st.fs [1] = some f → readable f = false :=
  by
    have : (callAll { fs := exFS } [[3, 7], [1]]).map (fun st => (st.fs [1]).map readable) = some (some false) := by decide +kernel
    cases hx : callAll { fs := exFS } [[3, 7], [1]] with
    | none => rw [hx] at this; cases this
    | some st =>
      refine ⟨st, rfl, ?_⟩
      intro f hf
      rw [hx] at this
      simpa [hf] using this

end Verif.C43
