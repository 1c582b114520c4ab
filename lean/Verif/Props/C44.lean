import Verif.Proof.RestoreDir
import Verif.Props.C01
/-
C44: restoring into a directory which is there already makes it equal to the backup.

A target which is missing or not a directory, and single files: `Verif.Props.C44Any`.  Not in the statement: hard links, selection options.  Not true: files without recorded digest are
left as they are if attributes and size are the same (`kept_without_digest`).
-/
namespace Verif.C44
open Verif.Repo Verif.RestoreDir Verif.MetaChain
variable {α A C S H Δ L : Type} [LinearOrder α] [DecidableEq A] [DecidableEq S] [DecidableEq H] [DecidableEq L]
variable {o : Ops A C H Δ L} {rsv : α → Prop} {st : State α A C S H Δ} {hist : Hist α A C S}

/-- The metadata of the backup made at time `b` has no digest for the regular file `i`. -/
def NoDigest (st : State α A C S H Δ) (b : Nat) (i : List α) : Prop :=
  ∃ recs a sz, metaAtTime st.metas b (fun _ => true) = some recs ∧ ⟨i, some (.reg a sz none)⟩ ∈ recs

/-- A regular file of the target looks like the one of the backup, and no digest is recorded. -/
def LooksSame (o : Ops A C H Δ L) (st : State α A C S H Δ) (b : Nat) (T : Files α (Node A C S)) (sub : List α) (target : Files α (Node A C S))
    (i : List α) : Prop :=
  NoDigest st b (sub ++ i) ∧ ∃ a x x', get T (sub ++ i) = some (.reg a x) ∧ get target i = some (.reg a x') ∧ o.size x = o.size x'

/-- What the comparison of backup and target amounts to. -/
theorem compared {mt : Nat} {b : Nat} {T : Files α (Node A C S)} {l : List (Rec (List α) (MRec A S H))} (h3 : IsTree rsv T)
    (h4 : Records o st mt b T l) (sub : List α) (target : Files α (Node A C S)) (i : List α) :
    (¬ LooksSame o st b T sub target i →
      (if isDiff o.size (flag l sub) (below sub T) target i then get (below sub T) i else get target i) = get T (sub ++ i)) ∧
    (LooksSame o st b T sub target i →
      (if isDiff o.size (flag l sub) (below sub T) target i then get (below sub T) i else get target i) = get target i) := by
  have hG : ∀ i, get (below sub T) i = get T (sub ++ i) := get_below h3.ordered
  have hread : metaAtTime st.metas b (fun _ => true) = some l := by rw [h4.read]; simp
  refine ⟨?_, ?_⟩
  · intro hn
    rw [hG]
    split
    · rfl
    · next hdf =>
      -- then it is equal
      unfold isDiff at hdf
      rw [hG] at hdf
      cases hg : get T (sub ++ i) with
      | none =>
        cases htg : get target i with
        | none => rfl
        | some m => rw [hg, htg] at hdf; simp at hdf
      | some n =>
        cases htg : get target i with
        | none => rw [hg, htg] at hdf; simp at hdf
        | some m =>
          rw [hg, htg] at hdf
          simp only [Bool.not_eq_true', Bool.not_eq_false] at hdf
          cases n with
          | dir a => cases m <;> simp_all [eqFlag]
          | other a s => cases m <;> simp_all [eqFlag]
          | reg a x =>
            cases m with
            | dir a' => simp [eqFlag] at hdf
            | other a' s => simp [eqFlag] at hdf
            | reg a' x' =>
              simp only [eqFlag, Bool.and_eq_true, Bool.not_eq_true', decide_eq_true_eq, beq_iff_eq] at hdf
              obtain ⟨⟨hf, rfl⟩, hsz⟩ := hdf
              exfalso
              apply hn
              refine ⟨?_, a, x, x', hg, htg, hsz⟩
              have hde := h4.describes.desc (sub ++ i)
              rw [hg] at hde
              cases hr : recAt l (sub ++ i) with
              | none => rw [hr] at hde; exact hde.elim
              | some m =>
                cases m with
                | dir a' => rw [hr] at hde; exact hde.elim
                | other a' s => rw [hr] at hde; exact hde.elim
                | reg a' sz hh =>
                  cases hh with
                  | some hh => simp [flag, hr] at hf
                  | none => exact ⟨l, a', sz, hread, (find_mem h4.describes.listing _ _).mp hr⟩
  · rintro ⟨⟨recs, a', sz, e1, e2⟩, a, x, x', e3, e4, e5⟩
    rw [hread] at e1
    cases e1
    have hr : recAt l (sub ++ i) = some (.reg a' sz none) := (find_mem h4.describes.listing _ _).mpr e2
    rw [hG]
    have : isDiff o.size (flag l sub) (below sub T) target i = false := by
      unfold isDiff
      rw [hG, e3, e4]
      simp [eqFlag, flag, hr, e5]
    rw [this]; rfl

/-- Whatever the repository has gone through, and whatever is in the target directory: restoring the directory `sub` as of time `t` succeeds, and afterwards
the target contains exactly what the backup chosen (C02) has below `sub`: files which are not in the backup are gone, and those of another type, with
other attributes or other content are as in the backup; except that files are left alone which look the same and have no digest. -/
theorem restore_into_partial (h : Reach o rsv false st hist) {t b : Nat} {T : Files α (Node A C S)} (hb : chosen hist t = some (b, T)) {sub : List α}
    {a : A} (hd : get T sub = some (.dir a)) {target : Files α (Node A C S)} (hT : IsTree rsv target) (stamp : A) (junk : List α → C) {tmp : α}
    (ht : rsv tmp) : ∃ R, restoreTo o st t sub target stamp junk tmp = some R ∧
      (∀ i, ¬ LooksSame o st b T sub target i → get R i = get T (sub ++ i)) ∧
      (∀ i, LooksSame o st b T sub target i → get R i = get target i) := by
  obtain ⟨mt, l, h1, h2, h3, h4⟩ := records ((reach_inv h).1 rfl) hb
  simp only at h2 h3 h4
  obtain ⟨ds, h5, h6⟩ := getDiffs_ok h4 h3.ordered sub hT.ordered
  obtain ⟨R, h7, h8⟩ := apply_spec (stamp := stamp) (junk := junk) h6 (tree_below h3 (by rw [hd]; rfl)) hT ht
  exact ⟨R, by simp only [restoreTo, h1, h2, h5, h7], fun i hn => by rw [h8]; exact (compared h3 h4 sub target i).1 hn,
    fun i hl => by rw [h8]; exact (compared h3 h4 sub target i).2 hl⟩

/-- If all regular files of the backup have a digest, the target is equal to the backup. -/
theorem restore_into (h : Reach o rsv false st hist) {t b : Nat} {T : Files α (Node A C S)} (hb : chosen hist t = some (b, T)) {sub : List α}
    {a : A} (hd : get T sub = some (.dir a)) {target : Files α (Node A C S)} (hT : IsTree rsv target) (stamp : A) (junk : List α → C) {tmp : α}
    (ht : rsv tmp) (hdig : ∀ i, ¬ NoDigest st b i) :
    ∃ R, restoreTo o st t sub target stamp junk tmp = some R ∧ ∀ i, get R i = get T (sub ++ i) := by
  obtain ⟨R, h1, h2, -⟩ := restore_into_partial h hb hd hT stamp junk ht
  exact ⟨R, h1, fun i => h2 i (fun hl => hdig _ hl.1)⟩

/-- Or if a file with the attributes and size of the backup also has its content. -/
theorem restore_into_honest (h : Reach o rsv false st hist) {t b : Nat} {T : Files α (Node A C S)} (hb : chosen hist t = some (b, T)) {sub : List α}
    {a : A} (hd : get T sub = some (.dir a)) {target : Files α (Node A C S)} (hT : IsTree rsv target) (stamp : A) (junk : List α → C) {tmp : α}
    (ht : rsv tmp) (hh : ∀ i a x x', get T (sub ++ i) = some (.reg a x) → get target i = some (.reg a x') → o.size x = o.size x' → x = x') :
    ∃ R, restoreTo o st t sub target stamp junk tmp = some R ∧ ∀ i, get R i = get T (sub ++ i) := by
  obtain ⟨R, h1, h2, h3⟩ := restore_into_partial h hb hd hT stamp junk ht
  refine ⟨R, h1, fun i => ?_⟩
  by_cases hl : LooksSame o st b T sub target i
  · rw [h3 i hl]
    obtain ⟨-, a, x, x', e1, e2, e3⟩ := hl
    rw [e1, e2, hh i a x x' e1 e2 e3]
  · exact h2 i hl

/-! ### Examples -/

open Verif.Repo.Demo in
/-- a target with files of the wrong type, a file too many, and one that is right -/
def demoTarget : Files Nat (Node Nat Nat Nat) :=
  [([], .dir 3), ([1], .dir 1), ([1, 4], .reg 1 1), ([1, 5], .dir 3), ([1, 5, 1], .other 1 1), ([2], .reg 1 9), ([3], .other 2 2), ([7], .reg 2 2)]

theorem demoTree : IsTree Demo.rsv demoTarget :=
  ⟨by decide +kernel, ⟨3, by decide +kernel⟩, by
    intro x hx hne
    simp only [demoTarget, List.mem_cons, List.not_mem_nil, or_false] at hx
    rcases hx with rfl | rfl | rfl | rfl | rfl | rfl | rfl | rfl
    · exact absurd rfl hne
    · exact ⟨3, by decide +kernel⟩
    · exact ⟨1, by decide +kernel⟩
    · exact ⟨1, by decide +kernel⟩
    · exact ⟨3, by decide +kernel⟩
    · exact ⟨3, by decide +kernel⟩
    · exact ⟨3, by decide +kernel⟩
    · exact ⟨3, by decide +kernel⟩, by unfold Demo.rsv; decide +kernel⟩

open Verif.Repo.Demo in
/-- the hypotheses are met -/
example : ∃ R, restoreTo ops st3 25 [] demoTarget 99 (fun _ => 77) 1000 = some R ∧ ∀ i, get R i = get src2 i :=
  restore_into_honest reach3 (b := 20) (T := src2) (by decide +kernel) (sub := []) (a := 7) (by decide +kernel) demoTree 99 (fun _ => 77) (tmp := 1000) rfl
    (fun _ _ _ _ _ _ h => h)

open Verif.Repo.Demo in
/-- a part of it -/
example : ∃ R, restoreTo ops st3 25 [3] demoTarget 99 (fun _ => 77) 1000 = some R ∧ ∀ i, get R i = get src2 ([3] ++ i) :=
  restore_into_honest reach3 (b := 20) (T := src2) (by decide +kernel) (sub := [3]) (a := 1) (by decide +kernel) demoTree 99 (fun _ => 77) (tmp := 1000) rfl
    (fun _ _ _ _ _ _ h => h)

open Verif.Repo.Demo in
/-- what is done -/
example : (restoreTo ops st3 25 [] demoTarget 99 (fun _ => 77) 1000).map (fun R => [get R [], get R [1], get R [1, 4], get R [3], get R [3, 1], get R [7]]) =
    some [some (.dir 7), some (.reg 3 4), none, some (.dir 1), some (.reg 2 2), none] := by decide +kernel

/-! ### A file which isn't restored -/

/-- all contents have the same size -/
def ops0 : Ops Nat Nat Nat (Nat × Nat) Nat := ⟨fun _ => 0, id, fun b n => (b, n), fun _ d => d.2, fun _ _ => rfl, id⟩
/-- no digests are reported -/
def sess0 : Sess Nat Nat Nat Nat Nat (Nat × Nat) := { Demo.sess 10 [([], .dir 6), ([1], .reg 2 3)] with nohash := fun _ => true }
def st0 := (backup ops0 Demo.empty sess0).get (by decide +kernel)

theorem valid0 : ValidSess ops0 Demo.rsv [] sess0 :=
  ⟨⟨by decide +kernel, ⟨6, by decide +kernel⟩, by
      intro x hx hne
      simp only [sess0, Demo.sess, List.mem_cons, List.not_mem_nil, or_false] at hx
      rcases hx with rfl | rfl
      · exact absurd rfl hne
      · exact ⟨6, by decide +kernel⟩, by unfold Demo.rsv; decide +kernel⟩, by simp, rfl, by
      intro i a x a' x' h; simp [lastTree, Repo.get] at h⟩

theorem reach0 : Reach ops0 Demo.rsv false st0 [(10, sess0.src)] :=
  .backup (.init 5) valid0 (by simp [st0, Demo.empty]) (recorded_src _ _ valid0.tree.ordered (fun _ => rfl))

/-- The file `1` has content 3 in the backup and 4 in the target, and keeps 4, because it has the recorded attributes and size and no digest was recorded. -/
theorem kept_without_digest : (restoreTo ops0 st0 10 [] [([], .dir 6), ([1], .reg 2 4)] 99 (fun _ => 77) 1000).map (fun R => get R [1]) =
    some (some (.reg 2 4)) ∧ restore ops0 st0 10 [] = some [([], .dir 6), ([1], .reg 2 3)] := by decide +kernel

end Verif.C44
