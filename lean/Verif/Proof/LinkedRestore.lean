import Verif.Model.LinkedRestore
import Verif.Props.C65
import Mathlib.Data.List.Perm.Subperm
/-
Lemmas for C66: the metadata of a backup with hard links are consistent; the decisions of a restore; the invariant of a restore.
-/
set_option linter.unusedSectionVars false

namespace Verif.Hardlinks
variable {I K D : Type} [DecidableEq I] [DecidableEq K] [DecidableEq D]

/-- what is left as it is, if the destination has no digests: it has no other links, or it isn't the first one -/
theorem keep_unlinked {ps0 ps : List (Pair I K D)} {a q d : Nat} {t : Tab I K D} {out : List (Decision I)} (hc : Consistent (ps0.map (·.src)))
    (hd : ∀ p ∈ ps0, ∀ r, p.dest = some r → r.sha1 = none) (hr : Run ps0 ps a q d t out) {n : Nat} (hx : out[n]? = some .keep) {p0 : Pair I K D} {s : Rorp I K D}
    (hp0 : ps0[n]? = some p0) (hs : p0.src = some s) (hreg : s.reg = true) (hdreg : ∀ r, p0.dest = some r → r.reg = true) (hn : s.nlink ≠ 1) :
    ∃ f, f < n ∧ ∃ s', (ps0.map (·.src))[f]? = some (some s') ∧ C31.SameFile s s' := by
  induction hr with
  | init => simp at hx
  | add _ _ _ _ ih => exact ih hx
  | addOld _ _ _ _ _ ih => exact ih hx
  | pass _ _ _ ih => exact ih hx
  | del _ _ _ _ _ ih => exact ih hx
  | skip _ _ _ _ ih => exact ih hx
  | @decide ps a q d t out x t' p hrun hp hlt hdec ih =>
    rw [List.getElem?_append] at hx
    split at hx
    · exact ih hx
    · have hl := (run_out hc hrun).1
      have hnq : n = q := by
        by_contra hne
        rw [List.getElem?_eq_none (by simp only [List.length_cons, List.length_nil]; omega)] at hx
        cases hx
      subst hnq
      rw [hl, Nat.sub_self] at hx
      simp only [List.getElem?_cons_zero, Option.some.injEq] at hx
      subst hx
      have hi := run_inv hc hrun
      have hat : (ps0.map (·.src))[n]? = some (some s) := by rw [src_at hp0, hs]
      have hpsrc : p.src = some s := by
        have := src_at hp
        rw [hi.srcs, hat] at this
        simpa using this.symm
      rcases C31.isLinked_at hc hi hi.le.1 hlt hat with ⟨-, hl2⟩ | ⟨k, f, s', hk, hf, hfs, -, -⟩
      · exfalso
        obtain ⟨p0', hp0', hh⟩ := (run_handed hrun).2 n p hp
        rw [hp0] at hp0'
        cases hp0'
        have hdest : p.dest = p0.dest := by
          rcases hh with hh | ⟨r, h, k, p1, r', -, -, -, hm, hd1, -, hs1, -⟩
          · exact hh
          · have := hd p1 hm r' hd1
            rw [hs1] at this
            cases this
        have nk : ∀ {u : Tab I K D} {s}, (onChanged u s).map (·, u) = some (Decision.keep, t') → False := by
          intro u s h
          simp only [Option.map_eq_some_iff, Prod.mk.injEq] at h
          obtain ⟨y, hy, rfl, -⟩ := h
          simp only [onChanged] at hy
          repeat' (split at hy)
          all_goals simp at hy
        simp only [decideOn, hpsrc, hdest] at hdec
        cases hpd : p0.dest with
        | none => rw [hpd] at hdec; exact nk hdec
        | some r =>
          rw [hpd] at hdec
          simp only at hdec
          have hsha := hd p0 (List.mem_of_getElem? hp0) r hpd
          have hrr := hdreg r hpd
          have he : rorpEq t s r = some (false, t) := by
            simp only [rorpEq, hreg, hrr, hl2, hsha]
            rw [if_neg (by simp; omega)]
            simp
          rw [he] at hdec
          simp only at hdec
          split at hdec
          · exact nk hdec
          · exact nk hdec
      · exact ⟨f, hf, s', hfs.1, (C31.sameFile_iff hk).2 hfs.2.1⟩

end Verif.Hardlinks

namespace Verif.Linked
open Verif.Hardlinks (Decision Rorp Run Pair Consistent)
variable {I K A C D : Type} [DecidableEq I] [DecidableEq K] [DecidableEq A] [DecidableEq C] [DecidableEq D]

/-- the linked files of a version are those of a directory -/
def VersionOk (V : Version I K A C) : Prop :=
  ∃ (S : Version I K A C) (order : List I), IsSource S order ∧ order.Nodup ∧ (∀ i, (S i).isSome = true → i ∈ order) ∧
    (∀ i x, V i = some x → x.file.reg = true → 2 ≤ x.nlink → S i = some x) ∧ ∀ i x, V i = some x → 1 ≤ x.nlink

theorem versionOk_next {o : Ops C D} {s : Sess I K A C} {V : Version I K A C} {times : List Nat} {errs : List I} {recs : I → Option (Rec K A C D)} (hV : KeyOk V)
    (hs : ValidSess o V times s) (he : ∀ i ∈ errs, Alone (s.src i) ∧ Alone (V i)) : VersionOk (versionOf V s.src errs recs) := by
  refine ⟨s.src, s.order, hs.source, hs.nodup, fun i hi => hs.all i (.inl hi), fun i x hx hr h2 => ?_, (C65.keyOk_next hV hs he).2⟩
  simp only [versionOf] at hx
  split at hx
  · next hi =>
    split at hx
    · have := (he i hi).2 x hx hr
      omega
    · simp at hx
  · exact hx

/-- every backup: its metadata and what is restored -/
theorem reach_versions {o : Ops C D} (hinj : ∀ c c', o.hash c = o.hash c' → c = c') {st : State I K A C D} {hist : List (Nat × Version I K A C)}
    (h : Reach o st hist) : ∀ x ∈ hist, VersionOk x.2 ∧ ∀ i, Describes o (x.2 i) (st.recsAt x.1 i) := by
  induction h with
  | empty f => intro x hx; simp at hx
  | @backup st st' hist s errs hr hv hs he ih =>
    have hg := C65.reach_good hinj hr
    intro x hx
    have hti := (C65.reach_made hr).2
    rcases List.mem_cons.1 hx with rfl | hx'
    · refine ⟨versionOk_next hg.2 hv he, fun i => ?_⟩
      have := (C65.reach_good hinj (.backup hr hv hs he)).1.describes i
      obtain ⟨ps, a, d, t, out, w, -, -, rfl, -⟩ := hs
      have he' : State.recsAt (⟨w.fs, (s.now, w.recs) :: st.metas, w.incs⟩ : State I K A C D) s.now i = w.recs i := by simp [State.recsAt]
      rw [he']
      exact this
    · refine ⟨(ih x hx').1, fun i => ?_⟩
      have hlt : x.1 < s.now := hv.time x.1 (List.mem_map_of_mem hx')
      obtain ⟨ps, a, d, t, out, w, -, -, rfl, -⟩ := hs
      have : State.recsAt (⟨w.fs, (s.now, w.recs) :: st.metas, w.incs⟩ : State I K A C D) x.1 i = st.recsAt x.1 i := by
        simp only [State.recsAt]
        rw [List.find?_cons_of_neg (by simp only [decide_eq_true_eq]; omega)]
      rw [this]
      exact (ih x hx').2 i

/-- regular file with links in the metadata -/
theorem rec_linked {o : Ops C D} {x : Src K A C} {h : Option D} (h1 : 1 ≤ x.nlink) (hn : (recOf o x h).nlink ≠ 1) :
    x.file.reg = true ∧ 2 ≤ x.nlink ∧ (recOf o x h).nlink = x.nlink ∧ (recOf o x h).key = x.key := by
  simp only [recOf] at hn ⊢
  by_cases hr : x.file.reg = true
  · rw [if_pos hr] at hn
    have h2 : 2 ≤ x.nlink := by omega
    simp [hr, h2]
  · rw [if_neg hr] at hn
    exact absurd rfl hn

theorem restore_srcs (o : Ops C D) (recs : I → Option (Rec K A C D)) (dst : Version I K A C) (order : List I) :
    (order.map (restorePair o recs dst)).map (·.src) = order.map fun i => (recs i).map (rorpRec i) := by
  rw [List.map_map]; rfl

theorem restore_consistent {o : Ops C D} {V : Version I K A C} (hV : VersionOk V) {recs : I → Option (Rec K A C D)} (hd : ∀ i, Describes o (V i) (recs i))
    (dst : Version I K A C) {order : List I} (hn : order.Nodup) : Consistent ((order.map (restorePair o recs dst)).map (·.src)) := by
  obtain ⟨S, sorder, hS, hsn, hcov, hVS, h1⟩ := hV
  rw [restore_srcs]
  have mem : ∀ {s : Rorp I K D}, some s ∈ order.map (fun i => (recs i).map (rorpRec i)) → ∃ i x h, V i = some x ∧ s = rorpRec i (recOf o x h) := by
    intro s hs
    simp only [List.mem_map, Option.map_eq_some_iff] at hs
    obtain ⟨i, -, r, hr, rfl⟩ := hs
    obtain ⟨h, he, -⟩ := hd i
    rw [hr] at he
    cases hv : V i with
    | none => rw [hv] at he; simp at he
    | some x =>
      rw [hv] at he
      simp only [Option.map_some, Option.some.injEq] at he
      exact ⟨i, x, h, hv, by rw [he]⟩
  have linked : ∀ {i x h}, V i = some x → (rorpRec i (recOf o x h) : Rorp I K D).nlink ≠ 1 →
      S i = some x ∧ x.file.reg = true ∧ 2 ≤ x.nlink ∧ (rorpRec i (recOf o x h) : Rorp I K D).nlink = x.nlink ∧
        (rorpRec i (recOf o x h) : Rorp I K D).key = x.key := by
    intro i x h hx hne
    obtain ⟨h2, h3, h4, h5⟩ := rec_linked (o := o) (h := h) (h1 i x hx) hne
    exact ⟨hVS i x hx h2 h3, h2, h3, h4, h5⟩
  have keyed : ∀ {i x h k}, V i = some x → (rorpRec i (recOf o x h) : Rorp I K D).key = some k → (rorpRec i (recOf o x h) : Rorp I K D).nlink ≠ 1 := by
    intro i x h k hx hk he
    simp only [rorpRec, recOf] at hk he
    by_cases hc : (x.file.reg && decide (2 ≤ x.nlink)) = true
    · rw [if_pos hc] at hk
      simp only [Bool.and_eq_true, decide_eq_true_eq] at hc
      rw [if_pos hc.1] at he
      omega
    · rw [if_neg hc] at hk
      cases hk
  constructor
  · intro s hs h2
    obtain ⟨i, x, h, hx, rfl⟩ := mem hs
    obtain ⟨l1, -, -, -, l5⟩ := linked (h := h) hx (by omega)
    rw [l5]
    exact (hS.key i x l1).1
  · intro s s' k hs hs' hk hk'
    obtain ⟨i, x, h, hx, rfl⟩ := mem hs
    obtain ⟨j, y, h', hy, rfl⟩ := mem hs'
    obtain ⟨-, m2, m3⟩ := Hardlinks.Rorp.isMem_iff.1 hk
    obtain ⟨-, m2', m3'⟩ := Hardlinks.Rorp.isMem_iff.1 hk'
    obtain ⟨l1, -, -, l4, l5⟩ := linked (h := h) hx (by omega)
    obtain ⟨l1', -, -, l4', l5'⟩ := linked (h := h') hy (by omega)
    rw [l4, l4']
    exact (hS.same i j x y l1 l1' (by rw [← l5, ← l5', m3, m3'])).2
  · intro s k hs hk
    obtain ⟨i, x, h, hx, rfl⟩ := mem hs
    obtain ⟨-, m2, m3⟩ := Hardlinks.Rorp.isMem_iff.1 hk
    obtain ⟨l1, l2, l3, l4, l5⟩ := linked (h := h) hx (by omega)
    rw [l4]
    refine le_trans ?_ (hS.count i x l1 l2 l3)
    rw [List.countP_map, List.countP_eq_length_filter, List.countP_eq_length_filter]
    refine List.Subperm.length_le (List.subperm_of_subset (hn.filter _) fun j hj => ?_)
    simp only [List.mem_filter, Function.comp, Hardlinks.memb] at hj
    obtain ⟨hjo, hj⟩ := hj
    cases hrj : recs j with
    | none => simp [hrj] at hj
    | some r =>
      simp only [hrj, Option.map_some, Option.any_some] at hj
      obtain ⟨j', y, h', hy, he⟩ := mem (List.mem_map.2 ⟨j, hjo, by rw [hrj]; rfl⟩)
      have hjj : j = j' := congrArg Rorp.index he
      subst hjj
      rw [he] at hj
      obtain ⟨-, m2', m3'⟩ := Hardlinks.Rorp.isMem_iff.1 hj
      obtain ⟨l1', -, -, l4', l5'⟩ := linked (h := h') hy (by omega)
      have hkk : y.key = x.key := by rw [← l5, ← l5', m3, m3']
      rw [List.mem_filter]
      exact ⟨hcov j (by rw [l1']; rfl), by simp [l1', hkk]⟩
  · intro s s' k hs hs' hk hk'
    obtain ⟨i, x, h, hx, rfl⟩ := mem hs
    obtain ⟨j, y, h', hy, rfl⟩ := mem hs'
    obtain ⟨l1', l2', l3', l4', l5'⟩ := linked (h := h') hy (keyed hy hk')
    exact Hardlinks.Rorp.isMem_iff.2 ⟨l2', by omega, hk'⟩
  · intro n m s s' h h' hi
    rw [List.getElem?_map, Option.map_eq_some_iff] at h h'
    obtain ⟨i, hi1, hi2⟩ := h
    obtain ⟨j, hj1, hj2⟩ := h'
    rw [Option.map_eq_some_iff] at hi2 hj2
    obtain ⟨x, -, rfl⟩ := hi2
    obtain ⟨y, -, rfl⟩ := hj2
    simp only [rorpRec] at hi
    subst hi
    exact (List.getElem?_inj (List.getElem?_eq_some_iff.1 hi1).1 hn).1 (hi1.trans hj1.symm)

/-! ### the paths one after the other -/

/-- the path `j`, before `i`, is the first of its links -/
def FirstIn (V : Version I K A C) (order : List I) (i j : I) : Prop :=
  ∃ x y a b, V i = some x ∧ V j = some y ∧ Links x y ∧ order = a ++ j :: b ∧ i ∈ b ∧ ∀ k ∈ a, ∀ z, V k = some z → ¬ Links x z

/-- the decision for a path -/
structure DecisionOk (o : Ops C D) (V dst : Version I K A C) (order : List I) (i : I) (x : Decision I) : Prop where
  keep : x = .keep → ∃ y d, V i = some y ∧ dst i = some d ∧ y.file.reg = d.file.reg ∧ y.file.attr = d.file.attr ∧ (y.file.reg = true → o.size y.file.data = o.size d.file.data) ∧
    (y.file.reg = false → y.file.data = d.file.data) ∧ (y.file.reg = true → y.nlink = d.nlink) ∧
    (y.file.reg = true → 2 ≤ y.nlink → y.key = d.key ∧ ∃ j, FirstIn V order i j)
  link : ∀ j, x = .link j → FirstIn V order i j
  replace : x = .replace → ∀ j, ¬ FirstIn V order i j

theorem restore_decision {o : Ops C D} {V : Version I K A C} (hV : VersionOk V) {recs : I → Option (Rec K A C D)} (hd : ∀ i, Describes o (V i) (recs i))
    {dst : Version I K A C} {order : List I} (hn : order.Nodup) {ps : List (Pair I K D)} {a q d : Nat} {t : Hardlinks.Tab I K D} {out : List (Decision I)}
    (hr : Run (order.map (restorePair o recs dst)) ps a q d t out) {n : Nat} {i : I} {x : Decision I} (hi : order[n]? = some i) (hx : out[n]? = some x) :
    DecisionOk o V dst order i x := by
  have hc := restore_consistent hV hd dst hn
  have h1 : ∀ i x, V i = some x → 1 ≤ x.nlink := hV.choose_spec.choose_spec.2.2.2.2
  have hat : (order.map (restorePair o recs dst))[n]? = some (restorePair o recs dst i) := by rw [List.getElem?_map, hi]; rfl
  -- sources of pairs, and the files
  have srcAt : ∀ {m : Nat} {s : Rorp I K D}, ((order.map (restorePair o recs dst)).map (·.src))[m]? = some (some s) →
      ∃ k y h, order[m]? = some k ∧ V k = some y ∧ s = rorpRec k (recOf o y h) := by
    intro m s hs
    rw [restore_srcs, List.getElem?_map, Option.map_eq_some_iff] at hs
    obtain ⟨k, hk, hs⟩ := hs
    rw [Option.map_eq_some_iff] at hs
    obtain ⟨r, hrk, rfl⟩ := hs
    obtain ⟨h, he, -⟩ := hd k
    rw [hrk] at he
    cases hv : V k with
    | none => rw [hv] at he; simp at he
    | some y =>
      rw [hv] at he
      simp only [Option.map_some, Option.some.injEq] at he
      exact ⟨k, y, h, hk, hv, by rw [he]⟩
  have links : ∀ {k m : I} {y z : Src K A C} {h h' : Option D}, V k = some y → V m = some z →
      (C31.SameFile (rorpRec k (recOf o y h) : Rorp I K D) (rorpRec m (recOf o z h')) ↔ Links y z) := by
    intro k m y z h h' hy hz
    constructor
    · rintro ⟨kk, -, m2, m3, -, m5, m6⟩
      obtain ⟨a1, a2, a3, a4⟩ := rec_linked (o := o) (h := h) (h1 k y hy) (by simp only [rorpRec] at m2; omega)
      obtain ⟨b1, b2, b3, b4⟩ := rec_linked (o := o) (h := h') (h1 m z hz) (by simp only [rorpRec] at m5; omega)
      refine ⟨a1, b1, a2, b2, ?_⟩
      simp only [rorpRec, a4] at m3
      simp only [rorpRec, b4] at m6
      rw [m3, m6]
    · rintro ⟨a1, b1, a2, b2, hk⟩
      have hkey : y.key ≠ none := by
        obtain ⟨S, so, hS, -, -, hVS, -⟩ := hV
        exact (hS.key k y (hVS k y hy a1 a2)).1
      cases hyk : y.key with
      | none => exact absurd hyk hkey
      | some kk => exact ⟨kk, by simp [rorpRec, recOf, a1], by simp [rorpRec, recOf, a1, a2], by simp [rorpRec, recOf, a1, a2, hyk],
          by simp [rorpRec, recOf, b1], by simp [rorpRec, recOf, b1, b2], by simp [rorpRec, recOf, b1, b2, ← hk, hyk]⟩
  have srcOf : ∀ {m : Nat} {k : I} {y : Src K A C}, order[m]? = some k → V k = some y → ∃ h,
      ((order.map (restorePair o recs dst)).map (·.src))[m]? = some (some (rorpRec k (recOf o y h))) := by
    intro m k y hk hy
    obtain ⟨h, he, -⟩ := hd k
    refine ⟨h, ?_⟩
    rw [restore_srcs, List.getElem?_map, hk, Option.map_some, he, hy]
    rfl
  -- an earlier first link
  have first : ∀ {f : Nat} {j : I} {y z : Src K A C}, f < n → order[f]? = some j → V i = some y → V j = some z → Links y z →
      (∀ g k w, g < f → order[g]? = some k → V k = some w → ¬ Links y w) → FirstIn V order i j := by
    intro f j y z hf hj hy hz hl hall
    obtain ⟨hfl, hfe⟩ := List.getElem?_eq_some_iff.1 hj
    refine ⟨y, z, order.take f, order.drop (f + 1), hy, hz, hl, ?_, ?_, ?_⟩
    · rw [← hfe, ← List.drop_eq_getElem_cons hfl, List.take_append_drop]
    · rw [List.mem_iff_getElem?]
      exact ⟨n - (f + 1), by rw [List.getElem?_drop, ← hi]; congr 1; omega⟩
    · intro m hm w hw
      obtain ⟨g, hg⟩ := List.mem_iff_getElem?.1 hm
      rw [List.getElem?_take] at hg
      split at hg
      · next hgf => exact hall g m w hgf hg hw
      · simp at hg
  constructor
  · rintro rfl
    obtain ⟨p0, sr, r, hp0, k1, k2, k3, k4⟩ := Hardlinks.keep_same hc hr hx
    rw [hat] at hp0
    cases hp0
    simp only [restorePair, Option.map_eq_some_iff] at k1 k2
    obtain ⟨r', hr', rfl⟩ := k1
    obtain ⟨dd, hdd, rfl⟩ := k2
    simp only [restorePair, hr', hdd] at k3
    obtain ⟨h0, e0, -⟩ := hd i
    rw [hr'] at e0
    cases hvi : V i with
    | none => rw [hvi] at e0; simp at e0
    | some y =>
      rw [hvi] at e0
      simp only [Option.map_some, Option.some.injEq] at e0
      subst e0
      simp only [sameFile, Bool.and_eq_true, decide_eq_true_eq] at k3
      obtain ⟨⟨⟨-, hreg⟩, hattr⟩, k3⟩ := k3
      have hreg' : y.file.reg = dd.file.reg := hreg
      have hattr' : y.file.attr = dd.file.attr := hattr
      refine ⟨y, dd, rfl, hdd, hreg', hattr', fun hb => ?_, fun hb => ?_, fun hb => ?_, fun hb h2 => ?_⟩
      · simp only [recOf, hb, if_true, Bool.and_eq_true, decide_eq_true_eq] at k3
        exact k3.1
      · simp only [recOf, hb, Bool.false_eq_true, if_false, decide_eq_true_eq, Option.some.injEq] at k3
        exact k3
      · have := k4 (by simpa [rorpRec, recOf] using hb) (by simp only [rorpSrc]; rw [← hreg', hb])
        simpa [rorpRec, rorpSrc, recOf, hb] using this
      · simp only [recOf, hb, h2, if_true, Bool.true_and, decide_true, Bool.and_eq_true, Bool.or_eq_true, decide_eq_true_eq] at k3
        refine ⟨k3.2.resolve_left (by omega), ?_⟩
        have hdn : ∀ p ∈ order.map (restorePair o recs dst), ∀ r, p.dest = some r → r.sha1 = none := by
          intro p hp r hpr
          obtain ⟨k, -, rfl⟩ := List.mem_map.1 hp
          simp only [restorePair, Option.map_eq_some_iff] at hpr
          obtain ⟨_, -, rfl⟩ := hpr
          rfl
        have hsrc : (restorePair o recs dst i).src = some (rorpRec i (recOf o y h0)) := by simp [restorePair, hr']
        obtain ⟨f, hf, s', hs', hsame⟩ := Hardlinks.keep_unlinked hc hdn hr hx hat hsrc (by simpa [rorpRec, recOf] using hb)
          (by
            intro r hpr
            simp only [restorePair, hdd, Option.map_some, Option.some.injEq] at hpr
            subst hpr
            simp only [rorpSrc]; rw [← hreg', hb])
          (by simp only [rorpRec, recOf, hb, if_true]; omega)
        obtain ⟨kk, hkk⟩ : ∃ kk, (rorpRec i (recOf o y h0) : Rorp I K D).isMem kk = true := by
          obtain ⟨kk, u1, u2, u3, -⟩ := hsame
          exact ⟨kk, Hardlinks.Rorp.isMem_iff.2 ⟨u1, u2, u3⟩⟩
        obtain ⟨f', s'', hf', hfs⟩ := Hardlinks.exists_first (Hardlinks.cnt_pos_iff.2 ⟨f, s', hf, hs', (C31.sameFile_iff hkk).1 hsame⟩)
        obtain ⟨j, z, hz, hj, hzj, rfl⟩ := srcAt hfs.1
        refine ⟨j, first hf' hj hvi hzj ((links hvi hzj).1 ((C31.sameFile_iff hkk).2 hfs.2.1)) fun g k w hg hk hw hl => ?_⟩
        obtain ⟨hw', hww⟩ := srcOf hk hw
        have := Hardlinks.cnt_pos_iff.2 ⟨g, _, hg, hww, (C31.sameFile_iff hkk).1 ((links hvi hw).2 hl)⟩
        rw [hfs.2.2] at this
        omega
  · rintro j rfl
    obtain ⟨s, s', f, l1, l2, l3, l4, l5, l6⟩ := C31.linked_to_first hc hr hx
    obtain ⟨i', y, h, hi', hy, rfl⟩ := srcAt l1
    rw [hi] at hi'
    cases hi'
    obtain ⟨j', z, h', hj', hz, rfl⟩ := srcAt l2
    have hjj : j' = j := l5
    subst hjj
    refine first l3 hj' hy hz ((links hy hz).1 l4) fun g k w hg hk hw hl => ?_
    obtain ⟨hw', hww⟩ := srcOf hk hw
    exact l6 g _ hg hww ((links hy hw).2 hl)
  · rintro rfl j ⟨y, z, a, b, hy, hz, hl, hab, hib, -⟩
    have hja : order[a.length]? = some j := by rw [hab]; simp
    have hlt : a.length < n := by
      obtain ⟨g, hg⟩ := List.mem_iff_getElem?.1 hib
      have : order[a.length + 1 + g]? = some i := by
        rw [hab, List.getElem?_append_right (by omega)]
        rw [show a.length + 1 + g - a.length = g + 1 by omega]
        simpa using hg
      have := (List.getElem?_inj (List.getElem?_eq_some_iff.1 this).1 hn).1 (this.trans hi.symm)
      omega
    obtain ⟨h', hz'⟩ := srcOf hja hz
    obtain ⟨h, hy'⟩ := srcOf hi hy
    rcases C31.decision_at hc hr hx with ⟨-, hnone⟩ | ⟨s, hs, hcase⟩
    · rw [hy'] at hnone; cases hnone
    · rw [hy'] at hs
      simp only [Option.some.injEq] at hs
      subst hs
      rcases hcase with hcase | ⟨hcase, -⟩ | ⟨_, _, _, _, _, _, hcase⟩
      · cases hcase
      · exact hcase a.length hlt _ hz' ((links hy hz).2 hl)
      · cases hcase

end Verif.Linked
