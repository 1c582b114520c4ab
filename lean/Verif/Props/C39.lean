import Verif.Model.Compare
import Verif.Props.C11
import Verif.Props.C31
import Mathlib.Data.List.Perm.Subperm
/-!
# C38: verification, C39: comparison, C40: listing changes
-/
namespace Verif.C39
open Verif.Compare Verif.Collate Verif.JoinSpec
variable {K S R σ : Type} [LinearOrder K]

/-! ### specification -/

/-- What should be reported about the files of a directory (`src`) and of a backup (`repo`). `data`: how the contents of regular files are compared (`none`:
not at all). -/
inductive Expected (o : Ops K S R) (data : Option (S → R → Prop)) (src : List S) (repo : List R) : K → Report → Prop
  | new {s} (hs : s ∈ src) (h : ∀ r ∈ repo, o.idxR r ≠ o.idxS s) : Expected o data src repo (o.idxS s) .new
  | deleted {r} (hr : r ∈ repo) (h : ∀ s ∈ src, o.idxS s ≠ o.idxR r) : Expected o data src repo (o.idxR r) .deleted
  | changed {s r} (hs : s ∈ src) (hr : r ∈ repo) (hi : o.idxS s = o.idxR r) (hd : data = none ∨ ¬ (o.regS s = true ∧ o.regR r = true))
      (h : o.eq s r = false) : Expected o data src repo (o.idxS s) .changed
  | detail {s r} {same : S → R → Prop} {m d : Bool} (hs : s ∈ src) (hr : r ∈ repo) (hi : o.idxS s = o.idxR r) (hd : data = some same)
      (hg : o.regS s = true ∧ o.regR r = true) (hm : m = true ↔ o.eq s r = false) (hdc : d = true ↔ ¬ same s r) (h : m = true ∨ d = true) :
      Expected o data src repo (o.idxS s) (.detail m d)

/-- Every expected report is given, exactly once (the indices increase), and no other one. -/
def Exact (expected : K → Report → Prop) (reps : List (K × Report)) : Prop :=
  reps.Pairwise (fun a b => a.1 < b.1) ∧ ∀ k rep, (k, rep) ∈ reps ↔ expected k rep

/-! ### proof -/

/-- what a row of the join yields -/
def Yields (o : Ops K S R) (data : Option (S → R → Prop)) (p : Option S × Option R) : Option (K × Report) → Prop
  | out => match p with
    | (none, none) => False
    | (some s, none) => out = some (o.idxS s, .new)
    | (none, some r) => out = some (o.idxR r, .deleted)
    | (some s, some r) =>
      match data with
      | none => out = if o.eq s r then none else some (o.idxS s, .changed)
      | some same =>
        if o.regS s && o.regR r then
          ∃ d : Bool, (d = true ↔ ¬ same s r) ∧ out = if o.eq s r && !d then none else some (o.idxS s, .detail (!o.eq s r) d)
        else out = if o.eq s r then none else some (o.idxS s, .changed)

omit [LinearOrder K] in
theorem yields_key {o : Ops K S R} {data : Option (S → R → Prop)} {src : List S} {repo : List R} {k : K} {p : Option S × Option R}
    (hr : IsRow o.idxS o.idxR src repo k p) {out : Option (K × Report)} (hy : Yields o data p out) {k' : K} {rep : Report}
    (h : (k', rep) ∈ out.toList) : k' = k ∧ Expected o data src repo k rep := by
  obtain ⟨hne, h1, h2⟩ := hr
  obtain ⟨ps, pr⟩ := p
  simp only [Option.mem_toList] at h
  cases ps with
  | none =>
    cases pr with
    | none => exact absurd rfl hne
    | some r =>
      simp only [Yields] at hy
      obtain ⟨hrm, hk⟩ := (h2 r).mp rfl
      rw [h] at hy; cases hy
      refine ⟨hk, hk ▸ .deleted hrm fun s hs hi => ?_⟩
      have := (h1 s).mpr ⟨hs, by rw [hi, hk]⟩
      cases this
  | some s =>
    obtain ⟨hsm, hks⟩ := (h1 s).mp rfl
    cases pr with
    | none =>
      simp only [Yields] at hy
      rw [h] at hy; cases hy
      refine ⟨hks, hks ▸ .new hsm fun r hr hi => ?_⟩
      have := (h2 r).mpr ⟨hr, by rw [hi, hks]⟩
      cases this
    | some r =>
      obtain ⟨hrm, hkr⟩ := (h2 r).mp rfl
      simp only [Yields] at hy
      cases data with
      | none =>
        simp only at hy
        rw [h] at hy
        split at hy
        · cases hy
        · rename_i hneq
          cases hy
          exact ⟨hks, hks ▸ .changed hsm hrm (by rw [hks, hkr]) (.inl rfl) (by simpa using hneq)⟩
      | some same =>
        simp only at hy
        split at hy
        · rename_i hg
          obtain ⟨d, hd, hy⟩ := hy
          rw [h] at hy
          split at hy
          · cases hy
          · rename_i hn
            cases hy
            refine ⟨hks, hks ▸ .detail hsm hrm (by rw [hks, hkr]) rfl (by simpa using hg) (by cases o.eq s r <;> simp) hd ?_⟩
            cases he : o.eq s r <;> cases d <;> simp_all
        · rename_i hg
          rw [h] at hy
          split at hy
          · cases hy
          · rename_i hneq
            cases hy
            exact ⟨hks, hks ▸ .changed hsm hrm (by rw [hks, hkr]) (.inr (by simpa using hg)) (by simpa using hneq)⟩

omit [LinearOrder K] in
theorem yields_of_expected {o : Ops K S R} {data : Option (S → R → Prop)} {src : List S} {repo : List R} {k : K} {p : Option S × Option R}
    (hr : IsRow o.idxS o.idxR src repo k p) {out : Option (K × Report)} (hy : Yields o data p out) {rep : Report}
    (h : Expected o data src repo k rep) : out = some (k, rep) := by
  obtain ⟨hne, h1, h2⟩ := hr
  obtain ⟨ps, pr⟩ := p
  simp only at h1 h2
  cases h with
  | new hs hno =>
    have := (h1 _).mpr ⟨hs, rfl⟩; subst this
    cases pr with
    | none => exact hy
    | some r => obtain ⟨hrm, hkr⟩ := (h2 r).mp rfl; exact absurd hkr (hno r hrm)
  | deleted hr hno =>
    have := (h2 _).mpr ⟨hr, rfl⟩; subst this
    cases ps with
    | none => exact hy
    | some s => obtain ⟨hsm, hks⟩ := (h1 s).mp rfl; exact absurd hks (hno s hsm)
  | changed hs hr hi hd he =>
    have := (h1 _).mpr ⟨hs, rfl⟩; subst this
    have := (h2 _).mpr ⟨hr, hi.symm⟩; subst this
    simp only [Yields] at hy
    cases data with
    | none => simpa [he] using hy
    | some same =>
      rcases hd with hd | hd
      · cases hd
      · simp only at hy
        rw [if_neg (by simpa using hd)] at hy
        simpa [he] using hy
  | detail hs hr hi hd hg hm hdc hor =>
    have := (h1 _).mpr ⟨hs, rfl⟩; subst this
    have := (h2 _).mpr ⟨hr, hi.symm⟩; subst this
    subst hd
    simp only [Yields] at hy
    rw [if_pos (by simpa using hg)] at hy
    obtain ⟨d', hd', hy⟩ := hy
    rename_i s r same m d
    have hdd : d' = d := by
      cases d' <;> cases d <;> simp_all
    subst hdd
    have hmm : m = !o.eq s r := by cases m <;> cases he : o.eq s r <;> simp_all
    subst hmm
    rw [hy, if_neg]
    cases he : o.eq s r <;> cases d' <;> simp_all

theorem exact_of_rows {o : Ops K S R} {data : Option (S → R → Prop)} {src : List S} {repo : List R} {rows : List (Option S × Option R)}
    (hj : IsOuterJoin o.idxS o.idxR src repo rows) {outs : List (Option (K × Report))} (hy : List.Forall₂ (Yields o data) rows outs) :
    Exact (Expected o data src repo) (outs.flatMap Option.toList) := by
  obtain ⟨ks, hs, hm, hf⟩ := hj
  have hall : ∀ (ks : List K) (rows : List (Option S × Option R)) (outs : List (Option (K × Report))), ks.Pairwise (· < ·) →
      List.Forall₂ (IsRow o.idxS o.idxR src repo) ks rows → List.Forall₂ (Yields o data) rows outs →
      (outs.flatMap Option.toList).Pairwise (fun a b => a.1 < b.1) ∧
        (∀ k rep, (k, rep) ∈ outs.flatMap Option.toList → k ∈ ks ∧ Expected o data src repo k rep) ∧
        (∀ k rep, k ∈ ks → Expected o data src repo k rep → (k, rep) ∈ outs.flatMap Option.toList) := by
    intro ks rows outs hs hf hy
    induction hf generalizing outs with
    | nil => cases hy; simp
    | @cons k p ks rows hr _ ih =>
      cases hy with
      | @cons _ out _ outs hy hys =>
        obtain ⟨hlt, hs⟩ := List.pairwise_cons.mp hs
        obtain ⟨i1, i2, i3⟩ := ih outs hs hys
        refine ⟨?_, ?_, ?_⟩
        · rw [List.flatMap_cons, List.pairwise_append]
          refine ⟨?_, i1, ?_⟩
          · cases out <;> simp
          · rintro ⟨k1, r1⟩ ha ⟨k2, r2⟩ hb
            rw [(yields_key hr hy ha).1]
            exact hlt _ (i2 _ _ hb).1
        · intro k' rep h
          rw [List.flatMap_cons, List.mem_append] at h
          rcases h with h | h
          · obtain ⟨rfl, he⟩ := yields_key hr hy h
            exact ⟨by simp, he⟩
          · obtain ⟨h1, h2⟩ := i2 _ _ h
            exact ⟨by simp [h1], h2⟩
        · intro k' rep hk he
          rw [List.flatMap_cons, List.mem_append]
          rcases List.mem_cons.mp hk with rfl | hk
          · left; rw [yields_of_expected hr hy he]; simp
          · right; exact i3 _ _ hk he
  obtain ⟨h1, h2, h3⟩ := hall ks rows outs hs hf hy
  refine ⟨h1, fun k rep => ⟨fun h => (h2 k rep h).2, fun h => h3 k rep ?_ h⟩⟩
  rw [hm]
  cases h with
  | new hs _ => exact .inl ⟨_, hs, rfl⟩
  | deleted hr _ => exact .inr ⟨_, hr, rfl⟩
  | changed hs _ _ _ _ => exact .inl ⟨_, hs, rfl⟩
  | detail hs _ _ _ _ _ _ _ => exact .inl ⟨_, hs, rfl⟩

/-- the files of both lists exist -/
def Exist (o : Ops K S R) (src : List S) (repo : List R) : Prop := (∀ s ∈ src, o.existS s = true) ∧ ∀ r ∈ repo, o.existR r = true

theorem rows_exist {o : Ops K S R} {src : List S} {repo : List R} (he : Exist o src repo) {rows : List (Option S × Option R)}
    (hj : IsOuterJoin o.idxS o.idxR src repo rows) :
    ∀ p ∈ rows, p ≠ (none, none) ∧ (∀ s, p.1 = some s → s ∈ src ∧ o.existS s = true) ∧ (∀ r, p.2 = some r → r ∈ repo ∧ o.existR r = true) ∧
      ∀ s r, p = (some s, some r) → o.idxS s = o.idxR r := by
  obtain ⟨ks, hs, hm, hf⟩ := hj
  clear hs hm
  induction hf with
  | nil => simp
  | cons hr _ ih =>
    intro p hp
    rcases List.mem_cons.mp hp with rfl | hp
    · obtain ⟨hne, h1, h2⟩ := hr
      refine ⟨hne, fun s hs => ?_, fun r hr => ?_, ?_⟩
      · have := ((h1 s).mp hs).1; exact ⟨this, he.1 s this⟩
      · have := ((h2 r).mp hr).1; exact ⟨this, he.2 r this⟩
      · rintro s r rfl
        rw [((h1 s).mp rfl).2, ((h2 r).mp rfl).2]
    · exact ih p hp

/-! ### C39 -/

/-- `compare --method meta` reports exactly the differences. -/
theorem compare_meta {o : Ops K S R} {src : List S} {repo : List R} (o1 : Ordered o.idxS src) (o2 : Ordered o.idxR repo) (he : Exist o src repo) :
    ∃ reps, compareMeta o src repo = some reps ∧ Exact (Expected o none src repo) reps := by
  have hj := C11.collate2_outer_join o.idxS o.idxR src repo o1 o2
  have hrows := rows_exist he hj
  have key : ∀ rows : List (Option S × Option R), (∀ p ∈ rows, p ∈ collate2 o.idxS o.idxR src repo) →
      ∃ outs, reports (σ := Unit) o none () rows = some (outs.flatMap Option.toList) ∧ List.Forall₂ (Yields o none) rows outs := by
    intro rows hsub
    induction rows with
    | nil => exact ⟨[], rfl, .nil⟩
    | cons p rows ih =>
      obtain ⟨outs, h1, h2⟩ := ih fun p hp => hsub p (by simp [hp])
      obtain ⟨hne, hs, hr, -⟩ := hrows p (hsub p (by simp))
      have : ∃ out, basicReport (σ := Unit) o none () p.1 p.2 = some (out, ()) ∧ Yields o none p out := by
        obtain ⟨ps, pr⟩ := p
        cases ps with
        | none =>
          cases pr with
          | none => exact absurd rfl hne
          | some r => exact ⟨_, by simp only [basicReport, (hr r rfl).2]; rfl, rfl⟩
        | some s =>
          cases pr with
          | none => exact ⟨_, rfl, rfl⟩
          | some r =>
            refine ⟨if o.eq s r then none else some (o.idxS s, .changed), ?_, rfl⟩
            simp only [basicReport, (hr r rfl).2, (hs s rfl).2]
            cases o.eq s r <;> rfl
      obtain ⟨out, h3, h4⟩ := this
      refine ⟨out :: outs, ?_, .cons h4 h2⟩
      simp only [reports, h3, h1, Option.map_some, List.flatMap_cons]
  obtain ⟨outs, h1, h2⟩ := key _ fun p hp => hp
  exact ⟨_, h1, exact_of_rows hj h2⟩

section hash
variable {N D : Type} [DecidableEq N] [DecidableEq D]
open Verif.Hardlinks (getHash Tab)
open Verif.C31 (SameFile hashes)

/-- both are links of one file -/
def linked (r r' : Hardlinks.Rorp K N D) : Bool :=
  r.reg && r'.reg && decide (2 ≤ r.nlink) && decide (2 ≤ r'.nlink) && r.key.isSome && decide (r.key = r'.key)

/-- The digest which is recorded for a file: its own, or, if it is a further link of a file before it in the list, that of the first link. -/
def recorded (before : List (Hardlinks.Rorp K N D)) (r : Hardlinks.Rorp K N D) : Option D :=
  match before.find? (linked r) with
  | some r' => r'.sha1
  | none => r.sha1

omit [LinearOrder K] [DecidableEq D] in
theorem linked_iff {r r' : Hardlinks.Rorp K N D} : linked r r' = true ↔ SameFile r r' := by
  simp only [linked, Bool.and_eq_true, decide_eq_true_eq, SameFile, Option.isSome_iff_exists]
  constructor
  · rintro ⟨⟨⟨⟨⟨h1, h2⟩, h3⟩, h4⟩, k, h5⟩, h6⟩
    exact ⟨k, h1, h3, h5, h2, h4, h6 ▸ h5⟩
  · rintro ⟨k, h1, h2, h3, h4, h5, h6⟩
    exact ⟨⟨⟨⟨⟨h1, h4⟩, h2⟩, h5⟩, k, h3⟩, by rw [h3, h6]⟩

def recL (before : List (Hardlinks.Rorp K N D)) : List (Hardlinks.Rorp K N D) → List (Option D)
  | [] => []
  | r :: rs => recorded before r :: recL (before ++ [r]) rs

omit [LinearOrder K] [DecidableEq D] in
theorem recL_length (l p : List (Hardlinks.Rorp K N D)) : (recL p l).length = l.length := by
  induction l generalizing p with
  | nil => rfl
  | cons r l ih => simp [recL, ih]

omit [LinearOrder K] [DecidableEq D] in
theorem recL_get (l : List (Hardlinks.Rorp K N D)) : ∀ (p : List (Hardlinks.Rorp K N D)) (i : Nat) r, l[i]? = some r →
    (recL p l)[i]? = some (recorded (p ++ l.take i) r) := by
  induction l with
  | nil => intro p i r h; simp at h
  | cons a l ih =>
    intro p i r h
    cases i with
    | zero => simp only [List.getElem?_cons_zero, Option.some.injEq] at h; subst h; simp [recL]
    | succ i =>
      rw [List.getElem?_cons_succ] at h
      simp only [recL, List.getElem?_cons_succ, List.take_succ_cons]
      rw [ih (p ++ [a]) i r h]; simp

theorem hashes_recL {rs : List (Hardlinks.Rorp K N D)} (hc : Hardlinks.Consistent (rs.map some)) : ∃ t, hashes Hardlinks.empty rs = some (recL [] rs, t) := by
  obtain ⟨hs, t, h1, h2, h3⟩ := C31.hashes_of_first hc
  refine ⟨t, ?_⟩
  rw [h1]
  congr 2
  apply List.ext_getElem?
  intro i
  by_cases hi : i < rs.length
  · obtain ⟨r, hr⟩ : ∃ r, rs[i]? = some r := ⟨_, List.getElem?_eq_getElem hi⟩
    obtain ⟨h, hh⟩ : ∃ h, hs[i]? = some h := ⟨_, List.getElem?_eq_getElem (by omega)⟩
    rw [recL_get rs [] i r hr, hh]
    congr 1
    obtain ⟨ha, hb⟩ := h3 i r h hr hh
    simp only [recorded, List.nil_append]
    cases hf : (rs.take i).find? (linked r) with
    | none =>
      simp only
      rw [List.find?_eq_none] at hf
      refine ha fun f hfi r' hr' hsame => hf r' ?_ (linked_iff.mpr hsame)
      exact List.mem_of_getElem? (l := rs.take i) (i := f) (by rw [List.getElem?_take, if_pos hfi, hr'])
    | some r' =>
      simp only
      rw [List.find?_eq_some_iff_getElem] at hf
      obtain ⟨hl, f, hfl, hfe, hmin⟩ := hf
      have hfi : f < i := by rw [List.length_take] at hfl; omega
      refine hb f r' hfi ?_ (linked_iff.mp hl) ?_
      · rw [← hfe, List.getElem_take]; exact List.getElem?_eq_getElem _
      · intro g r'' hg hr'' hsame
        have := hmin g hg
        rw [List.getElem_take] at this
        have hg' : rs[g] = r'' := by
          have := List.getElem?_eq_getElem (l := rs) (i := g) (by omega)
          rw [this] at hr''; simpa using hr''
        rw [hg', linked_iff.mpr hsame] at this
        simp at this
  · rw [List.getElem?_eq_none (by omega), List.getElem?_eq_none (by rw [recL_length]; omega)]

omit [LinearOrder K] [DecidableEq D] in
theorem consistent_sub {l l' : List (Hardlinks.Rorp K N D)} (hc : Hardlinks.Consistent (l.map some)) (hs : l'.Subperm l)
    (hn : (l'.map (·.index)).Nodup) : Hardlinks.Consistent (l'.map some) := by
  have hsub : ∀ s, some s ∈ l'.map some → some s ∈ l.map some := by
    intro s hs'
    simp only [List.mem_map, Option.some.injEq, exists_eq_right] at hs' ⊢
    exact hs.subset hs'
  refine ⟨fun s h => hc.haskey s (hsub s h), fun s s' k h h' => hc.nlink s s' k (hsub s h) (hsub s' h'), ?_,
    fun s s' k h h' => hc.other s s' k (hsub s h) (hsub s' h'), ?_⟩
  · intro s k h hm
    refine le_trans ?_ (hc.count s k (hsub s h) hm)
    simp only [List.countP_map]; exact hs.countP_le _
  · intro i j s s' hi hj hidx
    rw [List.getElem?_map] at hi hj
    obtain ⟨_, hi', hi2⟩ := Option.map_eq_some_iff.mp hi
    obtain ⟨_, hj', hj2⟩ := Option.map_eq_some_iff.mp hj
    cases hi2; cases hj2
    have h1 : (l'.map (·.index))[i]? = some s.index := by rw [List.getElem?_map, hi']; rfl
    have h2 : (l'.map (·.index))[j]? = some s.index := by rw [List.getElem?_map, hj', hidx]; rfl
    have hi3 : i < (l'.map (·.index)).length := by
      by_contra hc; rw [List.getElem?_eq_none (by omega)] at h1; cases h1
    exact (List.getElem?_inj hi3 hn).mp (h1.trans h2.symm)

/-- the files whose digests are asked for by `compare_hash` -/
def asked (o : Ops K S R) (rows : List (Option S × Option R)) : List R :=
  rows.filterMap fun p => match p with
    | (some s, some r) => if o.regS s && o.regR r then some r else none
    | _ => none

omit [LinearOrder K] in
theorem asked_mem {o : Ops K S R} {rows : List (Option S × Option R)} {r : R} (h : r ∈ asked o rows) : ∃ s, (some s, some r) ∈ rows := by
  simp only [asked, List.mem_filterMap] at h
  obtain ⟨p, hp, h⟩ := h
  split at h
  · rename_i s r'
    split at h
    · cases h; exact ⟨s, hp⟩
    · cases h
  · cases h

theorem asked_sorted {o : Ops K S R} {src : List S} {repo : List R} {rows : List (Option S × Option R)}
    (hj : IsOuterJoin o.idxS o.idxR src repo rows) : (asked o rows).Pairwise (fun a b => o.idxR a < o.idxR b) := by
  obtain ⟨ks, hs, hm, hf⟩ := hj
  clear hm
  have hin : ∀ (ks : List K) (rows : List (Option S × Option R)), List.Forall₂ (IsRow o.idxS o.idxR src repo) ks rows →
      ∀ r ∈ asked o rows, o.idxR r ∈ ks := by
    intro ks rows hf r h0
    obtain ⟨s, h⟩ := asked_mem h0
    clear h0
    induction hf with
    | nil => simp at h
    | @cons k' p' ks rows hr' _ ih =>
      rcases List.mem_cons.mp h with h | h
      · subst h
        have := ((hr'.2.2 r).mp rfl).2
        rw [this]; simp
      · exact List.mem_cons_of_mem _ (ih h)
  induction hf with
  | nil => simp [asked]
  | @cons k p ks rows hr hrs ih =>
    obtain ⟨hlt, hs⟩ := List.pairwise_cons.mp hs
    have hin := hin ks rows hrs
    simp only [asked, List.filterMap_cons]
    split
    · exact ih hs
    · rename_i r h
      refine List.pairwise_cons.mpr ⟨fun r' hr' => ?_, ih hs⟩
      split at h
      · split at h
        · cases h
          rw [((hr.2.2 r).mp rfl).2]
          exact hlt _ (hin r' hr')
        · cases h
      · cases h

/-- how `compare_hash` compares the contents: by size and recorded digest, if there is one -/
def sameDigest (o : Ops K S R) (link : R → Hardlinks.Rorp K N D) (sha : S → D) (s : S) (r : R) : Prop :=
  match (link r).sha1 with
  | none => True
  | some d => o.sizeS s = o.sizeR r ∧ sha s = d

/-- `compare --method hash` reports exactly the differences, if links of a file have the same recorded digest (or none of them has one). -/
theorem compare_hash_partial {o : Ops K S R} {link : R → Hardlinks.Rorp K N D} {sha : S → D} {src : List S} {repo : List R}
    (o1 : Ordered o.idxS src) (o2 : Ordered o.idxR repo) (he : Exist o src repo)
    (hidx : ∀ r, (link r).index = o.idxR r) (hc : Hardlinks.Consistent ((repo.map link).map some))
    (hu : ∀ r ∈ repo, ∀ r' ∈ repo, linked (link r) (link r') = true → (link r).sha1 = (link r').sha1) :
    ∃ reps, compareHash o link sha src repo = some reps ∧ Exact (Expected o (some (sameDigest o link sha)) src repo) reps := by
  have hj := C11.collate2_outer_join o.idxS o.idxR src repo o1 o2
  have hrows := rows_exist he hj
  have hask : ∀ r ∈ asked o (collate2 o.idxS o.idxR src repo), r ∈ repo := by
    intro r hr
    obtain ⟨s, hm⟩ := asked_mem hr
    exact ((hrows _ hm).2.2.1 r rfl).1
  have hsorted := asked_sorted hj
  have hnodup : ((asked o (collate2 o.idxS o.idxR src repo)).map o.idxR).Nodup := by
    rw [List.nodup_iff_pairwise_ne, List.pairwise_map]
    exact hsorted.imp fun h => ne_of_lt h
  have hcons : Hardlinks.Consistent (((asked o (collate2 o.idxS o.idxR src repo)).map link).map some) := by
    refine consistent_sub hc ?_ ?_
    · apply List.subperm_of_subset
      · have : (((asked o (collate2 o.idxS o.idxR src repo)).map link).map (·.index)).Nodup := by
          rw [List.map_map]; convert hnodup using 2; funext r; exact hidx r
        exact List.Pairwise.of_map _ (fun a b h hab => h (congrArg _ hab)) this
      · intro x hx
        obtain ⟨r, hr, rfl⟩ := List.mem_map.mp hx
        exact List.mem_map_of_mem (hask r hr)
    · rw [List.map_map]; convert hnodup using 2; funext r; exact hidx r
  obtain ⟨t0, ht0⟩ := hashes_recL hcons
  have hrec : ∀ l p : List R, (∀ r ∈ p, r ∈ repo) → (∀ r ∈ l, r ∈ repo) → recL (p.map link) (l.map link) = l.map fun r => (link r).sha1 := by
    intro l
    induction l with
    | nil => intro p _ _; rfl
    | cons r l ih =>
      intro p hp hl
      simp only [List.map_cons, recL]
      congr 1
      · simp only [recorded]
        cases hf : (p.map link).find? (linked (link r)) with
        | none => rfl
        | some x =>
          have h1 := List.find?_some hf
          obtain ⟨r', hr', rfl⟩ := List.mem_map.mp (List.mem_of_find?_eq_some hf)
          exact (hu r (hl r (by simp)) r' (hp r' hr') h1).symm
      · have := ih (p ++ [r]) (fun x hx => by
          rcases List.mem_append.mp hx with h | h
          · exact hp x h
          · rw [List.mem_singleton.mp h]; exact hl r (by simp)) (fun x hx => hl x (by simp [hx]))
        rw [List.map_append] at this
        exact this
  have ht1 := hrec _ [] (by simp) hask
  simp only [List.map_nil] at ht1
  rw [ht1] at ht0
  have key : ∀ (rows : List (Option S × Option R)) t, (∀ p ∈ rows, p ∈ collate2 o.idxS o.idxR src repo) →
      hashes t ((asked o rows).map link) = some ((asked o rows).map (fun r => (link r).sha1), t0) →
      ∃ outs, reports o (some (hashesChanged o link sha)) t rows = some (outs.flatMap Option.toList) ∧
        List.Forall₂ (Yields o (some (sameDigest o link sha))) rows outs := by
    intro rows
    induction rows with
    | nil => intro t _ _; exact ⟨[], rfl, .nil⟩
    | cons p rows ih =>
      intro t hsub hh
      obtain ⟨hne, hs, hr, -⟩ := hrows p (hsub p (by simp))
      have : ∃ out t', basicReport o (some (hashesChanged o link sha)) t p.1 p.2 = some (out, t') ∧
          Yields o (some (sameDigest o link sha)) p out ∧
          hashes t' ((asked o rows).map link) = some ((asked o rows).map (fun r => (link r).sha1), t0) := by
        obtain ⟨ps, pr⟩ := p
        cases ps with
        | none =>
          cases pr with
          | none => exact absurd rfl hne
          | some r => exact ⟨_, t, by simp only [basicReport, (hr r rfl).2]; rfl, rfl, hh⟩
        | some s =>
          cases pr with
          | none => exact ⟨_, t, rfl, rfl, hh⟩
          | some r =>
            cases hg : (o.regS s && o.regR r) with
            | false =>
              refine ⟨if o.eq s r then none else some (o.idxS s, .changed), t, ?_, ?_, ?_⟩
              · simp only [basicReport, (hr r rfl).2, (hs s rfl).2, hg]
                cases o.eq s r <;> rfl
              · simp [Yields, hg]
              · have : asked o ((some s, some r) :: rows) = asked o rows := by
                  simp only [asked, List.filterMap_cons, hg, Bool.false_eq_true, if_false]
                rw [this] at hh; exact hh
            | true =>
              simp only [asked, List.filterMap_cons, hg, if_true, List.map_cons] at hh
              rw [hashes] at hh
              split at hh
              · cases hh
              · rename_i h t' hgh
                obtain ⟨x, hx1, hx2⟩ := Option.map_eq_some_iff.mp hh
                simp only [Prod.mk.injEq, List.cons.injEq] at hx2
                obtain ⟨⟨hh1, hh2⟩, hh3⟩ := hx2
                subst hh1
                have hd : ∃ d, hashesChanged o link sha t s r = some (d, t') ∧ (d = true ↔ ¬ sameDigest o link sha s r) := by
                  simp only [hashesChanged, hgh, sameDigest]
                  cases (link r).sha1 with
                  | none => exact ⟨false, rfl, by simp⟩
                  | some d => exact ⟨!(o.sizeS s == o.sizeR r && sha s == d), rfl, by
                      cases h1 : (o.sizeS s == o.sizeR r) <;> cases h2 : (sha s == d) <;> simp_all⟩
                obtain ⟨d, hd1, hd2⟩ := hd
                refine ⟨if o.eq s r && !d then none else some (o.idxS s, .detail (!o.eq s r) d), t', ?_, ?_, ?_⟩
                · simp only [basicReport, (hr r rfl).2, (hs s rfl).2, hg, hd1]
                  cases o.eq s r <;> cases d <;> rfl
                · simp only [Yields, hg, if_true]
                  exact ⟨d, hd2, rfl⟩
                · show hashes t' (List.map link (asked o rows)) = _
                  simp only [asked]
                  rw [hx1, ← hh2, ← hh3]
      obtain ⟨out, t', h3, h4, h5⟩ := this
      obtain ⟨outs, h1, h2⟩ := ih t' (fun p hp => hsub p (by simp [hp])) h5
      refine ⟨out :: outs, ?_, .cons h4 h2⟩
      simp only [reports, h3, h1, Option.map_some, List.flatMap_cons]
  obtain ⟨outs, h1, h2⟩ := key _ _ (fun p hp => hp) ht0
  exact ⟨_, h1, exact_of_rows hj h2⟩

end hash

section full
variable {C : Type} [DecidableEq C]

/-- `compare --method full` reports exactly the differences, if the base directory is in the backup and no file which is in the backup is left out by the
selection though it exists. -/
theorem compare_full_partial {o : Ops K S R} {root : K} {fs : K → S} {dataS : S → Option C} {dataR : R → C} {src : List S} {repo : List R}
    (o1 : Ordered o.idxS src) (o2 : Ordered o.idxR repo) (he : Exist o src repo)
    (hfs : ∀ s ∈ src, fs (o.idxS s) = s) (hfi : ∀ k, o.idxS (fs k) = k) (hroot : ∃ r ∈ repo, o.idxR r = root)
    (hsel : ∀ r ∈ repo, (∀ s ∈ src, o.idxS s ≠ o.idxR r) → o.existS (fs (o.idxR r)) = false) :
    ∃ reps, compareFull o root fs dataS dataR src repo = some reps ∧
      Exact (Expected o (some fun s r => o.sizeS s = o.sizeR r ∧ dataS s = some (dataR r)) src repo) reps := by
  have hj := C11.collate2_outer_join o.idxS o.idxR src repo o1 o2
  have hrows := rows_exist he hj
  have hnew : ∀ s, (some s, none) ∈ collate2 o.idxS o.idxR src repo → o.idxS s ≠ root := by
    intro s hm hk
    obtain ⟨ks, -, -, hf⟩ := hj
    obtain ⟨r, hr, hrk⟩ := hroot
    have : ∀ (ks : List K) rows, List.Forall₂ (IsRow o.idxS o.idxR src repo) ks rows → (some s, none) ∈ rows → False := by
      intro ks rows hf
      induction hf with
      | nil => simp
      | cons hrow _ ih =>
        intro hm
        rcases List.mem_cons.mp hm with h | h
        · subst h
          have h1 := ((hrow.2.1 s).mp rfl).2
          have h2 := (hrow.2.2 r).mpr ⟨hr, by rw [← h1, hk, hrk]⟩
          cases h2
        · exact ih h
    exact this _ _ hf hm
  have hdel : ∀ r, (none, some r) ∈ collate2 o.idxS o.idxR src repo → o.existS (fs (o.idxR r)) = false := by
    intro r hm
    refine hsel r ((hrows _ hm).2.2.1 r rfl).1 fun s hs hk => ?_
    obtain ⟨ks, -, -, hf⟩ := hj
    have : ∀ (ks : List K) rows, List.Forall₂ (IsRow o.idxS o.idxR src repo) ks rows → (none, some r) ∈ rows → False := by
      intro ks rows hf
      induction hf with
      | nil => simp
      | cons hrow _ ih =>
        intro hm
        rcases List.mem_cons.mp hm with h | h
        · subst h
          have h1 := ((hrow.2.2 r).mp rfl).2
          have h2 := (hrow.2.1 s).mpr ⟨hs, by rw [← h1, hk]⟩
          cases h2
        · exact ih h
    exact this _ _ hf hm
  let D : Option (S → R → Prop) := some fun s r => o.sizeS s = o.sizeR r ∧ dataS s = some (dataR r)
  have key : ∀ rows : List (Option S × Option R), (∀ p ∈ rows, p ∈ collate2 o.idxS o.idxR src repo) →
      ∃ xs outs, attachFiles o root dataR rows = some xs ∧ compareFullLoop o fs dataS xs = some (outs.flatMap Option.toList) ∧
        List.Forall₂ (Yields o D) rows outs := by
    intro rows hsub
    induction rows with
    | nil => exact ⟨[], [], rfl, rfl, .nil⟩
    | cons p rows ih =>
      obtain ⟨xs, outs, h1, h2, h3⟩ := ih fun p hp => hsub p (by simp [hp])
      have hp := hsub p (by simp)
      obtain ⟨hne, hs, hr, hi⟩ := hrows p hp
      obtain ⟨ps, pr⟩ := p
      -- the element which is sent, if any
      have send : ∀ x out, attachFiles o root dataR ((ps, pr) :: rows) = (attachFiles o root dataR rows).map (x :: ·) →
          basicReport (σ := Unit) o (some fun t s r => (dataChanged o dataS x.data s r).map (·, t)) () (some (fs x.index)) x.repo = some (out, ()) →
          Yields o D (ps, pr) out →
          ∃ xs outs, attachFiles o root dataR ((ps, pr) :: rows) = some xs ∧ compareFullLoop o fs dataS xs = some (outs.flatMap Option.toList) ∧
            List.Forall₂ (Yields o D) ((ps, pr) :: rows) outs := by
        intro x out ha hb hy
        refine ⟨x :: xs, out :: outs, by rw [ha, h1]; rfl, ?_, .cons hy h3⟩
        simp only [compareFullLoop, hb, h2, Option.map_some, List.flatMap_cons]
      cases ps with
      | none =>
        cases pr with
        | none => exact absurd rfl hne
        | some r =>
          refine send ⟨o.idxR r, some r, none⟩ (some (o.idxR r, .deleted)) rfl ?_ rfl
          simp only [basicReport, (hr r rfl).2, hdel r hp, hfi]; rfl
      | some s =>
        have hsm := (hs s rfl).1
        cases pr with
        | none =>
          refine send ⟨o.idxS s, none, none⟩ (some (o.idxS s, .new)) ?_ ?_ rfl
          · simp only [attachFiles, if_neg (hnew s hp)]
          · simp only [basicReport, hfi]
        | some r =>
          have hii := hi s r rfl
          have hfr : fs (o.idxR r) = s := by rw [← hii]; exact hfs s hsm
          by_cases hskip : (!o.regS s && o.eq s r) = true
          · refine ⟨xs, none :: outs, ?_, by simpa using h2, .cons ?_ h3⟩
            · simp only [attachFiles, hskip, if_true, h1]
            · simp only [Bool.and_eq_true, Bool.not_eq_true'] at hskip
              simp [Yields, D, hskip.1, hskip.2]
          · by_cases hatt : (o.regS s && o.regR r && o.sizeS s == o.sizeR r) = true
            · have hatt' := hatt
              simp only [Bool.and_eq_true, beq_iff_eq] at hatt'
              obtain ⟨⟨hg1, hg2⟩, hsz⟩ := hatt'
              have : ∃ d, dataChanged o dataS (some (dataR r)) s r = some d ∧ (d = true ↔ ¬ (o.sizeS s = o.sizeR r ∧ dataS s = some (dataR r))) := by
                simp only [dataChanged, hsz]
                cases dataS s with
                | none => exact ⟨true, by simp, by simp⟩
                | some c => exact ⟨decide (c ≠ dataR r), by simp, by simp⟩
              obtain ⟨d, hd1, hd2⟩ := this
              refine send ⟨o.idxR r, some r, some (dataR r)⟩ (if o.eq s r && !d then none else some (o.idxS s, .detail (!o.eq s r) d)) ?_ ?_ ?_
              · simp only [attachFiles]; rw [if_neg (by simpa using hskip), if_pos hatt]
              · simp only [basicReport, (hr r rfl).2, (hs s rfl).2, hfr, hg1, hg2, hd1]
                cases o.eq s r <;> cases d <;> rfl
              · simp only [Yields, D, hg1, hg2]
                exact ⟨d, hd2, rfl⟩
            · by_cases hg : (o.regS s && o.regR r) = true
              · have hsz : o.sizeS s ≠ o.sizeR r := by
                  intro h; rw [h, beq_self_eq_true, Bool.and_true] at hatt; exact hatt hg
                have hg' := hg; simp only [Bool.and_eq_true] at hg'
                refine send ⟨o.idxR r, some r, none⟩ (some (o.idxS s, .detail (!o.eq s r) true)) ?_ ?_ ?_
                · simp only [attachFiles]; rw [if_neg (by simpa using hskip), if_neg hatt]
                · simp only [basicReport, (hr r rfl).2, (hs s rfl).2, hfr, hg, dataChanged, ne_eq, hsz, not_false_eq_true, if_true]
                  cases o.eq s r <;> rfl
                · simp only [Yields, D, hg, if_true]
                  exact ⟨true, by simp [hsz], by simp⟩
              · refine send ⟨o.idxR r, some r, none⟩ (if o.eq s r then none else some (o.idxS s, .changed)) ?_ ?_ ?_
                · simp only [attachFiles]; rw [if_neg (by simpa using hskip), if_neg hatt]
                · have hg' : (o.regS s && o.regR r) = false := by simpa using hg
                  simp only [basicReport, (hr r rfl).2, (hs s rfl).2, hfr, hg']
                  cases o.eq s r <;> rfl
                · have hg' : (o.regS s && o.regR r) = false := by simpa using hg
                  simp [Yields, D, hg']
  obtain ⟨xs, outs, h1, h2, h3⟩ := key _ fun p hp => hp
  refine ⟨_, ?_, exact_of_rows hj h3⟩
  simp only [compareFull, h1, h2]

end full

end Verif.C39

/-! ### C40 -/
namespace Verif.C40
open Verif.Compare Verif.Collate Verif.JoinSpec Verif.C39
variable {K R : Type} [LinearOrder K]

/-- what should be listed -/
inductive Listed (idx : R → K) (eq : R → R → Bool) (old cur : List R) : K → Report → Prop
  | new {c} (hc : c ∈ cur) (h : ∀ a ∈ old, idx a ≠ idx c) : Listed idx eq old cur (idx c) .new
  | deleted {a} (ha : a ∈ old) (h : ∀ c ∈ cur, idx c ≠ idx a) : Listed idx eq old cur (idx a) .deleted
  | changed {a c} (ha : a ∈ old) (hc : c ∈ cur) (hi : idx a = idx c) (h : eq a c = false) : Listed idx eq old cur (idx a) .changed

theorem changed_since {idx : R → K} {eq : R → R → Bool} {old cur : List R} (o1 : Ordered idx old) (o2 : Ordered idx cur) :
    Exact (Listed idx eq old cur) (changedSince idx eq old cur) := by
  -- `cur` as the directory, `old` as the repository
  let o : Ops K R R := ⟨idx, idx, fun _ => true, fun _ => true, fun _ => false, fun _ => false, fun _ => 0, fun _ => 0, fun c a => eq a c⟩
  obtain ⟨ks, hs, hm, hf⟩ := C11.collate2_outer_join idx idx old cur o1 o2
  have hj : IsOuterJoin o.idxS o.idxR cur old ((collate2 idx idx old cur).map Prod.swap) := by
    refine ⟨ks, hs, fun k => by rw [hm]; exact or_comm, ?_⟩
    rw [List.forall₂_map_right_iff]
    refine hf.imp fun k p ⟨h1, h2, h3⟩ => ⟨?_, h3, h2⟩
    obtain ⟨a, b⟩ := p
    cases a <;> cases b <;> simp at h1 ⊢
  have hrows := rows_exist (o := o) (src := cur) (repo := old) ⟨fun _ _ => rfl, fun _ _ => rfl⟩ hj
  have hy : List.Forall₂ (Yields o none) ((collate2 idx idx old cur).map Prod.swap) ((collate2 idx idx old cur).map fun p =>
      match p with
      | (none, none) => none
      | (none, some c) => some (idx c, .new)
      | (some a, none) => some (idx a, .deleted)
      | (some a, some c) => if eq a c then none else some (idx a, .changed)) := by
    rw [List.forall₂_map_left_iff, List.forall₂_map_right_iff, List.forall₂_same]
    intro p hp
    obtain ⟨hne, -, -, hi⟩ := hrows p.swap (List.mem_map_of_mem hp)
    obtain ⟨a, c⟩ := p
    cases a with
    | none =>
      cases c with
      | none => exact absurd rfl hne
      | some c => rfl
    | some a =>
      cases c with
      | none => rfl
      | some c =>
        have : idx c = idx a := hi c a rfl
        simp only [Prod.swap, Yields, o, this]
  have hex := exact_of_rows hj hy
  have hflat : ∀ {α β : Type} (f : α → Option β) (l : List α), (l.map f).flatMap Option.toList = l.filterMap f := by
    intro α β f l
    induction l with
    | nil => rfl
    | cons a l ih =>
      rw [List.map_cons, List.flatMap_cons, ih, List.filterMap_cons]
      cases f a <;> rfl
  rw [hflat] at hex
  refine ⟨hex.1, fun k rep => (hex.2 k rep).trans ⟨fun h => ?_, fun h => ?_⟩⟩
  · cases h with
    | new hs h => exact .new hs h
    | deleted hr h => exact .deleted hr h
    | changed hs hr hi _ h => have hi : idx _ = idx _ := hi; rw [show o.idxS _ = idx _ from rfl, hi]; exact .changed hr hs hi.symm h
    | detail _ _ _ hd _ _ _ _ => cases hd
  · cases h with
    | new hc h => exact Expected.new (o := o) hc h
    | deleted ha h => exact Expected.deleted (o := o) ha h
    | changed ha hc hi h => rw [hi]; exact Expected.changed (o := o) hc ha hi.symm (.inl rfl) h

end Verif.C40

/-! ### C38 -/
namespace Verif.C38
open Verif.Compare Verif.C39
open Verif.C31 (hashes)
variable {K R N D : Type} [LinearOrder K] [DecidableEq N] [DecidableEq D]

/-- the files whose digests are asked for, with what is found -/
def recs (reg : R → Bool) (link : R → Hardlinks.Rorp K N D) (before : List R) : List R → List (R × Option D)
  | [] => []
  | r :: rs => if reg r then (r, recorded (before.map link) (link r)) :: recs reg link (before ++ [r]) rs else recs reg link (before ++ [r]) rs

omit [LinearOrder K] [DecidableEq D] in
theorem recs_mem {reg : R → Bool} {link : R → Hardlinks.Rorp K N D} (rs : List R) : ∀ before r h, (r, h) ∈ recs reg link before rs ↔
    ∃ pre post, rs = pre ++ r :: post ∧ reg r = true ∧ h = recorded ((before ++ pre).map link) (link r) := by
  induction rs with
  | nil => intro before r h; simp [recs]
  | cons a rs ih =>
    intro before r h
    have hcons : (∃ pre post, a :: rs = pre ++ r :: post ∧ reg r = true ∧ h = recorded ((before ++ pre).map link) (link r)) ↔
        (a = r ∧ reg r = true ∧ h = recorded (before.map link) (link r)) ∨
        ∃ pre post, rs = pre ++ r :: post ∧ reg r = true ∧ h = recorded ((before ++ [a] ++ pre).map link) (link r) := by
      constructor
      · rintro ⟨pre, post, h1, h2, h3⟩
        cases pre with
        | nil => simp only [List.nil_append, List.cons.injEq] at h1; exact .inl ⟨h1.1, h2, by simpa using h3⟩
        | cons b pre =>
          simp only [List.cons_append, List.cons.injEq] at h1
          obtain ⟨rfl, h1⟩ := h1
          exact .inr ⟨pre, post, h1, h2, by simpa using h3⟩
      · rintro (⟨rfl, h2, h3⟩ | ⟨pre, post, h1, h2, h3⟩)
        · exact ⟨[], rs, rfl, h2, by simpa using h3⟩
        · exact ⟨a :: pre, post, by simp [h1], h2, by simpa using h3⟩
    rw [hcons, ← ih]
    simp only [recs]
    split
    · rename_i hr
      simp only [List.mem_cons, Prod.mk.injEq]
      constructor
      · rintro (⟨rfl, rfl⟩ | h)
        · exact .inl ⟨rfl, hr, rfl⟩
        · exact .inr h
      · rintro (⟨rfl, h2, h3⟩ | h)
        · exact .inl ⟨rfl, h3⟩
        · exact .inr h
    · rename_i hr
      constructor
      · exact .inr
      · rintro (⟨rfl, h2, -⟩ | h)
        · exact absurd h2 hr
        · exact h

omit [LinearOrder K] [DecidableEq D] in
theorem recs_recL {reg : R → Bool} {link : R → Hardlinks.Rorp K N D} (hreg : ∀ r, (link r).reg = reg r) (rs : List R) :
    ∀ before, (recs reg link before rs).map (·.2) = recL ((before.filter reg).map link) ((rs.filter reg).map link) := by
  have hrec : ∀ (before : List R) r, recorded (before.map link) (link r) = recorded ((before.filter reg).map link) (link r) := by
    intro before r
    simp only [recorded]
    have : (before.map link).find? (linked (link r)) = ((before.filter reg).map link).find? (linked (link r)) := by
      induction before with
      | nil => rfl
      | cons b before ih =>
        cases hb : reg b with
        | true => simp only [List.map_cons, List.filter_cons, hb, if_true, List.find?_cons]; split <;> first | rfl | exact ih
        | false =>
          have : linked (link r) (link b) = false := by simp [linked, hreg b, hb]
          simp only [List.map_cons, List.filter_cons, hb, Bool.false_eq_true, if_false, List.find?_cons, this, ih]
    rw [this]
  induction rs with
  | nil => intro before; rfl
  | cons r rs ih =>
    intro before
    cases hr : reg r with
    | true =>
      simp only [recs, hr, if_true, List.map_cons, List.filter_cons, recL, ih, hrec before r]
      simp [List.filter_append, hr]
    | false =>
      simp only [recs, hr, Bool.false_eq_true, if_false, List.filter_cons, ih]
      simp [List.filter_append, hr]

def bad (restored : R → D) (x : R × Option D) : Bool :=
  match x.2 with
  | some d => decide (restored x.1 ≠ d)
  | none => false

theorem verifyLoop_eq {reg : R → Bool} {link : R → Hardlinks.Rorp K N D} {restored : R → D} (rs : List R) :
    ∀ before t t', hashes t ((rs.filter reg).map link) = some ((recs reg link before rs).map (·.2), t') →
      verifyLoop reg link restored t rs =
        some ((recs reg link before rs).countP (bad restored),
          (recs reg link before rs).countP (fun x => x.2.isNone)) := by
  induction rs with
  | nil => intro before t t' _; rfl
  | cons r rs ih =>
    intro before t t' hh
    cases hr : reg r with
    | false =>
      simp only [List.filter_cons, hr, recs, Bool.false_eq_true, if_false] at hh ⊢
      simp only [verifyLoop, hr]
      exact ih _ _ _ hh
    | true =>
      simp only [List.filter_cons, hr, recs, if_true, List.map_cons, hashes] at hh ⊢
      split at hh
      · cases hh
      · rename_i h t1 hgh
        obtain ⟨x, hx1, hx2⟩ := Option.map_eq_some_iff.mp hh
        simp only [Prod.mk.injEq, List.cons.injEq] at hx2
        obtain ⟨⟨hh1, hh2⟩, hh3⟩ := hx2
        have := ih (before ++ [r]) t1 t' (by rw [hx1, ← hh2, ← hh3])
        rw [← hh1]
        cases h with
        | none => simp [verifyLoop, hr, hgh, this, bad]
        | some d => by_cases hd : restored r = d <;> simp [verifyLoop, hr, hgh, this, bad, hd]

/-- Verification never fails with an exception; it returns the file-error flag iff some regular file whose digest is recorded reconstructs to contents with
another digest, and the file-warning flag iff no digest is recorded for some regular file. -/
theorem verify_exact {reg : R → Bool} {link : R → Hardlinks.Rorp K N D} {restored : R → D} {rs : List R} (hreg : ∀ r, (link r).reg = reg r)
    (hc : Hardlinks.Consistent ((rs.map link).map some)) :
    ∃ err warn, verify reg link restored rs = some (err, warn) ∧
      (err = true ↔ ∃ pre r post d, rs = pre ++ r :: post ∧ reg r = true ∧ recorded (pre.map link) (link r) = some d ∧ restored r ≠ d) ∧
      (warn = true ↔ ∃ pre r post, rs = pre ++ r :: post ∧ reg r = true ∧ recorded (pre.map link) (link r) = none) := by
  have hsub : ((rs.filter reg).map link).Sublist (rs.map link) := List.filter_sublist.map link
  have hn : ((rs.map link).map (·.index)).Nodup := by
    rw [List.nodup_iff_pairwise_ne, List.pairwise_map, List.pairwise_iff_getElem]
    intro i j hi hj hij heq
    have h1 : (rs.map link)[i]? = some ((rs.map link)[i]) := List.getElem?_eq_getElem hi
    have h2 : (rs.map link)[j]? = some ((rs.map link)[j]) := List.getElem?_eq_getElem hj
    have := hc.nodup i j _ _ (by rw [List.getElem?_map, h1]; rfl) (by rw [List.getElem?_map, h2]; rfl) heq
    omega
  have hc' := consistent_sub hc hsub.subperm ((hsub.map _).nodup hn)
  obtain ⟨t, ht⟩ := hashes_recL hc'
  have := recs_recL (reg := reg) (link := link) hreg rs []
  simp only [List.filter_nil, List.map_nil] at this
  rw [← this] at ht
  have hl := verifyLoop_eq (restored := restored) rs [] _ _ ht
  refine ⟨_, _, by rw [verify, hl]; rfl, ?_, ?_⟩
  · rw [decide_eq_true_eq, List.countP_pos_iff]
    constructor
    · rintro ⟨⟨r, h⟩, hm, hd⟩
      obtain ⟨pre, post, h1, h2, h3⟩ := (recs_mem rs [] r h).mp hm
      cases h with
      | none => simp [bad] at hd
      | some d => exact ⟨pre, r, post, d, h1, h2, by simpa using h3.symm, by simpa [bad] using hd⟩
    · rintro ⟨pre, r, post, d, h1, h2, h3, h4⟩
      exact ⟨(r, some d), (recs_mem rs [] r _).mpr ⟨pre, post, h1, h2, by simpa using h3.symm⟩, by simpa [bad] using h4⟩
  · rw [decide_eq_true_eq, List.countP_pos_iff]
    constructor
    · rintro ⟨⟨r, h⟩, hm, hd⟩
      obtain ⟨pre, post, h1, h2, h3⟩ := (recs_mem rs [] r h).mp hm
      simp only [Option.isNone_iff_eq_none] at hd
      subst hd
      exact ⟨pre, r, post, h1, h2, by simpa using h3.symm⟩
    · rintro ⟨pre, r, post, h1, h2, h3⟩
      exact ⟨(r, none), (recs_mem rs [] r _).mpr ⟨pre, post, h1, h2, by simpa using h3.symm⟩, rfl⟩

end Verif.C38

/-! ### examples and counterexamples -/
namespace Verif.C39
open Verif.Compare Verif.JoinSpec

/-- a file: index, whether it exists and is regular, attributes (compared by `__eq__`), contents (as a number, its own digest), recorded link data -/
structure ExF where
  idx : Nat
  exist : Bool := true
  reg : Bool := true
  attr : Nat := 0
  content : Nat := 0
  nlink : Nat := 1
  inode : Option Nat := none
  sha1 : Option Nat := none
  deriving DecidableEq

def exOps : Ops Nat ExF ExF :=
  ⟨ExF.idx, ExF.idx, ExF.exist, ExF.exist, ExF.reg, ExF.reg, fun f => f.content / 100, fun f => f.content / 100, fun a b => a.attr == b.attr⟩

def exLink (f : ExF) : Hardlinks.Rorp Nat Nat Nat := ⟨f.idx, f.reg, f.nlink, f.inode, f.sha1⟩

/-- the base directory, a deleted file, two links of a file of which one has changed, a file with changed attributes, a new file -/
def exSrc : List ExF := [⟨0, true, false, 0, 0, 1, none, none⟩, { idx := 2, content := 150 }, { idx := 3, content := 151 }, { idx := 4, attr := 1 }, { idx := 5 }]
def exRepo : List ExF := [⟨0, true, false, 0, 0, 1, none, none⟩, { idx := 1, sha1 := some 0 }, { idx := 2, content := 150, nlink := 2, inode := some 7, sha1 := some 150 },
  { idx := 3, content := 150, nlink := 2, inode := some 7, sha1 := some 150 }, { idx := 4 }]

theorem ex_ordered : Ordered exOps.idxS exSrc ∧ Ordered exOps.idxR exRepo := by constructor <;> (unfold Ordered; decide)
theorem ex_exist : Exist exOps exSrc exRepo := by unfold Exist; decide

theorem ex_consistent : Hardlinks.Consistent ((exRepo.map exLink).map some) := by
  constructor
  · intro s hs h
    simp only [exRepo, exLink, List.map_cons, List.map_nil, List.mem_cons, Option.some.injEq, List.not_mem_nil, or_false] at hs
    rcases hs with rfl | rfl | rfl | rfl | rfl <;> simp at h ⊢
  · intro s s' k hs hs' h h'
    simp only [exRepo, exLink, List.map_cons, List.map_nil, List.mem_cons, Option.some.injEq, List.not_mem_nil, or_false] at hs hs'
    rcases hs with rfl | rfl | rfl | rfl | rfl <;> simp [Hardlinks.Rorp.isMem] at h <;>
    rcases hs' with rfl | rfl | rfl | rfl | rfl <;> simp [Hardlinks.Rorp.isMem] at h' <;> rfl
  · intro s k hs h
    simp only [exRepo, exLink, List.map_cons, List.map_nil, List.mem_cons, Option.some.injEq, List.not_mem_nil, or_false] at hs
    rcases hs with rfl | rfl | rfl | rfl | rfl <;> simp [Hardlinks.Rorp.isMem] at h <;> subst h <;> decide
  · intro s s' k hs hs' h h'
    simp only [exRepo, exLink, List.map_cons, List.map_nil, List.mem_cons, Option.some.injEq, List.not_mem_nil, or_false] at hs hs'
    rcases hs' with rfl | rfl | rfl | rfl | rfl <;> simp at h' <;> subst h' <;> rfl
  · intro i j s s' hi hj h
    have key : ∀ i j : Fin 5, ((exRepo.map exLink)[i]).index = ((exRepo.map exLink)[j]).index → i = j := by decide
    rw [List.getElem?_map] at hi hj
    obtain ⟨_, hi', hi2⟩ := Option.map_eq_some_iff.mp hi
    obtain ⟨_, hj', hj2⟩ := Option.map_eq_some_iff.mp hj
    cases hi2; cases hj2
    obtain ⟨hil, hi'⟩ := List.getElem?_eq_some_iff.mp hi'
    obtain ⟨hjl, hj'⟩ := List.getElem?_eq_some_iff.mp hj'
    have := key ⟨i, hil⟩ ⟨j, hjl⟩ (by simpa [hi', hj'] using h)
    exact congrArg Fin.val this

example : compareMeta exOps exSrc exRepo = some [(1, .deleted), (4, .changed), (5, .new)] := by decide +kernel
example : ∀ r ∈ exRepo, ∀ r' ∈ exRepo, linked (exLink r) (exLink r') = true → (exLink r).sha1 = (exLink r').sha1 := by decide
example : compareHash exOps exLink ExF.content exSrc exRepo = some [(1, .deleted), (3, .detail false true), (4, .detail true false), (5, .new)] := by decide +kernel

def exFs (k : Nat) : ExF := (exSrc.find? (fun s => s.idx == k)).getD ⟨k, false, false, 0, 0, 1, none, none⟩
example : compareFull exOps 0 exFs (fun s => some s.content) ExF.content exSrc exRepo =
    some [(1, .deleted), (3, .detail false true), (4, .detail true false), (5, .new)] := by decide +kernel
example : (∀ s ∈ exSrc, exFs (exOps.idxS s) = s) ∧ (∃ r ∈ exRepo, exOps.idxR r = 0) ∧
    ∀ r ∈ exRepo, (∀ s ∈ exSrc, exOps.idxS s ≠ exOps.idxR r) → exOps.existS (exFs (exOps.idxR r)) = false := by decide
example : ∀ k, exOps.idxS (exFs k) = k := by
  intro k
  simp only [exFs]
  cases h : exSrc.find? (fun s => s.idx == k) with
  | none => rfl
  | some s => have := List.find?_some h; simpa [exOps] using this

/-- Finding F35: with a selection which leaves out a file of the same size as in the backup, `compare --method full` fails with an exception. -/
theorem full_excluded_fails : ∃ (src repo : List ExF) (fs : Nat → ExF), Ordered exOps.idxS src ∧ Ordered exOps.idxR repo ∧ Exist exOps src repo ∧
    (∀ s ∈ src, fs s.idx = s) ∧ compareFull exOps 0 fs (fun s => some s.content) ExF.content src repo = none :=
  ⟨[⟨0, true, false, 0, 0, 1, none, none⟩], [⟨0, true, false, 0, 0, 1, none, none⟩, { idx := 1, content := 5 }],
    fun k => if k = 0 then ⟨0, true, false, 0, 0, 1, none, none⟩ else { idx := k, content := 6 }, by
      refine ⟨by unfold Ordered; decide, by unfold Ordered; decide, by unfold Exist; decide, by decide, by decide +kernel⟩⟩

/-- Finding F36: if the base directory isn't in the backup, `compare --method full` fails with an exception. -/
theorem full_no_root_fails : ∃ (src : List ExF) (fs : Nat → ExF), Ordered exOps.idxS src ∧ Exist exOps src [] ∧
    (∀ s ∈ src, fs s.idx = s) ∧ compareFull exOps 0 fs (fun s => some s.content) ExF.content src [] = none :=
  ⟨[⟨0, true, false, 0, 0, 1, none, none⟩], fun k => ⟨k, true, false, 0, 0, 1, none, none⟩, by unfold Ordered; decide, by unfold Exist; decide, by decide,
    by decide +kernel⟩

/-- Finding F37: if only the first link of a file has a recorded digest, and it is not in the directory any more, then changed contents of another link are
not seen by `compare --method hash`, although the same comparison reports them as long as the first link is there. -/
theorem hash_of_link_missed : ∃ (s1 s2 r1 r2 : ExF), linked (exLink r1) (exLink r2) = true ∧
    compareHash exOps exLink ExF.content [s1, s2] [r1, r2] = some [(2, .detail false true)] ∧
    compareHash exOps exLink ExF.content [s2] [r1, r2] = some [(1, .deleted)] :=
  ⟨{ idx := 1, content := 150 }, { idx := 2, content := 151 }, { idx := 1, content := 150, nlink := 2, inode := some 7, sha1 := some 150 },
    { idx := 2, content := 150, nlink := 2, inode := some 7 }, by decide +kernel⟩

end Verif.C39

namespace Verif.C40
open Verif.Compare Verif.C39 Verif.JoinSpec
example : changedSince ExF.idx (fun a b => a.attr == b.attr) exRepo exSrc = [(1, .deleted), (4, .changed), (5, .new)] := by decide +kernel
example : Ordered ExF.idx exRepo ∧ Ordered ExF.idx exSrc := ⟨ex_ordered.2, ex_ordered.1⟩
end Verif.C40

namespace Verif.C38
open Verif.Compare Verif.C39
-- `ex_consistent` and:
example : ∀ r, (exLink r).reg = r.reg := fun _ => rfl
example : verify ExF.reg exLink ExF.content exRepo = some (false, true) := by decide +kernel
example : verify ExF.reg exLink (fun f => if f.idx = 3 then 99 else f.content) exRepo = some (true, true) := by decide +kernel
example : verify ExF.reg exLink ExF.content (exRepo.take 4) = some (false, false) := by decide +kernel
end Verif.C38
