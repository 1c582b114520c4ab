import Verif.Spec.Linked
import Verif.Props.C31
/-
Lemmas for C65: where digests come from; what patching one path does to the others; the invariant of a backup.
-/
set_option linter.unusedSectionVars false

namespace Verif.Hardlinks
variable {I K D : Type} [DecidableEq I] [DecidableEq K] [DecidableEq D]

/-- `d'` is `d`, or has got the digest of another link of the same inode -/
def Handed (ps0 : List (Pair I K D)) (d d' : Option (Rorp I K D)) : Prop :=
  d' = d ∨ ∃ r h k p r', d = some r ∧ r.nlink ≠ 1 ∧ r.key = some k ∧ p ∈ ps0 ∧ p.dest = some r' ∧ r'.isMem k = true ∧ r'.sha1 = some h ∧
    d' = some { r with sha1 := some h }

theorem add_old {t t' : Tab I K D} {r : Rorp I K D} {d d' : Option (Rorp I K D)} (h : add t r d = some (t', d')) :
    (∀ k x, t'.old k = some x → t.old k = some x) ∧
    (d' = d ∨ ∃ x h k, d = some x ∧ x.nlink ≠ 1 ∧ x.key = some k ∧ t.old k = some h ∧ d' = some { x with sha1 := some h }) := by
  simp only [add] at h
  split at h
  · simp only [Option.some.injEq, Prod.mk.injEq] at h
    obtain ⟨rfl, rfl⟩ := h
    exact ⟨fun _ _ h => h, .inl rfl⟩
  · split at h
    · simp at h
    · split at h
      · simp only [Option.some.injEq, Prod.mk.injEq] at h
        obtain ⟨rfl, rfl⟩ := h
        exact ⟨fun _ _ h => h, .inl rfl⟩
      · split at h
        · simp only [Option.some.injEq, Prod.mk.injEq] at h
          obtain ⟨rfl, rfl⟩ := h
          exact ⟨fun _ _ h => h, .inl rfl⟩
        · next x =>
          split at h
          · simp only [Option.some.injEq, Prod.mk.injEq] at h
            obtain ⟨rfl, rfl⟩ := h
            exact ⟨fun _ _ h => h, .inl rfl⟩
          · next hn =>
            split at h
            · simp at h
            · next dk hdk =>
              split at h
              · next hsha hold =>
                simp only [Option.some.injEq, Prod.mk.injEq] at h
                obtain ⟨rfl, rfl⟩ := h
                refine ⟨fun k y hy => ?_, .inr ⟨x, _, dk, rfl, hn, hdk, hold, rfl⟩⟩
                simp only [set] at hy
                split at hy
                · simp at hy
                · exact hy
              · simp only [Option.some.injEq, Prod.mk.injEq] at h
                obtain ⟨rfl, rfl⟩ := h
                exact ⟨fun _ _ h => h, .inl rfl⟩

theorem addOld_old {t t' : Tab I K D} {r : Rorp I K D} (h : addOld t r = some t') {k : K} {x : D} (hx : t'.old k = some x) :
    t.old k = some x ∨ (r.isMem k = true ∧ r.sha1 = some x) := by
  simp only [addOld] at h
  split at h
  · simp only [Option.some.injEq] at h; subst h; exact .inl hx
  · next d hd =>
    split at h
    · simp only [Option.some.injEq] at h; subst h; exact .inl hx
    · next hb =>
      split at h
      · simp at h
      · next k' hk' =>
        split at h
        · simp only [Option.some.injEq] at h; subst h; exact .inl hx
        · simp only [Option.some.injEq] at h; subst h
          simp only [set] at hx
          split at hx
          · next hkk =>
            right
            simp only [Bool.or_eq_true, Bool.not_eq_true', decide_eq_true_eq, not_or, Bool.not_eq_false, Nat.not_lt] at hb
            rw [hkk]
            exact ⟨Rorp.isMem_iff.2 ⟨hb.1, hb.2, hk'⟩, by rw [hd, hx]⟩
          · exact .inl hx

theorem del_old {t t' : Tab I K D} {r : Rorp I K D} (h : del t r = some t') : t'.old = t.old := by
  simp only [del] at h
  repeat' (split at h)
  all_goals simp only [Option.some.injEq, reduceCtorEq] at h
  all_goals subst h; rfl

theorem rorpEq_old {t t' : Tab I K D} {s d : Rorp I K D} {b : Bool} (h : rorpEq t s d = some (b, t')) : t'.old = t.old := by
  simp only [rorpEq] at h
  repeat' (split at h)
  all_goals simp only [Option.some.injEq, Prod.mk.injEq, reduceCtorEq] at h
  all_goals (obtain ⟨-, rfl⟩ := h; rfl)

theorem decideOn_old {t t' : Tab I K D} {p : Pair I K D} {x : Decision I} (h : decideOn t p = some (x, t')) : t'.old = t.old := by
  simp only [decideOn] at h
  split at h
  · split at h
    · split at h
      · simp at h
      · next he =>
        simp only [Option.some.injEq, Prod.mk.injEq] at h
        obtain ⟨-, rfl⟩ := h
        exact rorpEq_old he
      · next he =>
        simp only [Option.map_eq_some_iff, Prod.mk.injEq] at h
        obtain ⟨_, -, -, rfl⟩ := h
        exact rorpEq_old he
    · simp only [Option.map_eq_some_iff, Prod.mk.injEq] at h
      obtain ⟨_, -, -, rfl⟩ := h
      rfl
  · simp only [Option.map_eq_some_iff, Prod.mk.injEq] at h
    obtain ⟨_, -, -, rfl⟩ := h
    rfl

/-- Digests which are handed on come from links of the same inode. -/
theorem run_handed {ps0 ps : List (Pair I K D)} {a q d : Nat} {t : Tab I K D} {out : List (Decision I)} (hr : Run ps0 ps a q d t out) :
    (∀ k h, t.old k = some h → ∃ p r, p ∈ ps0 ∧ p.dest = some r ∧ r.isMem k = true ∧ r.sha1 = some h) ∧
    ∀ (n : Nat) (p : Pair I K D), ps[n]? = some p → ∃ p0 : Pair I K D, ps0[n]? = some p0 ∧ Handed ps0 p0.dest p.dest := by
  induction hr with
  | init => exact ⟨fun k h hh => by simp [empty] at hh, fun n p hp => ⟨p, hp, .inl rfl⟩⟩
  | @add ps a q d t out s dest' t' p hrun hp hs hadd ih =>
    obtain ⟨h1, h2⟩ := add_old hadd
    refine ⟨fun k h hh => ih.1 k h (h1 k h hh), fun n p' hp' => ?_⟩
    by_cases hn : n = a
    · subst hn
      have hlen : n < ps.length := (List.getElem?_eq_some_iff.1 hp).1
      rw [List.getElem?_set_self hlen] at hp'
      cases hp'
      obtain ⟨p0, hp0, hh⟩ := ih.2 n p hp
      refine ⟨p0, hp0, ?_⟩
      rcases h2 with h2 | ⟨x, h, k, hx, hx1, hxk, hold, h2⟩
      · simp only [h2]; exact hh
      · obtain ⟨p2, r2, hm2, hd2, hk2, hs2⟩ := ih.1 k h hold
        rcases hh with hh | ⟨r, h', k', p1, r', hr, hr1, hrk, -, -, -, -, hd⟩
        · exact .inr ⟨x, h, k, p2, r2, by rw [← hh, hx], hx1, hxk, hm2, hd2, hk2, hs2, h2⟩
        · rw [hx] at hd
          cases hd
          exact .inr ⟨r, h, k, p2, r2, hr, hr1, hxk, hm2, hd2, hk2, hs2, h2⟩
    · rw [List.getElem?_set_ne (by omega)] at hp'
      exact ih.2 n p' hp'
  | @addOld ps a q d t out r t' p hrun hp hs hd hadd ih =>
    refine ⟨fun k h hh => ?_, ih.2⟩
    rcases addOld_old hadd hh with hh | ⟨hk, hsha⟩
    · exact ih.1 k h hh
    · obtain ⟨p0, hp0, hh⟩ := ih.2 a p hp
      rw [hd] at hh
      rcases hh with hh | ⟨r0, h', k', p1, r', hr, hr1, hrk, hm, hd1, hk1, hs1, hdd⟩
      · exact ⟨p0, r, List.mem_of_getElem? hp0, hh.symm, hk, hsha⟩
      · cases hdd
        have := (Rorp.isMem_iff.1 hk).2.2
        simp only [hrk, Option.some.injEq] at this hsha
        subst this
        subst hsha
        exact ⟨p1, r', hm, hd1, hk1, hs1⟩
  | @decide ps a q d t out x t' p hrun hp hlt hdec ih =>
    rw [decideOn_old hdec]
    exact ih
  | del _ _ _ _ hdel ih => rw [del_old hdel]; exact ih
  | pass _ _ _ ih => exact ih
  | skip _ _ _ _ ih => exact ih

/-- what is left as it is looks the same -/
theorem keep_same {ps0 ps : List (Pair I K D)} {a q d : Nat} {t : Tab I K D} {out : List (Decision I)} (hc : Consistent (ps0.map (·.src)))
    (hr : Run ps0 ps a q d t out) {n : Nat} (hx : out[n]? = some .keep) :
    ∃ p s r, ps0[n]? = some p ∧ p.src = some s ∧ p.dest = some r ∧ p.same = true ∧ (s.reg = true → r.reg = true → s.nlink = r.nlink) := by
  obtain ⟨ps', a', d', t', t'', p, hi, hia, hp, hdec⟩ := (run_out hc hr).2 n .keep hx
  have hlen : n < ps0.length := by
    have h1 := (List.getElem?_eq_some_iff.1 hp).1
    have h2 := congrArg List.length hi.srcs
    simp only [List.length_map] at h2
    omega
  obtain ⟨p0, hp0⟩ : ∃ p0, ps0[n]? = some p0 := ⟨_, List.getElem?_eq_getElem hlen⟩
  have hsrc : p.src = p0.src := by
    have := congrArg (·[n]?) hi.srcs
    simpa [List.getElem?_map, hp, hp0] using this
  have hsame : p.same = p0.same := by
    have := congrArg (·[n]?) hi.sames
    simpa [List.getElem?_map, hp, hp0] using this
  have hdest := hi.dests n p p0 hp hp0
  have nk : ∀ {u : Tab I K D} {s}, (onChanged u s).map (·, u) = some (Decision.keep, t'') → False := by
    intro u s h
    simp only [Option.map_eq_some_iff, Prod.mk.injEq] at h
    obtain ⟨y, hy, rfl, -⟩ := h
    simp only [onChanged] at hy
    repeat' (split at hy)
    all_goals simp at hy
  simp only [decideOn] at hdec
  split at hdec
  · next s r hs hr =>
    split at hdec
    · next hsm =>
      split at hdec
      · simp at hdec
      · next he =>
        rcases hdest with hd | ⟨r0, h, hd0, hd⟩
        · refine ⟨p0, s, r, hp0, by rw [← hsrc, hs], by rw [hd, hr], by rw [← hsame, hsm], fun h1 h2 => ?_⟩
          simp only [rorpEq, h1, h2] at he
          by_contra hne
          repeat' (split at he)
          all_goals simp_all
        · rw [hr] at hd
          cases hd
          refine ⟨p0, s, r0, hp0, by rw [← hsrc, hs], hd0, by rw [← hsame, hsm], fun h1 h2 => ?_⟩
          simp only [rorpEq, h1, h2] at he
          by_contra hne
          repeat' (split at he)
          all_goals simp_all
      · exact (nk hdec).elim
    · exact (nk hdec).elim
  · exact (nk hdec).elim

end Verif.Hardlinks

namespace Verif.Linked
open Verif.Hardlinks (Decision Rorp Run Pair Consistent Handed)
variable {I K A C D : Type} [DecidableEq I] [DecidableEq K] [DecidableEq A] [DecidableEq C] [DecidableEq D]

/-- type and contents -/
def kind (f : Option (File A C)) : Option (Bool × C) := f.map fun f => (f.reg, f.data)

/-- The file has the type and the contents of the version. -/
def Holds (v : Option (Src K A C)) (f : Option (File A C)) : Prop := kind f = kind (v.map (·.file))

/-- The metadata are those of the version; the digest may not be there. -/
def Describes (o : Ops C D) (v : Option (Src K A C)) (r : Option (Rec K A C D)) : Prop :=
  ∃ h, r = v.map (recOf o · h) ∧ ∀ x, v = some x → ∀ d, h = some d → x.file.reg = true ∧ d = o.hash x.file.data

/-- all entries are of inodes in use -/
def FS.WF (fs : FS I A C) : Prop := ∀ i n, fs.ino i = some n → n < fs.next

theorem wf_setEntry {fs : FS I A C} (h : fs.WF) (i : I) {n : Option Nat} (hn : ∀ m, n = some m → m < fs.next) : (fs.setEntry i n).WF := by
  intro k m hm
  simp only [FS.setEntry, Hardlinks.set] at hm ⊢
  split at hm
  · exact hn m hm
  · exact h k m hm

theorem wf_create {fs : FS I A C} (h : fs.WF) (i : I) (f : File A C) : (fs.create i f).WF := by
  intro k m hm
  simp only [FS.create, Hardlinks.set] at hm ⊢
  split at hm
  · cases hm; omega
  · have := h k m hm; omega

theorem wf_chattr {fs : FS I A C} (h : fs.WF) (n : Nat) (a : A) : (fs.chattr n a).WF := h

theorem file_setEntry (fs : FS I A C) (i : I) (n : Option Nat) (k : I) : (fs.setEntry i n).file k = if k = i then n.map fs.node else fs.file k := by
  simp only [FS.file, FS.setEntry, Hardlinks.set]
  split <;> rfl

theorem file_create {fs : FS I A C} (h : fs.WF) (i : I) (f : File A C) (k : I) : (fs.create i f).file k = if k = i then some f else fs.file k := by
  simp only [FS.file, FS.create, Hardlinks.set]
  split
  · simp
  · cases hk : fs.ino k with
    | none => rfl
    | some n =>
      have := h k n hk
      simp only [Option.map_some]
      rw [if_neg (by omega)]

theorem kind_chattr (fs : FS I A C) (n : Nat) (a : A) (k : I) : kind ((fs.chattr n a).file k) = kind (fs.file k) := by
  simp only [kind, FS.file, FS.chattr, Option.map_map]
  congr 1
  funext m
  simp only [Function.comp]
  split <;> rfl

theorem wf_patch (o : Ops C D) (stamp : A) {fs : FS I A C} (h : fs.WF) (i : I) (src : Option (Src K A C)) (dest : Option (Rec K A C D)) (x : Decision I)
    (tr : Transfer) : (patch o stamp fs i src dest x tr).fs.WF := by
  have hrem : ∀ e, (remove (D := D) fs i e).fs.WF := by
    intro e
    simp only [remove]
    split
    · exact wf_setEntry h i (by simp)
    · exact h
  have hrep : ∀ s : Src K A C, (replace o fs i s dest).fs.WF := by
    intro s
    simp only [replace]
    split
    · split
      · split
        · exact wf_chattr h _ _
        · exact h
      · exact wf_create h _ _
    · exact wf_create h _ _
  have hlink : ∀ j, ∀ s : Src K A C, (linkTo o stamp fs i j s).fs.WF := by
    intro j s
    simp only [linkTo]
    split
    · next n hn =>
      split
      · exact wf_chattr h _ _
      · split
        · exact wf_setEntry h i (fun m hm => by cases hm; exact h j n hn)
        · exact h
    · split
      · exact wf_create h _ _
      · exact h
  simp only [patch]
  split
  · exact h
  · exact hrem _
  · split
    · exact h
    · exact hlink _ _
  · split
    · exact hrep _
    · exact h
    · split
      · exact hrem _
      · exact hrep _

/-- Patching a path leaves type and contents of all others as they are. -/
theorem patch_others (o : Ops C D) (stamp : A) {fs : FS I A C} (h : fs.WF) (i : I) (src : Option (Src K A C)) (dest : Option (Rec K A C D)) (x : Decision I)
    (tr : Transfer) {k : I} (hk : k ≠ i) : kind ((patch o stamp fs i src dest x tr).fs.file k) = kind (fs.file k) := by
  have hrem : ∀ e, kind ((remove (D := D) fs i e).fs.file k) = kind (fs.file k) := by
    intro e
    simp only [remove]
    split
    · rw [file_setEntry, if_neg hk]
    · rfl
  have hrep : ∀ s : Src K A C, kind ((replace o fs i s dest).fs.file k) = kind (fs.file k) := by
    intro s
    simp only [replace]
    split
    · split
      · split
        · exact kind_chattr _ _ _ _
        · rfl
      · rw [file_create h, if_neg hk]
    · rw [file_create h, if_neg hk]
  have hlink : ∀ j, ∀ s : Src K A C, kind ((linkTo o stamp fs i j s).fs.file k) = kind (fs.file k) := by
    intro j s
    simp only [linkTo]
    split
    · next n hn =>
      split
      · exact kind_chattr _ _ _ _
      · split
        · rw [file_setEntry, if_neg hk]
        · rfl
    · split
      · rw [file_create h, if_neg hk]
      · rfl
  simp only [patch]
  split
  · rfl
  · exact hrem _
  · split
    · rfl
    · exact hlink _ _
  · split
    · exact hrep _
    · rfl
    · split
      · exact hrem _
      · exact hrep _

/-- what a path has got afterwards -/
def outcome (v src : Option (Src K A C)) (err : Bool) (r : Option (Rec K A C D)) : Option (Src K A C) :=
  if err then (if r.isSome then v else none) else src

theorem describes_isSome {o : Ops C D} {v : Option (Src K A C)} {r : Option (Rec K A C D)} (h : Describes o v r) : r.isSome = v.isSome := by
  obtain ⟨h, rfl, -⟩ := h
  cases v <;> rfl

/-- Patching a path: what it has got is what the metadata and the file say. -/
theorem patch_spec (o : Ops C D) (hinj : ∀ c c', o.hash c = o.hash c' → c = c') (stamp : A) {fs : FS I A C} (hwf : fs.WF) (i : I)
    (v src : Option (Src K A C)) (dest : Option (Rec K A C D)) (x : Decision I) (tr : Transfer) (hv : Holds v (fs.file i)) (hd : Describes o v dest)
    (hkeep : x = .keep → ∃ s y, src = some s ∧ v = some y ∧ s.file.reg = y.file.reg ∧ s.file.data = y.file.data ∧ ∀ h, recOf o s h = recOf (D := D) o y h)
    (hlink : ∀ j s, x = .link j → src = some s → j ≠ i ∧ s.file.reg = true ∧ Holds (some s) (fs.file j)) :
    let p := patch o stamp fs i src dest x tr
    Holds (outcome v src p.err (newRec o src dest p)) (p.fs.file i) ∧ Describes o (outcome v src p.err (newRec o src dest p)) (newRec o src dest p) ∧
      (p.inc = false → kind (p.fs.file i) = kind (fs.file i)) := by
  have hfail : Holds (outcome v src true dest) (fs.file i) ∧ Describes o (outcome v src true dest) dest := by
    have := describes_isSome hd
    simp only [outcome, if_true]
    cases hvv : v with
    | none =>
      subst hvv
      rw [this]
      exact ⟨hv, hd⟩
    | some y =>
      subst hvv
      rw [this]
      exact ⟨hv, hd⟩
  have hdn : Describes o (none : Option (Src K A C)) (none : Option (Rec K A C D)) := ⟨none, rfl, fun _ h => by simp at h⟩
  have hgone : fs.ino i = none → v = none := by
    intro h
    simp only [Holds, kind, FS.file, h, Option.map_none] at hv
    cases v with
    | none => rfl
    | some y => simp at hv
  have hrem : ∀ e, (e = true ∨ src = none) → let p := remove fs i e
      Holds (outcome v src p.err (newRec o src dest p)) (p.fs.file i) ∧ Describes o (outcome v src p.err (newRec o src dest p)) (newRec o src dest p) ∧
      (p.inc = false → kind (p.fs.file i) = kind (fs.file i)) := by
    intro e he
    simp only [remove]
    cases hino : fs.ino i with
    | none =>
      have hvn := hgone hino
      subst hvn
      have hdest : dest = none := by
        have := describes_isSome hd
        cases dest with
        | none => rfl
        | some _ => simp at this
      subst hdest
      have hout : outcome none src e (none : Option (Rec K A C D)) = none := by
        rcases he with rfl | rfl
        · rfl
        · cases e <;> rfl
      simp only [newRec, hout]
      exact ⟨hv, hdn, fun _ => trivial⟩
    | some n =>
      have hout : outcome v src e (none : Option (Rec K A C D)) = none := by
        rcases he with rfl | rfl
        · rfl
        · cases e <;> rfl
      simp only [newRec, hout]
      refine ⟨?_, hdn, fun h => by simp at h⟩
      rw [file_setEntry, if_pos rfl]
      rfl
  have hdig : ∀ s : Src K A C, s.file.reg = true → Describes o (some s) ((some s).map (recOf o · (some (o.hash s.file.data)))) := fun s hs =>
    ⟨some (o.hash s.file.data), rfl, fun x hx d hd => by cases hx; cases hd; exact ⟨hs, rfl⟩⟩
  have hnod : ∀ s : Src K A C, Describes o (some s) ((some s).map (recOf o · (none : Option D))) := fun s =>
    ⟨none, rfl, fun x hx d hd => by cases hd⟩
  have hrep : ∀ s : Src K A C, src = some s → let p := replace o fs i s dest
      Holds (outcome v src p.err (newRec o src dest p)) (p.fs.file i) ∧ Describes o (outcome v src p.err (newRec o src dest p)) (newRec o src dest p) ∧
      (p.inc = false → kind (p.fs.file i) = kind (fs.file i)) := by
    intro s hs
    subst hs
    simp only [replace]
    by_cases hreg : s.file.reg = true
    · rw [if_pos hreg]
      by_cases heq : dest.any (fun r => r.reg && decide (r.sha1 = some (o.hash s.file.data))) = true
      · rw [if_pos heq]
        obtain ⟨h, rfl, hh⟩ := hd
        cases v with
        | none => simp at heq
        | some y =>
          simp only [Option.map_some, Option.any_some, Bool.and_eq_true, decide_eq_true_eq] at heq
          have hsha : h = some (o.hash s.file.data) := heq.2
          obtain ⟨hyreg, hyd⟩ := hh y rfl _ hsha
          have hdata := hinj _ _ hyd
          cases hino : fs.ino i with
          | none => exact absurd (hgone hino) (by simp)
          | some n =>
            refine ⟨?_, hdig s hreg, fun _ => kind_chattr _ _ _ _⟩
            simp only [outcome, Bool.false_eq_true, if_false, Holds]
            rw [kind_chattr, hv]
            simp [kind, hyreg, hreg, hdata]
      · rw [if_neg heq]
        refine ⟨?_, hdig s hreg, fun h => by simp at h⟩
        simp only [outcome, Bool.false_eq_true, if_false, Holds, file_create hwf, if_true, Option.map_some]
    · rw [if_neg hreg]
      refine ⟨?_, hnod s, fun h => by simp at h⟩
      simp only [outcome, Bool.false_eq_true, if_false, Holds, file_create hwf, if_true, Option.map_some]
  simp only [patch]
  split
  · next =>
    obtain ⟨s, y, rfl, rfl, h1, h2, h3⟩ := hkeep rfl
    refine ⟨?_, ?_, fun _ => rfl⟩
    · simp only [outcome, Bool.false_eq_true, if_false]
      rw [Holds, hv]
      simp [kind, h1, h2]
    · simp only [outcome, Bool.false_eq_true, if_false, newRec]
      obtain ⟨h, rfl, hh⟩ := hd
      refine ⟨h, by simp [h3], fun x hx d hd => ?_⟩
      cases hx
      rw [h1, h2]
      exact hh y rfl d hd
  · exact hrem _ (.inr rfl)
  · next j s =>
    split
    · exact ⟨hfail.1, hfail.2, fun _ => rfl⟩
    · obtain ⟨hji, hreg, hj⟩ := hlink j s rfl rfl
      simp only [linkTo]
      have hj' : ∃ n, fs.ino j = some n ∧ (fs.node n).reg = true ∧ (fs.node n).data = s.file.data := by
        simp only [Holds, kind, FS.file] at hj
        cases hn : fs.ino j with
        | none => simp [hn] at hj
        | some n => exact ⟨n, rfl, by simpa [hn, hreg] using hj⟩
      obtain ⟨n, hn, hn1, hn2⟩ := hj'
      rw [hn]
      simp only
      split
      · next hi =>
        refine ⟨?_, hnod s, fun _ => kind_chattr _ _ _ _⟩
        simp only [outcome, Bool.false_eq_true, if_false, Holds]
        rw [kind_chattr]
        simp [kind, FS.file, hi, hn1, hn2, hreg]
      · split
        · refine ⟨?_, hnod s, fun h => by simp at h⟩
          simp only [outcome, Bool.false_eq_true, if_false, Holds]
          rw [file_setEntry, if_pos rfl]
          simp [kind, hn1, hn2, hreg]
        · exact ⟨hfail.1, hfail.2, fun _ => rfl⟩
  · next s =>
    split
    · exact hrep s rfl
    · exact ⟨hfail.1, hfail.2, fun _ => rfl⟩
    · split
      · exact hrem _ (.inl rfl)
      · exact hrep s rfl

/-! ### the decisions of a backup -/

/-- links of the same file have the same contents -/
def KeyOk (V : Version I K A C) : Prop :=
  (∀ i j x y, V i = some x → V j = some y → Links x y → x.file.data = y.file.data) ∧ ∀ i x, V i = some x → 1 ≤ x.nlink

/-- what the repository is like between backups -/
structure Good (o : Ops C D) (V : Version I K A C) (fs : FS I A C) (recs : I → Option (Rec K A C D)) : Prop where
  wf : fs.WF
  holds : ∀ i, Holds (V i) (fs.file i)
  describes : ∀ i, Describes o (V i) (recs i)

/-- the digest and the decision for a path -/
structure EntryOk (o : Ops C D) (s : Sess I K A C) (V : Version I K A C) (recs : I → Option (Rec K A C D)) (i : I) (h : Option D) (x : Decision I) : Prop where
  dest : ∀ r, recs i = some r → Describes o (V i) (some { r with sha1 := h })
  keep : x = .keep → ∃ s' y, s.src i = some s' ∧ V i = some y ∧ s'.file.reg = y.file.reg ∧ s'.file.data = y.file.data ∧
    ∀ h, recOf o s' h = recOf (D := D) o y h
  link : ∀ j, x = .link j → FirstLink s i j

theorem srcs_eq (o : Ops C D) (src : Version I K A C) (recs : I → Option (Rec K A C D)) (order : List I) :
    (order.map (pairOf o src recs)).map (·.src) = order.map fun i => (src i).map (rorpSrc i) := by
  rw [List.map_map]; rfl

theorem consistent {o : Ops C D} {src : Version I K A C} {recs : I → Option (Rec K A C D)} {order : List I} (hs : IsSource src order) (hn : order.Nodup) :
    Consistent ((order.map (pairOf o src recs)).map (·.src)) := by
  rw [srcs_eq]
  have mem : ∀ {s : Rorp I K D}, some s ∈ order.map (fun i => (src i).map (rorpSrc i)) → ∃ i x, src i = some x ∧ s = rorpSrc i x := by
    intro s h
    simp only [List.mem_map, Option.map_eq_some_iff] at h
    obtain ⟨i, -, x, hx, rfl⟩ := h
    exact ⟨i, x, hx, rfl⟩
  constructor
  · intro s h _
    obtain ⟨i, x, hx, rfl⟩ := mem h
    exact (hs.key i x hx).1
  · intro s s' k h h' hk hk'
    obtain ⟨i, x, hx, rfl⟩ := mem h
    obtain ⟨j, y, hy, rfl⟩ := mem h'
    have h1 := (Hardlinks.Rorp.isMem_iff.1 hk).2.2
    have h2 := (Hardlinks.Rorp.isMem_iff.1 hk').2.2
    exact (hs.same i j x y hx hy (h1.trans h2.symm)).2
  · intro s k h hk
    obtain ⟨i, x, hx, rfl⟩ := mem h
    obtain ⟨h1, h2, h3⟩ := Hardlinks.Rorp.isMem_iff.1 hk
    refine le_trans ?_ (hs.count i x hx h1 h2)
    rw [List.countP_map]
    refine List.countP_mono_left fun j _ hj => ?_
    simp only [Function.comp, Hardlinks.memb] at hj
    cases hy : src j with
    | none => simp [hy] at hj
    | some y =>
      simp only [hy, Option.map_some, Option.any_some] at hj
      have h4 := (Hardlinks.Rorp.isMem_iff.1 hj).2.2
      have h5 : y.key = x.key := h4.trans h3.symm
      simp [h5]
  · intro s s' k h h' hk hk'
    obtain ⟨i, x, hx, rfl⟩ := mem h
    obtain ⟨j, y, hy, rfl⟩ := mem h'
    obtain ⟨h1, h2, h3⟩ := Hardlinks.Rorp.isMem_iff.1 hk
    obtain ⟨h4, h5⟩ := hs.same i j x y hx hy (h3.trans hk'.symm)
    refine Hardlinks.Rorp.isMem_iff.2 ⟨?_, ?_, hk'⟩
    · show y.file.reg = true
      rw [← h4]; exact h1
    · show 2 ≤ y.nlink
      rw [← h5]; exact h2
  · intro n m s s' h h' hi
    rw [List.getElem?_map, Option.map_eq_some_iff] at h h'
    obtain ⟨i, hi1, hi2⟩ := h
    obtain ⟨j, hj1, hj2⟩ := h'
    rw [Option.map_eq_some_iff] at hi2 hj2
    obtain ⟨x, -, rfl⟩ := hi2
    obtain ⟨y, -, rfl⟩ := hj2
    simp only [rorpSrc] at hi
    subst hi
    exact (List.getElem?_inj (List.getElem?_eq_some_iff.1 hi1).1 hn).1 (hi1.trans hj1.symm)

theorem entry_ok {o : Ops C D} {V : Version I K A C} {fs : FS I A C} {recs : I → Option (Rec K A C D)} {times : List Nat} {s : Sess I K A C}
    (hg : Good o V fs recs) (hV : KeyOk V) (hs : ValidSess o V times s) {ps : List (Pair I K D)} {a q d : Nat} {t : Hardlinks.Tab I K D} {out : List (Decision I)}
    (hr : Run (s.order.map (pairOf o s.src recs)) ps a q d t out) {n : Nat} {i : I} {p : Pair I K D} {x : Decision I} (hi : s.order[n]? = some i)
    (hp : ps[n]? = some p) (hx : out[n]? = some x) : EntryOk o s V recs i (digest p) x := by
  have hc := consistent (o := o) (recs := recs) hs.source hs.nodup
  have hat : (s.order.map (pairOf o s.src recs))[n]? = some (pairOf o s.src recs i) := by rw [List.getElem?_map, hi]; rfl
  constructor
  · intro r hrec
    obtain ⟨p0, hp0, hh⟩ := (Hardlinks.run_handed hr).2 n p hp
    rw [hat] at hp0
    cases hp0
    have hdesc := hg.describes i
    rw [hrec] at hdesc
    have hdest0 : (pairOf o s.src recs i).dest = some (rorpRec i r) := by simp [pairOf, hrec]
    rw [hdest0] at hh
    rcases hh with hh | ⟨r0, h, k, p', r', hr0, hr1, hrk, hm, hd', hk', hsha, hh⟩
    · have : digest p = r.sha1 := by simp [digest, hh, rorpRec]
      rw [this]; exact hdesc
    · cases hr0
      have : digest p = some h := by simp [digest, hh]
      rw [this]
      obtain ⟨j, -, rfl⟩ := List.mem_map.1 hm
      simp only [pairOf, Option.map_eq_some_iff] at hd'
      obtain ⟨rj, hrj, rfl⟩ := hd'
      obtain ⟨h0, e0, hd0⟩ := hdesc
      obtain ⟨h1, e1, hd1⟩ := hg.describes j
      rw [hrj] at e1
      cases hvi : V i with
      | none => rw [hvi] at e0; simp at e0
      | some y =>
        cases hvj : V j with
        | none => rw [hvj] at e1; simp at e1
        | some z =>
          rw [hvi] at e0
          rw [hvj] at e1
          simp only [Option.map_some, Option.some.injEq] at e0 e1
          obtain ⟨k1, k2, k3⟩ := Hardlinks.Rorp.isMem_iff.1 hk'
          subst e0
          subst e1
          simp only [rorpRec, recOf] at k1 k2 k3 hr1 hrk hsha
          have hyr : y.file.reg = true := by
            by_contra hne
            simp [hne] at hr1
          rw [if_pos hyr] at hr1
          rw [if_pos k1] at k2
          have hyn := hV.2 i y hvi
          have hyn2 : 2 ≤ y.nlink := by omega
          simp only [hyr, hyn2, decide_true, Bool.and_self, if_true] at hrk
          simp only [k1, k2, decide_true, Bool.and_self, if_true] at k3
          have hdata := hV.1 i j y z hvi hvj ⟨hyr, k1, hyn2, k2, hrk.trans k3.symm⟩
          refine ⟨some h, rfl, fun x' hx' d' hd' => ?_⟩
          cases hx'
          cases hd'
          rw [hdata]
          exact ⟨hyr, (hd1 z hvj _ hsha).2⟩
  · rintro rfl
    obtain ⟨p0, sr, r, hp0, h1, h2, h3, h4⟩ := Hardlinks.keep_same hc hr hx
    rw [hat] at hp0
    cases hp0
    simp only [pairOf, Option.map_eq_some_iff] at h1 h2
    obtain ⟨s', hs', rfl⟩ := h1
    obtain ⟨r', hr', rfl⟩ := h2
    simp only [pairOf, hs', hr'] at h3
    obtain ⟨h0, e0, -⟩ := hg.describes i
    rw [hr'] at e0
    cases hvi : V i with
    | none => rw [hvi] at e0; simp at e0
    | some y =>
      rw [hvi] at e0
      simp only [Option.map_some, Option.some.injEq] at e0
      subst e0
      simp only [sameAs, Bool.and_eq_true, decide_eq_true_eq] at h3
      obtain ⟨⟨hreg, hattr⟩, h3⟩ := h3
      simp only [recOf] at hreg hattr
      refine ⟨s', y, hs', rfl, hreg, ?_⟩
      by_cases hb : s'.file.reg = true
      · have hyb : y.file.reg = true := hreg ▸ hb
        rw [if_pos hb] at h3
        have h4 := h4 hb (by simpa [rorpRec, recOf] using hyb)
        simp only [rorpRec, rorpSrc, recOf, hyb, if_true] at h4
        simp only [recOf, hyb, if_true, Bool.and_eq_true, Bool.or_eq_true, decide_eq_true_eq, Bool.true_and] at h3
        have hk : 2 ≤ s'.nlink → s'.key = y.key := by
          intro h2
          rcases h3.2 with h | h
          · omega
          · rw [if_pos (by omega)] at h
            exact h.symm
        have hdata := hs.honest i s' y hs' hvi hb hyb hattr h3.1 (fun h2 => ⟨by omega, hk h2⟩)
        refine ⟨hdata, fun h => ?_⟩
        simp only [recOf, hb, hyb, hattr, hdata, h4, if_true, Bool.true_and, Rec.mk.injEq, true_and, and_true]
        by_cases h2 : 2 ≤ y.nlink
        · simp only [h2, decide_true, if_true]; exact hk (by omega)
        · simp [h2]
      · have hyb : ¬ y.file.reg = true := hreg ▸ hb
        rw [if_neg hb] at h3
        simp only [recOf, hyb, if_false, decide_eq_true_eq, Option.some.injEq, Bool.false_eq_true] at h3
        refine ⟨h3.symm, fun h => ?_⟩
        simp [recOf, hb, hyb, hattr, h3]
  · rintro j rfl
    obtain ⟨sr, sr', f, h1, h2, h3, h4, h5, h6⟩ := C31.linked_to_first hc hr hx
    rw [srcs_eq, List.getElem?_map] at h1 h2
    simp only [hi, Option.map_some, Option.some.injEq, Option.map_eq_some_iff] at h1
    obtain ⟨y, hy, rfl⟩ := h1
    rw [Option.map_eq_some_iff] at h2
    obtain ⟨j', hj', h2⟩ := h2
    rw [Option.map_eq_some_iff] at h2
    obtain ⟨z, hz, rfl⟩ := h2
    have : j' = j := h5
    subst this
    obtain ⟨k, l1, l2, l3, l4, l5, l6⟩ := h4
    obtain ⟨hfl, hfe⟩ := List.getElem?_eq_some_iff.1 hj'
    refine ⟨y, z, s.order.take f, s.order.drop (f + 1), hy, hz, ⟨l1, l4, l2, l5, l3.trans l6.symm⟩, ?_, ?_, ?_⟩
    · rw [← hfe, ← List.drop_eq_getElem_cons hfl, List.take_append_drop]
    · rw [List.mem_iff_getElem?]
      exact ⟨n - (f + 1), by rw [List.getElem?_drop, ← hi]; congr 1; omega⟩
    · intro m hm w hw hl
      obtain ⟨g, hg'⟩ := List.mem_iff_getElem?.1 hm
      rw [List.getElem?_take] at hg'
      split at hg'
      · next hgf =>
        refine h6 g (rorpSrc m w) hgf ?_ ⟨k, l1, l2, l3, hl.2.1, hl.2.2.2.1, ?_⟩
        · rw [srcs_eq, List.getElem?_map, hg', Option.map_some, hw]; rfl
        · exact hl.2.2.2.2.symm.trans l3
      · simp at hg'

/-! ### the paths one after the other -/

/-- An increment has been made, or nothing has changed (or it is the first backup). -/
def IncOk (prev : Option Nat) (f f' : Option (File A C)) (l l' : List (Nat × Option (File A C))) : Prop :=
  (l' = l ∧ (prev = none ∨ kind f' = kind f)) ∨ ∃ t g, prev = some t ∧ kind g = kind f ∧ l' = (t, g) :: l

/-- `pre` have been processed -/
structure Part (o : Ops C D) (prev : Option Nat) (s : Sess I K A C) (V : Version I K A C) (w0 : Work I K A C D) (pre : List I) (w : Work I K A C D) : Prop where
  wf : w.fs.WF
  todo : ∀ k, k ∉ pre → w.recs k = w0.recs k ∧ kind (w.fs.file k) = kind (w0.fs.file k) ∧ k ∉ w.errs ∧ w.incs k = w0.incs k
  done : ∀ k ∈ pre, (∀ j, FirstLink s k j → j ∉ w.errs) → Holds (outcome (V k) (s.src k) (decide (k ∈ w.errs)) (w.recs k)) (w.fs.file k) ∧
    Describes o (outcome (V k) (s.src k) (decide (k ∈ w.errs)) (w.recs k)) (w.recs k) ∧ IncOk prev (w0.fs.file k) (w.fs.file k) (w0.incs k) (w.incs k)
  err : ∀ k ∈ w.errs, s.transfer k ≠ .ok ∨ ∃ j, FirstLink s k j

theorem split_unique {j : I} {l l' b b' : List I} (hn : (l ++ j :: b).Nodup) (h : l ++ j :: b = l' ++ j :: b') : l = l' ∧ b = b' := by
  induction l generalizing l' with
  | nil =>
    cases l' with
    | nil => simpa using h
    | cons z l' =>
      simp only [List.nil_append, List.cons_append, List.cons.injEq] at h
      obtain ⟨rfl, rfl⟩ := h
      simp at hn
  | cons z l ih =>
    cases l' with
    | nil =>
      simp only [List.nil_append, List.cons_append, List.cons.injEq] at h
      obtain ⟨rfl, rfl⟩ := h
      simp at hn
    | cons z' l' =>
      simp only [List.cons_append, List.cons.injEq] at h hn
      obtain ⟨rfl, h⟩ := h
      obtain ⟨rfl, rfl⟩ := ih (List.nodup_cons.1 hn).2 h
      exact ⟨rfl, rfl⟩

theorem firstLink_none {s : Sess I K A C} (hn : s.order.Nodup) {i j k : I} (h : FirstLink s i j) : ¬ FirstLink s j k := by
  rintro ⟨x', y', a', b', hx', hy', hl', ho', hj', hf'⟩
  obtain ⟨x, y, a, b, hx, hy, hl, ho, hi, hf⟩ := h
  rw [hx'] at hy
  cases hy
  have hk : k ∈ a := by
    obtain ⟨b1, b2, rfl⟩ := List.append_of_mem hj'
    have he : a' ++ k :: (b1 ++ j :: b2) = (a' ++ k :: b1) ++ j :: b2 := by simp
    rw [he] at ho'
    rw [ho'] at ho hn
    obtain ⟨rfl, -⟩ := split_unique hn ho
    simp
  exact hf k hk y' hy' ⟨hl.1, hl'.2.1, hl.2.2.1, hl'.2.2.2.1, hl.2.2.2.2.trans hl'.2.2.2.2⟩

/-- errors: something is wrong with the transfer, or with the file to be linked to -/
theorem patch_err (o : Ops C D) (stamp : A) {fs : FS I A C} (i : I) (v src : Option (Src K A C)) (dest : Option (Rec K A C D)) (x : Decision I)
    (hv : Holds v (fs.file i)) (hd : Describes o v dest) (he : (patch o stamp fs i src dest x .ok).err = true) : ∃ j, x = .link j := by
  cases x with
  | link j => exact ⟨j, rfl⟩
  | keep => simp [patch] at he
  | replace =>
    exfalso
    cases src with
    | none =>
      simp only [patch, remove] at he
      split at he <;> simp at he
    | some s =>
      simp only [patch, replace] at he
      split at he
      · split at he
        · next hany =>
          cases hino : fs.ino i with
          | some n => simp [hino] at he
          | none =>
            have hvn : v = none := by
              simp only [Holds, kind, FS.file, hino, Option.map_none] at hv
              cases v with
              | none => rfl
              | some y => simp at hv
            subst hvn
            obtain ⟨h, rfl, -⟩ := hd
            simp at hany
        · simp at he
      · simp at he

theorem part_step {o : Ops C D} (hinj : ∀ c c', o.hash c = o.hash c' → c = c') {prev : Option Nat} {s : Sess I K A C} {V : Version I K A C}
    {times : List Nat} {w0 w : Work I K A C D} (hg : Good o V w0.fs w0.recs) (hs : ValidSess o V times s) {pre : List I} (hp : Part o prev s V w0 pre w)
    {i : I} (hi : i ∉ pre) {h : Option D} {x : Decision I} (he : EntryOk o s V w0.recs i h x) (hf : ∀ j, FirstLink s i j → j ∈ pre) :
    Part o prev s V w0 (pre ++ [i]) (step o prev s w i h x) := by
  obtain ⟨t1, t2, t3, t4⟩ := hp.todo i hi
  generalize hdest : (w.recs i).map (fun r => { r with sha1 := h }) = dest
  generalize hpp : patch o s.stamp w.fs i (s.src i) dest x (s.transfer i) = p
  have hstep : step o prev s w i h x = ⟨p.fs, Hardlinks.set w.recs i (newRec o (s.src i) dest p),
    match (generalizing := false) prev with
    | some t => if p.inc then fun j => if j = i then (t, w.fs.file i) :: w.incs i else w.incs j else w.incs
    | none => w.incs,
    if p.err then i :: w.errs else w.errs⟩ := by
    simp only [step, hdest, hpp]
    cases prev <;> rfl
  have herrs : ∀ k, k ≠ i → (k ∈ (if p.err then i :: w.errs else w.errs) ↔ k ∈ w.errs) := by
    intro k hk
    split <;> simp [hk]
  have hincs : ∀ k, k ≠ i → (match (generalizing := false) prev with
    | some t => if p.inc then fun j => if j = i then (t, w.fs.file i) :: w.incs i else w.incs j else w.incs
    | none => w.incs) k = w.incs k := by
    intro k hk
    cases prev with
    | none => rfl
    | some t =>
      simp only
      split
      · simp [hk]
      · rfl
  have hoth : ∀ k, k ≠ i → kind (p.fs.file k) = kind (w.fs.file k) := by
    intro k hk
    rw [← hpp]
    exact patch_others o s.stamp hp.wf i _ _ _ _ hk
  have hd0 : Describes o (V i) dest := by
    rw [← hdest, t1]
    cases hr : w0.recs i with
    | none => have := hg.describes i; rw [hr] at this; exact this
    | some r => exact he.dest r hr
  have hv0 : Holds (V i) (w.fs.file i) := by
    rw [Holds, t2]; exact hg.holds i
  rw [hstep]
  refine ⟨?_, ?_, ?_, ?_⟩
  · rw [← hpp]
    exact wf_patch o s.stamp hp.wf i _ _ _ _
  · intro k hk
    simp only [List.mem_append, List.mem_singleton, not_or] at hk
    obtain ⟨u1, u2, u3, u4⟩ := hp.todo k hk.1
    refine ⟨?_, ?_, ?_, ?_⟩
    · simp only; rw [Hardlinks.set_ne _ _ hk.2, u1]
    · simp only; rw [hoth k hk.2, u2]
    · simp only; rw [herrs k hk.2]; exact u3
    · simp only; rw [hincs k hk.2, u4]
  · intro k hk hfirst
    simp only at hfirst ⊢
    by_cases hki : k = i
    · subst hki
      rw [Hardlinks.set_self]
      have hd : Describes o (V k) dest := by
        rw [← hdest, t1]
        cases hr : w0.recs k with
        | none => have := hg.describes k; rw [hr] at this; exact this
        | some r => exact he.dest r hr
      have hv : Holds (V k) (w.fs.file k) := by
        rw [Holds, t2]; exact hg.holds k
      have hspec := patch_spec o hinj s.stamp hp.wf k (V k) (s.src k) dest x (s.transfer k) hv hd he.keep (by
        intro j s' hx hs'
        have hl := he.link j hx
        have hj := hf j hl
        have hjk : j ≠ k := fun hjk => hi (hjk ▸ hj)
        have hjerr : j ∉ w.errs := by
          have := hfirst j hl
          rwa [herrs j hjk] at this
        have hdone := (hp.done j hj fun j' hj' => absurd hj' (firstLink_none hs.nodup hl)).1
        obtain ⟨y, z, a, b, hy, hz, hlinks, -⟩ := hl
        rw [hs'] at hy
        cases hy
        simp only [outcome, hjerr, decide_false, Bool.false_eq_true, if_false] at hdone
        have hsame := (hs.source.same k j s' z hs' hz hlinks.2.2.2.2).1
        refine ⟨hjk, hlinks.1, ?_⟩
        rw [hz] at hdone
        rw [Holds, hdone]
        simp [hsame])
      rw [hpp] at hspec
      obtain ⟨s1, s2, s3⟩ := hspec
      have hmem : decide (k ∈ (if p.err then k :: w.errs else w.errs)) = p.err := by
        cases hpe : p.err <;> simp [t3]
      rw [hmem]
      refine ⟨s1, s2, ?_⟩
      cases prev with
      | none => exact .inl ⟨t4, .inl rfl⟩
      | some t =>
        simp only
        by_cases hinc : p.inc = true
        · simp only [hinc, if_true, t4]
          exact .inr ⟨t, _, rfl, t2, rfl⟩
        · refine .inl ⟨by simp [hinc, t4], .inr ?_⟩
          rw [s3 (by simpa using hinc), t2]
    · rw [Hardlinks.set_ne _ _ hki]
      have hkp : k ∈ pre := by
        simpa [hki] using hk
      have hfirst' : ∀ j, FirstLink s k j → j ∉ w.errs := by
        intro j hj hm
        refine hfirst j hj ?_
        split
        · exact List.mem_cons_of_mem _ hm
        · exact hm
      obtain ⟨d1, d2, d3⟩ := hp.done k hkp hfirst'
      have hmem : decide (k ∈ (if p.err then i :: w.errs else w.errs)) = decide (k ∈ w.errs) := by simp [herrs k hki]
      rw [hmem]
      refine ⟨?_, d2, ?_⟩
      · rw [Holds, hoth k hki]; exact d1
      · rw [hincs k hki]
        rcases d3 with ⟨d3, d4⟩ | d3
        · exact .inl ⟨d3, by rwa [hoth k hki]⟩
        · exact .inr d3
  · intro k hk
    simp only at hk
    by_cases hki : k = i
    · subst hki
      cases htr : s.transfer k with
      | ok =>
        right
        have hpe : p.err = true := by
          by_contra hne
          simp only [hne, if_false] at hk
          exact t3 hk
        rw [← hpp, htr] at hpe
        obtain ⟨j, hj⟩ := patch_err o s.stamp k (V k) (s.src k) dest x hv0 hd0 hpe
        exact ⟨j, he.link j hj⟩
      | failed => left; simp
      | unreadable => left; simp
    · rw [herrs k hki] at hk
      exact hp.err k hk

theorem part_steps {o : Ops C D} (hinj : ∀ c c', o.hash c = o.hash c' → c = c') {prev : Option Nat} {s : Sess I K A C} {V : Version I K A C}
    {times : List Nat} {w0 : Work I K A C D} (hg : Good o V w0.fs w0.recs) (hs : ValidSess o V times s) (l : List (I × Option D × Decision I)) :
    ∀ (pre : List I) (w : Work I K A C D), Part o prev s V w0 pre w → pre ++ l.map (·.1) = s.order →
      (∀ e ∈ l, EntryOk o s V w0.recs e.1 e.2.1 e.2.2) → Part o prev s V w0 s.order (steps o prev s w l) := by
  induction l with
  | nil =>
    intro pre w hp ho _
    simp only [List.map_nil, List.append_nil] at ho
    rw [← ho]; exact hp
  | cons e l ih =>
    intro pre w hp ho he
    obtain ⟨i, h, x⟩ := e
    have hn := hs.nodup
    rw [← ho] at hn
    simp only [List.map_cons] at ho hn
    have hi : i ∉ pre := by
      have := (List.nodup_append.1 hn).2.2
      intro hm
      exact this i hm i (by simp) rfl
    refine ih (pre ++ [i]) _ (part_step hinj hg hs hp hi (he (i, h, x) (List.mem_cons_self)) ?_) (by simp [ho]) fun e hm => he e (List.mem_cons_of_mem _ hm)
    rintro j ⟨y, z, a, b, -, -, -, hab, hib, -⟩
    -- `j` comes before `i` in the order
    by_contra hj
    have hnd := hs.nodup
    rw [← ho] at hab
    have : j ∈ i :: l.map (·.1) := by
      have : j ∈ pre ++ i :: l.map (·.1) := by rw [hab]; simp
      simpa [hj] using this
    obtain ⟨c1, c2, hc⟩ := List.append_of_mem this
    rw [hc, ← List.append_assoc] at hab
    rw [← ho, hc, ← List.append_assoc] at hnd
    have hb : c2 = b := (split_unique hnd hab).2
    subst hb
    cases c1 with
    | nil =>
      simp only [List.nil_append, List.cons.injEq] at hc
      rw [← hc.2] at hib
      exact (List.nodup_cons.1 (List.nodup_append.1 hn).2.1).1 hib
    | cons z c1 =>
      simp only [List.cons_append, List.cons.injEq] at hc
      have : i ∈ l.map (·.1) := by rw [hc.2]; simp [hib]
      exact (List.nodup_cons.1 (List.nodup_append.1 hn).2.1).1 this

theorem zip_facts {α β : Type} {order : List I} {ps : List α} {out : List β} (f : α → Option D) (h1 : ps.length = order.length) (h2 : out.length = order.length) :
    (order.zip ((ps.map f).zip out)).map (·.1) = order ∧ ∀ e ∈ order.zip ((ps.map f).zip out), ∃ (n : Nat) (p : α),
      order[n]? = some e.1 ∧ ps[n]? = some p ∧ e.2.1 = f p ∧ out[n]? = some e.2.2 := by
  constructor
  · rw [List.map_fst_zip]
    simp [h1, h2]
  · intro e he
    obtain ⟨n, hn⟩ := List.mem_iff_getElem?.1 he
    rw [List.getElem?_zip_eq_some, List.getElem?_zip_eq_some, List.getElem?_map, Option.map_eq_some_iff] at hn
    obtain ⟨h3, ⟨p, h4, h5⟩, h6⟩ := hn
    exact ⟨n, p, h3, h4, h5.symm, h6⟩

/-- one backup -/
theorem session_part {o : Ops C D} (hinj : ∀ c c', o.hash c = o.hash c' → c = c') {s : Sess I K A C} {V : Version I K A C} {times : List Nat}
    {st st' : State I K A C D} {errs : List I} (hg : Good o V st.fs st.recs) (hV : KeyOk V) (hs : ValidSess o V times s) (h : Session o st s st' errs) :
    ∃ w, Part o (st.metas.head?.map (·.1)) s V ⟨st.fs, st.recs, st.incs, []⟩ s.order w ∧
      st' = ⟨w.fs, (s.now, w.recs) :: st.metas, w.incs⟩ ∧ errs = w.errs := by
  obtain ⟨ps, a, d, t, out, w, hr, hw, hst, herr⟩ := h
  refine ⟨w, ?_, hst, herr⟩
  have hc := consistent (o := o) (recs := st.recs) hs.source hs.nodup
  have hri := Hardlinks.run_inv hc hr
  have hlen : ps.length = s.order.length := by
    have := congrArg List.length hri.srcs
    simpa using this
  obtain ⟨z1, z2⟩ := zip_facts digest hlen (Hardlinks.run_out hc hr).1
  rw [hw]
  refine part_steps hinj hg hs _ [] _ ⟨hg.wf, fun k _ => ⟨rfl, rfl, by simp, rfl⟩, fun k hk => by simp at hk, fun k hk => by simp at hk⟩ (by simpa using z1) fun e he => ?_
  obtain ⟨n, p, h1, h2, h3, h4⟩ := z2 e he
  rw [h3]
  exact entry_ok hg hV hs hr h1 h2 h4

/-! ### earlier versions -/

/-- Without an increment type and contents are as before. -/
theorem patch_inc (o : Ops C D) (stamp : A) (fs : FS I A C) (i : I) (src : Option (Src K A C)) (dest : Option (Rec K A C D)) (x : Decision I) (tr : Transfer)
    (h : (patch o stamp fs i src dest x tr).inc = false) : kind ((patch o stamp fs i src dest x tr).fs.file i) = kind (fs.file i) := by
  have hrem : ∀ e, (remove (D := D) fs i e).inc = false → kind ((remove (D := D) fs i e).fs.file i) = kind (fs.file i) := by
    intro e
    simp only [remove]
    split <;> simp
  have hrep : ∀ s : Src K A C, (replace o fs i s dest).inc = false → kind ((replace o fs i s dest).fs.file i) = kind (fs.file i) := by
    intro s
    simp only [replace]
    split
    · split
      · split
        · intro _; exact kind_chattr _ _ _ _
        · intro _; rfl
      · simp
    · simp
  have hlink : ∀ j, ∀ s : Src K A C, (linkTo o stamp fs i j s).inc = false → kind ((linkTo o stamp fs i j s).fs.file i) = kind (fs.file i) := by
    intro j s
    simp only [linkTo]
    split
    · split
      · intro _; exact kind_chattr _ _ _ _
      · split
        · simp
        · intro _; rfl
    · split
      · simp
      · intro _; rfl
  revert h
  simp only [patch]
  split
  · intro _; rfl
  · exact hrem _
  · split
    · intro _; rfl
    · exact hlink _ _
  · split
    · exact hrep _
    · intro _; rfl
    · split
      · exact hrem _
      · exact hrep _

/-- what is found of a path at a time, during a backup -/
def found (fs : FS I A C) (incs : I → List (Nat × Option (File A C))) (i : I) (t : Nat) : Option (Bool × C) :=
  match ((incs i).filter fun x => decide (t ≤ x.1)).getLast? with
  | some x => kind x.2
  | none => kind (fs.file i)

theorem found_eq (st : State I K A C D) (i : I) (t : Nat) : found st.fs st.incs i t = kind (st.contents i t) := by
  simp only [found, State.contents]
  cases ((st.incs i).filter fun x => decide (t ≤ x.1)).getLast? <;> rfl

theorem step_found (o : Ops C D) {prev : Nat} (s : Sess I K A C) {w : Work I K A C D} (hwf : w.fs.WF) (i : I) (h : Option D) (x : Decision I) {t : Nat} (ht : t ≤ prev)
    (k : I) : found (step o (some prev) s w i h x).fs (step o (some prev) s w i h x).incs k t = found w.fs w.incs k t := by
  simp only [step]
  generalize hdest : (w.recs i).map (fun r => { r with sha1 := h }) = dest
  have hoth : k ≠ i → kind ((patch o s.stamp w.fs i (s.src i) dest x (s.transfer i)).fs.file k) = kind (w.fs.file k) :=
    fun hk => patch_others o s.stamp hwf i _ _ _ _ hk
  have hinc := patch_inc o s.stamp w.fs i (s.src i) dest x (s.transfer i)
  generalize hp : patch o s.stamp w.fs i (s.src i) dest x (s.transfer i) = p at hoth hinc ⊢
  cases hpi : p.inc with
  | true =>
    simp only [if_true, found]
    by_cases hk : k = i
    · subst hk
      simp only [if_true, List.filter_cons, ht, decide_true]
      cases hl : (w.incs k).filter (fun x => decide (t ≤ x.1)) with
      | nil => simp
      | cons y l => simp [List.getLast?_cons]
    · simp only [hk, if_false, hoth hk]
  | false =>
    simp only [found, Bool.false_eq_true, if_false]
    by_cases hk : k = i
    · subst hk
      rw [hinc hpi]
    · rw [hoth hk]

theorem steps_found (o : Ops C D) {prev : Nat} (s : Sess I K A C) {t : Nat} (ht : t ≤ prev) (k : I) (l : List (I × Option D × Decision I)) :
    ∀ w : Work I K A C D, w.fs.WF → found (steps o (some prev) s w l).fs (steps o (some prev) s w l).incs k t = found w.fs w.incs k t := by
  induction l with
  | nil => intro w _; rfl
  | cons e l ih =>
    intro w hwf
    obtain ⟨i, h, x⟩ := e
    simp only [steps]
    rw [ih]
    · exact step_found o s hwf i h x ht k
    · exact wf_patch o s.stamp hwf i _ _ _ _

theorem steps_wf (o : Ops C D) {prev : Option Nat} (s : Sess I K A C) (l : List (I × Option D × Decision I)) :
    ∀ w : Work I K A C D, w.fs.WF → (steps o prev s w l).fs.WF := by
  induction l with
  | nil => intro w h; exact h
  | cons e l ih =>
    intro w hwf
    obtain ⟨i, h, x⟩ := e
    exact ih _ (wf_patch o s.stamp hwf i _ _ _ _)

/-- all increments are of the time of the previous backup or earlier -/
theorem steps_times (o : Ops C D) {prev : Option Nat} (s : Sess I K A C) (l : List (I × Option D × Decision I)) (P : Nat → Prop)
    (hP : ∀ t, prev = some t → P t) : ∀ w : Work I K A C D, (∀ i, ∀ x ∈ w.incs i, P x.1) → ∀ i, ∀ x ∈ (steps o prev s w l).incs i, P x.1 := by
  induction l with
  | nil => intro w h; exact h
  | cons e l ih =>
    intro w hw
    obtain ⟨i, h, x⟩ := e
    refine ih _ ?_
    intro k y hy
    simp only [step] at hy
    cases prev with
    | none => exact hw k y hy
    | some t =>
      simp only at hy
      split at hy
      · simp only at hy
        split at hy
        · next hk =>
          rcases List.mem_cons.1 hy with rfl | hy
          · exact hP t rfl
          · exact hw _ y (hk ▸ hy)
        · exact hw k y hy
      · exact hw k y hy

end Verif.Linked
