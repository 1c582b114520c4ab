import Verif.Proof.CacheSession
import Verif.Spec.Cache
/- The whole session with a bounded cache. -/
namespace Verif.Cache
open Verif.Repo Verif.FillIn Verif.Collate Verif.MetaChain
set_option linter.unusedSectionVars false
variable {α A C S H Δ L : Type} [LinearOrder α] [DecidableEq A] [DecidableEq S] [DecidableEq H] [DecidableEq L]
variable {o : Ops A C H Δ L} {P : Prot α A C S H Δ} {c : Ctx α A C S H Δ}

/-- the flags of an entry, when the diffs of `rem` are still to come -/
def EOK (o : Ops A C H Δ L) (c : Ctx α A C S H Δ) (rem : List (List α)) (e : Entry α (Node A C S) (MRec A S H) H) : Prop :=
  (e.idx ∉ rem → metaOf (recOf o) id e = c.newRec o e.idx (c.src e.idx) (c.dst e.idx)) ∧
  (e.idx ∈ rem → e.success = 0 ∧ e.sha = none)

/-- a session after `n` pairs -/
structure LI (o : Ops A C H Δ L) (c : Ctx α A C S H Δ) (N : Nat) (rem : List (List α)) (n : Nat) (r : Run α A C S H) : Prop where
  inv : Inv Node.isDir MRec.isDir c.pairs n (n - N) r.cache
  size : r.cache.size = N
  todo : r.todo = c.pairs.drop n
  out : ∀ e ∈ r.cache.out, e.idx ∉ rem
  ok : ∀ e ∈ r.cache.out ++ r.cache.items, EOK o c rem e
  seen : ∀ p x, c.pairs[p]? = some x → x.1 ∈ c.changed o → x.1 ∉ rem → p < n
  sub : ∀ x ∈ rem, x ∈ c.changed o

variable {N n : Nat} {rem : List (List α)} {r : Run α A C S H}

theorem LI.key (hs : Sorted c) (h : LI o c N rem n r) {e : Entry α (Node A C S) (MRec A S H) H}
    (he : e ∈ r.cache.out ++ r.cache.items) : e.key = (e.idx, c.src e.idx, c.dst e.idx) := by
  have : e.key ∈ c.pairs := by
    rcases List.mem_append.mp he with he | he
    · exact List.mem_of_mem_take (h.inv.out ▸ List.mem_map_of_mem he)
    · exact List.mem_of_mem_take (List.mem_of_mem_drop (h.inv.items ▸ List.mem_map_of_mem he))
  exact ((mem_pairs hs _).mp this).1

theorem not_changed (hs : Sorted c) {x : Pair α (Node A C S) (MRec A S H)} (hx : x ∈ c.pairs) (h : x.1 ∉ c.changed o) :
    changedPair o (c.src x.1) (c.dst x.1) = false := by
  by_contra hc
  exact h ((hs.changed.2 x.1).mpr ⟨((mem_pairs hs x).mp hx).2, by simpa using hc⟩)

/-- a pair that has not changed, when nothing has been done to it -/
theorem newRec_same {i : List α} (h : changedPair o (c.src i) (c.dst i) = false) : c.newRec o i (c.src i) (c.dst i) = c.dst i := by
  simp [Ctx.newRec, h]

theorem pull_ok (hc : CtxOK o c P) (hs : Sorted c) (h : LI o c N rem n r) (hn : n < c.pairs.length)
    (hw : ∀ p x, c.pairs[p]? = some x → x.1 ∈ rem → n < p + N) :
    ∃ r', pull o r = some r' ∧ LI o c N rem (n + 1) r' := by
  have hps := pairs_ok hc hs
  obtain ⟨p, hp⟩ : ∃ p, c.pairs[n]? = some p := ⟨c.pairs[n], List.getElem?_eq_getElem hn⟩
  have hpm : p ∈ c.pairs := List.mem_of_getElem? hp
  obtain ⟨hp1, hp2⟩ := (mem_pairs hs p).mp hpm
  have htodo : r.todo = p :: c.pairs.drop (n + 1) := by
    rw [h.todo, List.drop_eq_getElem_cons hn]
    congr 1
    exact Option.some.inj ((List.getElem?_eq_getElem hn).symm.trans hp)
  obtain ⟨s', hs1, hs2, hs3, hs4⟩ := h.inv.next hps h.size hp
  -- the new entry
  have hfresh : EOK o c rem (fresh p) := by
    refine ⟨fun hr => ?_, fun _ => ⟨rfl, rfl⟩⟩
    have hnc : p.1 ∉ c.changed o := fun hx => by
      have := h.seen n p hp hx hr
      omega
    show metaOf (recOf o) id (fresh p) = c.newRec o p.1 (c.src p.1) (c.dst p.1)
    rw [newRec_same (not_changed hs hpm hnc)]
    have : p.2.2 = c.dst p.1 := congrArg (fun x => x.2.2) hp1
    simp [metaOf, fresh, this]
  have hall : ∀ e ∈ s'.out ++ s'.items, e ∈ r.cache.out ++ r.cache.items ∨ e = fresh p := by
    intro e he
    rcases hs4 with ⟨_, ho, hi⟩ | ⟨_, e', ho, hi, _⟩
    · rw [ho, hi, ← List.append_assoc] at he
      rcases List.mem_append.mp he with he | he
      · exact .inl he
      · exact .inr (by simpa using he)
    · rw [ho, List.append_assoc, List.singleton_append, ← hi, ← List.append_assoc] at he
      rcases List.mem_append.mp he with he | he
      · exact .inl he
      · exact .inr (by simpa using he)
  have hok : ∀ e ∈ s'.out ++ s'.items, EOK o c rem e := by
    intro e he
    rcases hall e he with he | he
    · exact h.ok e he
    · rw [he]; exact hfresh
  have hout : ∀ e ∈ s'.out, e.idx ∉ rem := by
    intro e he
    rcases hs4 with ⟨_, ho, hi⟩ | ⟨hNn, e', ho, hi, hkey⟩
    · rw [ho] at he; exact h.out e he
    · rw [ho] at he
      rcases List.mem_append.mp he with he | he
      · exact h.out e he
      · simp only [List.mem_singleton] at he
        subst he
        intro hr
        have := hw _ _ hkey hr
        omega
  have hseen : ∀ q x, c.pairs[q]? = some x → x.1 ∈ c.changed o → x.1 ∉ rem → q < n + 1 := fun q x h1 h2 h3 =>
    Nat.lt_succ_of_lt (h.seen q x h1 h2 h3)
  simp only [pull, htodo, hs1, Option.bind_some]
  by_cases hch : changedPair o p.2.1 p.2.2 = true
  · -- flag_changed
    have hpc : p.1 ∈ c.changed o := (hs.changed.2 p.1).mpr ⟨hp2, by
      have e1 : p.2.1 = c.src p.1 := congrArg (fun x => x.2.1) hp1
      have e2 : p.2.2 = c.dst p.1 := congrArg (fun x => x.2.2) hp1
      rw [← e1, ← e2]; exact hch⟩
    have hrem : p.1 ∈ rem := by
      by_contra hr
      have := h.seen n p hp hpc hr
      omega
    have hN := hw n p hp hrem
    have hmem : p ∈ (c.pairs.take (n + 1)).drop (n + 1 - N) := by
      refine List.mem_drop_iff_getElem.mpr ⟨n - (n + 1 - N), by simp; omega, ?_⟩
      simp only [List.getElem_take]
      have hidx : n + 1 - N + (n - (n + 1 - N)) = n := by omega
      have := (List.getElem?_eq_getElem (by omega : n + 1 - N + (n - (n + 1 - N)) < c.pairs.length)).symm.trans
        ((congrArg (fun k => c.pairs[k]?) hidx).trans hp)
      exact Option.some.inj this
    have hin := (hs3.rorps hps hmem).2.1
    have hk : Keeps (fun e : Entry α (Node A C S) (MRec A S H) H => { e with changed := true }) := fun _ => rfl
    simp only [hch, if_true, Ccpp.flagChanged, modify_eq s' _ hin, Option.map_some]
    refine ⟨_, rfl, hs3.upd hk _, hs2, rfl, hout, ?_, hseen, h.sub⟩
    intro e he
    simp only [upd] at he
    rcases List.mem_append.mp he with he | he
    · exact hok e (List.mem_append_left _ he)
    · obtain ⟨e0, he0, rfl⟩ := List.mem_map.mp he
      have := hok e0 (List.mem_append_right _ he0)
      by_cases hi : e0.idx = p.1
      · simp only [hi, if_true]
        simp only [EOK, metaOf] at this ⊢
        simpa [hi] using this
      · simp only [hi, if_false]; exact this
  · simp only [hch, Bool.false_eq_true, if_false, Option.map_some]
    exact ⟨_, rfl, hs3, hs2, rfl, hout, hok, hseen, h.sub⟩

theorem pulls_ok (hc : CtxOK o c P) (hs : Sorted c) : ∀ (k n : Nat) (r : Run α A C S H), LI o c N rem n r →
    (∀ p x, c.pairs[p]? = some x → x.1 ∈ rem → n + k ≤ p + N) →
    ∃ r', pulls o k r = some r' ∧ LI o c N rem (min (n + k) c.pairs.length) r' := by
  intro k
  induction k with
  | zero =>
    intro n r h hw
    refine ⟨r, rfl, ?_⟩
    rw [Nat.add_zero, Nat.min_eq_left h.inv.len]; exact h
  | succ k ih =>
    intro n r h hw
    by_cases hn : n < c.pairs.length
    · obtain ⟨r1, h1, h2⟩ := pull_ok hc hs h hn (fun p x hp hx => by have := hw p x hp hx; omega)
      obtain ⟨r2, h3, h4⟩ := ih (n + 1) r1 h2 (fun p x hp hx => by have := hw p x hp hx; omega)
      refine ⟨r2, by simp only [pulls, h1, Option.bind_some, h3], ?_⟩
      have : n + 1 + k = n + (k + 1) := by omega
      rwa [this] at h4
    · have hle := h.inv.len
      have hnn : n = c.pairs.length := by omega
      have h1 : pull o r = some r := by
        have : r.todo = [] := by rw [h.todo, hnn, List.drop_length]
        simp only [pull, this]
      obtain ⟨r2, h3, h4⟩ := ih n r h (fun p x hp hx => by have := hw p x hp hx; omega)
      refine ⟨r2, by simp only [pulls, h1, Option.bind_some, h3], ?_⟩
      have : min (n + k) c.pairs.length = min (n + (k + 1)) c.pairs.length := by omega
      rwa [this] at h4

theorem pullTo_ok (hc : CtxOK o c P) (hs : Sorted c) (h : LI o c N rem n r) (k : Nat)
    (hw : ∀ p x, c.pairs[p]? = some x → x.1 ∈ rem → max n k ≤ p + N) :
    ∃ r', pullTo o c k r = some r' ∧ LI o c N rem (max n (min k c.pairs.length)) r' := by
  have hle := h.inv.len
  have he : c.pairs.length - r.todo.length = n := by rw [h.todo, List.length_drop]; omega
  unfold pullTo
  rw [he]
  obtain ⟨r', h1, h2⟩ := pulls_ok hc hs (k - n) n r h (fun p x hp hx => by have := hw p x hp hx; omega)
  refine ⟨r', h1, ?_⟩
  have : min (n + (k - n)) c.pairs.length = max n (min k c.pairs.length) := by omega
  rwa [this] at h2

/-! ### processing a diff -/

theorem filler_step (hc : CtxOK o c P) (hs : Sorted c) (h : LI o c N rem n r) {cur f : Pair α (Node A C S) (MRec A S H)}
    (hcur : cur ∈ (c.pairs.take n).drop (n - N)) (hpre : f.1 <+: cur.1) (hf : c.isFiller o f.1 = true)
    (hfp : f ∈ c.pairs) : ∃ s', work o c r.cache (false, f.1) = some s' ∧ LI o c N rem n ⟨s', r.todo⟩ := by
  obtain ⟨hd1, hd2⟩ := filler_dirs hc hs hf
  have hps := pairs_ok hc hs
  have hfe := ((mem_pairs hs f).mp hfp).1
  have hdir : isd Node.isDir MRec.isDir f = true := by
    have : f.2.1 = c.src f.1 := congrArg (fun x => x.2.1) hfe
    simp [isd, any_node, this, hd1]
  have hr : r.cache.rorps f.1 = some (c.src f.1, c.dst f.1) := by
    rw [h.inv.rorps_parent hps hcur hfp hpre hdir]
    exact congrArg (fun x => some x.2) hfe
  rw [work_filler hr hd2]
  by_cases hi : r.cache.inCache f.1 = true
  · simp only [hi, if_true]
    have hk : Keeps (fun e : Entry α (Node A C S) (MRec A S H) H => { e with success := 1 }) := fun _ => rfl
    refine ⟨_, rfl, h.inv.upd hk _, h.size, h.todo, h.out, ?_, h.seen, h.sub⟩
    intro e he
    simp only [upd] at he
    rcases List.mem_append.mp he with he | he
    · exact h.ok e (List.mem_append_left _ he)
    · obtain ⟨e0, he0, rfl⟩ := List.mem_map.mp he
      have hok := h.ok e0 (List.mem_append_right _ he0)
      by_cases hx : e0.idx = f.1
      · simp only [hx, if_true]
        have hnc : f.1 ∉ c.changed o := hs.filler hf
        refine ⟨fun _ => ?_, fun hr' => absurd (h.sub _ hr') (by simpa [hx] using hnc)⟩
        have hkey := h.key hs (List.mem_append_right _ he0)
        have hsrc : e0.src = c.src f.1 := by rw [← hx]; exact congrArg (fun x => x.2.1) hkey
        have hch := not_changed hs hfp hnc
        simp only [hx]
        rw [newRec_same hch]
        cases hsr : c.src f.1 with
        | none => rw [hsr] at hd1; cases hd1
        | some n =>
          cases n with
          | reg a x => rw [hsr] at hd1; cases hd1
          | other a x => rw [hsr] at hd1; cases hd1
          | dir a =>
            rw [hsr] at hch hsrc
            cases hds : c.dst f.1 with
            | none => rw [hds] at hch; simp [changedPair] at hch
            | some m =>
              rw [hds] at hch
              cases m with
              | dir a' =>
                have : a = a' := by simpa [changedPair, eqMeta] using hch
                simp [metaOf, hsrc, recOf, this]
              | reg a' sz hh => simp [changedPair, eqMeta] at hch
              | other a' s' => simp [changedPair, eqMeta] at hch
      · simp only [hx, if_false]; exact hok
  · simp only [hi, Bool.false_eq_true, if_false]
    exact ⟨_, rfl, h⟩

theorem fillers_ok (hc : CtxOK o c P) (hs : Sorted c) {cur : Pair α (Node A C S) (MRec A S H)}
    (hcur : cur ∈ (c.pairs.take n).drop (n - N)) : ∀ (fs : List (Bool × List α)) (r : Run α A C S H), LI o c N rem n r →
    (∀ x ∈ fs, x.1 = false ∧ x.2 <+: cur.1 ∧ c.isFiller o x.2 = true ∧ ∃ f ∈ c.pairs, f.1 = x.2) →
    ∃ s', fs.foldlM (work o c) r.cache = some s' ∧ LI o c N rem n ⟨s', r.todo⟩ := by
  intro fs
  induction fs with
  | nil => intro r h _; exact ⟨r.cache, rfl, h⟩
  | cons x fs ih =>
    intro r h hx
    obtain ⟨h1, h2, h3, f, hf, hf2⟩ := hx x (by simp)
    obtain ⟨b, i⟩ := x
    simp only at h1 h2 h3 hf2
    subst h1 hf2
    obtain ⟨s1, hs1, hs2⟩ := filler_step hc hs h hcur h2 h3 hf
    obtain ⟨s2, hs3, hs4⟩ := ih ⟨s1, r.todo⟩ hs2 (fun y hy => hx y (List.mem_cons_of_mem _ hy))
    exact ⟨s2, by rw [List.foldlM_cons, hs1]; exact hs3, hs4⟩

theorem real_step (hc : CtxOK o c P) (hs : Sorted c) {cur : Pair α (Node A C S) (MRec A S H)} {rest : List (List α)}
    (h : LI o c N (cur.1 :: rest) n r) (hcur : cur ∈ (c.pairs.take n).drop (n - N)) (hnd : cur.1 ∉ rest) :
    ∃ s', work o c r.cache (true, cur.1) = some s' ∧ LI o c N rest n ⟨s', r.todo⟩ := by
  have hps := pairs_ok hc hs
  have hcp : cur ∈ c.pairs := List.mem_of_mem_take (List.mem_of_mem_drop hcur)
  have hce := ((mem_pairs hs cur).mp hcp).1
  have hchg := (hs.changed.2 cur.1).mp (h.sub cur.1 (by simp))
  obtain ⟨hr1, hr2, hr3⟩ := h.inv.rorps hps hcur
  have e2 : cur.2 = (c.src cur.1, c.dst cur.1) := congrArg (fun x => x.2) hce
  have hready : Ready c r.cache cur.1 := ⟨by rw [hr1, e2], hr2, by rw [hr3, e2]⟩
  obtain ⟨f, hf1, hf2, hf3⟩ := work_real hc hready hchg.2 hchg.1
  refine ⟨_, hf2, h.inv.upd hf1 _, h.size, h.todo, ?_, ?_, ?_, ?_⟩
  · intro e he hx
    exact h.out e he (List.mem_cons_of_mem _ hx)
  · intro e he
    simp only [upd] at he
    rcases List.mem_append.mp he with he | he
    · have := h.ok e (List.mem_append_left _ he)
      have hne := h.out e he
      exact ⟨fun _ => this.1 hne, fun hx => absurd (List.mem_cons_of_mem _ hx) hne⟩
    · obtain ⟨e0, he0, rfl⟩ := List.mem_map.mp he
      have hok := h.ok e0 (List.mem_append_right _ he0)
      by_cases hx : e0.idx = cur.1
      · simp only [hx, if_true]
        have hkey := h.key hs (List.mem_append_right _ he0)
        have hsrc : e0.src = c.src cur.1 := by rw [← hx]; exact congrArg (fun x => x.2.1) hkey
        have hdst : e0.dst = c.dst cur.1 := by rw [← hx]; exact congrArg (fun x => x.2.2) hkey
        have hp := hok.2 (by rw [hx]; simp)
        have hidx : (f e0).idx = cur.1 := by rw [hf1.idx, hx]
        refine ⟨fun _ => ?_, fun hr' => absurd (by rwa [hidx] at hr') hnd⟩
        rw [hidx]
        exact hf3 e0 hp.1 hp.2 hsrc hdst
      · simp only [hx, if_false]
        refine ⟨fun hr' => hok.1 (by simp [hx, hr']), fun hr' => hok.2 (List.mem_cons_of_mem _ hr')⟩
  · intro p x h1 h2 h3
    by_cases hx : x.1 = cur.1
    · obtain ⟨b, hb, hb2⟩ := List.mem_drop_iff_getElem.mp hcur
      have hle := h.inv.len
      simp only [List.getElem_take] at hb2
      simp only [List.length_take] at hb
      obtain ⟨hp, rfl⟩ := List.getElem?_eq_some_iff.mp h1
      by_contra hc'
      have := List.pairwise_iff_getElem.mp hps.sorted (n - N + b) p (by omega) hp (by omega)
      rw [hb2, hx] at this
      exact lt_irrefl _ this
    · exact h.seen p x h1 h2 (by simp [hx, h3])
  · intro x hx
    exact h.sub x (List.mem_cons_of_mem _ hx)

/-- the fillers of a group -/
theorem group_form (old cur : List α) : ∃ fs, fillOne old cur = fs ++ [(true, cur)] ∧
    ∀ x ∈ fs, x.1 = false ∧ x.2 <+: cur ∧ x.2 ≠ cur := by
  refine ⟨_, rfl, ?_⟩
  intro x hx
  by_cases h : cur.dropLast ≠ old.dropLast
  · rw [if_pos h, List.mem_map] at hx
    simp only [List.mem_filter] at hx
    obtain ⟨i, ⟨hi, _⟩, rfl⟩ := hx
    have := List.mem_of_mem_drop hi
    refine ⟨rfl, List.take_prefix _ _, fun e => ?_⟩
    have := congrArg List.length e
    simp at *; omega
  · rw [if_neg h] at hx; cases hx

theorem first_form (cur : List α) : ∃ fs, fillFirst cur = fs ++ [(true, cur)] ∧
    ∀ x ∈ fs, x.1 = false ∧ x.2 <+: cur ∧ x.2 ≠ cur := by
  refine ⟨_, rfl, ?_⟩
  intro x hx
  obtain ⟨i, hi, rfl⟩ := List.mem_map.mp hx
  refine ⟨rfl, List.take_prefix _ _, fun e => ?_⟩
  have := congrArg List.length e
  simp at *; omega

theorem arrive_ok (hc : CtxOK o c P) (hs : Sorted c) {sched : List α → Nat} (ht : Timely o c N sched) {cur : List α}
    {rest : List (List α)} {fs : List (Bool × List α)} (h : LI o c N (cur :: rest) n r)
    (hlt : ∀ x ∈ rest, cur < x) (hn : n ≤ sched cur)
    (hfs : ∀ x ∈ fs, x.1 = false ∧ x.2 <+: cur ∧ c.isFiller o x.2 = true ∧ ∃ f ∈ c.pairs, f.1 = x.2) :
    ∃ r' n', arrive o c r (sched cur) (fs ++ [(true, cur)]) = some r' ∧ LI o c N rest n' r' ∧ n' ≤ sched cur := by
  have hch := h.sub cur (by simp)
  have hmem := (mem_pairs hs (cur, c.src cur, c.dst cur)).mpr ⟨rfl, ((hs.changed.2 cur).mp hch).1⟩
  obtain ⟨p, hp, hpe⟩ := List.getElem_of_mem hmem
  have hp' : c.pairs[p]? = some (cur, c.src cur, c.dst cur) := by rw [List.getElem?_eq_getElem hp, hpe]
  have hwin := ht.window p _ hp' hch
  obtain ⟨r1, h1, h2⟩ := pullTo_ok hc hs h (sched cur) (by
    intro q x hq hx
    rw [Nat.max_eq_right hn]
    have hxc : x.1 ∈ c.changed o := h.sub _ hx
    have hw := ht.window q x hq hxc
    rcases List.mem_cons.mp hx with hx | hx
    · rw [← hx]; exact hw.2
    · exact le_trans (ht.order _ hch _ hxc (hlt _ hx)) hw.2)
  have hle : max n (min (sched cur) c.pairs.length) ≤ sched cur := by omega
  have hpn : p < max n (min (sched cur) c.pairs.length) := by have := hwin.1; simp only at this; omega
  have hlen2 := h2.inv.len
  generalize max n (min (sched cur) c.pairs.length) = n' at h2 hle hpn hlen2
  have hcur : ((cur, c.src cur, c.dst cur) : Pair α (Node A C S) (MRec A S H)) ∈ (c.pairs.take n').drop (n' - N) := by
    have hw2 := hwin.2
    simp only at hw2
    refine List.mem_drop_iff_getElem.mpr ⟨p - (n' - N), by simp; omega, ?_⟩
    simp only [List.getElem_take]
    have hidx : n' - N + (p - (n' - N)) = p := by omega
    have := (List.getElem?_eq_getElem (by omega : n' - N + (p - (n' - N)) < c.pairs.length)).symm.trans
      ((congrArg (fun k => c.pairs[k]?) hidx).trans hp')
    exact Option.some.inj this
  obtain ⟨s1, hs1, hs2⟩ := fillers_ok hc hs hcur fs r1 h2 hfs
  obtain ⟨s2, hs3, hs4⟩ := real_step hc hs (cur := (cur, c.src cur, c.dst cur)) hs2 hcur
    (fun hx => lt_irrefl _ (hlt _ hx))
  refine ⟨⟨s2, r1.todo⟩, n', ?_, hs4, hle⟩
  simp only [arrive, h1, Option.bind_some, List.foldlM_append, hs1]
  simp only [Option.bind_eq_bind, Option.bind_some, List.foldlM_cons, hs3, List.foldlM_nil]
  rfl

/-- all diffs -/
theorem groupsRest_ok (hc : CtxOK o c P) (hs : Sorted c) {sched : List α → Nat} (ht : Timely o c N sched) :
    ∀ (rest : List (List α)) (old : List α) (n : Nat) (r : Run α A C S H), LI o c N rest n r → rest.Pairwise (· < ·) →
    (∀ x ∈ rest, n ≤ sched x) → (∀ x ∈ fillRest old rest, x ∈ c.filled o) →
    ∃ r' n', (groupsRest old rest).foldlM (fun r g => arrive o c r (sched g.1) g.2) r = some r' ∧ LI o c N [] n' r' := by
  intro rest
  induction rest with
  | nil => intro old n r h _ _ _; exact ⟨r, n, rfl, h⟩
  | cons cur rest ih =>
    intro old n r h hso hn hfill
    obtain ⟨hlt, hso'⟩ := List.pairwise_cons.mp hso
    obtain ⟨fs, hfs1, hfs2⟩ := group_form old cur
    have hch := h.sub cur (by simp)
    obtain ⟨r1, n1, h1, h2, h3⟩ := arrive_ok hc hs ht (fs := fs) h hlt (hn cur (by simp)) (by
      intro x hx
      obtain ⟨g1, g2, g3⟩ := hfs2 x hx
      have hxf : x ∈ c.filled o := hfill x (by
        simp only [fillRest, hfs1]
        exact List.mem_append_left _ (List.mem_append_left _ hx))
      have hfil : c.isFiller o x.2 = true := by
        have : x = (false, x.2) := by rw [← g1]
        rw [this] at hxf
        simpa [Ctx.isFiller] using hxf
      refine ⟨g1, g2, hfil, (x.2, c.src x.2, c.dst x.2), (mem_pairs hs _).mpr ⟨rfl, .inl ?_⟩, rfl⟩
      have := (filler_dirs hc hs hfil).1
      simp only
      cases hx : c.src x.2 with
      | none => rw [hx] at this; cases this
      | some _ => rfl)
    obtain ⟨r2, n2, h4, h5⟩ := ih cur n1 r1 h2 hso'
      (fun x hx => le_trans h3 (ht.order _ hch _ (h.sub x (List.mem_cons_of_mem _ hx)) (hlt x hx)))
      (fun x hx => hfill x (by simp only [fillRest]; exact List.mem_append_right _ hx))
    refine ⟨r2, n2, ?_, h5⟩
    simp only [groupsRest, List.foldlM_cons, hfs1, h1, Option.bind_eq_bind, Option.bind_some]
    exact h4

theorem filterMap_eq_map {X Y Z R : Type} (f : X → Option R) (g : Y → Option R) (k : X → Z) (k' : Y → Z) : ∀ (l : List X) (l' : List Y),
    l.map k = l'.map k' → (∀ x ∈ l, ∀ y ∈ l', k x = k' y → f x = g y) → l.filterMap f = l'.filterMap g := by
  intro l
  induction l with
  | nil => intro l' h _; cases l' with
    | nil => rfl
    | cons y l' => cases h
  | cons x l ih =>
    intro l' h hfg
    cases l' with
    | nil => cases h
    | cons y l' =>
      simp only [List.map_cons, List.cons.injEq] at h
      rw [List.filterMap_cons, List.filterMap_cons, hfg x (by simp) y (by simp) h.1,
        ih l' h.2 (fun a ha b hb => hfg a (List.mem_cons_of_mem _ ha) b (List.mem_cons_of_mem _ hb))]

/-- the metadata written is that of the unlimited cache -/
theorem bounded_eq (hc : CtxOK o c P) (hs : Sorted c) {sched : List α → Nat} (ht : Timely o c N sched) :
    boundedListing o c N sched = some (c.listing o) := by
  have hps := pairs_ok hc hs
  have hso := (hs.changed (o := o)).1
  have h0 : LI o c N (c.changed o) 0 ⟨Ccpp.empty N, c.pairs⟩ := by
    refine ⟨?_, rfl, by simp, by simp [Ccpp.empty], by simp [Ccpp.empty], fun p x _ h1 h2 => absurd h1 h2, fun x hx => hx⟩
    rw [Nat.zero_sub]; exact inv_empty
  have hall : ∃ r n, (groups (c.changed o)).foldlM (fun r g => arrive o c r (sched g.1) g.2) ⟨Ccpp.empty N, c.pairs⟩ = some r ∧
      LI o c N [] n r := by
    cases hch : c.changed o with
    | nil => rw [hch] at h0; exact ⟨_, 0, rfl, h0⟩
    | cons cur rest =>
      rw [hch] at h0 hso
      obtain ⟨hlt, hso'⟩ := List.pairwise_cons.mp hso
      obtain ⟨fs, hfs1, hfs2⟩ := first_form cur
      have hfilled : c.filled o = fillFirst cur ++ fillRest cur rest := by simp only [Ctx.filled, hch, fillIn]
      have hcm : cur ∈ c.changed o := by rw [hch]; simp
      obtain ⟨r1, n1, h1, h2, h3⟩ := arrive_ok hc hs ht (fs := fs) h0 hlt (Nat.zero_le _) (by
        intro x hx
        obtain ⟨g1, g2, g3⟩ := hfs2 x hx
        have hxf : x ∈ c.filled o := by
          rw [hfilled, hfs1]
          exact List.mem_append_left _ (List.mem_append_left _ hx)
        have hfil : c.isFiller o x.2 = true := by
          have : x = (false, x.2) := by rw [← g1]
          rw [this] at hxf
          simpa [Ctx.isFiller] using hxf
        refine ⟨g1, g2, hfil, (x.2, c.src x.2, c.dst x.2), (mem_pairs hs _).mpr ⟨rfl, .inl ?_⟩, rfl⟩
        have := (filler_dirs hc hs hfil).1
        simp only
        cases hx : c.src x.2 with
        | none => rw [hx] at this; cases this
        | some _ => rfl)
      obtain ⟨r2, n2, h4, h5⟩ := groupsRest_ok hc hs ht rest cur n1 r1 h2 hso'
        (fun x hx => le_trans h3 (ht.order _ hcm _ (by rw [hch]; exact List.mem_cons_of_mem _ hx) (hlt x hx)))
        (fun x hx => by rw [hfilled]; exact List.mem_append_right _ hx)
      refine ⟨r2, n2, ?_, h5⟩
      simp only [groups, List.foldlM_cons, hfs1, h1, Option.bind_eq_bind, Option.bind_some]
      exact h4
  obtain ⟨r, n, h1, h2⟩ := hall
  obtain ⟨r', h3, h4⟩ := pullTo_ok hc hs h2 c.pairs.length (by intro p x _ hx; cases hx)
  have hlen := h2.inv.len
  have hmx : max n (min c.pairs.length c.pairs.length) = c.pairs.length := by omega
  rw [hmx] at h4
  obtain ⟨s', h5, h6, h7⟩ := h4.inv.close hps
  simp only [boundedListing, h1, Option.bind_some, h3, h5, Option.map_some, Option.some.injEq]
  have hout := h7.out
  rw [List.take_length] at hout
  refine (filterMap_eq_map _ _ Entry.key id _ _ (by rw [hout, List.map_id]) ?_)
  intro e he p hp hk
  simp only [id] at hk
  rw [h6] at he
  have hok := (h4.ok e he).1 (by simp)
  have hkey := h4.key hs he
  have e1 : p = (e.idx, c.src e.idx, c.dst e.idx) := by rw [← hk]; exact hkey
  subst e1
  simp only [hok]
  cases c.newRec o e.idx (c.src e.idx) (c.dst e.idx) <;> rfl

end Verif.Cache
