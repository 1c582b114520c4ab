import Verif.Proof.Cache
/- A session with a bounded cache writes what a session with an unlimited one does. -/
namespace Verif.Cache
open Verif.Repo Verif.FillIn Verif.Collate Verif.MetaChain
set_option linter.unusedSectionVars false
variable {α A C S H Δ L : Type} [LinearOrder α] [DecidableEq A] [DecidableEq S] [DecidableEq H] [DecidableEq L]
variable {o : Ops A C H Δ L} {P : Prot α A C S H Δ} {c : Ctx α A C S H Δ}

theorem any_node (x : Option (Node A C S)) : x.any Node.isDir = isDirNode x := by cases x <;> rfl
theorem any_rec (x : Option (MRec A S H)) : x.any MRec.isDir = isDirRec x := by cases x <;> rfl

theorem mem_pairs (hs : Sorted c) (p : Pair α (Node A C S) (MRec A S H)) :
    p ∈ c.pairs ↔ p = (p.1, c.src p.1, c.dst p.1) ∧ ((c.src p.1).isSome = true ∨ (c.dst p.1).isSome = true) := by
  obtain ⟨ks, h1, h2, h3⟩ := hs.pairs
  rw [h3]
  constructor
  · intro h
    obtain ⟨k, hk, rfl⟩ := List.mem_map.mp h
    exact ⟨rfl, (h2 k).mp hk⟩
  · rintro ⟨he, h⟩
    exact List.mem_map.mpr ⟨p.1, (h2 _).mpr h, he.symm⟩

theorem pairs_ok (hc : CtxOK o c P) (hs : Sorted c) : Pairs Node.isDir MRec.isDir c.pairs := by
  obtain ⟨ks, h1, h2, h3⟩ := hs.pairs
  constructor
  · rw [h3, List.pairwise_map]; exact h1
  · intro p hp hne
    obtain ⟨hp1, hp2⟩ := (mem_pairs hs p).mp hp
    have hlt : p.1.dropLast ≠ p.1 := fun e => by
      have := congrArg List.length e; have := List.length_pos_iff.mpr hne; simp at *; omega
    have hd := hc.parent_dir hp2 (List.dropLast_prefix _) hlt
    rw [← hc.dst_dir] at hd
    refine ⟨(p.1.dropLast, c.src p.1.dropLast, c.dst p.1.dropLast), (mem_pairs hs _).mpr ⟨rfl, ?_⟩, rfl, ?_⟩
    · rcases hd with hd | hd
      · left; cases hx : c.src p.1.dropLast with
        | none => rw [hx] at hd; cases hd
        | some _ => rfl
      · right; cases hx : c.dst p.1.dropLast with
        | none => rw [hx] at hd; cases hd
        | some _ => rfl
    · simp only [isd, any_node, any_rec]
      rcases hd with hd | hd <;> simp [hd]

/-! ### one element of the diffs -/

theorem upd_id (s : SCache α A C S H) (i : List α) : upd s i (fun e => e) = s := by
  simp [upd]

/-- the changes made at the end -/
def ended (prev : Bool) (v : Option Nat) (e : Entry α (Node A C S) (MRec A S H) H) : Entry α (Node A C S) (MRec A S H) H :=
  { e with inc := if prev then true else e.inc, success := v.getD e.success }

theorem keeps_ended (prev : Bool) (v : Option Nat) : Keeps (ended (α := α) (A := A) (C := C) (S := S) (H := H) prev v) := fun _ => rfl

/-- the hash attached -/
def hashed (h : H) (e : Entry α (Node A C S) (MRec A S H) H) : Entry α (Node A C S) (MRec A S H) H := { e with sha := some h }

theorem keeps_hashed (h : H) : Keeps (hashed (α := α) (A := A) (C := C) (S := S) h) := fun _ => rfl

theorem finishFast_eq (s : SCache α A C S H) {i : List α} (v : Option Nat) (h : s.inCache i = true) :
    finishFast c s i v = some (upd s i (ended c.prev.isSome v)) := by
  unfold finishFast
  by_cases hp : c.prev.isSome = true
  · have hk : Keeps (fun e : Entry α (Node A C S) (MRec A S H) H => { e with inc := true }) := fun _ => rfl
    simp only [hp, if_true, Ccpp.setInc, modify_eq s _ h, Option.bind_some]
    cases v with
    | none => rfl
    | some v =>
      simp only [Ccpp.flag]
      rw [modify_eq _ _ (by rw [upd_inCache hk]; exact h), upd_upd hk]
      rfl
  · simp only [hp, Bool.false_eq_true, if_false, Option.bind_some]
    cases v with
    | none =>
      have : ended (α := α) (A := A) (C := C) (S := S) (H := H) false none = fun e => e := by funext e; rfl
      rw [this, upd_id]
    | some v => simp only [Ccpp.flag, modify_eq s _ h]; rfl

/-- what is known of an index whose turn it is -/
structure Ready (c : Ctx α A C S H Δ) (s : SCache α A C S H) (i : List α) : Prop where
  rorps : s.rorps i = some (c.src i, c.dst i)
  inCache : s.inCache i = true
  source : s.source i = some (c.src i)

theorem Ready.upd {s : SCache α A C S H} {i : List α} (h : Ready c s i) {f} (hf : Keeps f) : Ready c (upd s i f) i :=
  ⟨by rw [upd_rorps hf]; exact h.rorps, by rw [upd_inCache hf]; exact h.inCache, by rw [upd_source hf]; exact h.source⟩

theorem putHash_eq {s : SCache α A C S H} {i : List α} (h : Ready c s i) (hsrc : (c.src i).isSome = true) (x : C) :
    putHash o c s i x = if c.s.nohash i then some (s, true) else
      some (upd s i (hashed (o.sha x)), decide ((c.dst i).bind recSha ≠ some (o.sha x))) := by
  unfold putHash
  by_cases hn : c.s.nohash i = true
  · simp [hn]
  · simp only [hn, Bool.false_eq_true, if_false, Ccpp.updateHash, Ccpp.mirror, h.rorps, Option.map_some, Option.bind_some, h.source,
      hsrc, if_true, h.inCache, modify_eq s _ h.inCache]
    rfl

theorem matches_eq {s : SCache α A C S H} {i : List α} (h : Ready c s i) {a : A} {x : C} (hsrc : c.src i = some (.reg a x)) :
    matchesCached o s i x = some true := by
  simp [matchesCached, h.source, hsrc]

/-- a regular file that is transferred as a whole, and what is then in the cache -/
theorem whole_eq {s : SCache α A C S H} {i : List α} (h : Ready c s i) {a : A} {x : C} (hsrc : c.src i = some (.reg a x)) :
    ∃ f, Keeps f ∧ ((putHash o c s i x).bind fun r =>
        (matchesCached o r.1 i x).bind fun b => if b then finishFast c r.1 i (some 1) else some r.1) = some (upd s i f) ∧
      ∀ e : Entry α (Node A C S) (MRec A S H) H, e.sha = none → e.src = c.src i →
        metaOf (recOf o) id (f e) = some (srcRec o (c.s.nohash i) (.reg a x)) := by
  rw [putHash_eq h (by rw [hsrc]; rfl)]
  by_cases hn : c.s.nohash i = true
  · refine ⟨ended c.prev.isSome (some 1), keeps_ended _ _, ?_, ?_⟩
    · simp only [hn, if_true, Option.bind_some, matches_eq h hsrc, finishFast_eq s (some 1) h.inCache]
    · intro e h1 h2
      simp [metaOf, ended, h2, hsrc, recOf, srcRec, hn, h1]
  · have h' := h.upd (keeps_hashed (o.sha x))
    refine ⟨fun e => ended c.prev.isSome (some 1) (hashed (o.sha x) e), fun e => rfl, ?_, ?_⟩
    · simp only [hn, Bool.false_eq_true, if_false, Option.bind_some, matches_eq h' hsrc, if_true,
        finishFast_eq _ (some 1) h'.inCache, upd_upd (keeps_hashed _)]
    · intro e h1 h2
      simp [metaOf, ended, hashed, h2, hsrc, recOf, srcRec, hn]

/-- the diff of a changed file: the flags in the cache say what the unlimited cache would record -/
theorem work_real (hc : CtxOK o c P) {s : SCache α A C S H} {i : List α} (h : Ready c s i)
    (hch : changedPair o (c.src i) (c.dst i) = true) (hsome : (c.src i).isSome = true ∨ (c.dst i).isSome = true) :
    ∃ f, Keeps f ∧ work o c s (true, i) = some (upd s i f) ∧
      ∀ e : Entry α (Node A C S) (MRec A S H) H, e.success = 0 → e.sha = none → e.src = c.src i → e.dst = c.dst i →
        metaOf (recOf o) id (f e) = c.newRec o i (c.src i) (c.dst i) := by
  have hmir : s.mirror i = some (c.dst i) := by simp [Ccpp.mirror, h.rorps]
  simp only [work, hmir, Option.bind_some, if_true]
  by_cases hdir : (isDirNode (c.src i) || isDirRec (c.dst i)) = true
  · -- a directory
    simp only [hdir, if_true, startWork, h.rorps, Option.bind_some]
    cases hsrc : c.src i with
    | none =>
      have hk : isDirNode (none : Option (Node A C S)) = false := rfl
      refine ⟨ended c.prev.isSome (some (if c.prev.isSome then 1 else 2)), keeps_ended _ _, ?_, ?_⟩
      · simp only [hk, Bool.false_eq_true, if_false, finishFast_eq s _ h.inCache]
      · intro e h1 h2 h3 h4
        have hn : c.newRec o i none (c.dst i) = none := by simp [Ctx.newRec, changedPair]
        rw [hn]
        by_cases hp : c.prev.isSome = true <;> simp [metaOf, ended, h3, hp]
    | some n =>
      have hnew : c.newRec o i (some n) (c.dst i) = some (srcRec o (c.s.nohash i) n) := by
        rw [hsrc] at hch hdir
        simp only [Ctx.newRec, hch, if_true]
        have : (n.isDir || isDirRec (c.dst i)) = true := hdir
        simp [this]
      rw [hnew]
      cases n with
      | dir a =>
        have hk : isDirNode (some (Node.dir a : Node A C S)) = true := rfl
        have hkf : Keeps (fun e : Entry α (Node A C S) (MRec A S H) H => { e with success := 1 }) := fun _ => rfl
        refine ⟨_, hkf, ?_, ?_⟩
        · simp only [hk, if_true, h.inCache]
          by_cases hm : isDirNode (c.mirror i) = true
          · simp only [hm, if_true, Ccpp.flag, modify_eq s _ h.inCache]
          · simp only [hm, Bool.false_eq_true, if_false, Ccpp.flag, modify_eq s _ h.inCache]
        · intro e h1 h2 h3 h4
          simp [metaOf, h3, recOf, srcRec]
      | other a x =>
        have hk : isDirNode (some (Node.other a x : Node A C S)) = false := rfl
        refine ⟨ended c.prev.isSome (some 1), keeps_ended _ _, ?_, ?_⟩
        · simp only [hk, Bool.false_eq_true, if_false, finishFast_eq s _ h.inCache]
        · intro e h1 h2 h3 h4
          simp [metaOf, ended, h3, recOf, srcRec]
      | reg a x =>
        have hk : isDirNode (some (Node.reg a x : Node A C S)) = false := rfl
        obtain ⟨f, hf1, hf2, hf3⟩ := whole_eq (o := o) h hsrc
        refine ⟨f, hf1, ?_, ?_⟩
        · simp only [hk, Bool.false_eq_true, if_false]; exact hf2
        · intro e h1 h2 h3 h4
          exact hf3 e h2 (by rw [h3, hsrc])
  · simp only [hdir, Bool.false_eq_true, if_false, fastWork, h.rorps, Option.bind_some]
    have hd1 : isDirNode (c.src i) = false := by
      cases hx : isDirNode (c.src i) with
      | false => rfl
      | true => rw [hx] at hdir; simp at hdir
    have hd2 : isDirRec (c.dst i) = false := by
      cases hx : isDirRec (c.dst i) with
      | false => rfl
      | true => rw [hx] at hdir; simp at hdir
    cases hsrc : c.src i with
    | none =>
      have hm : (c.mirror i).isSome = true := by
        rw [← hc.dst_isSome]
        rcases hsome with hx | hx
        · rw [hsrc] at hx; cases hx
        · exact hx
      refine ⟨ended c.prev.isSome (some 2), keeps_ended _ _, ?_, ?_⟩
      · simp only [hm, if_true, finishFast_eq s _ h.inCache]
      · intro e h1 h2 h3 h4
        have hn : c.newRec o i none (c.dst i) = none := by simp [Ctx.newRec, changedPair]
        rw [hn]
        simp [metaOf, ended]
    | some n =>
      have hnd : n.isDir = false := by rw [hsrc] at hd1; exact hd1
      have hnew : c.newRec o i (some n) (c.dst i) =
          if c.s.fails i then c.dst i else some (srcRec o (c.s.nohash i) n) := by
        have hpc := patch_cases (o := o) (c := c) (i := i) hd1 (by rw [hsrc]; rfl)
        rw [hsrc] at hch
        simp only [Ctx.newRec, hch, if_true, hnd, hd2, Bool.or_self, Bool.false_eq_true, if_false]
        by_cases hf : c.s.fails i = true
        · rw [hpc.mpr hf]; simp [hf]
        · cases hp : c.patch o i with
          | failed => exact absurd (hpc.mp hp) hf
          | unchanged tf => simp [hf]
          | done tf => simp [hf]
      rw [hnew]
      by_cases hf : c.s.fails i = true
      · have hid : ∀ e : Entry α (Node A C S) (MRec A S H) H, e.success = 0 → e.sha = none → e.src = some n → e.dst = c.dst i →
            metaOf (recOf o) id e = if c.s.fails i then c.dst i else some (srcRec o (c.s.nohash i) n) := by
          intro e h1 h2 h3 h4
          simp [metaOf, h1, h4, hf]
        cases n with
        | dir a => cases hnd
        | other a x => exact ⟨fun e => e, fun e => rfl, by simp only [hf, if_true, upd_id], hid⟩
        | reg a x => exact ⟨fun e => e, fun e => rfl, by simp only [hf, if_true, upd_id], hid⟩
      · simp only [hf, Bool.false_eq_true, if_false]
        cases n with
        | dir a => cases hnd
        | other a x =>
          refine ⟨ended c.prev.isSome (some 1), keeps_ended _ _, ?_, ?_⟩
          · simp only [finishFast_eq s _ h.inCache]
          · intro e h1 h2 h3 h4
            simp [metaOf, ended, h3, recOf, srcRec]
        | reg a x =>
          simp only
          obtain ⟨f, hf1, hf2, hf3⟩ := whole_eq (o := o) h hsrc
          have hwhole : ∃ f, Keeps f ∧ ((putHash o c s i x).bind fun r =>
              (matchesCached o r.1 i x).bind fun b => if b then finishFast c r.1 i (some 1) else some r.1) = some (upd s i f) ∧
            ∀ e : Entry α (Node A C S) (MRec A S H) H, e.success = 0 → e.sha = none → e.src = some (.reg a x) → e.dst = c.dst i →
              metaOf (recOf o) id (f e) = some (srcRec o (c.s.nohash i) (.reg a x)) :=
            ⟨f, hf1, hf2, fun e _ h2 h3 _ => hf3 e h2 (by rw [h3, hsrc])⟩
          cases hdst : c.dst i with
          | none => simp only [hdst] at hwhole ⊢; exact hwhole
          | some m =>
            cases m with
            | dir a' => rw [hdst] at hd2; cases hd2
            | other a' s' => simp only [hdst] at hwhole ⊢; exact hwhole
            | reg a' sz hh =>
              cases hmi : c.mirror i with
              | none => simp only [hdst] at hwhole ⊢; exact hwhole
              | some y =>
                cases y with
                | dir a2 => simp only [hdst] at hwhole ⊢; exact hwhole
                | other a2 s2 => simp only [hdst] at hwhole ⊢; exact hwhole
                | reg a2 old =>
                  simp only [o.patch_delta]
                  rw [putHash_eq h (by rw [hsrc]; rfl), hdst]
                  by_cases hn : c.s.nohash i = true
                  · refine ⟨ended c.prev.isSome (some 1), keeps_ended _ _, ?_, ?_⟩
                    · simp only [hn, if_true, Option.bind_some, matches_eq h hsrc, finishFast_eq s (some 1) h.inCache]
                    · intro e h1 h2 h3 h4
                      simp [metaOf, ended, h3, recOf, srcRec, hn, h2]
                  · have h' := h.upd (keeps_hashed (o.sha x))
                    by_cases hd : recSha (MRec.reg a' sz hh : MRec A S H) = some (o.sha x)
                    · refine ⟨fun e => { hashed (o.sha x) e with success := 1 }, fun e => rfl, ?_, ?_⟩
                      · simp only [hn, Bool.false_eq_true, if_false, Option.bind_some, hd, ne_eq, not_true_eq_false, decide_false,
                          Ccpp.flag, modify_eq _ _ h'.inCache, upd_upd (keeps_hashed _)]
                      · intro e h1 h2 h3 h4
                        simp [metaOf, hashed, h3, recOf, srcRec, hn]
                    · refine ⟨fun e => ended c.prev.isSome (some 1) (hashed (o.sha x) e), fun e => rfl, ?_, ?_⟩
                      · simp only [hn, Bool.false_eq_true, if_false, Option.bind_some, hd, ne_eq, not_false_eq_true, decide_true, if_true,
                          matches_eq h' hsrc, finishFast_eq _ (some 1) h'.inCache, upd_upd (keeps_hashed _)]
                      · intro e h1 h2 h3 h4
                        simp [metaOf, ended, hashed, h3, recOf, srcRec, hn]

/-- a directory filled in: flagged if it is still in the cache -/
theorem work_filler {s : SCache α A C S H} {i : List α} (hr : s.rorps i = some (c.src i, c.dst i))
    (h2 : isDirNode (c.mirror i) = true) :
    work o c s (false, i) = some (if s.inCache i then upd s i (fun e => { e with success := 1 }) else s) := by
  have hmir : s.mirror i = some (c.dst i) := by simp [Ccpp.mirror, hr]
  simp only [work, hmir, Option.bind_some, Bool.false_eq_true, if_false, h2, Bool.true_or, if_true, startWork, hr]
  by_cases hi : s.inCache i = true
  · simp only [hi, if_true, Ccpp.flag, modify_eq s _ hi]
  · simp only [hi, Bool.false_eq_true, if_false]

end Verif.Cache
