import Verif.Proof.RemoveFileCrash
import Verif.Proof.RemoveLines
import Verif.Props.C09
/-
C52  Removing a file from all backups removes exactly that file.
-/
set_option linter.unusedSectionVars false
namespace Verif.C52
open Verif.Repo Verif.MetaChain
variable {α A C S H Δ L : Type} [LinearOrder α] [DecidableEq A] [DecidableEq S] [DecidableEq H] [DecidableEq L]
variable {o : Ops A C H Δ L} {rsv : α → Prop} {st st' : State α A C S H Δ} {hist : Hist α A C S}

theorem chosen_map (hist : Hist α A C S) (g : Files α (Node A C S) → Files α (Node A C S)) (t : Nat) :
    chosen (hist.map fun x => (x.1, g x.2)) t = (chosen hist t).map fun x => (x.1, g x.2) := by
  unfold chosen
  rw [List.find?_map]
  have : ((fun x : Nat × Files α (Node A C S) => decide (x.1 ≤ t)) ∘ fun x : Nat × Files α (Node A C S) => (x.1, g x.2)) = fun x => decide (x.1 ≤ t) := rfl
  rw [this]
  cases hist.find? fun x => decide (x.1 ≤ t) with
  | some x => rfl
  | none => simp

/-- After the removal of `p`, restoring everything or any directory `sub` as of any time gives what was restored before (the tree of
the backup chosen by C02), without `p` and what is below it. -/
theorem removed_from_all_backups (h : Reach o rsv false st hist) (hne : hist ≠ []) (stamp : A) {p : List α} (hp : p ≠ []) (t : Nat) (sub : List α) :
    ∃ x, chosen hist t = some x ∧ restore o st t sub = some (x.2.filter fun y => sub.isPrefixOf y.1) ∧
      restore o (removeFile stamp st p) t sub = some ((x.2.filter fun y => sub.isPrefixOf y.1).filter fun y => !(p.isPrefixOf y.1)) := by
  obtain ⟨x, h1, h2⟩ := ((reach_inv h).1 rfl).restore hne t sub
  obtain ⟨y, h3, h4⟩ := ((reach_inv (Reach.removeFile stamp h hp)).1 rfl).restore (by simpa using hne) t sub
  rw [chosen_map, h1] at h3
  cases h3
  refine ⟨x, h1, h2, ?_⟩
  rw [h4]
  simp only [without, List.filter_filter, Bool.and_comm]

/-- The command with all its answers: refused for the repository as a whole and for its data directory; with `--dry-run` nothing is changed and
the answer is the same; it says that something was removed if the path is in any of the backups, and if it says that there was
nothing, nothing is changed. -/
theorem remove_command (h : Reach o rsv false st hist) (data : α) (stamp : A) (p : List α) :
    (removeFileAction data false stamp st p = none ↔ p = [] ∨ data ∈ p) ∧
    (∀ st' ok, removeFileAction data false stamp st p = some (st', ok) →
      removeFileAction data true stamp st p = some (st, ok) ∧
      ((∃ x ∈ hist, ∃ y ∈ x.2, p <+: y.1) → ok = true) ∧ (ok = false → st' = st) ∧
      (∀ b T, (b, T) ∈ hist → restore o st' b [] = some (without p T))) := by
  constructor
  · unfold removeFileAction mayRemove
    cases p with
    | nil => simp
    | cons a p =>
      by_cases hm : data ∈ a :: p
      · simp [hm]
      · simp [hm]
  · intro st' ok hr
    simp only [removeFileAction] at hr ⊢
    by_cases hm : mayRemove data p = true
    · simp only [hm, if_true, Option.some.injEq, Prod.mk.injEq, Bool.false_eq_true, if_false] at hr ⊢
      obtain ⟨rfl, rfl⟩ := hr
      have hp : p ≠ [] := by
        rintro rfl
        simp [mayRemove] at hm
      refine ⟨⟨trivial, rfl⟩, ?_, ?_, ?_⟩
      · rintro ⟨x, hx, y, hy, hpy⟩
        rcases (reach_inv h).1 rfl with ⟨rfl, -⟩ | ⟨P, T0, rest, L0, mrest, rfl, hs, hc⟩
        · cases hx
        by_contra hno
        -- nothing is changed, yet the restored tree lacks the path
        have hst : removeFile stamp st p = st := by
          simp only [somethingRemoved, Bool.or_eq_true, not_or, List.any_eq_true, not_exists, not_and, decide_eq_true_eq] at hno
          obtain ⟨⟨⟨h1, h2⟩, h3⟩, h4⟩ := hno
          have e1 : removeRecs st p = st := by
            unfold removeRecs
            have : (st.metas.map fun f => if dropsRecs p f = true then dropRecs p f else f) = st.metas := by
              conv_rhs => rw [← List.map_id st.metas]
              apply List.map_congr_left
              intro f hf
              simp [h1 f hf]
            rw [this]
          have e2 : removeIncs st p = st := by
            unfold removeIncs
            have : st.incs.filter (fun f => decide (f.idx ≠ p)) = st.incs := List.filter_eq_self.2 (fun f hf => by simp [h2 f hf])
            simp only [this, h3, if_false]
          unfold removeFile
          rw [e1, e2]
          unfold removeMirror
          rw [if_neg h4]
        have e := C01.restore_exact h hx
        have e' := C01.restore_exact (Reach.removeFile stamp h hp) (t := x.1) (T := without p x.2) (List.mem_map.2 ⟨x, hx, rfl⟩)
        rw [hst, e] at e'
        have e' := Option.some.inj e'
        rw [e'] at hy
        have := (List.mem_filter.1 hy).2
        rw [Bool.not_eq_true', isPrefixOf_false] at this
        exact this hpy
      · intro hno
        simp only [somethingRemoved, Bool.or_eq_false_iff, List.any_eq_false, decide_eq_false_iff_not] at hno
        obtain ⟨⟨⟨h1, h2⟩, h3⟩, h4⟩ := hno
        have e1 : removeRecs st p = st := by
          unfold removeRecs
          have : (st.metas.map fun f => if dropsRecs p f = true then dropRecs p f else f) = st.metas := by
            conv_rhs => rw [← List.map_id st.metas]
            apply List.map_congr_left
            intro f hf
            simp [h1 f hf]
          rw [this]
        have e2 : removeIncs st p = st := by
          unfold removeIncs
          have : st.incs.filter (fun f => decide (f.idx ≠ p)) = st.incs := List.filter_eq_self.2 (fun f hf => by simpa using h2 f hf)
          simp only [this, h3, if_false]
        unfold removeFile
        rw [e1, e2]
        unfold removeMirror
        rw [if_neg (by simp [h4])]
      · intro b T hb
        exact C01.restore_exact (Reach.removeFile stamp h hp) (List.mem_map.2 ⟨_, hb, rfl⟩)
    · simp [hm] at hr

/-- Nothing of the path is left in the repository: neither records nor increments nor anything in the mirror; and later backups and
restores work as if the path had never been backed up. -/
theorem nothing_left (h : Reach o rsv false st hist) (stamp : A) {p : List α} (hp : p ≠ []) :
    (∀ f ∈ (removeFile stamp st p).metas, ∀ r ∈ f.recs, ¬ p <+: r.idx) ∧ (∀ f ∈ (removeFile stamp st p).incs, ¬ p <+: f.idx) ∧
      (∀ j, p <+: j → get (removeFile stamp st p).mirror j = none) ∧
      Reach o rsv false (removeFile stamp st p) (hist.map fun x => (x.1, without p x.2)) := by
  have hw : FsWF st := by
    rcases (reach_inv h).1 rfl with ⟨rfl, a, rfl⟩ | ⟨P, T0, rest, L0, mrest, rfl, hs, hc⟩
    · refine ⟨?_, by simp [isDirAt, Repo.get], by simp, by simp, by simp⟩
      intro i hi hs
      simp only [Repo.get] at hs
      have : ([] : List α) ≠ i := fun h => hi h.symm
      simp [this] at hs
    · exact hc.wf
  refine ⟨?_, ?_, ?_, Reach.removeFile stamp h hp⟩
  · intro f hf r hr
    rw [removeFile_metas] at hf
    obtain ⟨g, -, rfl⟩ := List.mem_map.1 hf
    have := (List.mem_filter.1 hr).2
    rwa [Bool.not_eq_true', isPrefixOf_false] at this
  · intro f hf
    rw [removeFile_incs stamp hw] at hf
    have := (List.mem_filter.1 hf).2
    rwa [Bool.not_eq_true', isPrefixOf_false] at this
  · intro j hj
    rw [removeFile_mirror, removeMirror_get stamp hw.closed, if_pos hj]

/-- A removal interrupted at any point: other directories and files are restored as before, as of every time; as soon as the
metadata files have been changed, everything is restored as after the complete removal; and repeating the command leads to the same
repository as an uninterrupted one. -/
theorem interrupted_removal (h : Reach o rsv false st hist) (hne : hist ≠ []) {p : List α} (hp : p ≠ []) (hpw : PartlyWithout p st st') :
    (∀ t sub, ¬ sub <+: p → ¬ p <+: sub → restore o st' t sub = restore o st t sub) ∧
    (st'.metas = (st.metas.map fun f => { f with recs := f.recs.filter fun r => !(p.isPrefixOf r.idx) }) →
      ∀ stamp t sub, restore o st' t sub = restore o (removeFile stamp st p) t sub) ∧
    ∀ stamp stamp', SameRepo o (removeFile stamp st' p) (removeFile stamp' st p) := by
  have hr := (reach_inv h).1 rfl
  exact ⟨fun t sub h1 h2 => hpw.restore_outside hr hne hp h1 h2 t, fun hm stamp t sub => hpw.restore_phase2 hr hne hp hm stamp t sub,
    fun stamp stamp' => hpw.again hr hne hp stamp stamp'⟩

section examples
open Verif.Repo.Demo

/-- not vacuous: the directory 3 is removed from three backups, two of which contain it -/
example : restore ops (removeFile 99 st3 [3]) 30 [] = some [([], .dir 8), ([1], .other 3 4)] ∧
    restore ops (removeFile 99 st3 [3]) 20 [] = some [([], .dir 7), ([1], .reg 3 4), ([2], .reg 1 9)] ∧
    restore ops (removeFile 99 st3 [3]) 10 [] = some src1 ∧ somethingRemoved st3 [3] = true := by
  obtain ⟨-, h⟩ := remove_command reach3 777 99 [3]
  obtain ⟨-, h1, -, h2⟩ := h (removeFile 99 st3 [3]) (somethingRemoved st3 [3]) rfl
  refine ⟨?_, ?_, ?_, h1 ⟨(30, src3), by simp, ([3], .dir 2), by decide +kernel, by decide⟩⟩
  · rw [h2 30 src3 (by simp)]; decide +kernel
  · rw [h2 20 src2 (by simp)]; decide +kernel
  · rw [h2 10 src1 (by simp)]; decide +kernel

/-- the mirror file gone, a newer and an older record left: between the two -/
def half : State Nat Nat Nat Nat Nat (Nat × Nat) :=
  { st3 with metas := st3.metas.map fun f => if f.time = 20 then { f with recs := f.recs.filter fun r => !([1].isPrefixOf r.idx) } else f }

theorem half_partly : PartlyWithout [1] st3 half := by
  refine ⟨rfl, ⟨fun f => decide (f.time = 20), by simp [half]⟩, ⟨fun _ => true, by simp, by simp [half]⟩, ⟨fun _ => true, by simp, by simp [half]⟩,
    fun j => ⟨fun _ => .inl rfl, fun _ => .inr (.inl rfl)⟩, ?_⟩
  obtain ⟨P, T0, rest, L0, mrest, -, hs, hc⟩ := ((reach_inv reach3).1 rfl).resolve_left (by simp)
  refine ⟨hc.wf.incclosed, hc.wf.incparent, fun j hj hs => ?_⟩
  rw [isDirNode_iff]; exact hc.wf.closed j hj hs

/-- the hypotheses of `interrupted_removal` can be met -/
example : restore ops half 20 [3] = restore ops st3 20 [3] ∧ SameRepo ops (removeFile 99 half [1]) (removeFile 98 st3 [1]) :=
  ⟨(interrupted_removal reach3 (by simp) (p := [1]) (by simp) half_partly).1 20 [3] (by decide) (by decide),
   (interrupted_removal reach3 (by simp) (p := [1]) (by simp) half_partly).2.2 99 98⟩

/-- Finding F53: while the metadata files are being changed, an interruption can leave a backup whose restore gives a wrong version of the
file to be removed, without any message: here the link of the later backup instead of the regular file. -/
theorem interrupted_removal_wrong_version : ∃ st' : State Nat Nat Nat Nat Nat (Nat × Nat), PartlyWithout [1] st3 st' ∧
    get src2 [1] = some (.reg 3 4) ∧ (restore ops st' 20 []).map (fun T => get T [1]) = some (some (.other 3 4)) :=
  ⟨half, half_partly, by decide +kernel, by decide +kernel⟩

end examples

section text
open Verif.RemoveLines Verif.MetaRecord Verif.FlatFile Verif.Quoting

/-- The text of a metadata file: from what was written for any list of paths `rs`, the command makes exactly what would have been
written for those which are not at or below the removed path `p`; and it finds the long names (C43) of the others,
whatever the names of the files (also with newlines, blanks, common prefixes). -/
theorem metadata_text (hardlinks : Bool) {p : List Bytes} (hp : ∀ c ∈ p, c ≠ [] ∧ (47 : UInt8) ∉ c) (hp0 : p ≠ []) (hp1 : p ≠ [[46]]) (rs : List Rorp)
    (h : ∀ r ∈ rs, Storable r) (ha : ∀ r ∈ rs, ∀ s, r.mirrorname = some s ∨ r.incname = some s → (32 : UInt8) ∉ s ∧ (92 : UInt8) ∉ s) (max max' : Nat) {text : Bytes}
    (hw : writeObjects max (objectToRecord hardlinks) rs = some text) :
    writeObjects max' (objectToRecord hardlinks) (rs.filter fun r => !(p.isPrefixOf r.index)) = some (removeText .mirrorMetadata p text).out ∧
    (removeText .mirrorMetadata p text).alts =
      (rs.filter fun r => p.isPrefixOf r.index).flatMap (fun r => ((kept hardlinks r).mirrorname.or (kept hardlinks r).incname).toList) ∧
    ((removeText .mirrorMetadata p text).removed = true ↔ ∃ r ∈ rs, p <+: r.index) := by
  obtain ⟨h1, h2, h3⟩ := removeText_metadata hardlinks hp hp0 hp1 rs h
    (fun r hr => ⟨fun s hs => ha r hr s (.inl hs), fun s hs => ha r hr s (.inr hs)⟩) max max' hw
  refine ⟨h1, ?_, ?_⟩
  · rw [h2]
    apply List.flatMap_congr
    intro r _
    unfold kept
    cases hty : r.type with
    | none => rfl
    | some ty =>
      simp only [reduceCtorEq, if_false]
      cases r.mirrorname with
      | some m => rfl
      | none => simp
  · rw [h3, List.any_eq_true]
    simp only [List.isPrefixOf_iff_prefix]

/-- a metadata file with the files `a`, `a b`, `a/x`, `ab`, where `a/x` has a long name -/
def demo : List Rorp :=
  [{ index := [], type := some .dir, mtime := some 1, uid := some 0, gid := some 0 },
   { index := [lit "a"], type := some .dir, mtime := some 2, uid := some 0, gid := some 0 },
   { index := [lit "a", lit "x"], type := some .reg, size := some 3, mtime := some 2, uid := some 0, gid := some 0, mirrorname := some (lit "7") },
   { index := [lit "a b"], type := some .reg, size := some 3, mtime := some 2, uid := some 0, gid := some 0 },
   { index := [lit "ab"], type := none }]

theorem demo_ok : (∀ r ∈ demo, Storable r) ∧
    ∀ r ∈ demo, ∀ s, r.mirrorname = some s ∨ r.incname = some s → (32 : UInt8) ∉ s ∧ (92 : UInt8) ∉ s := by
  constructor
  · intro r hr
    simp only [demo, List.mem_cons, List.not_mem_nil, or_false] at hr
    rcases hr with rfl | rfl | rfl | rfl | rfl <;>
      exact ⟨by decide, by decide, by simp, by simp, by simp, by simp, by simp, by simp, by simp, by simp, by simp,
        by simp [Value]; try decide, by simp⟩
  · intro r hr
    simp only [demo, List.mem_cons, List.not_mem_nil, or_false] at hr
    rcases hr with rfl | rfl | rfl | rfl | rfl <;> (intro s hs; simp at hs)
    subst hs; decide

/-- not vacuous -/
example : (removeText .mirrorMetadata [lit "a"] ((writeObjects 100 (objectToRecord true) demo).getD [])).alts = [lit "7"] ∧
    some (removeText .mirrorMetadata [lit "a"] ((writeObjects 100 (objectToRecord true) demo).getD [])).out =
      writeObjects 100 (objectToRecord true) (demo.filter fun r => r.index = [] ∨ r.index = [lit "a b"] ∨ r.index = [lit "ab"]) := by
  decide +kernel

example : ∃ text, writeObjects 100 (objectToRecord true) demo = some text ∧ (removeText .mirrorMetadata [lit "a"] text).removed = true := by
  refine ⟨(writeObjects 100 (objectToRecord true) demo).getD [], by decide +kernel, ?_⟩
  exact (metadata_text true (p := [lit "a"]) (by decide) (by decide) (by decide) demo demo_ok.1 demo_ok.2 100 100 (by decide +kernel)).2.2.2
    ⟨_, List.mem_cons_of_mem _ (List.mem_cons_self ..), List.prefix_refl _⟩

/-- an entry of a file with extended attributes or access control lists: path and lines -/
def attrText (e : List Bytes × List Bytes) : Bytes :=
  lit "# file: " ++ AclQuote.quote (indexPath e.1) ++ [nl] ++ e.2.flatMap (· ++ [nl])

/-- The text of a file with extended attributes or access control lists: exactly the entries of the removed path and of what is below it go. -/
theorem attributes_text {p : List Bytes} (hp : ∀ c ∈ p, c ≠ [] ∧ (47 : UInt8) ∉ c) (hp0 : p ≠ []) (hp1 : p ≠ [[46]]) (es : List (List Bytes × List Bytes))
    (hes : ∀ e ∈ es, (∀ c ∈ e.1, c ≠ [] ∧ (47 : UInt8) ∉ c) ∧ e.1 ≠ [[46]] ∧ ∀ l ∈ e.2, (10 : UInt8) ∉ l ∧ ¬ lit "# file: " <+: l) :
    (removeText .attributes p (es.flatMap attrText)).out = (es.filter fun e => !(p.isPrefixOf e.1)).flatMap attrText := by
  have hsafe : ∀ x : Bytes, nl ∉ AclQuote.quote x := by
    intro x hm
    have := (C16.quote_safe x _ hm).1
    simp [nl] at this
  let rec' : List Bytes × List Bytes → Rec := fun e => ⟨AclQuote.quote (indexPath e.1), e.2⟩
  have ht : ∀ l : List (List Bytes × List Bytes), l.flatMap attrText = texts (Kind.attributes.marker) (l.map rec') := by
    intro l
    simp only [texts, List.flatMap_map]
    apply List.flatMap_congr
    intro e _
    simp only [attrText, Rec.text, Rec.lines, Kind.marker, rec', joinLines]
    simp
  have hhit : ∀ e ∈ es, hits .attributes (Kind.attributes.quote (indexPath p)) (rec' e) = p.isPrefixOf e.1 := by
    intro e he
    rw [Bool.eq_iff_iff, List.isPrefixOf_iff_prefix]
    refine hits_iff (k := .attributes) (by simp) hp (hes e he).1 hp0 hp1 (hes e he).2.1 _ ?_
    simp only [Kind.marker, Kind.quote, List.mem_append, not_or]
    exact ⟨by decide, hsafe _⟩
  rw [ht, ht, removeText_recs (by decide) _ (by
    intro x hx
    obtain ⟨e, he, rfl⟩ := List.mem_map.1 hx
    exact ⟨hsafe _, (hes e he).2.2⟩)]
  simp only
  rw [List.filter_map]
  congr 2
  apply List.filter_congr
  intro e he
  simp [hhit e he]

example : (removeText .attributes [lit "a b"] (attrText ([lit "a b"], [lit "user.x=0sAA=="]) ++ attrText ([lit "a b", lit "c"], []) ++
    attrText ([lit "a bc"], [lit "user.x=0sAA=="]))).out = attrText ([lit "a bc"], [lit "user.x=0sAA=="]) := by decide +kernel

/-- one line of a `file_statistics` file: path and figures -/
def statLine (e : List Bytes × Bytes) : Bytes := quotePath (indexPath e.1) ++ 32 :: e.2 ++ [nl]

theorem stat_loop (Q : Bytes) (sk : Bool) (ls : List Bytes) :
    (loop .fileStatistics Q sk ls).out = (ls.filter fun l => !(Kind.fileStatistics.hit Q l)).flatten ∧
    (loop .fileStatistics Q sk ls).removed = ls.any (Kind.fileStatistics.hit Q) := by
  induction ls generalizing sk with
  | nil => cases sk <;> exact ⟨rfl, rfl⟩
  | cons l ls ih =>
    have hm : (Kind.fileStatistics.marker).isPrefixOf l = true := by simp [Kind.marker]
    simp only [loop, hm, Bool.not_true, Bool.and_false, Bool.false_eq_true, if_false, Bool.true_and]
    by_cases hh : Kind.fileStatistics.hit Q l = true
    · simp [hh, (ih true).1]
    · simp [hh, (ih false).1, (ih false).2]

theorem quote_append (x : Bytes) {c : UInt8} (h1 : c ≠ nl) (h2 : c ≠ bs) : quotePath x ++ [c] = quotePath (x ++ [c]) := by
  induction x with
  | nil => simp [quotePath, h1, h2]
  | cons d x ih =>
    rw [List.cons_append, quotePath, quotePath]
    by_cases e1 : d = nl
    · simp [e1, ih]
    · by_cases e2 : d = bs
      · simp [e2, ih, show bs ≠ nl by decide]
      · simp [e1, e2, ih]

/-- The text of a file statistics file, provided that no other file's name can be confused with the removed one because of a
blank (see `statistics_blank` for what happens otherwise): the lines of the removed path and of what is below it go, all other lines
stay. Missing: names with blanks. -/
theorem statistics_text_partial {p : List Bytes} (hp : ∀ c ∈ p, c ≠ [] ∧ (47 : UInt8) ∉ c) (hp0 : p ≠ []) (hp1 : p ≠ [[46]])
    (header : List Bytes) (hh : ∀ l ∈ header, nl ∉ l ∧ ¬ quotePath (indexPath p) ++ [32] <+: l ++ [nl] ∧ ¬ quotePath (indexPath p) ++ [47] <+: l ++ [nl])
    (es : List (List Bytes × Bytes)) (hes : ∀ e ∈ es, (∀ c ∈ e.1, c ≠ [] ∧ (47 : UInt8) ∉ c) ∧ e.1 ≠ [[46]] ∧ (10 : UInt8) ∉ e.2 ∧ (47 : UInt8) ∉ e.2)
    (hblank : ∀ e ∈ es, ¬ p <+: e.1 → ¬ indexPath p ++ [32] <+: indexPath e.1 ∧ ¬ indexPath e.1 ++ [32] <+: indexPath p) :
    (removeText .fileStatistics p (header.flatMap (· ++ [nl]) ++ es.flatMap statLine)).out =
      header.flatMap (· ++ [nl]) ++ (es.filter fun e => !(p.isPrefixOf e.1)).flatMap statLine := by
  have hlines : toLines (header.flatMap (· ++ [nl]) ++ es.flatMap statLine) = header.map (· ++ [nl]) ++ es.map statLine := by
    have e1 : header.flatMap (· ++ [nl]) ++ es.flatMap statLine = joinLines (header ++ es.map fun e => quotePath (indexPath e.1) ++ 32 :: e.2) := by
      rw [joinLines_append]
      simp only [joinLines, List.flatMap_map]
      rfl
    rw [e1, toLines_join]
    · simp [statLine, List.map_map, Function.comp_def]
    · intro l hl
      rcases List.mem_append.1 hl with hl | hl
      · exact (hh l hl).1
      · obtain ⟨e, he, rfl⟩ := List.mem_map.1 hl
        simp only [List.mem_append, List.mem_cons, not_or]
        exact ⟨C15.quote_no_newline _, by decide, (hes e he).2.2.1⟩
  have hhit : ∀ e ∈ es, Kind.fileStatistics.hit (quotePath (indexPath p)) (statLine e) = p.isPrefixOf e.1 := by
    intro e he
    obtain ⟨h1, h2, h3, h4⟩ := hes e he
    rw [Bool.eq_iff_iff, List.isPrefixOf_iff_prefix]
    simp only [Kind.hit, Bool.or_eq_true, List.isPrefixOf_iff_prefix, statLine]
    have q32 := quote_append (indexPath p) (c := 32) (by decide) (by decide)
    have q47 := quote_append (indexPath p) (c := 47) (by decide) (by decide)
    constructor
    · intro hx
      by_contra hn
      obtain ⟨b1, b2⟩ := hblank e he hn
      have hX : quotePath (indexPath e.1) <+: quotePath (indexPath e.1) ++ 32 :: e.2 ++ [nl] := by
        rw [List.append_assoc]; exact List.prefix_append _ _
      rcases hx with hx | hx
      · rcases List.prefix_or_prefix_of_prefix hx hX with h | h
        · rw [q32, quotePath_prefix] at h; exact b1 h
        · rw [List.prefix_concat_iff] at h
          rcases h with h | h
          · exact b1 ((quotePath_prefix _ _).1 (by rw [← q32, h]; exact List.prefix_refl _))
          · obtain ⟨u, hu⟩ := h
            cases u with
            | nil =>
              rw [List.append_nil] at hu
              have : indexPath e.1 = indexPath p := by
                rw [← C15.unquote_quote (indexPath e.1), hu, C15.unquote_quote]
              exact hn ((path_cases hp h1 hp0 hp1 h2).1 (.inl this))
            | cons c u =>
              rw [← hu] at hx
              obtain ⟨t, ht⟩ := hx
              simp only [List.append_assoc, List.cons_append] at ht
              have := List.append_cancel_left ht
              have hc : c = 32 := (List.cons.inj this).1
              subst hc
              apply b2
              rw [← quotePath_prefix, ← quote_append _ (by decide) (by decide), ← hu]
              exact ⟨u, by simp⟩
      · rcases List.prefix_or_prefix_of_prefix hx hX with h | h
        · rw [q47, quotePath_prefix] at h
          exact hn ((path_cases hp h1 hp0 hp1 h2).1 (.inr h))
        · rw [List.prefix_concat_iff] at h
          rcases h with h | h
          · have : indexPath p ++ [47] <+: indexPath e.1 := (quotePath_prefix _ _).1 (by rw [← q47, h]; exact List.prefix_refl _)
            exact hn ((path_cases hp h1 hp0 hp1 h2).1 (.inr this))
          · obtain ⟨u, hu⟩ := h
            rw [← hu] at hx
            obtain ⟨t, ht⟩ := hx
            simp only [List.append_assoc, List.cons_append] at ht
            have := List.append_cancel_left ht
            have hm : (47 : UInt8) ∈ 32 :: (e.2 ++ [nl]) := by rw [← this]; simp
            simp only [List.mem_cons, List.mem_append, List.not_mem_nil, or_false] at hm
            rcases hm with hm | hm | hm
            · exact absurd hm (by decide)
            · exact h4 hm
            · exact absurd hm (by decide)
    · intro hx
      rcases (path_cases hp h1 hp0 hp1 h2).2 hx with h | h
      · left; rw [h]; exact ⟨e.2 ++ [nl], by simp⟩
      · right
        rw [← quotePath_prefix, ← q47] at h
        rw [List.append_assoc]
        exact h.trans (List.prefix_append _ _)
  have hhead : ∀ l ∈ header, Kind.fileStatistics.hit (quotePath (indexPath p)) (l ++ [nl]) = false := by
    intro l hl
    rw [Bool.eq_false_iff]
    simp only [Kind.hit, ne_eq, Bool.or_eq_true, List.isPrefixOf_iff_prefix, not_or]
    exact (hh l hl).2
  have f1 : (header.map (· ++ [nl]) ++ es.map statLine).filter (fun l => !(Kind.fileStatistics.hit (quotePath (indexPath p)) l)) =
      header.map (· ++ [nl]) ++ (es.filter fun e => !(p.isPrefixOf e.1)).map statLine := by
    rw [List.filter_append]
    congr 1
    · apply List.filter_eq_self.2
      intro l hl
      obtain ⟨l', hl', rfl⟩ := List.mem_map.1 hl
      rw [hhead l' hl']; rfl
    · rw [List.filter_map]
      congr 1
      apply List.filter_congr
      intro e he
      simp [hhit e he]
  have hout := (stat_loop (quotePath (indexPath p)) false (header.map (· ++ [nl]) ++ es.map statLine)).1
  rw [f1] at hout
  have hfin : (loop .fileStatistics (quotePath (indexPath p)) false (header.map (· ++ [nl]) ++ es.map statLine)).out =
      header.flatMap (· ++ [nl]) ++ (es.filter fun e => !(p.isPrefixOf e.1)).flatMap statLine := by
    rw [hout, List.flatten_append, List.flatMap_def, List.flatMap_def]
  simp only [removeText, hlines, Kind.quote]
  split
  · exact hfin
  · next hno =>
    show header.flatMap (· ++ [nl]) ++ es.flatMap statLine = _
    have hnone : ∀ e ∈ es, p.isPrefixOf e.1 = false := by
      intro e he
      rw [Bool.eq_false_iff]
      intro hpe
      apply hno
      rw [(stat_loop _ _ _).2, List.any_eq_true]
      exact ⟨statLine e, by simp; exact .inr ⟨e.1, e.2, he, rfl⟩, by rw [hhit e he]; exact hpe⟩
    have f2 : (es.filter fun e => !(p.isPrefixOf e.1)) = es := List.filter_eq_self.2 (fun e he => by rw [hnone e he]; rfl)
    rw [f2]

/-- Finding F54: removing `a` also removes the statistics of a file called `a b`, and a file called `#` takes the header along. -/
theorem statistics_blank :
    (removeText .fileStatistics [lit "a"] (statLine ([lit "a b"], lit "True 1 1 NA"))).out = [] ∧
    (removeText .fileStatistics [lit "#"] (lit "# Filename Changed SourceSize MirrorSize IncrementSize" ++ [nl])).out = [] := by
  decide +kernel

example : (removeText .fileStatistics [lit "a"] (lit "# Filename" ++ [nl] ++ statLine ([lit "a"], lit "True NA NA") ++
    statLine ([lit "a", lit "b"], lit "True 1 1 NA") ++ statLine ([lit "ab"], lit "True 1 1 NA"))).out =
      lit "# Filename" ++ [nl] ++ statLine ([lit "ab"], lit "True 1 1 NA") := by
  decide +kernel

end text
end Verif.C52
