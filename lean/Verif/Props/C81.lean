import Verif.Proof.TempFiles
/-
C81  Temporary files are in nobody's way.
-/
namespace Verif.C81
open Verif.TempFiles Verif.Quoting

variable {C : Type}

theorem temp_looks (k : Nat) : LooksTemporary (tempName k) := ⟨Verif.MetaRecord.fmtNat k, by
  have : "rdiff-backup.tmp.".toUTF8.data.toList = [114, 100, 105, 102, 102, 45, 98, 97, 99, 107, 117, 112, 46, 116, 109, 112, 46] := by decide +kernel
  rw [this]; rfl⟩

/-- The search for a name ends with one that isn't used, whatever is there and whatever names have been given before. -/
theorem name_free {s : St C} {d : Path} {l : List Bytes} (hl : l.length ≤ 100000000) (hm : ∀ n, get s.fs (d ++ [n]) ≠ none → n ∈ l) :
    ∃ t s', getTemp s d = some (t, s') ∧ LooksTemporary t ∧ get s.fs (d ++ [t]) = none ∧ s'.fs = s.fs := by
  obtain ⟨k, e, hk⟩ := getTemp_spec hl hm
  exact ⟨_, _, e, temp_looks k, hk, rfl⟩

/-- updating a tree: no operation fails, no temporary file is left, and all is as it should be, but for what `Result` says -/
theorem updated {cleanup : Bool} {fs : Fs C} {S : Path → Option (Node C)} {plan : Plan C} (h0 : get fs [] = some .dir) (hM : Tree (get fs)) (hS : Tree S)
    (hroom : Room (get fs) S) (hp : plan.Turns (get fs) S []) (next : Nat) :
    ∃ s', run cleanup [] plan ⟨next, fs⟩ = some s' ∧ ∀ q, q ≠ [] → Result cleanup (get fs) (get s'.fs) S q := by
  choose L hlen hL using hroom
  obtain ⟨s', e, h1, h2⟩ := run_spec (cleanup := cleanup) (s := ⟨next, fs⟩) (d := []) hS (L := L) hlen plan
    ⟨h0, fun n r m hm => hM _ _ hm, fun r m hm => by simpa using hL r m (by simpa using hm)⟩ hp.1
  refine ⟨s', e, ?_⟩
  intro q hq
  obtain ⟨n, r, rfl⟩ := List.exists_cons_of_ne_nil hq
  by_cases hn : n ∈ plan.names
  · exact h1 n hn r
  · left
    rw [h2 (n :: r) (fun m hm r' => by
      intro e
      simp only [List.nil_append, List.cons.injEq] at e
      exact hn (e.1 ▸ hm))]
    exact hp.2 n hn r

/-- **C81**, restoring: whatever the names of the files that are there and of those that are restored, even if they are like those of temporary files,
and wherever the numbers begin: the target becomes the tree it should, no temporary file is left, nothing is written over an existing
file, and no directory is removed with something in it (those operations would fail). -/
theorem restored {fs : Fs C} {S : Path → Option (Node C)} {plan : Plan C} (h0 : get fs [] = some .dir) (hM : Tree (get fs)) (hS : Tree S)
    (hroom : Room (get fs) S) (hp : plan.Turns (get fs) S []) (next : Nat) :
    ∃ s', run false [] plan ⟨next, fs⟩ = some s' ∧ ∀ q, q ≠ [] → get s'.fs q = S q := by
  obtain ⟨s', e, h⟩ := updated (cleanup := false) h0 hM hS hroom hp next
  refine ⟨s', e, fun q hq => ?_⟩
  rcases h q hq with h | ⟨h, -⟩
  · exact h
  · cases h

/-- **C81**, backing up, partial: the same, if no new file has a name that starts with `rdiff-backup.tmp.`.

Missing: such files; they can be lost (`file_lost`), and nothing else can (`only_files_lost`). -/
theorem backed_up_partial {fs : Fs C} {S : Path → Option (Node C)} {plan : Plan C} (h0 : get fs [] = some .dir) (hM : Tree (get fs)) (hS : Tree S)
    (hroom : Room (get fs) S) (hp : plan.Turns (get fs) S []) (next : Nat)
    (hnew : ∀ d n c, S (d ++ [n]) = some (.file c) → LooksTemporary n → get fs (d ++ [n]) ≠ none) :
    ∃ s', run true [] plan ⟨next, fs⟩ = some s' ∧ ∀ q, q ≠ [] → get s'.fs q = S q := by
  obtain ⟨s', e, h⟩ := updated (cleanup := true) h0 hM hS hroom hp next
  refine ⟨s', e, fun q hq => ?_⟩
  rcases h q hq with h | ⟨-, -, h1, ⟨d, k, rfl⟩, c, h2⟩
  · exact h
  · exact absurd h1 (hnew d _ c h2 (temp_looks k))

/-- Nothing but new files with such names is lost. -/
theorem only_files_lost {fs : Fs C} {S : Path → Option (Node C)} {plan : Plan C} (h0 : get fs [] = some .dir) (hM : Tree (get fs)) (hS : Tree S)
    (hroom : Room (get fs) S) (hp : plan.Turns (get fs) S []) (next : Nat) :
    ∃ s', run true [] plan ⟨next, fs⟩ = some s' ∧ ∀ q, q ≠ [] → get s'.fs q = S q ∨
      get s'.fs q = none ∧ get fs q = none ∧ ∃ d n c, q = d ++ [n] ∧ LooksTemporary n ∧ S q = some (.file c) := by
  obtain ⟨s', e, h⟩ := updated (cleanup := true) h0 hM hS hroom hp next
  refine ⟨s', e, fun q hq => ?_⟩
  rcases h q hq with h | ⟨-, h0, h1, ⟨d, k, rfl⟩, c, h2⟩
  · exact Or.inl h
  · exact Or.inr ⟨h0, h1, d, _, c, rfl, temp_looks k, h2⟩

/-! ### Examples

The directory 100 is replaced by a file, the file 101 by a directory with a file in it, and there are files named like temporary files. -/

def fs : Fs Nat := [([], .dir), ([[100]], .dir), ([[100], [97]], .file 1), ([[100], tempName 1], .file 2), ([[101]], .file 3), ([tempName 0], .file 4), ([[120]], .file 8)]
def new : Fs Nat := [([], .dir), ([[100]], .file 5), ([[101]], .dir), ([[101], tempName 0], .file 6), ([tempName 0], .file 7), ([[120]], .file 8)]
def plan : Plan Nat :=
  .dir [100] (some (some 5)) (.file [97] none (.file (tempName 1) none .nil)) (.dir [101] none (.file (tempName 0) (some 6) .nil) (.file (tempName 0) (some 7) .nil))

theorem get_none {C : Type} {fs : Fs C} {q : Path} (h : q ∉ fs.map Prod.fst) : get fs q = none := by
  cases e : get fs q with
  | none => rfl
  | some v =>
    exfalso
    obtain ⟨x, hx, -⟩ := Option.map_eq_some_iff.mp e
    have h1 := List.mem_of_find?_eq_some hx
    have h2 := List.find?_some hx
    simp only [decide_eq_true_eq] at h2
    exact h (h2 ▸ List.mem_map_of_mem h1)

/-- only finitely many paths matter -/
theorem tree_of {C : Type} [DecidableEq C] {fs : Fs C} (h : (fs.map Prod.fst).all (fun q => q = [] || get fs q.dropLast = some .dir) = true) : Tree (get fs) := by
  intro p n hn
  have hm : p ++ [n] ∈ fs.map Prod.fst := by
    by_contra hc
    exact hn (get_none hc)
  have := List.all_eq_true.mp h _ hm
  simpa using this

theorem same_of {C : Type} [DecidableEq C] {fs gs : Fs C} {d : Path} {names : List Bytes}
    (h : (fs.map Prod.fst ++ gs.map Prod.fst).all (fun q => !(d.isPrefixOf q) || (q.drop d.length).head?.all (fun n => n ∈ names) || get fs q = get gs q) = true) :
    ∀ n, n ∉ names → ∀ r, get fs (d ++ n :: r) = get gs (d ++ n :: r) := by
  intro n hn r
  by_cases hm : d ++ n :: r ∈ fs.map Prod.fst ++ gs.map Prod.fst
  · have := List.all_eq_true.mp h _ hm
    have hp : d.isPrefixOf (d ++ n :: r) = true := List.isPrefixOf_iff_prefix.mpr ⟨_, rfl⟩
    simpa [hn, hp] using this
  · simp only [List.mem_append, not_or] at hm
    rw [get_none hm.1, get_none hm.2]

theorem room_of {C : Type} {fs gs : Fs C} (h : (fs.map Prod.fst ++ gs.map Prod.fst).length ≤ 100000000) : Room (get fs) (get gs) := by
  intro d
  refine ⟨(fs.map Prod.fst ++ gs.map Prod.fst).map (fun q => q.getLastD []), by simpa using h, ?_⟩
  intro n hn
  rw [List.mem_map]
  refine ⟨d ++ [n], ?_, by simp⟩
  rw [List.mem_append]
  rcases hn with hn | hn
  · left; by_contra hc; exact hn (get_none hc)
  · right; by_contra hc; exact hn (get_none hc)

example : get fs [] = some .dir ∧ Tree (get fs) ∧ Tree (get new) ∧ Room (get fs) (get new) ∧ plan.Turns (get fs) (get new) [] := by
  refine ⟨by decide +kernel, tree_of (by decide +kernel), tree_of (by decide +kernel), room_of (by decide), ?_, same_of (by decide +kernel)⟩
  refine ⟨by decide +kernel, ⟨by decide +kernel, by decide +kernel⟩, ⟨by decide +kernel, by decide +kernel, by decide +kernel, by decide +kernel, by decide +kernel, by decide +kernel, trivial⟩,
    same_of (by decide +kernel), by decide +kernel, by decide +kernel, ⟨by decide +kernel, by decide +kernel, by decide +kernel, trivial⟩, same_of (by decide +kernel),
    by decide +kernel, by decide +kernel, by decide +kernel, trivial⟩

/-- restored, and backed up: the numbers 1 and 2 are given in the directory, then 3 (where it is) -/
example : (run false [] plan ⟨0, fs⟩).map (fun s => (s.next, new.all fun x => get s.fs x.1 = some x.2)) = some (6, true) := by decide +kernel
example : (run true [] plan ⟨0, fs⟩).map (fun s => (s.next, new.all fun x => get s.fs x.1 = some x.2)) = some (6, true) := by decide +kernel

/-- **A file is lost** (found in the code): a new file has the name that is the next for temporary files. It is its own temporary file, which is
removed in the end. The backup doesn't notice it. -/
theorem file_lost : ∃ (fs new : Fs Nat) (plan : Plan Nat) (s' : St Nat), get fs [] = some .dir ∧ Tree (get fs) ∧ Tree (get new) ∧ Room (get fs) (get new) ∧
    plan.Turns (get fs) (get new) [] ∧ run true [] plan ⟨0, fs⟩ = some s' ∧ get new [tempName 1] = some (.file 2) ∧ get s'.fs [tempName 1] = none ∧
    get s'.fs [[97]] = some (.file 1) := by
  let fs : Fs Nat := [([], .dir)]
  let new : Fs Nat := [([], .dir), ([[97]], .file 1), ([tempName 1], .file 2)]
  let plan : Plan Nat := .file [97] (some 1) (.file (tempName 1) (some 2) .nil)
  have h : (run true [] plan ⟨0, fs⟩).map (fun s => (get s.fs [tempName 1], get s.fs [[97]])) = some (none, some (.file 1)) := by decide +kernel
  obtain ⟨s', e, h⟩ := Option.map_eq_some_iff.mp h
  simp only [Prod.mk.injEq] at h
  exact ⟨fs, new, plan, s', by decide +kernel, tree_of (by decide +kernel), tree_of (by decide +kernel), room_of (by decide),
    ⟨⟨by decide +kernel, by decide +kernel, by decide +kernel, by decide +kernel, by decide +kernel, by decide +kernel, trivial⟩, same_of (by decide +kernel)⟩, e,
    by decide +kernel, h.1, h.2⟩

end Verif.C81
