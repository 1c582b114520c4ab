import Verif.Model.Settings
import Verif.Props.C23
import Mathlib.Data.List.Induction
/-
C72 What is recorded of attributes follows file systems and options.
-/
namespace Verif.C72
open Verif.Settings

variable {Conn : Type} [DecidableEq Conn] {V O : Type} [DecidableEq V] [DecidableEq O]

/-- Specification: the attributes which are recorded of the path (blank if there is no record of them), if the path is recorded -/
def recordedAttr (blank : V) (r : Recorded O V) : Option V := r.main.map fun _ => (r.file.getD none).getD blank

theorem dir2repo_eq (src repo : Side Conn) (toggle : Bool) :
    (dir2repo src repo toggle).active = (src.support && toggle) ∧ (dir2repo src repo toggle).write = (repo.support && toggle) ∧
    (dir2repo src repo toggle).conn repo.conn = (repo.support && toggle) ∧
    (dir2repo src repo toggle).conn src.conn = if src.conn = repo.conn then (repo.support && toggle) else (src.support && toggle) := by
  simp [dir2repo, setConn]

omit [DecidableEq Conn] [DecidableEq V] [DecidableEq O] in
theorem getAttr_some (blank : V) (o : O) (v : V) (here : Option (Side Conn × File O V)) : getAttr blank ⟨o, some v⟩ here = v := rfl

theorem backup_main (blank : V) (src repo : Side Conn) (toggle : Bool) (st : Recorded O V) (f : Option (File O V)) :
    (backup blank src repo toggle st f).main = f.map (·.other) := by
  unfold backup
  generalize dir2repo src repo toggle = g
  cases f with
  | none =>
    cases hm : st.main with
    | none => simp [readMeta, changed, hm]
    | some o => simp [readMeta, changed, hm]
  | some f =>
    cases hm : st.main with
    | none => simp [readMeta, changed, hm, readPath]
    | some o =>
      simp only [readMeta, hm, Option.map_some, changed]
      generalize hd : (⟨o, if g.active then some ((st.file.getD none).getD blank) else none⟩ : Rorp O V) = d
      cases h : sameRorp g (readPath blank g src f) d with
      | false => simp [readPath]
      | true =>
        simp only [sameRorp, Bool.and_eq_true, beq_iff_eq, readPath] at h
        simp [h.1, ← hd]

theorem run_append (blank : V) (h : List (Session Conn O V)) (s : Session Conn O V) :
    run blank (h ++ [s]) = backup blank s.src s.repo s.toggle (run blank h) s.file := by
  simp [run]

/-- After any history of backups the path is recorded iff the source has it, with all which doesn't depend on the settings. -/
theorem main_current (blank : V) (h : List (Session Conn O V)) (s : Session Conn O V) :
    (run blank (h ++ [s])).main = s.file.map (·.other) := by
  rw [run_append, backup_main]

/-- There is a file for the attributes iff the source's file system supports them and the option isn't off, whatever the repository's is. -/
theorem file_iff (blank : V) (h : List (Session Conn O V)) (s : Session Conn O V) :
    (run blank (h ++ [s])).file.isSome = (s.src.support && s.toggle) := by
  rw [run_append]
  unfold backup
  simp only [(dir2repo_eq s.src s.repo s.toggle).1]
  split <;> simp_all

/-- what is recorded of the attributes is read back -/
theorem backup_attr (blank : V) (src repo : Side Conn) (st : Recorded O V) (f : File O V) (hs : src.support = true) :
    recordedAttr blank (backup blank src repo true st (some f)) =
      some (if repo.support = false ∧ st.main = some f.other then (st.file.getD none).getD blank else f.attr) := by
  obtain ⟨hA, hW, -, hC⟩ := dir2repo_eq src repo true
  have hmain := backup_main blank src repo true st (some f)
  unfold recordedAttr
  rw [hmain]
  simp only [Option.map_some, Option.some.injEq]
  unfold backup
  generalize dir2repo src repo true = g at hA hW hC
  simp only [hs, Bool.and_true] at hA hW hC
  have unq : ∀ v : V, ((if v = blank then (none : Option V) else some v).getD blank) = v := by
    intro v; split <;> simp_all
  have hd : readMeta blank g st = st.main.map fun o => (⟨o, some ((st.file.getD none).getD blank)⟩ : Rorp O V) := by
    simp [readMeta, hA]
  simp only [hd, hA, if_true, Option.getD_some, Option.map_some]
  have hnew : ∀ g', getAttr blank (readPath blank g' src f) (if src.conn = repo.conn then some (src, f) else none) = f.attr ∨
      (src.conn ≠ repo.conn ∧ g'.conn src.conn = false) := by
    intro g'
    by_cases hsame : src.conn = repo.conn
    · left
      rw [if_pos hsame]
      unfold readPath getAttr
      cases g'.conn src.conn <;> simp [hs]
    · cases hgc : g'.conn src.conn with
      | false => exact Or.inr ⟨hsame, rfl⟩
      | true => left; simp [readPath, getAttr, hgc, hs]
  have hnew' : getAttr blank (readPath blank g src f) (if src.conn = repo.conn then some (src, f) else none) = f.attr := by
    rcases hnew g with h | ⟨h1, h2⟩
    · exact h
    · rw [if_neg h1] at hC; rw [hC] at h2; simp at h2
  cases hm : st.main with
  | none =>
    simp only [Option.map_none, changed, if_true, unq, hnew']
    simp
  | some o =>
    simp only [Option.map_some, changed]
    by_cases hch : sameRorp g (readPath blank g src f) ⟨o, some ((st.file.getD none).getD blank)⟩ = true
    · simp only [hch, Bool.not_true, Bool.false_eq_true, if_false, getAttr_some, unq]
      unfold sameRorp readPath at hch
      simp only [Bool.and_eq_true, beq_iff_eq, Bool.or_eq_true, Bool.not_eq_true'] at hch
      obtain ⟨h1, h2⟩ := hch
      cases hr : repo.support with
      | false => simp [h1]
      | true =>
        rw [hr] at hW hC
        simp only [ite_self] at hC
        rw [hC, hW] at h2
        simp only [hs, if_true] at h2
        simp at h2
        simp [h2]
    · rw [Bool.not_eq_true] at hch
      simp only [hch, Bool.not_false, if_true, unq, hnew']
      unfold sameRorp readPath at hch
      cases hr : repo.support with
      | true => simp
      | false =>
        rw [hr] at hW
        simp only [hW, Bool.not_false, Bool.true_or, Bool.and_true, beq_eq_false_iff_ne, ne_eq] at hch
        rw [if_neg]
        intro h
        exact hch (Option.some.inj h.2).symm

/-- C72 (with a repository whose file system supports the attributes as well): after any history of backups, over connections and with file
systems and options which may change each time, what is recorded are the source's attributes at the last backup. -/
theorem recorded_current (blank : V) (h : List (Session Conn O V)) (s : Session Conn O V) (f : File O V) (hf : s.file = some f)
    (hs : s.src.support = true) (hr : s.repo.support = true) (ht : s.toggle = true) :
    recordedAttr blank (run blank (h ++ [s])) = some f.attr := by
  rw [run_append, hf, ht, backup_attr blank _ _ _ _ hs]
  simp [hr]

/-- ... with any repository: they are if the path is new or anything else of it has been changed as well; if not, and if the repository's
file system doesn't support them, what was recorded stays there. -/
theorem recorded_any_partial (blank : V) (h : List (Session Conn O V)) (s : Session Conn O V) (f : File O V) (hf : s.file = some f)
    (hs : s.src.support = true) (ht : s.toggle = true) :
    recordedAttr blank (run blank (h ++ [s])) =
      if s.repo.support = false ∧ (run blank h).main = some f.other then recordedAttr blank (run blank h) else some f.attr := by
  rw [run_append, hf, ht, backup_attr blank _ _ _ _ hs]
  split
  · rename_i hc; simp [recordedAttr, hc.2]
  · rfl

/-- ... so with any repository they are the current ones provided that whenever they change something else does as well. -/
theorem recorded_any (blank : V) (h : List (Session Conn O V)) (s : Session Conn O V) (φ : O → V)
    (hall : ∀ t ∈ h ++ [s], t.src.support = true ∧ t.toggle = true ∧ ∀ f, t.file = some f → f.attr = φ f.other) (f : File O V)
    (hf : s.file = some f) : recordedAttr blank (run blank (h ++ [s])) = some f.attr := by
  have key : ∀ (l : List (Session Conn O V)), (∀ t ∈ l, t.src.support = true ∧ t.toggle = true ∧ ∀ f, t.file = some f → f.attr = φ f.other) →
      ∀ o, (run blank l).main = some o → recordedAttr blank (run blank l) = some (φ o) := by
    intro l hl
    induction l using List.reverseRecOn with
    | nil => intro o ho; simp [run, Recorded.none] at ho
    | append_singleton l t ih =>
      intro o ho
      have ih := ih fun u hu => hl u (List.mem_append_left _ hu)
      obtain ⟨h1, h2, h3⟩ := hl t (by simp)
      rw [main_current] at ho
      cases htf : t.file with
      | none => rw [htf] at ho; simp at ho
      | some f' =>
        rw [htf, Option.map_some, Option.some.injEq] at ho
        rw [recorded_any_partial blank l t f' htf h1 h2]
        split
        · rename_i hc
          rw [ih _ hc.2, ho]
        · rw [h3 f' htf, ho]
  have := key (h ++ [s]) hall f.other (by rw [main_current, hf]; rfl)
  rw [this, (hall s (by simp)).2.2 f hf]

/-- two machines -/
def here : Side (Fin 2) := ⟨0, true⟩
/-- a repository elsewhere whose file system doesn't support the attributes -/
def plain : Side (Fin 2) := ⟨1, false⟩
/-- one which does -/
def full : Side (Fin 2) := ⟨1, true⟩

/-- a file's attributes, and then only they, are changed: 1 to 2 -/
def history (repo : Side (Fin 2)) : List (Session (Fin 2) Nat Nat) :=
  [⟨here, repo, true, some ⟨7, 1⟩⟩, ⟨here, repo, true, some ⟨7, 2⟩⟩]

example : recordedAttr 0 (run 0 (history full)) = some 2 :=
  recorded_current 0 [⟨here, full, true, some ⟨7, 1⟩⟩] ⟨here, full, true, some ⟨7, 2⟩⟩ ⟨7, 2⟩ rfl rfl rfl rfl

/-- The claim fails if the repository's file system doesn't support the attributes: the change is not recorded, and never will be as long
as nothing else of the file changes (F98). The same for a local repository. -/
theorem change_lost : recordedAttr 0 (run 0 (history plain)) = some 1 ∧ recordedAttr 0 (run 0 (history ⟨0, false⟩)) = some 1 ∧
    ∀ n, recordedAttr 0 (run 0 (history plain ++ List.replicate n ⟨here, plain, true, some ⟨7, 2⟩⟩)) = some 1 := by
  refine ⟨by decide, by decide, fun n => ?_⟩
  suffices h : run 0 (history plain ++ List.replicate n ⟨here, plain, true, some ⟨7, 2⟩⟩) = ⟨some 7, some (some 1)⟩ by rw [h]; decide
  induction n with
  | zero => decide
  | succ n ih => rw [List.replicate_succ', ← List.append_assoc, run_append, ih]; decide

example : recordedAttr 0 (run 0 [⟨here, plain, true, some ⟨7, 1⟩⟩, ⟨here, plain, true, some ⟨8, 2⟩⟩]) = some 2 :=
  recorded_any 0 [⟨here, plain, true, some ⟨7, 1⟩⟩] ⟨here, plain, true, some ⟨8, 2⟩⟩ (fun o => o - 6)
    (by intro t ht; simp only [List.cons_append, List.nil_append, List.mem_cons, List.not_mem_nil, or_false] at ht
        rcases ht with rfl | rfl <;> simp [here]) ⟨8, 2⟩ rfl

/-! ### nothing changed -/

/-- A backup of a path which hasn't been changed since the last one, with the same sides and option, takes the path for changed only in one
case: source and repository are on the same machine, the repository's file system supports the attributes and the source's doesn't. In that
case every path is taken for changed every time (F99). -/
theorem unchanged_iff (blank : V) (h : List (Session Conn O V)) (s : Session Conn O V) (f : File O V) (hf : s.file = some f) :
    changed (dir2repo s.src s.repo s.toggle) (some (readPath blank (dir2repo s.src s.repo s.toggle) s.src f))
      (readMeta blank (dir2repo s.src s.repo s.toggle) (run blank (h ++ [s]))) = true ↔
    s.src.conn = s.repo.conn ∧ s.src.support = false ∧ s.repo.support = true ∧ s.toggle = true := by
  have hmain := main_current blank h s
  rw [hf, Option.map_some] at hmain
  obtain ⟨hA, hW, -, hC⟩ := dir2repo_eq s.src s.repo s.toggle
  have hrec : s.src.support = true → s.repo.support = true → s.toggle = true →
      ((run blank (h ++ [s])).file.getD none).getD blank = f.attr := by
    intro h1 h2 h3
    have := recorded_current blank h s f hf h1 h2 h3
    rw [recordedAttr, hmain] at this
    simpa using this
  generalize dir2repo s.src s.repo s.toggle = g at *
  simp only [readMeta, hmain, Option.map_some, changed, sameRorp, readPath, hA, hW, hC, beq_self_eq_true, Bool.true_and]
  cases ht : s.toggle with
  | false => simp
  | true =>
    cases hs : s.src.support with
    | true =>
      cases hr : s.repo.support with
      | true => simp [hrec hs hr ht]
      | false => simp
    | false =>
      cases hr : s.repo.support with
      | true => by_cases hsame : s.src.conn = s.repo.conn <;> simp [hsame]
      | false => simp

example : changed (dir2repo (⟨0, false⟩ : Side (Fin 2)) ⟨0, true⟩ true) (some (readPath 0 (dir2repo ⟨0, false⟩ ⟨0, true⟩ true) ⟨0, false⟩ ⟨7, 0⟩))
    (readMeta 0 (dir2repo ⟨0, false⟩ ⟨0, true⟩ true) (run 0 ([] ++ [⟨⟨0, false⟩, ⟨0, true⟩, true, some ⟨7, 0⟩⟩]))) = true :=
  (unchanged_iff (0 : Nat) [] ⟨⟨0, false⟩, ⟨0, true⟩, true, some (⟨7, 0⟩ : File Nat Nat)⟩ ⟨7, 0⟩ rfl).2 ⟨rfl, rfl, rfl, rfl⟩

/-! ### restore -/

/-- A restore onto a file system which supports the attributes, with the option, gives the recorded ones, whatever is there before, whether
or not the repository's file system supports them, and on whichever connections they are. -/
theorem restored (blank : V) (repo target : Side Conn) (r : Recorded O V) (old : Option (File O V)) (hs : target.support = true) :
    (restore blank repo target true r old).map (·.attr) = recordedAttr blank r ∧
    (restore blank repo target true r old).map (·.other) = r.main := by
  have hA : (repo2dir repo target true).active = true ∧ (repo2dir repo target true).write = true := by simp [repo2dir, setConn, hs]
  unfold restore recordedAttr
  generalize repo2dir repo target true = g at hA
  cases hm : r.main with
  | none => simp [readMeta, hm]
  | some o =>
    simp only [readMeta, hm, Option.map_some, hA.1, if_true]
    cases old with
    | none => simp [writtenAttr, hA.2, getAttr]
    | some f =>
      simp only []
      split
      · rename_i h
        unfold sameRorp readPath at h
        simp only [hA.2, hs, Bool.not_true, Option.isNone_some, Bool.or_self, Bool.false_or, Bool.and_eq_true, beq_iff_eq, if_true] at h
        obtain ⟨h1, h2⟩ := h
        split at h2
        · simp only [Option.some.injEq] at h2; simp [h1, h2]
        · simp at h2
      · simp [writtenAttr, hA.2, getAttr]

/-- ... from the source to the restored file -/
theorem backed_up_and_restored (blank : V) (h : List (Session Conn O V)) (s : Session Conn O V) (f : File O V) (hf : s.file = some f)
    (hs : s.src.support = true) (hr : s.repo.support = true) (ht : s.toggle = true) (repo target : Side Conn)
    (htarget : target.support = true) (old : Option (File O V)) :
    restore blank repo target true (run blank (h ++ [s])) old = some f := by
  obtain ⟨h1, h2⟩ := restored blank repo target (run blank (h ++ [s])) old htarget
  rw [recorded_current blank h s f hf hs hr ht] at h1
  rw [main_current, hf] at h2
  cases hres : restore blank repo target true (run blank (h ++ [s])) old with
  | none => rw [hres] at h1; simp at h1
  | some f' =>
    rw [hres] at h1 h2
    simp only [Option.map_some, Option.some.injEq] at h1 h2
    cases f; cases f'
    simp_all

example : restore 0 plain ⟨0, true⟩ true (run 0 (history full)) (some ⟨7, 5⟩) = some ⟨7, 2⟩ :=
  backed_up_and_restored 0 [⟨here, full, true, some ⟨7, 1⟩⟩] ⟨here, full, true, some ⟨7, 2⟩⟩ ⟨7, 2⟩ rfl rfl rfl rfl plain ⟨0, true⟩ rfl _

/-! ### --never-drop-acls -/

/-- A backup with --never-drop-acls either stops, or there is a file for the access control lists. -/
theorem never_drop (blank : V) (h : List (Session Conn O V)) (s : Session Conn O V)
    (hok : neverDropOk true (dir2repo s.src s.repo s.toggle) = true) : (run blank (h ++ [s])).file.isSome = true := by
  rw [file_iff]
  simp only [neverDropOk, (dir2repo_eq s.src s.repo s.toggle).1] at hok
  simpa using hok

example : neverDropOk true (dir2repo here full true) = true ∧ neverDropOk true (dir2repo plain full true) = false := by decide

/-! ### compare -/

/-- All actions on a repository but backup, restore and compare are without the attributes, too. -/
theorem single_off (repo : Side Conn) (c : Conn) :
    (singleRepo repo false).active = false ∧ (singleRepo repo false).write = false ∧ (singleRepo repo false).conn c = false := by
  simp [singleRepo, setConn, initial]

/-- `compare` doesn't see the attributes at all: a path all else of which is as recorded is not reported, whatever has become of its
attributes, and whatever the file systems support (F100). -/
theorem compare_blind (blank : V) (src repo : Side Conn) (r : Recorded O V) (f : File O V) (hm : r.main = some f.other) :
    compareReports blank src repo r (some f) = false := by
  simp [compareReports, changed, sameRorp, readPath, readMeta, hm, dir2repo_eq]

/-- ... all else is compared -/
theorem compare_other (blank : V) (src repo : Side Conn) (r : Recorded O V) (f : Option (File O V)) :
    compareReports blank src repo r f = true ↔ r.main ≠ f.map (·.other) := by
  cases f with
  | none => cases hm : r.main <;> simp [compareReports, changed, readMeta, hm]
  | some f =>
    cases hm : r.main with
    | none => simp [compareReports, changed, readMeta, hm]
    | some o =>
      simp [compareReports, changed, sameRorp, readPath, readMeta, hm, dir2repo_eq]
      exact ⟨fun h e => h e.symm, fun h e => h e.symm⟩

example : compareReports 0 here full (run 0 (history full)) (some ⟨7, 99⟩) = false := compare_blind 0 _ _ _ _ (by decide)

/-! ### links and `rdiff-backup regress` -/


open Verif.MetaRecord Verif.FlatFile in
/-- A regress which rewrites the metadata (every forced one of a repository whose last backup made a difference does) keeps what is recorded
about links if it is part of a backup with --hard-links. -/
theorem links_kept (max : Nat) (sizes : Nat → Nat) {rs : List MetaRecord.Rorp} (h : ∀ r ∈ rs, Storable r) :
    ∃ c, recreateAttr (preserveHardlinks true (some true)) max rs = some c ∧
      iterate (lit "File ") sizes recordToObject c = rs.map (MetaRecord.kept true) := C24.iterate_written true max sizes h

open Verif.MetaRecord Verif.FlatFile in
/-- But the action `regress` has no such option (regress.py 38-42), and all records about links are gone from the metadata afterwards,
for good: files which were links of one another will be restored as independent ones (F101). -/
theorem links_lost (dest : Bool) (max : Nat) (sizes : Nat → Nat) {rs : List MetaRecord.Rorp} (h : ∀ r ∈ rs, Storable r) :
    ∃ c, recreateAttr (preserveHardlinks dest none) max rs = some c ∧
      (iterate (lit "File ") sizes recordToObject c).map MetaRecord.Rorp.index = rs.map MetaRecord.Rorp.index ∧
      ∀ r ∈ iterate (lit "File ") sizes recordToObject c, r.nlink = none ∧ r.inode = none ∧ r.devloc = none := by
  obtain ⟨c, h1, h2⟩ := C24.iterate_written false max sizes h
  refine ⟨c, by simpa [recreateAttr, preserveHardlinks] using h1, ?_, ?_⟩
  · rw [h2, List.map_map]
    apply List.map_congr_left
    intro r _
    simp only [Function.comp, MetaRecord.kept]
    cases r.type <;> rfl
  · intro r hr
    rw [h2] at hr
    obtain ⟨r, -, rfl⟩ := List.mem_map.1 hr
    simp only [MetaRecord.kept]
    cases r.type <;> simp

open Verif.MetaRecord Verif.FlatFile in
example : ∃ c, recreateAttr (preserveHardlinks true none) 100 C24.demo = some c ∧
    (iterate (lit "File ") (fun _ => 9) recordToObject c).map MetaRecord.Rorp.index = C24.demo.map MetaRecord.Rorp.index ∧
      ∀ r ∈ iterate (lit "File ") (fun _ => 9) recordToObject c, r.nlink = none ∧ r.inode = none ∧ r.devloc = none :=
  links_lost true 100 _ C24.demo_storable

/-- (there were some) -/
example : (C24.demo.map fun r => (MetaRecord.kept true r).nlink) = [none, some 2] := by decide

end Verif.C72
