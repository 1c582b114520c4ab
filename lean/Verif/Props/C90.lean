import Verif.Model.Inside
import Verif.Proof.Security
import Verif.Props.C70
import Mathlib.Order.MinMax

/-!
C90: a repository within the directory to be backed up is warned of.

Specification: `Within` (where paths lead; Spec/Security.lean), `resolve`. The model: `Verif.Inside.backupWarns`. What the warning does to the exit status is C70 (`warnings_exact`).
-/

namespace Verif.C90
open Verif.Inside Verif.Security Verif.Quoting Verif.Spec.Security Verif.Glob

theorem warns_iff (p q : Bytes) : warns true p q = true ↔ ∃ r, r ≠ [] ∧ q = p ++ 47 :: r := by
  unfold warns
  simp only [Bool.not_true, Bool.false_eq_true, if_false]
  split
  · rename_i h
    simp only [Bool.false_eq_true, false_iff]
    rintro ⟨r, hr, rfl⟩
    have := List.length_pos_iff.mpr hr
    simp only [List.length_append, List.length_cons] at h
    omega
  · rename_i h
    split
    · rename_i h2
      simp only [Bool.false_eq_true, false_iff]
      rintro ⟨r, hr, rfl⟩
      apply h2
      have : p ++ 47 :: r = (p ++ [47]) ++ r := by simp
      rw [this, List.take_left' (by simp)]
    · rename_i h2
      simp only [true_iff]
      refine ⟨q.drop (p.length + 1), ?_, ?_⟩
      · intro e
        have := congrArg List.length e
        simp at this
        omega
      · have h3 : q.take (p.length + 1) = p ++ [47] := by simpa using h2
        have := (List.take_append_drop (p.length + 1) q).symm
        rw [h3] at this
        simpa using this

/-- **C90 (no false alarm).** If there is a warning, and the repository's path doesn't go up with `..`, it is in the source indeed, wherever the program is started. -/
theorem warned_within (cwd : List Bytes) (s d : Bytes) (hup : [46, 46] ∉ split d) (h : backupWarns true s d = true) : Within cwd s d := by
  obtain ⟨r, _, h⟩ := (warns_iff _ _).mp h
  have hk : kept d = kept s ++ keep (split r) := by
    rw [← kept_normalize d, kept_eq, h, split_append, keep_append, ← kept_eq, kept_normalize]
  have hh : (s.head? = some 47) ↔ (d.head? = some 47) := by
    rw [← head_normalize s, ← head_normalize d, h]
    cases hn : normalize s with
    | nil => exact absurd hn (normalize_ne_nil s)
    | cons a b => simp
  have hs : [46, 46] ∉ split s := by
    intro hs
    have h1 := (up_normalize s).mpr hs
    apply hup
    rw [← up_normalize d, h, split_append]
    exact List.mem_append_left _ h1
  unfold Within
  rw [resolve_noup cwd hs, resolve_noup cwd hup, hk]
  by_cases hd : d.head? = some 47
  · rw [if_pos hd, if_pos (hh.mpr hd)]; simp
  · rw [if_neg hd, if_neg (fun x => hd (hh.mp x))]
    exact ⟨keep (split r), by simp⟩

theorem join_append {as bs : List Bytes} (ha : as ≠ []) (hb : bs ≠ []) : join (as ++ bs) = join as ++ 47 :: join bs := by
  induction as with
  | nil => exact absurd rfl ha
  | cons a as ih =>
      cases as with
      | nil => cases bs with
        | nil => exact absurd rfl hb
        | cons b bs => rfl
      | cons c as =>
          have := ih (by simp)
          simp only [List.cons_append] at this ⊢
          show a ++ 47 :: join (c :: (as ++ bs)) = (a ++ 47 :: join (c :: as)) ++ 47 :: join bs
          rw [this]
          simp

/-- what is in front of the names of a normalized path -/
def front (p : Bytes) : Bytes := if p.head? = some 47 then (if isUnc p then [47, 47] else [47]) else []

theorem normalize_eq (p : Bytes) (h : kept p ≠ []) : normalize p = front p ++ join (kept p) := by
  have hp : ∀ c ∈ kept p, Plain c := fun c hc => kept_plain hc
  have hne : join (kept p) ≠ [] := by
    intro e
    have := split_join (fun c hc => (hp c hc).2) h
    rw [e] at this
    have h1 : ([] : Bytes) ∈ kept p := by rw [← this]; simp [split]
    exact (hp _ h1).1 rfl
  unfold normalize front
  rw [pathJoin_nil hp, if_neg hne]
  split
  · split <;> rfl
  · rfl

/-- **C90 (when it's given).** If source and repository are both given as absolute paths or both as relative ones, the source isn't `/` or `.`, and no path goes up with `..`, there is a
warning exactly if the repository is in the source (wherever the program is started). -/
theorem warned_iff_partial (cwd : List Bytes) (s d : Bytes) (hs : [46, 46] ∉ split s) (hd : [46, 46] ∉ split d) (hk : kept s ≠ [])
    (hf : s.head? = some 47 ↔ d.head? = some 47) (hus : isUnc s = false) (hud : isUnc d = false) :
    backupWarns true s d = true ↔ Within cwd s d ∧ resolve cwd s ≠ resolve cwd d := by
  have hfr : front s = front d := by
    unfold front
    rw [hus, hud]
    by_cases h : s.head? = some 47
    · rw [if_pos h, if_pos (hf.mp h)]
    · rw [if_neg h, if_neg (fun x => h (hf.mpr x))]
  have hr : ∀ p : Bytes, [46, 46] ∉ split p → resolve cwd p = (if p.head? = some 47 then [] else cwd) ++ kept p := by
    intro p hp
    exact resolve_noup cwd hp
  have he : (if s.head? = some 47 then ([] : List Bytes) else cwd) = (if d.head? = some 47 then [] else cwd) := by
    by_cases h : s.head? = some 47
    · rw [if_pos h, if_pos (hf.mp h)]
    · rw [if_neg h, if_neg (fun x => h (hf.mpr x))]
  have hw : (Within cwd s d ∧ resolve cwd s ≠ resolve cwd d) ↔ ∃ c cs, kept d = kept s ++ c :: cs := by
    unfold Within
    rw [hr s hs, hr d hd, he]
    generalize (if d.head? = some 47 then ([] : List Bytes) else cwd) = b
    rw [List.prefix_append_right_inj]
    constructor
    · rintro ⟨⟨t, ht⟩, hne⟩
      cases t with
      | nil => exact absurd (by simpa using ht) (fun e => hne (by rw [e]))
      | cons c cs => exact ⟨c, cs, ht.symm⟩
    · rintro ⟨c, cs, h⟩
      rw [h]
      exact ⟨⟨_, rfl⟩, by simp⟩
  rw [hw]
  unfold backupWarns
  rw [warns_iff]
  constructor
  · rintro ⟨r, hrne, h⟩
    have hk' : kept d = kept s ++ keep (split r) := by
      rw [← kept_normalize d, kept_eq, h, split_append, keep_append, ← kept_eq, kept_normalize]
    cases hkr : keep (split r) with
    | nil =>
        exfalso
        rw [hkr, List.append_nil] at hk'
        rw [normalize_eq d (by rw [hk']; exact hk), normalize_eq s hk, hk', hfr] at h
        have := congrArg List.length h
        simp at this
    | cons c cs => exact ⟨c, cs, by rw [hk', hkr]⟩
  · rintro ⟨c, cs, h⟩
    refine ⟨join (c :: cs), ?_, ?_⟩
    · intro e
      have hp : ∀ x ∈ c :: cs, Plain x := fun x hx => kept_plain (p := d) (by rw [h]; exact List.mem_append_right _ hx)
      have := split_join (fun x hx => (hp x hx).2) (by simp)
      rw [e] at this
      have h1 : ([] : Bytes) ∈ c :: cs := by rw [← this]; simp [split]
      exact (hp _ h1).1 rfl
    · rw [normalize_eq d (by rw [h]; simp), normalize_eq s hk, h, join_append hk (by simp), hfr]
      simp

/-- **C90 (elsewhere).** There's no warning if source and repository are on different computers. -/
theorem remote_quiet (s d : Bytes) : backupWarns false s d = false := rfl

/-- **C90 (the exit status).** A finished backup which warned of this tells a warning by its exit status; and if nothing had to be regressed, only then. -/
theorem told (w : ExitStatus.World) (s d : Bytes) (b : Bool) (hw : w.inside = backupWarns b s d) (hd : ExitStatus.Done w .backup) :
    (backupWarns b s d = true → (ExitStatus.exitCode w .backup).warn = true) ∧
    (w.needsRegress = some false → ((ExitStatus.exitCode w .backup).warn = true ↔ backupWarns b s d = true)) := by
  have h := ((C70.warnings_exact w).1 hd).1
  rw [hw] at h
  exact ⟨fun hb => h.mpr (.inl hb), fun hn => by rw [h, hn]; simp⟩

/-! ### Examples, and what is wrong -/

def str (s : String) : Bytes := s.toUTF8.toList

example : backupWarns true (str "/home//joe/") (str "/home/joe/backup") = true ∧ [46, 46] ∉ split (str "/home/joe/backup") ∧ kept (str "/home//joe/") ≠ [] ∧
    isUnc (str "/home//joe/") = false ∧ backupWarns true (str "/home/joe") (str "/home/joel") = false ∧ backupWarns true (str "/home/joe") (str "/home/joe/") = false := by decide +kernel
example : ExitStatus.Done { C70.fine with inside := true } .backup := by
  refine C70.possible_done _ _ ⟨rfl, rfl, rfl, by decide, fun _ => ⟨rfl, rfl⟩, fun _ => ⟨rfl, rfl⟩, fun _ => rfl, fun _ => rfl⟩ ⟨.inl rfl, rfl, rfl⟩

/-- **The root directory (F137).** If everything is backed up, `rdiff-backup backup / /backup`, there's never a warning, though every repository on this computer is in the source: the
path is compared with `//`. -/
theorem root_missed (cwd : List Bytes) (d : Bytes) (hd : d.head? = some 47) (hu : isUnc d = false) : Within cwd [47] d ∧ backupWarns true [47] d = false := by
  refine ⟨?_, ?_⟩
  · unfold Within
    have : resolve cwd [47] = [] := by simp [resolve, split, walk]
    rw [this]
    exact List.nil_prefix
  · cases h : backupWarns true [47] d with
    | false => rfl
    | true =>
        exfalso
        obtain ⟨r, _, hr⟩ := (warns_iff _ _).mp h
        have h1 : normalize [47] = [47] := by decide +kernel
        rw [h1] at hr
        by_cases hk : kept d = []
        · have : normalize d = [47] := by
            unfold normalize
            rw [if_pos hd, hu, hk]; rfl
          rw [this] at hr
          simp at hr
        · rw [normalize_eq d hk] at hr
          unfold front at hr
          rw [if_pos hd, hu] at hr
          simp only [Bool.false_eq_true, if_false, List.cons_append, List.nil_append, List.cons.injEq, true_and] at hr
          have := join_head (fun c hc => kept_plain (p := d) hc)
          rw [hr] at this
          simp at this

/-- **The current directory (F137).** `rdiff-backup backup . repo` isn't warned of; nor is `rdiff-backup backup data /srv/data/repo` in `/srv`. -/
theorem current_missed : (backupWarns true (str ".") (str "repo") = false ∧ Within [str "srv"] (str ".") (str "repo")) ∧
    backupWarns true (str "data") (str "/srv/data/repo") = false ∧ Within [str "srv"] (str "data") (str "/srv/data/repo") := by
  refine ⟨⟨by decide +kernel, ⟨[str "repo"], by decide +kernel⟩⟩, by decide +kernel, ⟨[str "repo"], by decide +kernel⟩⟩

/-- **A false alarm.** `rdiff-backup backup /a /a/../b` is warned of. -/
theorem up_false_alarm : backupWarns true (str "/a") (str "/a/../b") = true ∧ ¬ Within [] (str "/a") (str "/a/../b") := by
  refine ⟨by decide +kernel, ?_⟩
  unfold Within
  rw [List.prefix_iff_eq_take]
  decide +kernel

end Verif.C90
