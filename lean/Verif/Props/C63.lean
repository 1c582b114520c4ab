import Verif.Proof.RepoDirs
import Verif.Proof.RepoReach
import Verif.Props.C01
import Verif.Props.C19
import Verif.Props.C11
import Mathlib.Data.List.Lex
/-
C63  What is restored when a file, a directory or an increment of a repository is given.
-/
namespace Verif.C63
open Verif.RepoDirs Verif.PathSpec Verif.IncName Verif.TimeStr Verif.C22

theorem dig_ne_slash {n : Nat} (h : n < 10) : dig n ≠ '/' := by
  have : ∀ n < 10, dig n ≠ '/' := by decide +kernel
  exact this n h

theorem pad2_no_slash {n : Nat} (h : n < 100) : '/' ∉ pad2 n := by
  simp only [pad2, List.mem_cons, List.not_mem_nil, or_false, not_or]
  exact ⟨fun e => dig_ne_slash (by omega) e.symm, fun e => dig_ne_slash (by omega) e.symm⟩

theorem pad4_no_slash {n : Nat} (h : n < 10000) : '/' ∉ pad4 n := by
  simp only [pad4, List.mem_cons, List.not_mem_nil, or_false, not_or]
  exact ⟨fun e => dig_ne_slash (by omega) e.symm, fun e => dig_ne_slash (by omega) e.symm,
    fun e => dig_ne_slash (by omega) e.symm, fun e => dig_ne_slash (by omega) e.symm⟩

theorem timestr_no_slash (compat : Bool) {off t : Int} (h : Readable off t) : '/' ∉ timetostring compat off t := by
  obtain ⟨hy, hm, hd, hh, hmi, hs⟩ := gmtime_ok _ h.lo h.hi
  have ho := h.zone
  have hsep : '/' ≠ sep compat := by cases compat <;> decide
  have htz : '/' ∉ getTzd compat off := by
    unfold getTzd
    split
    · decide
    · simp only [List.mem_cons, List.mem_append, not_or]
      refine ⟨by split <;> decide, pad2_no_slash (by omega), hsep, pad2_no_slash (by omega)⟩
  unfold timetostring
  simp only [List.mem_append, List.mem_cons, not_or]
  exact ⟨⟨⟨⟨⟨⟨pad4_no_slash (by omega), by decide, pad2_no_slash (by omega)⟩, by decide, pad2_no_slash (by omega)⟩, by decide,
    pad2_no_slash (by omega)⟩, hsep, pad2_no_slash (by omega)⟩, hsep, pad2_no_slash (by omega)⟩, htz⟩

theorem incName_append (compat : Bool) (off : Int) (a b : List Char) (t : Int) (ty : IncType) (gz : Bool) :
    incName compat off (a ++ b) t ty gz = a ++ incName compat off b t ty gz := by
  simp [incName, joinDot]

theorem incName_no_slash (compat : Bool) {off t : Int} {name : List Char} (ty : IncType) (gz : Bool) (h : Readable off t) (hn : '/' ∉ name) :
    '/' ∉ incName compat off name t ty gz := by
  have hty : '/' ∉ ty.str := by cases ty <;> decide
  have hg : '/' ∉ ".gz".toList := by decide
  have hts := timestr_no_slash compat h
  simp only [incName, joinDot, List.mem_append, List.mem_cons, not_or]
  refine ⟨hn, by decide, hts, by decide, ?_⟩
  split
  · rw [List.mem_append, not_or]; exact ⟨hty, hg⟩
  · exact hty

theorem below_snoc (p : List Char) (l : List (List Char)) (n : List Char) : below p (l ++ [n]) = below p l ++ '/' :: n := by
  simp [below]

theorem inc_below (compat : Bool) (off : Int) (p : List Char) (l : List (List Char)) (n : List Char) (t : Int) (ty : IncType) (gz : Bool) :
    incName compat off (below p (l ++ [n])) t ty gz = below p (l ++ [incName compat off n t ty gz]) := by
  have e : ∀ a b : List Char, a ++ '/' :: b = (a ++ ['/']) ++ b := by simp
  rw [below_snoc, below_snoc, e (below p l) n, incName_append, ← e]

theorem mem_split {n p : List Char} (h : n ∈ splitSlash p) : InPath n p := by
  obtain ⟨l, r, hl⟩ := List.append_of_mem h
  have hp : p = joinSlash (l ++ n :: r) := by rw [← hl, joinSlash_splitSlash]
  have hr : ∀ q, below q r = q ++ below [] r := by intro q; simp [below]
  have hb : below [] r = [] ∨ (below [] r).head? = some '/' := by
    cases r with
    | nil => left; simp
    | cons x r => right; simp [below]
  cases l with
  | nil =>
    refine ⟨[], below [] r, ?_, splitSlash_slash h, .inl rfl, hb⟩
    rw [hp, List.nil_append, joinSlash_cons, hr]; simp
  | cons x l =>
    refine ⟨below x l ++ ['/'], below [] r, ?_, splitSlash_slash h, .inr (by simp), hb⟩
    rw [hp, List.cons_append, joinSlash_cons]
    simp [below]

theorem idxOf_after {l r : List (List Char)} {n : List Char} (h : n ∉ l) : (l ++ n :: r).idxOf n = l.length := by
  rw [List.idxOf_append_of_notMem h]
  simp

/-- the increment of a file, and the place of its name in the path -/
theorem inc_text (compat : Bool) (off : Int) (base : List Char) (dirs : List (List Char)) (name : List Char) (t : Int) (ty : IncType) (gz : Bool) :
    incPath compat off base dirs name t ty gz =
      incName compat off (below base (dataName :: incsName :: dirs ++ [name])) t ty gz := by
  rw [inc_below]
  rfl

theorem parse_inc (compat : Bool) {off t : Int} (base : List Char) (dirs : List (List Char)) (name : List Char) (ty : IncType) (gz : Bool)
    (h : Readable off t) : parseIncName (incPath compat off base dirs name t ty gz) =
      some ⟨gz, t, ty, below base (dataName :: incsName :: dirs ++ [name])⟩ := by
  rw [inc_text]
  exact name_roundtrip_partial _ _ _ _ _ _ h

/-- An increment file stands for its file: if an increment `base/rdiff-backup-data/increments/dirs/name.TIME.TYPE` is given, then the repository is
`base`, and `dirs/name` is restored as of `TIME`; provided that nothing in `base` itself is called like the two directories. (Also if the
names of the file and of the directories are `increments`, `rdiff-backup-data`, or look like increments.) -/
theorem increment_found (listing : List Char → Option (List (List Char))) (compat : Bool) {off t : Int} {base name : List Char} {dirs : List (List Char)}
    (ty : IncType) (gz : Bool) (hd : ¬ InPath "rdiff-backup-data".toList base)
    (hi : ¬ InPath "increments".toList base) (hdirs : ∀ n ∈ dirs, IsName n) (hn : IsName name) (h : Readable off t) (flag : Bool) :
    resolveArgs listing (incPath compat off base dirs name t ty gz) [] flag [] = some (⟨base, dirs ++ [name], .inc⟩, .seconds t) := by
  have hp := parse_inc compat base dirs name ty gz h
  have hs : splitSlash (incPath compat off base dirs name t ty gz) =
      splitSlash base ++ dataName :: incsName :: (dirs ++ [incName compat off name t ty gz]) := by
    rw [incPath, split_below]
    · rfl
    · intro n hn'
      simp only [List.cons_append, List.mem_cons, List.mem_append, List.not_mem_nil, or_false] at hn'
      rcases hn' with rfl | rfl | hn' | rfl
      · decide
      · decide
      · exact (hdirs n hn').2.2
      · exact incName_no_slash compat ty gz h hn.2.2
  have hb : (splitSlash (below base (dataName :: incsName :: dirs ++ [name]))).getLast? = some name := by
    rw [split_below]
    · rw [show dataName :: incsName :: dirs ++ [name] = (dataName :: incsName :: dirs) ++ [name] from rfl, ← List.append_assoc,
        List.getLast?_append]
      rfl
    · intro n hn'
      simp only [List.cons_append, List.mem_cons, List.mem_append, List.not_mem_nil, or_false] at hn'
      rcases hn' with rfl | rfl | hn' | rfl
      · decide
      · decide
      · exact (hdirs n hn').2.2
      · exact hn.2.2
  have hd' : dataName ∉ splitSlash base := fun hm => hd (mem_split hm)
  have hi' : incsName ∉ splitSlash base ++ [dataName] := by
    rw [List.mem_append, not_or]
    exact ⟨fun hm => hi (mem_split hm), by decide⟩
  have hrd : repoDirs listing (incPath compat off base dirs name t ty gz) = some ⟨base, dirs ++ [name], .inc⟩ := by
    unfold repoDirs
    rw [hp]
    simp only [hs]
    have e1 : (splitSlash base ++ dataName :: incsName :: (dirs ++ [incName compat off name t ty gz])).idxOf dataName = (splitSlash base).length :=
      idxOf_after hd'
    have e2 : (splitSlash base ++ dataName :: incsName :: (dirs ++ [incName compat off name t ty gz])).idxOf incsName = (splitSlash base).length + 1 := by
      have := idxOf_after (r := dirs ++ [incName compat off name t ty gz]) hi'
      simpa using this
    have e3 : incPlace (splitSlash base ++ dataName :: incsName :: (dirs ++ [incName compat off name t ty gz]))
        (below base (dataName :: incsName :: dirs ++ [name])) = some ((splitSlash base).length + 1, dirs ++ [name]) := by
      unfold incPlace
      rw [if_pos (by simp), e2, hb]
      congr 2
      have : splitSlash base ++ dataName :: incsName :: (dirs ++ [incName compat off name t ty gz]) =
        (splitSlash base ++ [dataName, incsName]) ++ (dirs ++ [incName compat off name t ty gz]) := by simp
      rw [this, List.drop_left' (by simp)]
      simp
    unfold incRef
    rw [if_pos (by simp), e3, e1]
    simp only [if_true, List.take_left', joinSlash_splitSlash]
  unfold resolveArgs
  rw [hrd, hp]
  simp [restoreTime, checkTime, checkSelections]

/-- The same for the increments of the backed up directory itself. -/
theorem root_increment_found (listing : List Char → Option (List (List Char))) (compat : Bool) {off t : Int} {base : List Char}
    (ty : IncType) (gz : Bool) (hd : ¬ InPath "rdiff-backup-data".toList base) (hi : ¬ InPath "increments".toList base)
    (h : Readable off t) (flag : Bool) :
    resolveArgs listing (rootIncPath compat off base t ty gz) [] flag [] = some (⟨base, [], .inc⟩, .seconds t) := by
  have ht : rootIncPath compat off base t ty gz = incName compat off (below base [dataName, incsName]) t ty gz := by
    exact (inc_below compat off base [dataName] incsName t ty gz).symm
  have hp : parseIncName (rootIncPath compat off base t ty gz) = some ⟨gz, t, ty, below base [dataName, incsName]⟩ := by
    rw [ht]; exact name_roundtrip_partial _ _ _ _ _ _ h
  have hs : splitSlash (rootIncPath compat off base t ty gz) = splitSlash base ++ [dataName, incName compat off incsName t ty gz] := by
    rw [rootIncPath, split_below]
    · rfl
    · intro n hn'
      simp only [List.mem_cons, List.not_mem_nil, or_false] at hn'
      rcases hn' with rfl | rfl
      · decide
      · exact incName_no_slash compat ty gz h (by decide)
  have hd' : dataName ∉ splitSlash base := fun hm => hd (mem_split hm)
  have hne : incName compat off incsName t ty gz ≠ incsName := by
    intro e
    have := congrArg List.length e
    simp only [incName, joinDot, List.length_append, List.length_cons] at this
    omega
  have hpre : (incsName ++ ['.']).isPrefixOf (incName compat off incsName t ty gz) = true := by
    rw [List.isPrefixOf_iff_prefix]
    exact ⟨joinDot [timetostring compat off t, if gz then ty.str ++ ".gz".toList else ty.str], by simp [incName, joinDot]⟩
  have hi' : incsName ∉ splitSlash base ++ [dataName, incName compat off incsName t ty gz] := by
    simp only [List.mem_append, List.mem_cons, List.not_mem_nil, or_false, not_or]
    exact ⟨fun hm => hi (mem_split hm), by decide, fun e => hne e.symm⟩
  have hrd : repoDirs listing (rootIncPath compat off base t ty gz) = some ⟨base, [], .inc⟩ := by
    unfold repoDirs
    rw [hp]
    simp only [hs]
    have e1 : (splitSlash base ++ [dataName, incName compat off incsName t ty gz]).idxOf dataName = (splitSlash base).length := idxOf_after hd'
    have e3 : incPlace (splitSlash base ++ [dataName, incName compat off incsName t ty gz]) (below base [dataName, incsName]) =
        some ((splitSlash base).length + 1, []) := by
      unfold incPlace
      rw [if_neg (by simpa using hi'), if_pos (by simpa using hpre)]
      simp
    unfold incRef
    rw [if_pos (by simp), e3, e1]
    simp only [if_true, List.take_left', joinSlash_splitSlash]
  unfold resolveArgs
  rw [hrd, hp]
  simp [restoreTime, checkTime, checkSelections]

theorem isAlnum_iff (c : Char) : isAlnum c = true ↔ c ∈ "0123456789ABCDEFGHIJKLMNOPQRSTUVWXYZabcdefghijklmnopqrstuvwxyz".toList := by
  by_cases h : c.toNat < 128
  · have key : ∀ n : Fin 128, isAlnum (Char.ofNat n) = true ↔ Char.ofNat n ∈ "0123456789ABCDEFGHIJKLMNOPQRSTUVWXYZabcdefghijklmnopqrstuvwxyz".toList := by
      decide +kernel
    have := key ⟨c.toNat, h⟩
    simpa only [Char.ofNat_toNat] using this
  · constructor
    · intro h'
      simp only [isAlnum, Bool.or_eq_true, Bool.and_eq_true, decide_eq_true_eq] at h'
      omega
    · intro h'
      have key : ∀ d ∈ "0123456789ABCDEFGHIJKLMNOPQRSTUVWXYZabcdefghijklmnopqrstuvwxyz".toList, d.toNat < 128 := by decide +kernel
      exact absurd (key c h') h

/-- C63: of two slashes at the start of a path both are kept, as those of a network share, exactly if a letter or digit follows. -/
theorem network_share {c : Char} {n : List Char} {ns : List (List Char)} (hn : IsName (c :: n)) (hns : ∀ m ∈ ns, IsName m) :
    normalize ('/' :: '/' :: below (c :: n) ns) =
      if c ∈ "0123456789ABCDEFGHIJKLMNOPQRSTUVWXYZabcdefghijklmnopqrstuvwxyz".toList then '/' :: '/' :: below (c :: n) ns else '/' :: below (c :: n) ns := by
  have hall : ∀ m ∈ (c :: n) :: ns, IsName m := by simpa using ⟨hn, hns⟩
  have hsp : splitSlash ('/' :: '/' :: below (c :: n) ns) = [] :: [] :: (c :: n) :: ns := by
    have h1 := split_below (p := ['/']) (ns := (c :: n) :: ns) (fun m hm => (hall m hm).2.2)
    have h2 : below ['/'] ((c :: n) :: ns) = '/' :: '/' :: below (c :: n) ns := by simp [below]
    rw [h2] at h1
    rw [h1]
    rfl
  have hnp : joinSlash ((splitSlash ('/' :: '/' :: below (c :: n) ns)).filter fun x => x ≠ [] && x ≠ ['.']) = below (c :: n) ns := by
    rw [hsp, List.filter_cons_of_neg (by simp), List.filter_cons_of_neg (by simp), filter_names hall, joinSlash_cons]
  have he : below (c :: n) ns = c :: below n ns := by simp [below]
  unfold normalize
  simp only [hnp]
  rw [he]
  simp only [isAlnum_iff]

example : normalize "//server/share".toList = "//server/share".toList ∧ normalize "//-x/a".toList = "/-x/a".toList := by decide +kernel
example : normalize "//0/a".toList = "//0/a".toList := by
  have := network_share (c := '0') (n := []) (ns := ["a".toList]) (by decide) (by decide)
  rw [if_pos (by decide +kernel)] at this
  exact this

/-- A path in the repository stands for itself: if `base/names` is given, `base` contains `rdiff-backup-data`, none of the directories between does,
and the path doesn't look like an increment, then `names` in the repository `base` is restored, as of the given time, or as of now. (The path
itself need not exist in the mirror: it may be a file which has been deleted since.) -/
theorem path_found (listing : List Char → Option (List (List Char))) {base : List Char} {names : List (List Char)} (hb : IsPath base)
    (hn : ∀ n ∈ names, IsName n) (hd : ∃ l, listing base = some l ∧ "rdiff-backup-data".toList ∈ l)
    (hnone : ∀ ns, ns <+: names → ns ≠ [] → ∀ l, listing (below base ns) = some l → "rdiff-backup-data".toList ∉ l)
    (hinc : parseIncName (below base names) = none) (at' : List Char) :
    resolveArgs listing (below base names) at' false [] =
      some (⟨base, names, if names = [] then .base else .subpath⟩, .given (if at' = [] then "now".toList else at')) := by
  have hdata : hasData listing base = true := by
    obtain ⟨l, h1, h2⟩ := hd
    simp only [hasData, h1]
    exact List.elem_eq_true_of_mem h2
  have hnd : ∀ ns, ns <+: names → ns ≠ [] → hasData listing (below base ns) = false := by
    intro ns h1 h2
    unfold hasData
    cases h3 : listing (below base ns) with
    | none => rfl
    | some l =>
      have := hnone ns h1 h2 l h3
      simp only
      rw [← Bool.not_eq_true]
      exact fun h => this (List.mem_of_elem_eq_true h)
  have hrd : repoDirs listing (below base names) = some ⟨base, names, if names = [] then .base else .subpath⟩ := by
    unfold repoDirs
    rw [hinc]
    by_cases h0 : names = []
    · subst h0
      simp [hdata]
    · simp only [hnd names (List.prefix_refl _) h0, Bool.false_eq_true, if_false, h0]
      rw [split_below _ (fun n h => (hn n h).2.2)]
      have hlen : 1 ≤ (splitSlash base).length := by
        have := splitSlash_ne_nil base
        cases h : splitSlash base with
        | nil => exact absurd h this
        | cons a l => simp
      have := walkUp_found listing hb hdata (splitSlash base) [] names h0 hn (fun l h1 h2 _ => hnd l h1 h2)
        ((splitSlash base ++ names).length - 1) (by rw [List.length_append]; omega)
      simpa using this
  unfold resolveArgs
  rw [hrd]
  simp only
  have ht : (if names = [] then RefType.base else .subpath) ≠ .inc := by split <;> simp
  generalize (if names = [] then RefType.base else .subpath) = ty at ht ⊢
  unfold restoreTime checkTime checkSelections
  cases ty with
  | inc => exact absurd rfl ht
  | _ =>
    simp only [Bool.false_eq_true, if_false]
    by_cases ha : at' = []
    · subst ha; rfl
    · simp [ha]

theorem selectsByName_iff (s : String) : SelectsByName s ↔ s ∈ fileSelections := by
  constructor
  · rintro ⟨p, hp, q, hq, rfl⟩
    have : ∀ p ∈ ["include", "exclude"], ∀ q ∈ ["", "-filelist", "-filelist-stdin", "-globbing-filelist", "-globbing-filelist-stdin", "-regexp"],
      p ++ q ∈ fileSelections := by decide
    exact this p hp q hq
  · intro h
    have : ∀ s ∈ fileSelections, ∃ p ∈ ["include", "exclude"], ∃ q ∈ ["", "-filelist", "-filelist-stdin", "-globbing-filelist",
      "-globbing-filelist-stdin", "-regexp"], s = p ++ q := by decide
    exact this s h

/-- Options which contradict each other are refused: an increment and a time, `--increment` and no increment, a part of the repository and a
selection of files by name. Nothing else is; the time is that of the increment, else the one given, else now. -/
theorem time_rule (ref : Ref) (t : Int) (at' : List Char) (increment : Bool) (selections : List String) (w : When) :
    restoreTime ref t at' increment selections = some w ↔
      ¬ (ref.idx ≠ [] ∧ ∃ s ∈ selections, SelectsByName s) ∧
      ((ref.type = .inc ∧ at' = [] ∧ w = .seconds t) ∨
        (ref.type ≠ .inc ∧ increment = false ∧ w = .given (if at' = [] then "now".toList else at'))) := by
  have hsel : checkSelections ref.idx selections = true ↔ ¬ (ref.idx ≠ [] ∧ ∃ s ∈ selections, SelectsByName s) := by
    simp only [selectsByName_iff, checkSelections]
    cases selections with
    | nil => simp
    | cons s l =>
      simp only [ne_eq, reduceCtorEq, not_false_eq_true, decide_true, Bool.true_and, Bool.not_eq_true', Bool.and_eq_false_iff]
      by_cases h : ref.idx = []
      · simp [h]
      · simp [h, List.any_eq_false]
  unfold restoreTime
  have hnow : "now".toList ≠ [] := by decide
  by_cases hs : checkSelections ref.idx selections = true
  · simp only [hs, if_true]
    simp only [hsel.mp hs, not_false_eq_true, true_and]
    have hgiven : (if at' = [] then "now".toList else at') ≠ [] := by
      split
      · exact hnow
      · next h => exact h
    cases ht : ref.type <;> by_cases ha : at' = [] <;> cases increment <;>
      simp [checkTime, ha, eq_comm (a := w)]
  · simp only [hs, Bool.false_eq_true, if_false]
    have : ¬ ¬ (ref.idx ≠ [] ∧ ∃ s ∈ selections, SelectsByName s) := fun h => hs (hsel.mpr h)
    simp only [this, false_and, iff_false]
    split <;> simp

example : restoreTime ⟨"/r".toList, ["a".toList], .subpath⟩ 0 [] false ["exclude-device-files", "include-regexp"] = none := by
  cases h : restoreTime ⟨"/r".toList, ["a".toList], .subpath⟩ 0 [] false ["exclude-device-files", "include-regexp"] with
  | none => rfl
  | some w => exact absurd ⟨by simp, "include-regexp", by simp, "include", by simp, "-regexp", by simp, by decide⟩ ((time_rule _ _ _ _ _ _).mp h).1

/-- Conversely: what is found for a path (which doesn't look like an increment) contains `rdiff-backup-data`, the path is that of the index in it, and
no directory in between contains `rdiff-backup-data`: the nearest repository is taken. -/
theorem path_sound (listing : List Char → Option (List (List Char))) {p : List Char} (hp : IsPath p) (hinc : parseIncName p = none) {ref : Ref}
    (h : repoDirs listing p = some ref) :
    ref.type ≠ .inc ∧ (ref.type = .base ↔ ref.idx = []) ∧ (∃ l, listing ref.base = some l ∧ "rdiff-backup-data".toList ∈ l) ∧
      p = belowDir ref.base ref.idx ∧
      ∀ ns, ns <+: ref.idx → ns ≠ [] → ∀ l, listing (belowDir ref.base ns) = some l → "rdiff-backup-data".toList ∉ l := by
  have hyes : ∀ q, hasData listing q = true → ∃ l, listing q = some l ∧ "rdiff-backup-data".toList ∈ l := by
    intro q hq
    unfold hasData at hq
    cases hl : listing q with
    | none => rw [hl] at hq; cases hq
    | some l => rw [hl] at hq; exact ⟨l, rfl, List.mem_of_elem_eq_true hq⟩
  have hno : ∀ q, hasData listing q = false → ∀ l, listing q = some l → "rdiff-backup-data".toList ∉ l := by
    intro q hq l hl hm
    unfold hasData at hq
    rw [hl] at hq
    have : l.contains dataName = true := List.elem_eq_true_of_mem hm
    simp only [this] at hq
    cases hq
  unfold repoDirs at h
  rw [hinc] at h
  simp only at h
  split at h
  · next hd =>
    cases h
    refine ⟨by simp, by simp, hyes _ hd, by rw [belowDir_path hp]; simp, ?_⟩
    intro ns h1 h2
    exact absurd (List.prefix_nil.mp h1) h2
  · next hd =>
    obtain ⟨h1, mid, h2, h3, h4, h5, h6⟩ := walkUp_sound listing _ p [] hp (by simp) (le_refl _) h
    rw [List.append_nil] at h3
    refine ⟨by simp [h1], by simp [h1, h3, h2], hyes _ h5, by rw [h3]; exact h4, ?_⟩
    intro ns hns hne
    apply hno
    rw [h3] at hns
    by_cases he : ns = mid
    · rw [he, ← h4]; simpa using hd
    · exact h6 ns hns hne he

/-- A path which looks like an increment but isn't one of a repository is refused, even if there is a file of that name in the mirror (finding F65). -/
theorem lookalike_refused (listing : List Char → Option (List (List Char))) {p : List Char} {i : IncInfo} (h : parseIncName p = some i)
    (hd : ¬ InPath "rdiff-backup-data".toList p) : repoDirs listing p = none := by
  unfold repoDirs incRef
  rw [h]
  have : dataName ∉ splitSlash p := fun hm => hd (mem_split hm)
  simp [this]

/-- The increments of a repository below a directory called `increments` can't be restored by their names (finding F66). -/
theorem increments_above (listing : List Char → Option (List (List Char))) (compat : Bool) {off t : Int} {pre name : List Char} {dirs : List (List Char)}
    (ty : IncType) (gz : Bool) (hd : ¬ InPath "rdiff-backup-data".toList (below pre ["increments".toList]))
    (hdirs : ∀ n ∈ dirs, IsName n) (hn : IsName name) (h : Readable off t) {more : List (List Char)} (hm : ∀ n ∈ more, IsName n ∧ n ≠ "rdiff-backup-data".toList) :
    repoDirs listing (incPath compat off (below pre ("increments".toList :: more)) dirs name t ty gz) = none := by
  have hp := parse_inc compat (below pre ("increments".toList :: more)) dirs name ty gz h
  have hs : splitSlash (incPath compat off (below pre ("increments".toList :: more)) dirs name t ty gz) =
      (splitSlash pre ++ incsName :: more) ++ dataName :: incsName :: (dirs ++ [incName compat off name t ty gz]) := by
    rw [incPath, split_below, split_below]
    · rfl
    · intro n hn'
      rcases List.mem_cons.mp hn' with rfl | hn'
      · decide
      · exact (hm n hn').1.2.2
    · intro n hn'
      simp only [List.cons_append, List.mem_cons, List.mem_append, List.not_mem_nil, or_false] at hn'
      rcases hn' with rfl | rfl | hn' | rfl
      · decide
      · decide
      · exact (hdirs n hn').2.2
      · exact incName_no_slash compat ty gz h hn.2.2
  have hd' : dataName ∉ splitSlash pre ++ incsName :: more := by
    intro hmem
    rcases List.mem_append.mp hmem with h1 | h1
    · exact hd (mem_split (by rw [split_below _ (by simp only [List.mem_singleton]; rintro n rfl; decide)]; exact List.mem_append_left _ h1))
    · rcases List.mem_cons.mp h1 with h1 | h1
      · exact absurd h1 (by decide)
      · exact (hm _ h1).2 rfl
  have e1 := idxOf_after (r := incsName :: (dirs ++ [incName compat off name t ty gz])) hd'
  have hlt : ∀ r, ((splitSlash pre ++ incsName :: more) ++ r).idxOf incsName ≤ (splitSlash pre).length := by
    intro r
    rw [List.append_assoc, List.idxOf_append]
    split
    · next hmem => exact le_of_lt (List.idxOf_lt_length_iff.mpr hmem)
    · simp
  unfold repoDirs
  rw [hp]
  simp only [hs]
  unfold incRef incPlace
  rw [if_pos (by simp), if_pos (by simp), e1]
  simp only
  rw [if_neg]
  have := hlt (dataName :: incsName :: (dirs ++ [incName compat off name t ty gz]))
  simp only [List.length_append, List.length_cons] at this ⊢
  omega

/-! ### The contents -/

section
open Verif.Repo
variable {α A C S H Δ L : Type} [LinearOrder α] [DecidableEq A] [DecidableEq S] [DecidableEq H] [DecidableEq L]
variable {o : Ops A C H Δ L} {rsv : α → Prop} {st : State α A C S H Δ} {hist : Hist α A C S}
variable {enc : List Char → α} {repos : List Char → Option (State α A C S H Δ)} {listing : List Char → Option (List (List Char))}

theorem inc_time (h : Reach o rsv false st hist) {f : IncFile α A C S Δ} (hf : f ∈ st.incs) : ∃ T, (f.time, T) ∈ hist := by
  rcases (reach_inv h).1 rfl with ⟨rfl, a, rfl⟩ | ⟨P, T0, rest, L0, mrest, rfl, hs, hc⟩
  · cases hf
  have hi : f ∈ incsAt st f.idx := by
    simp only [incsAt, List.mem_filter]
    exact ⟨hf, by simp⟩
  rw [hc.incs] at hi
  obtain ⟨x, hx, he⟩ := List.mem_map.mp (hs.incs _ f hi).2.2
  exact ⟨x.2, by rw [← he]; exact List.mem_cons_of_mem _ hx⟩

/-- Restoring an increment: whatever the repository `base` has gone through, giving the increment of time `t` of a file or directory restores what the
backup of time `t` has recorded of it and of everything below it. -/
theorem by_increment (h : Reach o rsv false st hist) {base name : List Char} {dirs : List (List Char)} (hr : repos base = some st)
    (hd : ¬ InPath "rdiff-backup-data".toList base) (hi : ¬ InPath "increments".toList base)
    (hdirs : ∀ n ∈ dirs, IsName n) (hn : IsName name) {f : IncFile α A C S Δ} (hf : f ∈ st.incs) (hidx : f.idx = (dirs ++ [name]).map enc)
    (k : Clock) (compat : Bool) {off : Int} (hread : Readable off f.time) (ty : IncType) (gz flag : Bool) :
    ∃ T, (f.time, T) ∈ hist ∧
      restoreArg o enc repos k listing (incPath compat off base dirs name f.time ty gz) [] flag [] =
        some (T.filter fun x => f.idx.isPrefixOf x.1) := by
  obtain ⟨T, hT⟩ := inc_time h hf
  refine ⟨T, hT, ?_⟩
  unfold restoreArg
  rw [increment_found listing compat ty gz hd hi hdirs hn hread flag]
  simp only [hr, actionTime]
  have hrep := (reach_inv h).1 rfl
  obtain ⟨x, h1, h2⟩ := hrep.restore (List.ne_nil_of_mem hT) f.time ((dirs ++ [name]).map enc)
  rw [chosen_exact hrep.times hT] at h1
  cases h1
  rw [hidx]
  simpa using h2

theorem nodup_eraseDups (l : List Nat) : l.eraseDups.Nodup := by
  induction hn : l.length using Nat.strong_induction_on generalizing l with
  | _ n ih =>
    cases l with
    | nil => simp
    | cons a l =>
      rw [List.eraseDups_cons, List.nodup_cons]
      refine ⟨?_, ih _ ?_ _ rfl⟩
      · rw [List.mem_eraseDups, List.mem_filter]
        simp
      · subst hn
        exact Nat.lt_succ_of_le (List.length_filter_le _ _)

/-- the times of the backups -/
theorem sessionTimes_eq (h : Reach o rsv false st hist) (hne : hist ≠ []) (idx : List α) :
    ∃ mt, mirrorTime st = some (some mt) ∧ sessionTimes st mt idx = (hist.map Prod.fst).reverse := by
  rcases (reach_inv h).1 rfl with ⟨rfl, a, rfl⟩ | ⟨P, T0, rest, L0, mrest, rfl, hs, hc⟩
  · exact absurd rfl hne
  refine ⟨P.t0, by simp [mirrorTime, hc.marks], ?_⟩
  have hmem : ∀ x, x ∈ sessionTimes st P.t0 idx ↔ x ∈ ((P.t0, T0) :: rest).map Prod.fst := by
    intro x
    unfold sessionTimes
    rw [(Sort.sortBy_perm _ _).mem_iff, List.mem_eraseDups, ← incrementTimes_mem hs hc]
    unfold incrementTimes
    have hinc : ∀ i, x ∈ (st.incs.filter (fun f => f.idx = i)).map (·.time) → x ∈ ((P.t0, T0) :: rest).map Prod.fst := by
      intro i hx
      obtain ⟨f, hf, rfl⟩ := List.mem_map.mp hx
      have : f ∈ incsAt st i := hf
      rw [hc.incs] at this
      exact List.mem_cons_of_mem _ (hs.incs _ f this).2.2
    have hall : x ∈ ((P.t0, T0) :: rest).map Prod.fst → x ∈ st.metas.map (·.time) := by
      intro hx
      rw [← hs.mtimes] at hx
      obtain ⟨⟨c, hp, hr, -⟩, -, -⟩ := hc.metas
      rw [← hr.times] at hx
      exact ((hp.map _).mem_iff).mpr hx
    have hback := (incrementTimes_mem hs hc x).mp
    unfold incrementTimes at hback
    simp only [List.mem_append, List.mem_cons] at hback ⊢
    constructor
    · rintro ((h1 | h1) | h1)
      · exact .inl (.inl h1)
      · exact .inr (hall (hinc _ h1))
      · exact .inr h1
    · intro h1
      exact .inr (hall (hback h1))
  have hsorted : (sessionTimes st P.t0 idx).Pairwise (· < ·) := by
    have h2 : (sessionTimes st P.t0 idx).Pairwise (· ≤ ·) := by
      unfold sessionTimes
      refine (Sort.pairwise_sortBy (le := fun x y : Nat => decide (x ≤ y)) (by simp; intros; omega) (by simp; intros; omega) _).imp ?_
      intro a b hab; simpa using hab
    have h3 : (sessionTimes st P.t0 idx).Nodup := by
      unfold sessionTimes
      exact ((Sort.sortBy_perm _ _).nodup_iff).mpr (nodup_eraseDups _)
    exact (h2.and h3).imp fun h => by omega
  refine C12.sorted_unique hsorted ?_ (fun x => by rw [hmem, List.mem_reverse])
  rw [List.pairwise_reverse]
  exact hs.times

/-- Restoring as of the `n`-th newest backup, counted from 0 (or the oldest, if there are not so many). -/
theorem by_number (h : Reach o rsv false st hist) (hne : hist ≠ []) {base : List Char} {names : List (List Char)} (hr : repos base = some st)
    (hb : IsPath base) (hn : ∀ n ∈ names, IsName n) (hd : ∃ l, listing base = some l ∧ "rdiff-backup-data".toList ∈ l)
    (hnone : ∀ ns, ns <+: names → ns ≠ [] → ∀ l, listing (below base ns) = some l → "rdiff-backup-data".toList ∉ l)
    (hinc : parseIncName (below base names) = none) (k : Clock) {ds : List Char} (hds : ds ≠ []) (hdig : ∀ c ∈ ds, '0' ≤ c ∧ c ≤ '9') :
    ∃ x, hist[min (C20.decimal ds) (hist.length - 1)]? = some x ∧
      restoreArg o enc repos k listing (below base names) (ds ++ ['B']) false [] =
        some (x.2.filter fun y => (names.map enc).isPrefixOf y.1) := by
  obtain ⟨mt, hmt, hst⟩ := sessionTimes_eq h hne (names.map enc)
  have hlen : 0 < hist.length := List.length_pos_iff.mpr hne
  obtain ⟨x, hx⟩ : ∃ x, hist[min (C20.decimal ds) (hist.length - 1)]? = some x := ⟨_, List.getElem?_eq_getElem (by omega)⟩
  refine ⟨x, hx, ?_⟩
  have hmem : x ∈ hist := List.mem_of_getElem? hx
  have ht : parsedTime k st (names.map enc) (ds ++ ['B']) = some (x.1 : Int) := by
    unfold parsedTime
    rw [hmt]
    simp only [hst]
    rw [genstr_session _ _ _ _ _ hds (List.all_eq_true.2 fun c hc => (C20.isDig_iff c).2 (hdig c hc))]
    have hmap : (hist.map Prod.fst)[min (C20.decimal ds) (hist.length - 1)]? = some x.1 := by
      rw [List.getElem?_map, hx]; rfl
    show timeFromSession (C20.decimal ds) _ = _
    unfold timeFromSession
    simp only [List.length_map, List.length_reverse]
    split
    · next hle =>
      rw [List.getElem?_map, List.getElem?_reverse (by simpa using hlen)]
      rw [show min (C20.decimal ds) (hist.length - 1) = (hist.map Prod.fst).length - 1 - 0 by rw [List.length_map]; omega] at hmap
      rw [hmap]; rfl
    · next hle =>
      rw [List.getElem?_map, List.getElem?_reverse (by rw [List.length_map]; omega)]
      rw [show min (C20.decimal ds) (hist.length - 1) = (hist.map Prod.fst).length - 1 - (hist.length - C20.decimal ds - 1) by
        rw [List.length_map]; omega] at hmap
      rw [hmap]; rfl
  unfold restoreArg
  rw [path_found listing hb hn hd hnone hinc]
  simp only [show ds ++ ['B'] ≠ [] by simp, if_false, hr, actionTime, ht]
  have hrep := (reach_inv h).1 rfl
  obtain ⟨y, h1, h2⟩ := hrep.restore hne x.1 (names.map enc)
  rw [chosen_exact hrep.times (T := x.2) hmem] at h1
  cases h1
  simpa using h2

/-- Restoring without a time: the last backup (if the clock isn't behind it). -/
theorem by_path (h : Reach o rsv false st hist) {base : List Char} {names : List (List Char)} (hr : repos base = some st)
    (hb : IsPath base) (hn : ∀ n ∈ names, IsName n) (hd : ∃ l, listing base = some l ∧ "rdiff-backup-data".toList ∈ l)
    (hnone : ∀ ns, ns <+: names → ns ≠ [] → ∀ l, listing (below base ns) = some l → "rdiff-backup-data".toList ∉ l)
    (hinc : parseIncName (below base names) = none) (k : Clock) {t : Nat} {T : Files α (Node A C S)} {rest : Hist α A C S}
    (hh : hist = (t, T) :: rest) (hnow : t ≤ k.now) :
    restoreArg o enc repos k listing (below base names) [] false [] = some (T.filter fun y => (names.map enc).isPrefixOf y.1) := by
  subst hh
  obtain ⟨mt, hmt, -⟩ := sessionTimes_eq h (by simp) (names.map enc)
  unfold restoreArg
  rw [path_found listing hb hn hd hnone hinc]
  simp only [if_true, hr, actionTime, parsedTime, hmt]
  unfold genstrtotime
  simp only [if_true]
  obtain ⟨x, h1, h2⟩ := ((reach_inv h).1 rfl).restore (by simp) k.now (names.map enc)
  have : chosen ((t, T) :: rest) k.now = some (t, T) := by
    simp [chosen, hnow]
  rw [this] at h1
  cases h1
  simpa using h2
end

namespace Demo
open Verif.Repo Verif.Repo.Demo

/-- a repository `/b/r`, and the mirror of another one in it -/
def ls : List Char → Option (List (List Char)) := fun p =>
  if p = "/b/r".toList then some ["rdiff-backup-data".toList, "a".toList, "inner".toList]
  else if p = "/b/r/inner".toList then some ["rdiff-backup-data".toList, "c".toList]
  else if p = "/b/r/a".toList ∨ p = "/b".toList ∨ p = "/".toList then some []
  else none

theorem path_br : IsPath "/b/r".toList :=
  ⟨"b".toList, ["r".toList], by decide, by simp only [List.mem_singleton]; rintro m rfl; decide, .inl (by decide)⟩

theorem not_in {n p : List Char} (h : n ∉ splitSlash p) : ¬ InPath n p := by
  rintro ⟨a, b, rfl, hn, ha, hb⟩
  apply h
  have h1 : ∀ b, (b = [] ∨ b.head? = some '/') → n ∈ splitSlash (n ++ b) := by
    rintro b (rfl | hb)
    · rw [List.append_nil, splitSlash_plain hn]; simp
    · obtain ⟨c, rfl⟩ : ∃ c, b = '/' :: c := by
        cases b with
        | nil => cases hb
        | cons x b => exact ⟨b, by simp at hb; rw [hb]⟩
      rw [splitSlash_append, splitSlash_plain hn]; simp
  rcases ha with rfl | ha
  · simpa using h1 b hb
  · obtain ⟨c, rfl⟩ := List.getLast?_eq_some_iff.mp ha
    rw [List.append_assoc, List.append_assoc, List.singleton_append, splitSlash_append]
    exact List.mem_append_right _ (h1 b hb)

example : resolveArgs ls "/b/r/rdiff-backup-data/increments/a/increments.d.2002-04-26T11:22:01Z.diff.gz".toList [] false [] =
    some (⟨"/b/r".toList, ["a".toList, "increments.d".toList], .inc⟩, .seconds 1019820121) :=
  increment_found ls false (off := 0) (t := 1019820121) (base := "/b/r".toList) (name := "increments.d".toList) (dirs := ["a".toList]) .diff true
    (not_in (by decide +kernel)) (not_in (by decide +kernel)) (by simp only [List.mem_singleton]; rintro m rfl; decide) (by decide)
    ⟨by decide, by decide, by decide, .inl (by decide)⟩ false

example : resolveArgs ls "/b/r/rdiff-backup-data/increments.2002-04-26T11:22:01Z.dir".toList [] true [] =
    some (⟨"/b/r".toList, [], .inc⟩, .seconds 1019820121) :=
  root_increment_found ls false (off := 0) (t := 1019820121) (base := "/b/r".toList) .dir false
    (not_in (by decide +kernel)) (not_in (by decide +kernel)) ⟨by decide, by decide, by decide, .inl (by decide)⟩ true

theorem ax_names : ∀ n ∈ ["a".toList, "x".toList], IsName n := by
  intro n hn
  simp only [List.mem_cons, List.not_mem_nil, or_false] at hn
  rcases hn with rfl | rfl <;> decide

theorem ax_none : ∀ ns, ns <+: ["a".toList, "x".toList] → ns ≠ [] → ∀ l, ls (below "/b/r".toList ns) = some l → "rdiff-backup-data".toList ∉ l := by
  intro ns h1 h2 l hl
  have : ns = ["a".toList] ∨ ns = ["a".toList, "x".toList] := by
    rcases List.prefix_cons_iff.mp h1 with rfl | ⟨t, rfl, ht⟩
    · exact absurd rfl h2
    · rcases List.prefix_cons_iff.mp ht with rfl | ⟨t', rfl, ht'⟩
      · exact .inl rfl
      · rw [List.prefix_nil.mp ht']; exact .inr rfl
  rcases this with rfl | rfl
  · rw [show ls (below "/b/r".toList ["a".toList]) = some [] by decide +kernel] at hl
    cases hl; simp
  · rw [show ls (below "/b/r".toList ["a".toList, "x".toList]) = none by decide +kernel] at hl
    cases hl

/-- a file which is no longer in the mirror -/
example : resolveArgs ls "/b/r/a/x".toList "3D".toList false [] = some (⟨"/b/r".toList, ["a".toList, "x".toList], .subpath⟩, .given "3D".toList) :=
  path_found ls path_br ax_names ⟨_, rfl, by decide⟩ ax_none (by decide +kernel) _

/-- Finding F67: of a path in the mirror of a repository (which was itself backed up), the inner one is taken for the repository. -/
theorem nested : repoDirs ls "/b/r/inner/c".toList = some ⟨"/b/r/inner".toList, ["c".toList], .subpath⟩ := by decide +kernel

example : ∀ ref, repoDirs ls "/b/r/inner/c".toList = some ref → "/b/r/inner/c".toList = belowDir ref.base ref.idx := fun _ h =>
  (path_sound ls (isPath_below path_br (ns := ["inner".toList, "c".toList]) (by
    intro n hn; simp only [List.mem_cons, List.not_mem_nil, or_false] at hn; rcases hn with rfl | rfl <;> decide)) (by decide +kernel) h).2.2.2.1

/-- Finding F65 -/
example : repoDirs ls "/b/r/a/log.2002-04-26T11:22:01Z.data".toList = none :=
  lookalike_refused ls (i := ⟨false, 1019820121, .data, "/b/r/a/log".toList⟩) (by decide +kernel) (not_in (by decide +kernel))

/-- Finding F66 -/
example : repoDirs ls (incPath false 0 "/srv/increments/r".toList [] "f".toList 1019820121 .diff true) = none :=
  increments_above ls false (off := 0) (t := 1019820121) (pre := "/srv".toList) (name := "f".toList) (dirs := []) .diff true
    (not_in (by decide +kernel)) (by simp) (by decide) ⟨by decide, by decide, by decide, .inl (by decide)⟩ (more := ["r".toList])
    (by simp only [List.mem_singleton]; rintro m rfl; exact ⟨by decide, by decide⟩)

/-- Finding F66: below `rdiff-backup-data/increments` even another repository is taken. -/
theorem wrong_repository : repoDirs ls (incPath false 0 "/b/r/rdiff-backup-data/increments/s".toList [] "f".toList 1019820121 .diff true) =
    some ⟨"/b/r".toList, ["s".toList, "rdiff-backup-data".toList, "increments".toList, "f".toList], .inc⟩ := by decide +kernel

/-- Finding F68: where colons are quoted, an increment isn't recognised by the name which it has on the disk (`;058` for the colon): a file of the
repository's data directory is to be restored, as of now, of which no backup knows anything. -/
theorem quoted_time : resolveArgs ls "/b/r/rdiff-backup-data/increments/f.2002-04-26T11;05822;05801Z.diff".toList [] false [] =
    some (⟨"/b/r".toList, ["rdiff-backup-data".toList, "increments".toList, "f.2002-04-26T11;05822;05801Z.diff".toList], .subpath⟩,
      .given "now".toList) := by decide +kernel

/-- names by their lengths -/
def enc (n : List Char) : Nat := n.length
def repos (p : List Char) : Option (State Nat Nat Nat Nat Nat (Nat × Nat)) := if p = "/b/r".toList then some st3 else none
def clock : Clock := ⟨fun _ => none, false, 0, 1000⟩

/-- `/ccc/a` as of the second backup, from its increment -/
example : ∃ T, (20, T) ∈ [(30, src3), (20, src2), (10, src1)] ∧
    restoreArg ops enc repos clock ls (incPath false 0 "/b/r".toList ["ccc".toList] "a".toList 20 .diff true) [] false [] =
      some (T.filter fun x => [3, 1].isPrefixOf x.1) := by
  have hf : ∃ f ∈ st3.incs, f.idx = [3, 1] ∧ f.time = 20 := by decide +kernel
  obtain ⟨f, hf, h1, h2⟩ := hf
  have := by_increment (enc := enc) (repos := repos) (listing := ls) reach3 (base := "/b/r".toList) (name := "a".toList) (dirs := ["ccc".toList]) rfl
    (not_in (by decide +kernel)) (not_in (by decide +kernel)) (by simp only [List.mem_singleton]; rintro m rfl; decide) (by decide) hf (by rw [h1]; rfl)
    clock false (off := 0) (by rw [h2]; exact ⟨by decide, by decide, by decide, .inl (by decide)⟩) .diff true false
  rw [h1, h2] at this
  exact this

/-- the last but one backup of everything -/
example : restoreArg ops enc repos clock ls "/b/r".toList "1B".toList false [] = some src2 := by
  obtain ⟨x, h1, h2⟩ := by_number (enc := enc) (repos := repos) (listing := ls) reach3 (by simp) (base := "/b/r".toList) (names := []) rfl
    path_br (by simp) ⟨_, rfl, by decide⟩ (fun ns h1 h2 => absurd (List.prefix_nil.mp h1) h2) (by decide +kernel) clock (ds := "1".toList) (by decide)
    (by decide)
  rw [show (C20.decimal "1".toList) = 1 by decide +kernel] at h1
  cases h1
  exact h2.trans (by decide +kernel)

example : restoreArg ops enc repos clock ls "/b/r/a/x".toList [] false [] = some (src3.filter fun y => [1, 1].isPrefixOf y.1) :=
  by_path (enc := enc) (repos := repos) (listing := ls) reach3 (base := "/b/r".toList) (names := ["a".toList, "x".toList]) rfl
    path_br ax_names ⟨_, rfl, by decide⟩ ax_none (by decide +kernel) clock rfl (by decide)
end Demo

end Verif.C63
