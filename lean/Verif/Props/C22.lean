import Verif.Proof.TimeStr
import Verif.Model.IncName
/-
C22 Increment file names are unambiguous.
-/
namespace Verif.IncName
open Verif.TimeStr

theorem splitDot_ne_nil (s : List Char) : splitDot s ≠ [] := by
  cases s with
  | nil => simp [splitDot]
  | cons c r =>
    rw [splitDot]; split
    · simp
    · split <;> simp

theorem splitDot_append_dot (a r : List Char) : splitDot (a ++ '.' :: r) = splitDot a ++ splitDot r := by
  induction a with
  | nil => simp [splitDot]
  | cons c a ih =>
    simp only [List.cons_append, splitDot, ih]
    split
    · simp
    · obtain ⟨x, xs, hx⟩ := List.exists_cons_of_ne_nil (splitDot_ne_nil a)
      simp [hx]

theorem splitDot_plain {s : List Char} (h : '.' ∉ s) : splitDot s = [s] := by
  induction s with
  | nil => rfl
  | cons c r ih =>
    simp only [List.mem_cons, not_or] at h
    rw [splitDot, if_neg (fun e => h.1 e.symm), ih h.2]

theorem joinDot_splitDot (s : List Char) : joinDot (splitDot s) = s := by
  induction s with
  | nil => rfl
  | cons c r ih =>
    obtain ⟨x, xs, hx⟩ := List.exists_cons_of_ne_nil (splitDot_ne_nil r)
    rw [splitDot]
    split
    · next h =>
      rw [hx] at ih ⊢
      simp [joinDot, ih, h]
    · rw [hx] at ih ⊢
      cases xs with
      | nil => simp only [joinDot] at ih ⊢; rw [ih]
      | cons y ys => simp only [joinDot, List.cons_append] at ih ⊢; rw [ih]

theorem parseType_str (ty : IncType) : parseType ty.str = some ty := by cases ty <;> decide

theorem str_plain (ty : IncType) : '.' ∉ ty.str ∧ ty.str ≠ "gz".toList := by cases ty <;> decide

theorem dig_ne_dot {n : Nat} (h : n < 10) : dig n ≠ '.' := by
  have : ∀ n < 10, dig n ≠ '.' := by decide +kernel
  exact this n h

theorem pad2_no_dot {n : Nat} (h : n < 100) : '.' ∉ pad2 n := by
  simp only [pad2, List.mem_cons, List.not_mem_nil, or_false, not_or]
  exact ⟨fun e => dig_ne_dot (by omega) e.symm, fun e => dig_ne_dot (by omega) e.symm⟩

theorem pad4_no_dot {n : Nat} (h : n < 10000) : '.' ∉ pad4 n := by
  simp only [pad4, List.mem_cons, List.not_mem_nil, or_false, not_or]
  exact ⟨fun e => dig_ne_dot (by omega) e.symm, fun e => dig_ne_dot (by omega) e.symm,
    fun e => dig_ne_dot (by omega) e.symm, fun e => dig_ne_dot (by omega) e.symm⟩

theorem timestr_no_dot (compat : Bool) (off t : Int) (h1 : -2177452800 ≤ t + 60 * off) (h2 : t + 60 * off < 4102444800)
    (ho : off.natAbs < 6000) : '.' ∉ timetostring compat off t := by
  obtain ⟨hy, hm, hd, hh, hmi, hs⟩ := gmtime_ok _ h1 h2
  have hsep : '.' ≠ sep compat := by cases compat <;> decide
  have htz : '.' ∉ getTzd compat off := by
    unfold getTzd
    split
    · decide
    · simp only [List.mem_cons, List.mem_append, not_or]
      refine ⟨by split <;> decide, pad2_no_dot (by omega), hsep, pad2_no_dot (by omega)⟩
  unfold timetostring
  simp only [List.mem_append, List.mem_cons, not_or]
  exact ⟨⟨⟨⟨⟨⟨pad4_no_dot (by omega), by decide, pad2_no_dot (by omega)⟩, by decide, pad2_no_dot (by omega)⟩, by decide,
    pad2_no_dot (by omega)⟩, hsep, pad2_no_dot (by omega)⟩, hsep, pad2_no_dot (by omega)⟩, htz⟩

theorem parse_incName (compat : Bool) (off : Int) (base : List Char) (t t' : Int) (ty : IncType) (gz : Bool)
    (h1 : -2177452800 ≤ t + 60 * off) (h2 : t + 60 * off < 4102444800) (ho : off.natAbs < 6000)
    (h : stringtotime (timetostring compat off t) = some t') :
    parseIncName (incName compat off base t ty gz) = some ⟨gz, t', ty, base⟩ := by
  have hsplit : splitDot (incName compat off base t ty gz) =
      splitDot base ++ [timetostring compat off t, ty.str] ++ (if gz then ["gz".toList] else []) := by
    unfold incName joinDot joinDot joinDot
    rw [splitDot_append_dot, splitDot_append_dot, splitDot_plain (timestr_no_dot compat off t h1 h2 ho)]
    cases gz with
    | false => simp [splitDot_plain (str_plain ty).1]
    | true =>
      simp only [if_true]
      rw [show ".gz".toList = '.' :: "gz".toList from rfl, splitDot_append_dot, splitDot_plain (str_plain ty).1]
      simp only [List.append_assoc]; rfl
  unfold parseIncName
  rw [hsplit]
  obtain ⟨x, xs, hx⟩ := List.exists_cons_of_ne_nil (show (splitDot base).reverse ≠ [] by simpa using splitDot_ne_nil base)
  have hb : joinDot (x :: xs).reverse = base := by rw [← hx, List.reverse_reverse]; exact joinDot_splitDot base
  cases gz with
  | true =>
    simp only [if_true, List.reverse_append, List.reverse_cons, List.reverse_nil, List.nil_append, List.cons_append, hx]
    rw [parseType_str, h]
    simp only [← List.reverse_cons, hb]
  | false =>
    simp only [Bool.false_eq_true, if_false, List.reverse_append, List.reverse_cons, List.reverse_nil, List.nil_append, List.cons_append, hx,
      (str_plain ty).2]
    rw [parseType_str, h]
    simp only [← List.reverse_cons, hb]

theorem base_prefix (compat : Bool) (off : Int) (base : List Char) (t : Int) (ty : IncType) (gz : Bool) :
    base.isPrefixOf (incName compat off base t ty gz) = true := by
  rw [List.isPrefixOf_iff_prefix]
  exact ⟨_, rfl⟩

end Verif.IncName

namespace Verif.C22
open Verif.TimeStr Verif.IncName

/-- time zone offsets (minutes) and times for which time strings are read back (C19): local time in 1901..2099 and the offset
not negative, or whole hours -/
structure Readable (off t : Int) : Prop where
  lo : -2177452800 ≤ t + 60 * off
  hi : t + 60 * off < 4102444800
  zone : off.natAbs < 6000
  whole : 0 ≤ off ∨ 60 ∣ off

theorem Readable.time {off t : Int} (h : Readable off t) (compat : Bool) : stringtotime (timetostring compat off t) = some t := by
  rw [stringtotime_timetostring compat off t h.lo h.hi h.zone]
  have := h.whole
  congr 1
  split <;> omega

/-- C22, except for the time zones of finding F1 (see `time_lost`): whatever the base name (it may itself contain dots or look like an increment), the name of an increment is recognised as
an increment, with exactly that base name, time, type and compression. -/
theorem name_roundtrip_partial (compat : Bool) (off : Int) (base : List Char) (t : Int) (ty : IncType) (gz : Bool) (h : Readable off t) :
    parseIncName (incName compat off base t ty gz) = some ⟨gz, t, ty, base⟩ :=
  parse_incName compat off base t t ty gz h.lo h.hi h.zone (h.time compat)

example : parseIncName (incName false 120 "a.b.2002-04-26T04:22:01Z.diff".toList 1019820121 .diff true) =
    some ⟨true, 1019820121, .diff, "a.b.2002-04-26T04:22:01Z.diff".toList⟩ :=
  name_roundtrip_partial _ _ _ _ _ _ ⟨by decide, by decide, by decide, .inl (by decide)⟩

example : incName false 0 "foo".toList 1019820121 .snapshot true = "foo.2002-04-26T11:22:01Z.snapshot.gz".toList := by decide +kernel

/-- C22 (except for those time zones): different (base, time, type, compression) never share a name, even when written under different time zones or notations. -/
theorem name_injective_partial {compat compat' : Bool} {off off' : Int} {base base' : List Char} {t t' : Int} {ty ty' : IncType} {gz gz' : Bool}
    (h : Readable off t) (h' : Readable off' t') (he : incName compat off base t ty gz = incName compat' off' base' t' ty' gz') :
    base = base' ∧ t = t' ∧ ty = ty' ∧ gz = gz' := by
  have h1 := name_roundtrip_partial compat off base t ty gz h
  rw [he, name_roundtrip_partial compat' off' base' t' ty' gz' h'] at h1
  simp only [Option.some.injEq, IncInfo.mk.injEq] at h1
  exact ⟨h1.2.2.2.symm, h1.2.1.symm, h1.2.2.1.symm, h1.1.symm⟩

example : incName false 120 "foo".toList 1019820121 .diff true ≠ incName true 60 "foo".toList 1019820121 .diff false :=
  fun h => absurd (name_injective_partial ⟨by decide, by decide, by decide, .inl (by decide)⟩ ⟨by decide, by decide, by decide, .inl (by decide)⟩ h).2.2.2
    (by decide)

/-- C22 for all time zones, if all names are written under the same UTC offset: names are not shared ... -/
theorem name_injective_one_zone {compat compat' : Bool} {off : Int} {base base' : List Char} {t t' : Int} {ty ty' : IncType} {gz gz' : Bool}
    (ho : off.natAbs < 6000) (h1 : -2177452800 ≤ t + 60 * off) (h2 : t + 60 * off < 4102444800)
    (h1' : -2177452800 ≤ t' + 60 * off) (h2' : t' + 60 * off < 4102444800)
    (he : incName compat off base t ty gz = incName compat' off base' t' ty' gz') :
    base = base' ∧ t = t' ∧ ty = ty' ∧ gz = gz' := by
  have hh := parse_incName compat off base t _ ty gz h1 h2 ho (stringtotime_timetostring compat off t h1 h2 ho)
  rw [he, parse_incName compat' off base' t' _ ty' gz' h1' h2' ho (stringtotime_timetostring compat' off t' h1' h2' ho)] at hh
  simp only [Option.some.injEq, IncInfo.mk.injEq] at hh
  refine ⟨hh.2.2.2.symm, ?_, hh.2.2.1.symm, hh.1.symm⟩
  have := hh.2.1
  split at this <;> omega

example : incName false (-210) "foo".toList 1019820121 .diff true ≠ incName true (-210) "foo".toList 1019820122 .diff true :=
  fun h => absurd (name_injective_one_zone (by decide) (by decide) (by decide) (by decide) (by decide) h).2.1 (by decide)

/-- ... and everything but the time is recovered. -/
theorem name_roundtrip_no_time (compat : Bool) (off : Int) (base : List Char) (t : Int) (ty : IncType) (gz : Bool)
    (ho : off.natAbs < 6000) (h1 : -2177452800 ≤ t + 60 * off) (h2 : t + 60 * off < 4102444800) :
    ∃ t', parseIncName (incName compat off base t ty gz) = some ⟨gz, t', ty, base⟩ :=
  ⟨_, parse_incName compat off base t _ ty gz h1 h2 ho (stringtotime_timetostring compat off t h1 h2 ho)⟩

example : ∃ t', parseIncName (incName false (-210) "a.b".toList 1019820121 .dir false) = some ⟨false, t', .dir, "a.b".toList⟩ :=
  name_roundtrip_no_time _ _ _ _ _ _ (by decide) (by decide) (by decide)

/-- Finding F1, the negation of C22: at UTC-03:30 an increment of time `t` is taken for one of an hour before. -/
theorem time_lost (compat : Bool) (base : List Char) (t : Int) (ty : IncType) (gz : Bool) (h1 : 0 ≤ t) (h2 : t < 4102444800) :
    parseIncName (incName compat (-210) base t ty gz) = some ⟨gz, t - 3600, ty, base⟩ :=
  parse_incName compat (-210) base t _ ty gz (by omega) (by omega) (by decide) (by
    rw [stringtotime_timetostring compat (-210) t (by omega) (by omega) (by decide), if_pos (by decide)]; rfl)

/-- C22: looking up the increments of `base` between two times finds an increment iff it belongs to `base` and to those times. -/
theorem lookup_exact (dir : List (List Char)) (base base' : List Char) (from' to' : Option Int) (compat : Bool) (off t : Int)
    (ty : IncType) (gz : Bool) (h : Readable off t) (hmem : incName compat off base' t ty gz ∈ dir) :
    incName compat off base' t ty gz ∈ incfilesList dir base from' to' ↔
      base' = base ∧ (∀ b, from' = some b → b ≤ t) ∧ (∀ e, to' = some e → t ≤ e) := by
  unfold incfilesList
  rw [List.mem_filter, name_roundtrip_partial compat off base' t ty gz h]
  simp only [hmem, true_and, Bool.and_eq_true, beq_iff_eq]
  constructor
  · rintro ⟨-, ⟨hb, h1⟩, h2⟩
    refine ⟨hb, ?_, ?_⟩
    · rintro b rfl; simpa using h1
    · rintro e rfl; simpa using h2
  · rintro ⟨rfl, h1, h2⟩
    refine ⟨base_prefix .., ⟨rfl, ?_⟩, ?_⟩
    · cases from' with
      | none => rfl
      | some b => simpa using h1 b rfl
    · cases to' with
      | none => rfl
      | some b => simpa using h2 b rfl

example : incName false 0 "a.b".toList 1019820121 .diff true ∉ incfilesList [incName false 0 "a.b".toList 1019820121 .diff true] "a".toList none none :=
  fun h => absurd ((lookup_exact _ _ _ none none _ _ _ _ _ ⟨by decide, by decide, by decide, .inl (by decide)⟩ List.mem_cons_self).1 h).1 (by decide)

/-- C22: only names which can be read as those of increments of `base` are found. -/
theorem lookup_sound {dir : List (List Char)} {base name : List Char} {from' to' : Option Int} (h : name ∈ incfilesList dir base from' to') :
    name ∈ dir ∧ ∃ gz t ty, parseIncName name = some ⟨gz, t, ty, base⟩ ∧ (∀ b, from' = some b → b ≤ t) ∧ (∀ e, to' = some e → t ≤ e) := by
  unfold incfilesList at h
  rw [List.mem_filter, Bool.and_eq_true] at h
  obtain ⟨hm, -, h⟩ := h
  refine ⟨hm, ?_⟩
  cases hp : parseIncName name with
  | none => rw [hp] at h; simp at h
  | some i =>
    rw [hp] at h
    simp only [Bool.and_eq_true, beq_iff_eq] at h
    obtain ⟨⟨rfl, h1⟩, h2⟩ := h
    refine ⟨i.compressed, i.time, i.type, rfl, ?_, ?_⟩
    · rintro b rfl; simpa using h1
    · rintro e rfl; simpa using h2

example : "ab".toList ∉ incfilesList ["ab".toList, "a".toList] "a".toList none none := by
  intro h
  obtain ⟨-, gz, t, ty, h, -⟩ := lookup_sound h
  rw [show parseIncName "ab".toList = none by decide +kernel] at h
  cases h

/-- Finding F14: files and directories are told from increments by their names only. The directory of increments of a source
directory which is itself named like an increment of `base` is listed among the increments of `base`. -/
theorem lookalike_listed (compat : Bool) (off : Int) (base : List Char) (t : Int) (ty : IncType) (gz : Bool) (h : Readable off t)
    (directory : List Char) (hd : directory = incName compat off base t ty gz) :
    incfilesList [directory] base none none = [directory] := by
  have := (lookup_exact [directory] base base none none compat off t ty gz h (by simp [hd])).2 ⟨rfl, by simp, by simp⟩
  unfold incfilesList at this ⊢
  rw [← hd] at this
  exact List.filter_eq_self.2 fun a ha => by rw [List.mem_singleton.1 ha]; exact (List.mem_filter.1 this).2

end Verif.C22
