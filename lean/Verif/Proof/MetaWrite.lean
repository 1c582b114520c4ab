import Verif.Model.MetaWrite
import Verif.Proof.Compress
/-
Files are read back by their names.
-/
namespace Verif.MetaWrite
open Verif.IncName Verif.Compress Verif.C22

theorem get_del (d : Dir) (p q : Name) : get (del d p) q = if q = p then none else get d q := by
  unfold get del
  split
  · next h =>
    subst h
    rw [Option.map_eq_none_iff, List.find?_eq_none]
    intro x hx
    simp only [List.mem_filter, Bool.not_eq_true', decide_eq_false_iff_not] at hx
    simpa using hx.2
  · next h =>
    congr 1
    induction d with
    | nil => rfl
    | cons x r ih =>
      by_cases hx : x.1 = p
      · have : ¬x.1 = q := fun e => h (e.symm.trans hx)
        simp [hx, ih, show ¬p = q from fun e => h e.symm]
      · by_cases hq : x.1 = q
        · simp [hq, h]
        · simp [hx, hq, ih]

theorem get_put (d : Dir) (p : Name) (v : Bytes) (q : Name) : get (put d p v) q = if q = p then some v else get d q := by
  have h1 : get (put d p v) q = if p = q then some v else get (del d p) q := by
    unfold get put del
    by_cases h : p = q <;> simp [h]
  by_cases h : q = p
  · rw [h1, if_pos h.symm, if_pos h]
  · rw [h1, if_neg (Ne.symm h), get_del, if_neg h, if_neg h]

theorem get_mv {d : Dir} {m n : Name} {b : Bytes} (h : get d m = some b) (hne : m ≠ n) (q : Name) :
    get (mv d m n) q = if q = n then some b else if q = m then none else get d q := by
  unfold mv
  simp only [h, if_neg hne, get_put, get_del]

theorem writeRecords_file (max : Nat) (buf rs : List Bytes) (n : Name) (c : Bool) (w : Bytes) :
    writeRecords max buf rs (.file n c w) = .file n c (w ++ (buf ++ rs).flatten) := by
  induction rs generalizing buf w with
  | nil =>
    simp only [writeRecords]
    split
    · rename_i h; rw [List.isEmpty_iff] at h; simp [h]
    · simp [Out.write]
  | cons r rs ih =>
    simp only [writeRecords]
    split
    · simp only [Out.write, ih]; simp
    · rw [ih]; simp

theorem writeRecords_maybe (max : Nat) (buf rs : List Bytes) (n : Name) :
    writeRecords max buf rs (.maybe n) = if (buf ++ rs).flatten = [] then .maybe n else .file (gzipped n) true (buf ++ rs).flatten := by
  induction rs generalizing buf with
  | nil =>
    simp only [writeRecords]
    split
    · rename_i h; rw [List.isEmpty_iff] at h; simp [h]
    · simp only [Out.write, List.append_nil, List.isEmpty_iff]
  | cons r rs ih =>
    simp only [writeRecords]
    split
    · simp only [Out.write]
      split
      · rename_i h
        rw [List.isEmpty_iff] at h
        rw [ih]
        have : (buf ++ r :: rs).flatten = (buf ++ [r]).flatten ++ rs.flatten := by simp
        rw [this, h]
        simp
      · rename_i h
        rw [List.isEmpty_iff] at h
        rw [writeRecords_file]
        have : (buf ++ r :: rs).flatten = (buf ++ [r]).flatten ++ rs.flatten := by simp
        rw [this, if_neg (fun e => h (List.append_eq_nil_iff.mp e).1)]
        simp
    · rw [ih]; simp

theorem gzipped_inc (compat : Bool) (off : Int) (pre : Name) (t : Int) (ty : IncType) : gzipped (incName compat off pre t ty false) = incName compat off pre t ty true := by
  simp [gzipped, incName, joinDot, List.append_assoc]

theorem read_of {C : Codec} {d : Dir} {n : Name} {i : IncInfo} {b : Bytes} (h1 : parseIncName n = some i) (h2 : get d n = some b) : readFile C d n = decode C i.compressed b := by
  simp [readFile, h1, h2]

/-- a metadata file -/
theorem writeMeta_spec {C : Codec} (hC : C.Lawful) {max : Nat} {compat : Bool} {off t : Int} (hr : Readable off t) {compression : Bool} {d : Dir} {pre : Name} {ty : IncType}
    {records : List Bytes} (h : get d (incName compat off pre t ty false) = none) :
    ∃ d' gz, writeMeta C max compat off compression d pre t ty records = some (d', incName compat off pre t ty gz) ∧ readFile C d' (incName compat off pre t ty gz) = some records.flatten ∧
      (gz = true ↔ compression = true ∧ records.flatten ≠ []) ∧ ∀ m, m ≠ incName compat off pre t ty gz → get d' m = get d m := by
  unfold writeMeta writeFile openWrite
  rw [if_pos h]
  have hp := fun gz => name_roundtrip_partial compat off pre t ty gz hr
  simp only [hp, Option.isNone_some, Bool.and_false, Bool.false_eq_true, if_false, Option.any_some, Bool.not_false, Bool.and_true]
  cases compression with
  | true =>
    simp only [if_true, openMaybe, if_pos h, Option.map_some, writeRecords_maybe, List.nil_append]
    by_cases e : records.flatten = []
    · rw [if_pos e]
      refine ⟨_, false, rfl, ?_, by simp [e], fun m hm => by simp [get_put, hm]⟩
      rw [read_of (hp false) (by simp only [get_put, if_true]; rfl), e]; rfl
    · rw [if_neg e, gzipped_inc]
      refine ⟨_, true, rfl, ?_, by simp [e], fun m hm => by simp [get_put, hm]⟩
      rw [read_of (hp true) (by simp only [get_put, if_true]; rfl)]
      exact decode_encode hC true _
  | false =>
    simp only [Bool.false_eq_true, if_false, if_pos h, Option.map_some, writeRecords_file, List.nil_append]
    refine ⟨_, false, rfl, ?_, by simp, fun m hm => by simp [get_put, hm]⟩
    rw [read_of (hp false) (by simp only [get_put, if_true]; rfl)]
    exact decode_encode hC false _

/-- recreated metadata, if they are compressed -/
theorem recreate_spec {C : Codec} {max : Nat} {compat : Bool} {off t : Int} (hr : Readable off t) {compression : Bool} {d : Dir} {tmp pre : Name} {records : List Bytes}
    (h1 : get d tmp = none) (h2 : get d (incName compat off pre t .snapshot true) = none) (h3 : tmp ≠ incName compat off pre t .snapshot true) :
    ∃ d', recreate C max compat off compression d tmp pre t records = some (d', incName compat off pre t .snapshot true) ∧
      readFile C d' (incName compat off pre t .snapshot true) = C.gunzip (encode C compression records.flatten) ∧
      ∀ m, m ≠ incName compat off pre t .snapshot true → get d' m = get d m := by
  unfold recreate writeFile openWrite
  simp only [Bool.false_and, Bool.and_false, Bool.false_eq_true, if_false, if_pos h1, Option.map_some, writeRecords_file, List.nil_append, Out.close]
  rw [if_pos (by rw [get_put, if_neg h3.symm]; exact h2)]
  refine ⟨_, rfl, ?_, ?_⟩
  · rw [read_of (name_roundtrip_partial compat off pre t .snapshot true hr) (b := encode C compression records.flatten) (by rw [get_mv (by rw [get_put, if_pos rfl]) h3, if_pos rfl])]
    rfl
  · intro m hm
    rw [get_mv (by rw [get_put, if_pos rfl]) h3, if_neg hm]
    split
    · rename_i e; rw [e, h1]
    · rename_i e; rw [get_put, if_neg e]

theorem foldl_write (lines : List Bytes) (n : Name) (c : Bool) (w : Bytes) : lines.foldl (fun o l => o.write l) (Out.file n c w) = .file n c (w ++ lines.flatten) := by
  induction lines generalizing w with
  | nil => simp
  | cons l r ih => rw [List.foldl_cons]; exact (ih _).trans (by simp)

theorem writeStats_spec {C : Codec} (hC : C.Lawful) {compat : Bool} {off t : Int} (hr : Readable off t) {compression : Bool} {d : Dir} {pre : Name} {lines : List Bytes}
    (h : get d (incName compat off pre t .data compression) = none) :
    ∃ d', writeStats C compat off compression d pre t lines = some (d', incName compat off pre t .data compression) ∧
      readFile C d' (incName compat off pre t .data compression) = some lines.flatten ∧ ∀ m, m ≠ incName compat off pre t .data compression → get d' m = get d m := by
  unfold writeStats
  rw [if_pos h, foldl_write]
  refine ⟨_, rfl, ?_, fun m hm => by simp [get_put, hm]⟩
  rw [read_of (name_roundtrip_partial compat off pre t .data compression hr) (by simp only [get_put, if_true]; rfl)]
  exact decode_encode hC _ _

theorem rewrite_spec {C : Codec} (hC : C.Lawful) {d : Dir} {n tmp : Name} {b : Bytes} (h : readFile C d n = some b) (hne : tmp ≠ n) (ht : get d tmp = none) (f : Bytes → Option Bytes) :
    ∃ d', rewrite C d n tmp f = some d' ∧ readFile C d' n = some ((f b).getD b) ∧ ∀ m, m ≠ n → get d' m = get d m := by
  cases hp : parseIncName n with
  | none => simp [readFile, hp] at h
  | some i =>
    unfold rewrite
    simp only [hp, h]
    cases f b with
    | none => exact ⟨d, rfl, h, fun _ _ => rfl⟩
    | some b' =>
      refine ⟨_, rfl, ?_, ?_⟩
      · rw [read_of hp (b := encode C i.compressed b') (by rw [get_mv (by rw [get_put, if_pos rfl]) hne, if_pos rfl])]
        exact decode_encode hC _ _
      · intro m hm
        rw [get_mv (by rw [get_put, if_pos rfl]) hne, if_neg hm]
        split
        · rename_i e; rw [e, ht]
        · rename_i e; rw [get_put, if_neg e]

end Verif.MetaWrite
