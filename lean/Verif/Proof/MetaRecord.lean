import Verif.Spec.Metadata
import Verif.Proof.FlatFile
import Verif.Props.C15
/- Metadata records are read back. -/
namespace Verif.MetaRecord
open Verif.Quoting Verif.FlatFile

/-! ### numbers -/

def val (s : Bytes) : Nat := s.foldl (fun a c => 10 * a + (c.toNat - 48)) 0

theorem foldl_digits (s : Bytes) (a : Nat) :
    s.foldl (fun a c => 10 * a + (c.toNat - 48)) a = a * 10 ^ s.length + val s := by
  induction s generalizing a with
  | nil => simp [val]
  | cons c s ih =>
    unfold val
    simp only [List.foldl_cons]
    rw [ih, ih (10 * 0 + _)]
    simp [Nat.pow_succ]
    rw [Nat.add_mul]
    have : 10 * a * 10 ^ s.length = a * (10 ^ s.length * 10) := by
      rw [Nat.mul_comm 10 a, Nat.mul_assoc, Nat.mul_comm 10]
    omega

theorem digit_props : ∀ n < 10, isDigit (UInt8.ofNat (48 + n)) = true ∧ (UInt8.ofNat (48 + n)).toNat - 48 = n := by decide +kernel

theorem digitsAux_spec (fuel n : Nat) (acc : Bytes) (h : n < fuel) :
    ∃ ds, digitsAux fuel n acc = ds ++ acc ∧ ds ≠ [] ∧ ds.all isDigit = true ∧ val ds = n := by
  induction fuel generalizing n acc with
  | zero => omega
  | succ fuel ih =>
    rw [digitsAux]
    split
    · next hn =>
      refine ⟨[UInt8.ofNat (48 + n)], rfl, by simp, by simp only [List.all_cons, (digit_props n hn).1, List.all_nil, Bool.and_self], ?_⟩
      show 10 * 0 + _ = n
      rw [(digit_props n hn).2]; omega
    · next hn =>
      obtain ⟨ds, h1, h2, h3, h4⟩ := ih (n / 10) (UInt8.ofNat (48 + n % 10) :: acc) (by omega)
      have hd := digit_props (n % 10) (Nat.mod_lt _ (by decide))
      refine ⟨ds ++ [UInt8.ofNat (48 + n % 10)], by rw [h1]; simp, by simp, by simp only [List.all_append, h3, List.all_cons, hd.1, List.all_nil, Bool.and_self], ?_⟩
      unfold val
      rw [List.foldl_append]
      show 10 * (val ds) + _ = n
      rw [h4, hd.2]; omega

theorem fmtNat_spec (n : Nat) : fmtNat n ≠ [] ∧ (fmtNat n).all isDigit = true ∧ parseNat (fmtNat n) = some n := by
  obtain ⟨ds, h1, h2, h3, h4⟩ := digitsAux_spec (n + 1) n [] (Nat.lt_succ_self _)
  rw [List.append_nil] at h1
  have e : fmtNat n = ds := h1
  rw [e]
  refine ⟨h2, h3, ?_⟩
  unfold parseNat
  rw [if_pos ⟨h2, h3⟩]
  exact congrArg some h4

theorem digit_ne {c : UInt8} (h : isDigit c = true) : c ≠ 10 ∧ c ≠ 32 ∧ c ≠ 45 := by
  refine ⟨?_, ?_, ?_⟩ <;> rintro rfl <;> revert h <;> decide

theorem parse_fmtInt (x : Int) : parseInt (fmtInt x) = some x := by
  unfold fmtInt
  have ⟨h1, h2, h3⟩ := fmtNat_spec x.natAbs
  split
  · next h =>
    simp only [parseInt, h3]
    show some (-((x.natAbs : Nat) : Int)) = some x
    congr 1; omega
  · next h =>
    cases hh : fmtNat x.natAbs with
    | nil => exact absurd hh h1
    | cons c s =>
      have hc : c ≠ 45 := by
        rw [hh] at h2
        simp only [List.all_cons, Bool.and_eq_true] at h2
        exact (digit_ne h2.1).2.2
      unfold parseInt
      split
      · next heq => cases heq; exact absurd rfl hc
      · rw [← hh, h3]; show some ((x.natAbs : Nat) : Int) = some x; congr 1; omega

theorem fmtInt_value (x : Int) : Value (fmtInt x) ∧ (32 : UInt8) ∉ fmtInt x := by
  unfold fmtInt Value
  have ⟨h1, h2, h3⟩ := fmtNat_spec x.natAbs
  have hd : ∀ c ∈ fmtNat x.natAbs, c ≠ 10 ∧ c ≠ 32 ∧ c ≠ 45 := fun c hc => digit_ne (List.all_eq_true.1 h2 c hc)
  have n10 : (10 : UInt8) ∉ fmtNat x.natAbs := fun h => (hd _ h).1 rfl
  have n32 : (32 : UInt8) ∉ fmtNat x.natAbs := fun h => (hd _ h).2.1 rfl
  split
  · exact ⟨⟨by simp, by simp [n10]⟩, by simp [n32]⟩
  · exact ⟨⟨h1, n10⟩, n32⟩

/-! ### lines -/

theorem splitLines_line {l : Bytes} (h : nl ∉ l) (r : Bytes) : splitLines (l ++ nl :: r) = l :: splitLines r := by
  induction l with
  | nil => simp [splitLines]
  | cons c l ih =>
    simp only [List.mem_cons, not_or] at h
    rw [List.cons_append, splitLines, if_neg (fun e => h.1 e.symm), ih h.2]

theorem splitOn_cons {d : UInt8} {l : Bytes} (h : d ∉ l) (r : Bytes) : splitOn d (l ++ d :: r) = l :: splitOn d r := by
  induction l with
  | nil => simp [splitOn]
  | cons c l ih =>
    simp only [List.mem_cons, not_or] at h
    rw [List.cons_append, splitOn, if_neg (fun e => h.1 e.symm), ih h.2]

theorem splitOn_last {d : UInt8} {l : Bytes} (h : d ∉ l) : splitOn d l = [l] := by
  induction l with
  | nil => rfl
  | cons c l ih =>
    simp only [List.mem_cons, not_or] at h
    rw [splitOn, if_neg (fun e => h.1 e.symm), ih h.2]

/-- a field name -/
def FieldName (f : Bytes) : Prop := f ≠ [] ∧ f.all isAlnum = true

theorem takeWhile_field {f : Bytes} (h : f.all isAlnum = true) (d : Bytes) :
    (f ++ 32 :: d).takeWhile isAlnum = f ∧ (f ++ 32 :: d).dropWhile isAlnum = 32 :: d := by
  induction f with
  | nil => constructor <;> rfl
  | cons c f ih =>
    simp only [List.all_cons, Bool.and_eq_true] at h
    rw [List.cons_append, List.takeWhile_cons_of_pos h.1, List.dropWhile_cons_of_pos h.1, (ih h.2).1, (ih h.2).2]
    exact ⟨rfl, rfl⟩

theorem parseLine_field {f d : Bytes} (hf : FieldName f) (hd : d ≠ []) : parseLine (f ++ 32 :: d) = some (f, d) := by
  obtain ⟨c, cs, rfl⟩ := List.exists_cons_of_ne_nil hf.1
  obtain ⟨x, xs, rfl⟩ := List.exists_cons_of_ne_nil hd
  have hc : (c == 32) = false := by
    have := hf.2
    simp only [List.all_cons, Bool.and_eq_true] at this
    rw [Bool.eq_false_iff]
    intro h
    rw [beq_iff_eq.1 h] at this
    exact absurd this.1 (by decide)
  unfold parseLine
  have hd : ((c :: cs) ++ 32 :: x :: xs).dropWhile (· == 32) = (c :: cs) ++ 32 :: x :: xs := by
    rw [List.cons_append, List.dropWhile_cons_of_neg (by rw [hc]; simp)]
  simp only [hd, takeWhile_field hf.2]

theorem parseLine_indented {f d : Bytes} (hf : FieldName f) (hd : d ≠ []) : parseLine (32 :: 32 :: (f ++ 32 :: d)) = some (f, d) := by
  rw [← parseLine_field hf hd]
  unfold parseLine
  rfl

/-- the text of fields -/
def fieldsText (fs : List (Bytes × Bytes)) : Bytes := fs.flatMap fun f => line f.1 f.2

theorem field_no_nl {f : Bytes} (h : f.all isAlnum = true) : nl ∉ f := by
  intro hm
  have := List.all_eq_true.1 h _ hm
  exact absurd this (by decide)

theorem parse_fields (fs : List (Bytes × Bytes)) (h : ∀ f ∈ fs, FieldName f.1 ∧ Value f.2) :
    (splitLines (fieldsText fs)).filterMap parseLine = fs := by
  induction fs with
  | nil => decide
  | cons f fs ih =>
    obtain ⟨⟨h1, h2⟩, hv⟩ := h f List.mem_cons_self
    have hnl : nl ∉ (32 :: 32 :: (f.1 ++ 32 :: f.2) : Bytes) := by
      simp only [List.mem_cons, List.mem_append, not_or]
      exact ⟨by decide, by decide, field_no_nl h2, by decide, hv.2⟩
    have e : fieldsText (f :: fs) = (32 :: 32 :: (f.1 ++ 32 :: f.2)) ++ nl :: fieldsText fs := by
      simp [fieldsText, line]
    rw [e, splitLines_line hnl, List.filterMap_cons, parseLine_indented ⟨h1, h2⟩ hv.1]
    simp only
    rw [ih fun f hf => h f (List.mem_cons_of_mem _ hf)]

theorem parse_record {q : Bytes} (hq : Value q) (fs : List (Bytes × Bytes)) (h : ∀ f ∈ fs, FieldName f.1 ∧ Value f.2) :
    (splitLines (lit "File " ++ q ++ [nl] ++ fieldsText fs)).filterMap parseLine = (lit "File", q) :: fs := by
  have e : lit "File " ++ q ++ [nl] ++ fieldsText fs = (lit "File" ++ 32 :: q) ++ nl :: fieldsText fs := by
    rw [show lit "File " = lit "File" ++ [32] by decide]; simp
  have hf : FieldName (lit "File") := by unfold FieldName; decide
  rw [e, splitLines_line, List.filterMap_cons, parseLine_field hf hq.1]
  · simp only
    rw [parse_fields fs h]
  · simp only [List.mem_cons, List.mem_append, not_or]
    exact ⟨field_no_nl hf.2, by decide, hq.2⟩

/-! ### file names -/

theorem splitOn_join {index : List Bytes} (h : ∀ c ∈ index, (47 : UInt8) ∉ c) (hne : index ≠ []) :
    splitOn 47 (joinSlash index) = index := by
  induction index with
  | nil => exact absurd rfl hne
  | cons a r ih =>
    cases r with
    | nil => exact splitOn_last (h a List.mem_cons_self)
    | cons b r =>
      rw [joinSlash, splitOn_cons (h a List.mem_cons_self), ih (fun c hc => h c (List.mem_cons_of_mem _ hc)) (by simp)]

theorem joinSlash_ne_nil {index : List Bytes} (h : ∀ c ∈ index, c ≠ []) (hne : index ≠ []) : joinSlash index ≠ [] := by
  cases index with
  | nil => exact absurd rfl hne
  | cons a r =>
    cases r with
    | nil => exact h a List.mem_cons_self
    | cons b r => simp [joinSlash]

theorem quotePath_ne_nil {p : Bytes} (h : p ≠ []) : quotePath p ≠ [] := by
  cases p with
  | nil => exact absurd rfl h
  | cons c p =>
    rw [quotePath]
    split
    · simp
    · split <;> simp

theorem quotePath_dot {p : Bytes} (h : quotePath p = [46]) : p = [46] := by
  have := C15.unquote_quote p
  rw [h] at this
  rw [← this]; rfl

theorem filename_roundtrip {r : Rorp} (h : Storable r) :
    Value (quotePath (indexPath r.index)) ∧ filenameToIndex (quotePath (indexPath r.index)) = r.index := by
  unfold indexPath
  by_cases he : r.index = []
  · rw [if_pos he, he]; constructor
    · unfold Value; decide
    · decide
  · rw [if_neg he]
    have hj := joinSlash_ne_nil (fun c hc => (h.comps c hc).1) he
    refine ⟨⟨quotePath_ne_nil hj, C15.quote_no_newline _⟩, ?_⟩
    unfold filenameToIndex
    rw [if_neg, C15.unquote_quote, splitOn_join (fun c hc => (h.comps c hc).2) he]
    intro hd
    have hd := quotePath_dot hd
    have := splitOn_join (fun c hc => (h.comps c hc).2) he
    rw [hd] at this
    exact h.notDot this.symm

/-! ### fields -/

abbrev PS := Option (List Bytes) × Rorp

section set
variable (i : Option (List Bytes)) (r : Rorp)
theorem set_Size (x : Int) : setField (i, r) (lit "Size", fmtInt x) = some (i, { r with size := some x }) := by
  simp only [setField]; rw [if_pos trivial, parse_fmtInt]; rfl
theorem set_NumHardLinks (x : Int) : setField (i, r) (lit "NumHardLinks", fmtInt x) = some (i, { r with nlink := some x }) := by
  simp only [setField]; rw [if_neg (by decide), if_pos trivial, parse_fmtInt]; rfl
theorem set_Inode (x : Int) : setField (i, r) (lit "Inode", fmtInt x) = some (i, { r with inode := some x }) := by
  simp only [setField]; rw [if_neg (by decide), if_neg (by decide), if_pos trivial, parse_fmtInt]; rfl
theorem set_DeviceLoc (x : Int) : setField (i, r) (lit "DeviceLoc", fmtInt x) = some (i, { r with devloc := some x }) := by
  simp only [setField]; rw [if_neg (by decide), if_neg (by decide), if_neg (by decide), if_pos trivial, parse_fmtInt]; rfl
theorem set_ModTime (x : Int) : setField (i, r) (lit "ModTime", fmtInt x) = some (i, { r with mtime := some x }) := by
  simp only [setField]; iterate 4 rw [if_neg (by decide)]
  rw [if_pos trivial, parse_fmtInt]; rfl
theorem set_Uid (x : Int) : setField (i, r) (lit "Uid", fmtInt x) = some (i, { r with uid := some x }) := by
  simp only [setField]; iterate 5 rw [if_neg (by decide)]
  rw [if_pos trivial, parse_fmtInt]; rfl
theorem set_Gid (x : Int) : setField (i, r) (lit "Gid", fmtInt x) = some (i, { r with gid := some x }) := by
  simp only [setField]; iterate 6 rw [if_neg (by decide)]
  rw [if_pos trivial, parse_fmtInt]; rfl
theorem set_Permissions (x : Int) : setField (i, r) (lit "Permissions", fmtInt x) = some (i, { r with perms := some x }) := by
  simp only [setField]; iterate 7 rw [if_neg (by decide)]
  rw [if_pos trivial, parse_fmtInt]; rfl
theorem set_Type (d : Bytes) : setField (i, r) (lit "Type", d) = some (i, { r with type := (decodeName d).bind FType.ofStr }) := by
  simp only [setField]; iterate 8 rw [if_neg (by decide)]
  rw [if_pos trivial]
theorem set_SHA1 (d : Bytes) : setField (i, r) (lit "SHA1Digest", d) = some (i, { r with sha1 := decodeName d }) := by
  simp only [setField]; iterate 9 rw [if_neg (by decide)]
  rw [if_pos trivial]
theorem set_Uname (d : Bytes) : setField (i, r) (lit "Uname", d) = some (i, { r with uname := some (decodeName d) }) := by
  simp only [setField]; iterate 10 rw [if_neg (by decide)]
  rw [if_pos trivial]
theorem set_Gname (d : Bytes) : setField (i, r) (lit "Gname", d) = some (i, { r with gname := some (decodeName d) }) := by
  simp only [setField]; iterate 11 rw [if_neg (by decide)]
  rw [if_pos trivial]
theorem set_File (d : Bytes) : setField (i, r) (lit "File", d) = some (some (filenameToIndex d), r) := by
  simp only [setField]; iterate 12 rw [if_neg (by decide)]
  rw [if_pos trivial]
theorem set_SymData (d : Bytes) : setField (i, r) (lit "SymData", d) = some (i, { r with linkname := some (unquotePath d) }) := by
  simp only [setField]; iterate 13 rw [if_neg (by decide)]
  rw [if_pos trivial]
theorem set_DeviceNum {c : Bytes} (hc : (32 : UInt8) ∉ c) (ma mi : Int) :
    setField (i, r) (lit "DeviceNum", c ++ 32 :: fmtInt ma ++ 32 :: fmtInt mi) = some (i, { r with devnums := some (c, ma, mi) }) := by
  simp only [setField]; iterate 14 rw [if_neg (by decide)]
  rw [if_pos trivial, List.append_assoc, List.cons_append, splitOn_cons hc, splitOn_cons (fmtInt_value ma).2, splitOn_last (fmtInt_value mi).2]
  simp only [parse_fmtInt]
theorem set_AltMirror (d : Bytes) : setField (i, r) (lit "AlternateMirrorName", d) = some (i, { r with mirrorname := some d }) := by
  simp only [setField]; iterate 15 rw [if_neg (by decide)]
  rw [if_pos trivial]
theorem set_AltInc (d : Bytes) : setField (i, r) (lit "AlternateIncrementName", d) = some (i, { r with incname := some d }) := by
  simp only [setField]; iterate 16 rw [if_neg (by decide)]
  rw [if_pos trivial]
end set

theorem decode_type (ty : FType) : (decodeName ty.str).bind FType.ofStr = some ty := by cases ty <;> decide

theorem decode_name (n : Option (Option Bytes)) : decodeName (nameOr n) = keptName n := by
  rcases n with _ | _ | s
  · rfl
  · rfl
  · simp only [nameOr, keptName]
    split
    · next h => subst h; rfl
    · next h =>
      unfold decodeName
      by_cases h1 : s = [58]
      · subst h1; rfl
      · by_cases h2 : s = lit "None"
        · subst h2; rfl
        · rw [if_neg (by simp [h1, h2]), if_neg]
          rintro (h' | h' | h')
          exacts [h h', h1 h', h2 h']

theorem nameOr_value {n : Option (Option Bytes)} (h : ∀ s, n = some (some s) → (10 : UInt8) ∉ s) : Value (nameOr n) := by
  rcases n with _ | _ | s
  · unfold Value; decide
  · unfold Value; decide
  · simp only [nameOr]
    split
    · unfold Value; decide
    · next hs => exact ⟨hs, h s rfl⟩

/-- the fields of a record (without File) -/
def fieldList (hardlinks : Bool) (r : Rorp) (ty : FType) : List (Bytes × Bytes) :=
  [(lit "Type", ty.str)] ++
  (match ty with
   | .reg => [(lit "Size", fmtInt (r.size.getD 0))] ++
      (if hardlinks && decide (1 < r.nlink.getD 1) then
        [(lit "NumHardLinks", fmtInt (r.nlink.getD 1)), (lit "Inode", fmtInt (r.inode.getD 0)), (lit "DeviceLoc", fmtInt (r.devloc.getD 0))] else []) ++
      (match r.sha1 with | some d => [(lit "SHA1Digest", d)] | none => [])
   | .dir | .sock | .fifo => []
   | .sym => [(lit "SymData", quotePath (r.linkname.getD []))]
   | .dev => [(lit "DeviceNum", (r.devnums.getD ([], 0, 0)).1 ++ 32 :: fmtInt (r.devnums.getD ([], 0, 0)).2.1 ++
      32 :: fmtInt (r.devnums.getD ([], 0, 0)).2.2)]) ++
  (if ty ≠ .sym ∧ ty ≠ .dev then [(lit "ModTime", fmtInt (r.mtime.getD 0))] else []) ++
  [(lit "Uid", fmtInt (r.uid.getD 0)), (lit "Uname", nameOr r.uname), (lit "Gid", fmtInt (r.gid.getD 0)), (lit "Gname", nameOr r.gname),
   (lit "Permissions", fmtInt (r.perms.getD 0))] ++
  (match r.mirrorname, r.incname with
   | some m, _ => [(lit "AlternateMirrorName", m)]
   | none, some i => [(lit "AlternateIncrementName", i)]
   | none, none => [])

theorem record_eq (hardlinks : Bool) {r : Rorp} (h : Storable r) {ty : FType} (hty : r.type = some ty) :
    objectToRecord hardlinks r = some (lit "File " ++ quotePath (indexPath r.index) ++ [nl] ++ fieldsText (fieldList hardlinks r ty)) := by
  obtain ⟨uid, huid⟩ := Option.ne_none_iff_exists'.1 (h.owner (by rw [hty]; simp)).1
  obtain ⟨gid, hgid⟩ := Option.ne_none_iff_exists'.1 (h.owner (by rw [hty]; simp)).2
  unfold objectToRecord fieldList
  simp only [hty, huid, hgid]
  have hft : ∀ a b, fieldsText (a ++ b) = fieldsText a ++ fieldsText b := by intro a b; simp [fieldsText]
  simp only [hft]
  cases ty with
  | reg =>
    obtain ⟨size, hsize⟩ := Option.ne_none_iff_exists'.1 (h.size hty)
    obtain ⟨mtime, hmtime⟩ := Option.ne_none_iff_exists'.1 (h.mtime _ hty (by simp) (by simp))
    simp only [hsize, hmtime]
    by_cases hl : (hardlinks && decide (1 < r.nlink.getD 1)) = true
    · have hl' : 1 < r.nlink.getD 1 := by simpa using (Bool.and_eq_true_iff.1 hl).2
      obtain ⟨inode, hinode⟩ := Option.ne_none_iff_exists'.1 (h.inode hty hl').1
      obtain ⟨devloc, hdevloc⟩ := Option.ne_none_iff_exists'.1 (h.inode hty hl').2
      cases r.mirrorname <;> cases r.incname <;> cases r.sha1 <;> simp [hl, hinode, hdevloc, fieldsText, intLine, List.append_assoc]
    · cases r.mirrorname <;> cases r.incname <;> cases r.sha1 <;> simp [hl, fieldsText, intLine, List.append_assoc]
  | dir | sock | fifo =>
    obtain ⟨mtime, hmtime⟩ := Option.ne_none_iff_exists'.1 (h.mtime _ hty (by simp) (by simp))
    cases r.mirrorname <;> cases r.incname <;> simp [hmtime, fieldsText, intLine, List.append_assoc]
  | sym =>
    obtain ⟨l, hl, -⟩ := h.linkname hty
    cases r.mirrorname <;> cases r.incname <;> simp [hl, fieldsText, intLine, List.append_assoc]
  | dev =>
    obtain ⟨c, -, -, ma, mi, hd⟩ := h.devnums hty
    cases r.mirrorname <;> cases r.incname <;> simp [hd, fieldsText, intLine, List.append_assoc]

theorem fieldName_lit : FieldName (lit "Type") ∧ FieldName (lit "Size") ∧ FieldName (lit "NumHardLinks") ∧ FieldName (lit "Inode") ∧
    FieldName (lit "DeviceLoc") ∧ FieldName (lit "SHA1Digest") ∧ FieldName (lit "SymData") ∧ FieldName (lit "DeviceNum") ∧
    FieldName (lit "ModTime") ∧ FieldName (lit "Uid") ∧ FieldName (lit "Uname") ∧ FieldName (lit "Gid") ∧ FieldName (lit "Gname") ∧
    FieldName (lit "Permissions") ∧ FieldName (lit "AlternateMirrorName") ∧ FieldName (lit "AlternateIncrementName") := by
  unfold FieldName; decide

theorem fields_ok (hardlinks : Bool) {r : Rorp} (h : Storable r) {ty : FType} (hty : r.type = some ty) :
    ∀ f ∈ fieldList hardlinks r ty, FieldName f.1 ∧ Value f.2 := by
  obtain ⟨n1, n2, n3, n4, n5, n6, n7, n8, n9, n10, n11, n12, n13, n14, n15, n16⟩ := fieldName_lit
  have hint : ∀ x, Value (fmtInt x) := fun x => (fmtInt_value x).1
  unfold fieldList
  intro f hf
  simp only [List.mem_append] at hf
  rcases hf with (((hf | hf) | hf) | hf) | hf
  · rw [List.mem_singleton.1 hf]
    exact ⟨n1, by unfold Value; cases ty <;> decide⟩
  · cases ty with
    | reg =>
      simp only [List.mem_append] at hf
      rcases hf with (hf | hf) | hf
      · rw [List.mem_singleton.1 hf]; exact ⟨n2, hint _⟩
      · split at hf
        · simp only [List.mem_cons, List.not_mem_nil, or_false] at hf
          rcases hf with rfl | rfl | rfl
          exacts [⟨n3, hint _⟩, ⟨n4, hint _⟩, ⟨n5, hint _⟩]
        · simp at hf
      · split at hf
        · next d hd => rw [List.mem_singleton.1 hf]; exact ⟨n6, (h.sha1 d hd).1⟩
        · simp at hf
    | dir | sock | fifo => simp at hf
    | sym =>
      rw [List.mem_singleton.1 hf]
      obtain ⟨l, hl, hne⟩ := h.linkname hty
      refine ⟨n7, ?_⟩
      simp only [hl, Option.getD_some]
      exact ⟨quotePath_ne_nil hne, C15.quote_no_newline _⟩
    | dev =>
      rw [List.mem_singleton.1 hf]
      obtain ⟨c, hc, -, ma, mi, hd⟩ := h.devnums hty
      refine ⟨n8, ?_⟩
      simp only [hd, Option.getD_some]
      refine ⟨by simp, ?_⟩
      simp only [List.mem_append, List.mem_cons, not_or]
      exact ⟨⟨hc.2, by decide, (fmtInt_value _).1.2⟩, by decide, (fmtInt_value _).1.2⟩
  · split at hf
    · rw [List.mem_singleton.1 hf]; exact ⟨n9, hint _⟩
    · simp at hf
  · simp only [List.mem_cons, List.not_mem_nil, or_false] at hf
    rcases hf with rfl | rfl | rfl | rfl | rfl
    exacts [⟨n10, hint _⟩, ⟨n11, nameOr_value h.uname⟩, ⟨n12, hint _⟩, ⟨n13, nameOr_value h.gname⟩, ⟨n14, hint _⟩]
  · split at hf
    · next hm => rw [List.mem_singleton.1 hf]; exact ⟨n15, h.mirrorname _ hm⟩
    · next hi => rw [List.mem_singleton.1 hf]; exact ⟨n16, h.incname _ hi⟩
    · simp at hf

theorem record_roundtrip (hardlinks : Bool) {r : Rorp} (h : Storable r) :
    ∃ q fs, Value q ∧ (∀ f ∈ fs, FieldName f.1 ∧ Value f.2) ∧ filenameToIndex q = r.index ∧
      objectToRecord hardlinks r = some (lit "File " ++ q ++ [nl] ++ fieldsText fs) ∧
      recordToObject (lit "File " ++ q ++ [nl] ++ fieldsText fs) = some (kept hardlinks r) := by
  have ⟨hq, hidx⟩ := filename_roundtrip h
  cases hty : r.type with
  | none =>
    refine ⟨quotePath (indexPath r.index), [(lit "Type", lit "None")], hq, ?_, hidx, ?_, ?_⟩
    · intro f hf
      rw [List.mem_singleton.1 hf]
      unfold FieldName Value; decide
    · unfold objectToRecord
      simp [hty, fieldsText]
    · unfold recordToObject
      rw [parse_record hq _ (by intro f hf; rw [List.mem_singleton.1 hf]; unfold FieldName Value; decide)]
      simp only [List.foldlM_cons, List.foldlM_nil, set_File, set_Type, hidx, Option.bind_eq_bind, Option.bind_some, Option.pure_def]
      unfold kept
      rw [hty]
      rfl
  | some ty =>
    refine ⟨quotePath (indexPath r.index), fieldList hardlinks r ty, hq, fields_ok hardlinks h hty, hidx, record_eq hardlinks h hty, ?_⟩
    unfold recordToObject
    rw [parse_record hq _ (fields_ok hardlinks h hty)]
    obtain ⟨uid, huid⟩ := Option.ne_none_iff_exists'.1 (h.owner (by rw [hty]; simp)).1
    obtain ⟨gid, hgid⟩ := Option.ne_none_iff_exists'.1 (h.owner (by rw [hty]; simp)).2
    have halt : ∀ (i : Option (List Bytes)) (x : Rorp), x.mirrorname = none → x.incname = none →
        (match r.mirrorname, r.incname with
          | some m, _ => [(lit "AlternateMirrorName", m)]
          | none, some i => [(lit "AlternateIncrementName", i)]
          | none, none => []).foldlM setField (i, x) =
        some (i, { x with mirrorname := r.mirrorname, incname := if r.mirrorname = none then r.incname else none }) := by
      intro i x h1 h2
      cases hm : r.mirrorname <;> cases hi : r.incname <;> simp [set_AltMirror, set_AltInc, h1, h2]
      · cases x; simp_all
    rw [List.foldlM_cons, set_File, hidx]
    simp only [Option.bind_eq_bind, Option.bind_some]
    unfold fieldList
    simp only [List.foldlM_append, List.cons_append, List.nil_append, List.foldlM_cons, set_Type, decode_type, Option.bind_eq_bind, Option.bind_some, huid, hgid]
    cases ty with
    | reg =>
      obtain ⟨size, hsize⟩ := Option.ne_none_iff_exists'.1 (h.size hty)
      obtain ⟨mtime, hmtime⟩ := Option.ne_none_iff_exists'.1 (h.mtime _ hty (by simp) (by simp))
      have hsha : ∀ (i : Option (List Bytes)) (x : Rorp), x.sha1 = none →
          (match r.sha1 with | some d => [(lit "SHA1Digest", d)] | none => []).foldlM setField (i, x) = some (i, { x with sha1 := r.sha1 }) := by
        intro i x h1
        cases hs : r.sha1 with
        | none => cases x; simp_all
        | some d =>
          have := h.sha1 d hs
          simp [set_SHA1, decodeName]
          exact ⟨this.2.1, this.2.2⟩
      by_cases hl : (hardlinks && decide (1 < r.nlink.getD 1)) = true
      · have hl' : 1 < r.nlink.getD 1 := by simpa using (Bool.and_eq_true_iff.1 hl).2
        have hl'' : hardlinks = true := (Bool.and_eq_true_iff.1 hl).1
        obtain ⟨inode, hinode⟩ := Option.ne_none_iff_exists'.1 (h.inode hty hl').1
        obtain ⟨devloc, hdevloc⟩ := Option.ne_none_iff_exists'.1 (h.inode hty hl').2
        obtain ⟨n, hn⟩ : ∃ n, r.nlink = some n := by
          cases hn : r.nlink with
          | none => rw [hn] at hl'; simp at hl'
          | some n => exact ⟨n, rfl⟩
        rw [hn] at hl'
        have hl3 : 1 < n := hl'
        simp [hl3, hl'', set_Size, set_NumHardLinks, set_Inode, set_DeviceLoc, set_ModTime, set_Uid, set_Gid, set_Uname, set_Gname, set_Permissions,
          hsize, hmtime, hinode, hdevloc, hn, hsha, halt, decode_name]
        simp [kept, hty, hl3, hsize, hmtime, hinode, hdevloc, hn, huid, hgid]
      · have hl' : ¬ (hardlinks = true ∧ 1 < r.nlink.getD 1) := by simpa using hl
        simp [set_Size, set_ModTime, set_Uid, set_Gid, set_Uname, set_Gname, set_Permissions, hl,
          hsize, hmtime, hsha, halt, decode_name]
        simp [kept, hty, hl', hsize, hmtime, huid, hgid]
    | dir | sock | fifo =>
      obtain ⟨mtime, hmtime⟩ := Option.ne_none_iff_exists'.1 (h.mtime _ hty (by simp) (by simp))
      simp [set_ModTime, set_Uid, set_Gid, set_Uname, set_Gname, set_Permissions, hmtime, halt, decode_name]
      simp [kept, hty, hmtime, huid, hgid]
    | sym =>
      obtain ⟨l, hl, -⟩ := h.linkname hty
      simp [set_SymData, set_Uid, set_Gid, set_Uname, set_Gname, set_Permissions, hl, halt, decode_name, C15.unquote_quote]
      simp [kept, hty, hl, huid, hgid]
    | dev =>
      obtain ⟨c, -, hc, ma, mi, hd⟩ := h.devnums hty
      have hdn := fun i r => set_DeviceNum i r hc ma mi
      simp only [List.append_assoc, List.cons_append] at hdn
      simp [hdn, set_Uid, set_Gid, set_Uname, set_Gname, set_Permissions, hd, halt, decode_name]
      simp [kept, hty, hd, huid, hgid]

end Verif.MetaRecord
