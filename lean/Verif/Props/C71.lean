import Verif.Model.MetaDamage
import Verif.Proof.Damage
import Verif.Props.C23
import Verif.Props.C53
/-
C71 Damage to a metadata file is confined.
-/
namespace Verif.C71
open Verif.Quoting Verif.FlatFile Verif.MetaRecord Verif.MetaDamage

theorem recordToObject_eq (x : Bytes) : recordToObject x = match parseRecord x with
    | .object r => some r
    | _ => none := by
  unfold recordToObject parseRecord
  cases h : ((splitLines x).filterMap parseLine).foldlM setField (none, { index := [] }) with
  | none => rfl
  | some p =>
    obtain ⟨i, r⟩ := p
    cases i <;> rfl

theorem collect_spec (l : List Bytes) :
    ((collect l).2 = true ↔ ∃ x ∈ l, parseRecord x = .unbound) ∧ ((collect l).2 = false → (collect l).1 = l.filterMap recordToObject) := by
  induction l with
  | nil => simp [collect]
  | cons x xs ih =>
    rw [collect]
    cases h : parseRecord x with
    | object r => simp [h, ih.1, recordToObject_eq x]; exact ih.2
    | ignored => simp [h, ih.1, recordToObject_eq x]; exact ih.2
    | unbound => simp [h]

theorem collect_append (l m : List Bytes) (h : ∀ x ∈ l, parseRecord x ≠ .unbound) :
    collect (l ++ m) = (l.filterMap recordToObject ++ (collect m).1, (collect m).2) := by
  induction l with
  | nil => simp
  | cons x xs ih =>
    have ih := ih fun y hy => h y (List.mem_cons_of_mem _ hy)
    rw [List.cons_append, collect]
    cases hx : parseRecord x with
    | object r => simp [ih, recordToObject_eq x, hx]
    | ignored => simp [ih, recordToObject_eq x, hx]
    | unbound => exact absurd hx (h x List.mem_cons_self)

theorem readAll_eq (sizes : Nat → Nat) (content : Bytes) : readAll sizes content = collect (cuts (lit "File ") content) := by
  rw [readAll, iterateRecords_any (by decide) _ _ rfl (by simp [open'])]
  rfl

theorem unbound_of_some {x : Bytes} {r : Rorp} (h : recordToObject x = some r) : parseRecord x ≠ .unbound := by
  intro hu
  rw [recordToObject_eq, hu] at h
  simp at h

/-- the text of the last, or the first, of some paths: empty if there are none -/
def recordOf (hl : Bool) (r : Option Rorp) : Bytes := (r.bind (objectToRecord hl)).getD []

/-- C71: the metadata of the paths `A` and `B` have been written, and between them there is anything, `X`, in place of the records which
were there. Whatever the sizes of the reads are: the paths before, except possibly for the last one, and (unless the reading ends with an
exception, see `no_exception`) those after, except possibly for the first one, are read unchanged and in their order. What else is read
comes from pieces of the damaged part and of these two neighbours. -/
theorem confined (hl : Bool) (max : Nat) (sizes : Nat → Nat) {A B : List Rorp} (hA : ∀ r ∈ A, Storable r) (hB : ∀ r ∈ B, Storable r)
    {cA cB : Bytes} (hcA : writeObjects max (objectToRecord hl) A = some cA) (hcB : writeObjects max (objectToRecord hl) B = some cB)
    (X : Bytes) :
    A.dropLast.map (kept hl) <+: (readAll sizes (cA ++ X ++ cB)).1 ∧
    ∃ pieces : List Bytes, pieces.flatten = recordOf hl A.getLast? ++ X ++ recordOf hl B.head? ∧
      ((readAll sizes (cA ++ X ++ cB)).2 = false →
        (readAll sizes (cA ++ X ++ cB)).1 = A.dropLast.map (kept hl) ++ pieces.filterMap recordToObject ++ B.tail.map (kept hl)) := by
  obtain ⟨rec, hrec⟩ := recs_of_storable hl (A ++ B) (fun r hr => (List.mem_append.1 hr).elim (hA r) (hB r))
  have hrA := fun r hr => hrec r (List.mem_append_left B hr)
  have hrB := fun r hr => hrec r (List.mem_append_right A hr)
  rw [writeObjects_spec max _ A _ fun r hr => (hrA r hr).2.2.1] at hcA
  rw [writeObjects_spec max _ B _ fun r hr => (hrB r hr).2.2.1] at hcB
  have eA : cA = texts (lit "File ") (A.map rec) := by rw [← Option.some.inj hcA]; simp [texts, List.flatMap_map]
  have eB : cB = texts (lit "File ") (B.map rec) := by rw [← Option.some.inj hcB]; simp [texts, List.flatMap_map]
  obtain ⟨P, h1, h2, -⟩ := cuts_damaged (pre := lit "File ") (by decide) (by decide) (A := A.map rec) (B := B.map rec)
    (by intro x hx; obtain ⟨r, hr, rfl⟩ := List.mem_map.1 hx; exact (hrA r hr).1)
    (by intro x hx; obtain ⟨r, hr, rfl⟩ := List.mem_map.1 hx; exact (hrB r hr).1) X
  have hlast : optText (lit "File ") (A.map rec).getLast? = recordOf hl A.getLast? := by
    rw [List.getLast?_map]
    cases h : A.getLast? with
    | none => rfl
    | some r => simp [optText, recordOf, (hrA r (List.mem_of_getLast? h)).2.2.1]
  have hhead : optText (lit "File ") (B.map rec).head? = recordOf hl B.head? := by
    rw [List.head?_map]
    cases h : B.head? with
    | none => rfl
    | some r => simp [optText, recordOf, (hrB r (List.mem_of_head? h)).2.2.1]
  have hA' : ∀ r ∈ A.dropLast, recordToObject ((rec r).text (lit "File ")) = some (kept hl r) :=
    fun r hr => (hrA r (List.dropLast_subset _ hr)).2.2.2
  have hB' : ∀ r ∈ B.tail, recordToObject ((rec r).text (lit "File ")) = some (kept hl r) :=
    fun r hr => (hrB r (List.mem_of_mem_tail hr)).2.2.2
  have fA : ((A.map rec).dropLast.map (Rec.text (lit "File "))).filterMap recordToObject = A.dropLast.map (kept hl) := by
    rw [← List.map_dropLast, List.filterMap_map]; exact filterMap_recs hA'
  have fB : ((B.map rec).tail.map (Rec.text (lit "File "))).filterMap recordToObject = B.tail.map (kept hl) := by
    rw [← List.map_tail, List.filterMap_map]; exact filterMap_recs hB'
  have hread : readAll sizes (cA ++ X ++ cB) = collect ((A.map rec).dropLast.map (Rec.text (lit "File ")) ++
      (P ++ (B.map rec).tail.map (Rec.text (lit "File ")))) := by
    rw [readAll_eq, eA, eB, h1, List.append_assoc]
  constructor
  · rw [hread, collect_append, fA]
    · exact List.prefix_append _ _
    · intro x hx
      rw [← List.map_dropLast, List.map_map] at hx
      obtain ⟨r, hr, rfl⟩ := List.mem_map.1 hx
      exact unbound_of_some (hA' r hr)
  · refine ⟨P, by rw [h2, hlast, hhead], fun hf => ?_⟩
    rw [hread] at hf ⊢
    rw [(collect_spec _).2 hf, List.filterMap_append, List.filterMap_append, fA, fB, List.append_assoc]

/-- ... if what is there in place of the damaged records begins with the first line of a record then all paths before are read, and if
it also ends with a newline then all those after are. So damage inside of a record, which leaves `File ` and the last newline alone, and
adds no newline in front of `File `, affects this record only. -/
theorem confined_record (hl : Bool) (max : Nat) (sizes : Nat → Nat) {A B : List Rorp} (hA : ∀ r ∈ A, Storable r) (hB : ∀ r ∈ B, Storable r)
    {cA cB : Bytes} (hcA : writeObjects max (objectToRecord hl) A = some cA) (hcB : writeObjects max (objectToRecord hl) B = some cB)
    (name Y : Bytes) :
    A.map (kept hl) <+: (readAll sizes (cA ++ (lit "File " ++ name ++ lit "\n" ++ Y) ++ cB)).1 ∧
    (∃ pieces : List Bytes, pieces.flatten = (lit "File " ++ name ++ lit "\n" ++ Y) ++ recordOf hl B.head? ∧
      ((readAll sizes (cA ++ (lit "File " ++ name ++ lit "\n" ++ Y) ++ cB)).2 = false →
        (readAll sizes (cA ++ (lit "File " ++ name ++ lit "\n" ++ Y) ++ cB)).1 =
          A.map (kept hl) ++ pieces.filterMap recordToObject ++ B.tail.map (kept hl))) ∧
    ((Y = [] ∨ Y.getLast? = some 10) → ∃ pieces : List Bytes, pieces.flatten = lit "File " ++ name ++ lit "\n" ++ Y ∧
      ((readAll sizes (cA ++ (lit "File " ++ name ++ lit "\n" ++ Y) ++ cB)).2 = false →
        (readAll sizes (cA ++ (lit "File " ++ name ++ lit "\n" ++ Y) ++ cB)).1 =
          A.map (kept hl) ++ pieces.filterMap recordToObject ++ B.map (kept hl))) := by
  obtain ⟨rec, hrec⟩ := recs_of_storable hl (A ++ B) (fun r hr => (List.mem_append.1 hr).elim (hA r) (hB r))
  have hrA := fun r hr => hrec r (List.mem_append_left B hr)
  have hrB := fun r hr => hrec r (List.mem_append_right A hr)
  rw [writeObjects_spec max _ A _ fun r hr => (hrA r hr).2.2.1] at hcA
  rw [writeObjects_spec max _ B _ fun r hr => (hrB r hr).2.2.1] at hcB
  have eA : cA = texts (lit "File ") (A.map rec) := by rw [← Option.some.inj hcA]; simp [texts, List.flatMap_map]
  have eB : cB = texts (lit "File ") (B.map rec) := by rw [← Option.some.inj hcB]; simp [texts, List.flatMap_map]
  have hstart : startsLine (lit "File ") (lit "File " ++ name ++ lit "\n" ++ Y) = true := by
    have := startsLine_true (pre := lit "File ") (name := name) (t := Y)
    rwa [show lit "File " ++ name ++ lit "\n" ++ Y = lit "File " ++ name ++ nl :: Y by rw [show lit "\n" = [nl] by decide]; simp]
  have hXlast : (Y = [] ∨ Y.getLast? = some 10) → ∃ X', lit "File " ++ name ++ lit "\n" ++ Y = X' ++ [nl] := by
    rintro (rfl | h)
    · exact ⟨lit "File " ++ name, by rw [show lit "\n" = [nl] by decide]; simp⟩
    · obtain ⟨Y', rfl⟩ := List.getLast?_eq_some_iff.1 h
      exact ⟨lit "File " ++ name ++ lit "\n" ++ Y', by rw [show nl = 10 from rfl]; simp⟩
  generalize hX : lit "File " ++ name ++ lit "\n" ++ Y = X at *
  obtain ⟨P, h1, h2, h3⟩ := cuts_damaged_left (pre := lit "File ") (by decide) (by decide) (A := A.map rec) (B := B.map rec)
    (by intro x hx; obtain ⟨r, hr, rfl⟩ := List.mem_map.1 hx; exact (hrA r hr).1)
    (by intro x hx; obtain ⟨r, hr, rfl⟩ := List.mem_map.1 hx; exact (hrB r hr).1) hstart
  have hhead : optText (lit "File ") (B.map rec).head? = recordOf hl B.head? := by
    rw [List.head?_map]
    cases h : B.head? with
    | none => rfl
    | some r => simp [optText, recordOf, (hrB r (List.mem_of_head? h)).2.2.1]
  have fA : ((A.map rec).map (Rec.text (lit "File "))).filterMap recordToObject = A.map (kept hl) := by
    rw [List.filterMap_map]; exact filterMap_recs fun r hr => (hrA r hr).2.2.2
  have fB : ((B.map rec).tail.map (Rec.text (lit "File "))).filterMap recordToObject = B.tail.map (kept hl) := by
    rw [← List.map_tail, List.filterMap_map]; exact filterMap_recs fun r hr => (hrB r (List.mem_of_mem_tail hr)).2.2.2
  have hread : readAll sizes (cA ++ X ++ cB) = collect ((A.map rec).map (Rec.text (lit "File ")) ++
      (P ++ (B.map rec).tail.map (Rec.text (lit "File ")))) := by
    rw [readAll_eq, eA, eB, h1, List.append_assoc]
  have hsome : (readAll sizes (cA ++ X ++ cB)).2 = false →
      (readAll sizes (cA ++ X ++ cB)).1 = A.map (kept hl) ++ P.filterMap recordToObject ++ B.tail.map (kept hl) := by
    intro hf
    rw [hread] at hf ⊢
    rw [(collect_spec _).2 hf, List.filterMap_append, List.filterMap_append, fA, fB, List.append_assoc]
  refine ⟨?_, ⟨P, by rw [h2, hhead], hsome⟩, ?_⟩
  · rw [hread, collect_append, fA]
    · exact List.prefix_append _ _
    · intro x hx
      rw [List.map_map] at hx
      obtain ⟨r, hr, rfl⟩ := List.mem_map.1 hx
      exact unbound_of_some (hrA r hr).2.2.2
  · intro hY
    obtain ⟨X', hX'⟩ := hXlast hY
    cases hBc : B with
    | nil =>
      subst hBc
      refine ⟨P, by simpa [optText] using h2, ?_⟩
      intro hf
      simpa using hsome hf
    | cons b B' =>
      obtain ⟨P', hP'⟩ := h3 X' hX' (rec b) (by simp [hBc])
      have hb : b ∈ B := by simp [hBc]
      refine ⟨P', ?_, fun hf => ?_⟩
      · rw [hP', List.flatten_append] at h2
        simp only [List.flatten_cons, List.flatten_nil, List.append_nil, hBc, List.map_cons, List.head?_cons, optText] at h2
        exact List.append_cancel_right h2
      · rw [hsome hf, hP', List.filterMap_append, hBc]
        simp [(hrB b hb).2.2.2]

/-- The sizes of the reads don't matter, whatever the content of the file is. -/
theorem sizes_irrelevant (sizes sizes' : Nat → Nat) (content : Bytes) : readAll sizes content = readAll sizes' content := by
  rw [readAll_eq, readAll_eq]

/-- three files and what is written about them: the record of the second one is damaged -/
def demoA : List Rorp := C24.demo
/-- a file after them -/
def demoB : List Rorp := [fromStat [lit "d"] { C23.demoStat with type := .dir }, fromStat [lit "e"] { C23.demoStat with type := .dir }]

theorem demo_storableB : ∀ r ∈ demoB, Storable r := by
  intro r hr
  have hp : C23.Proper { C23.demoStat with type := .dir } := { C23.demo_proper with linkname := by decide, devnums := by decide }
  rcases List.mem_cons.1 hr with rfl | hr
  · exact C23.storable_fromStat (by unfold C23.PathIndex; decide) hp
  · rw [List.mem_singleton.1 hr]
    exact C23.storable_fromStat (by unfold C23.PathIndex; decide) hp

example : ∃ cA cB, writeObjects 100 (objectToRecord true) demoA = some cA ∧ writeObjects 100 (objectToRecord true) demoB = some cB ∧
    demoA.dropLast.map (kept true) <+: (readAll (fun k => k % 5) (cA ++ lit "\n\nFale x" ++ cB)).1 := by
  obtain ⟨cA, hA, -⟩ := C24.iterate_written true 100 (fun _ => 0) C24.demo_storable
  obtain ⟨cB, hB, -⟩ := C24.iterate_written true 100 (fun _ => 0) demo_storableB
  exact ⟨cA, cB, hA, hB, (confined true 100 _ C24.demo_storable demo_storableB hA hB _).1⟩

/-- a damaged size: only the record it belongs to is ignored -/
example : ((objectToRecord true (fromStat [lit "d"] { C23.demoStat with type := .dir })).map fun c =>
      ((readAll (fun _ => 7) (c ++ lit "File f\n  Type reg\n  Size 1x\n" ++ c)).1.map Rorp.index,
       (readAll (fun _ => 7) (c ++ lit "File f\n  Type reg\n  Size 1x\n" ++ c)).2)) = some ([[lit "d"], [lit "d"]], false) := by decide +kernel

theorem setField_index {i : List Bytes} {r : Rorp} {fd : Bytes × Bytes} {st : Option (List Bytes) × Rorp}
    (h : setField (some i, r) fd = some st) : st.1 ≠ none := by
  have key : ∀ (o : Option Int) (g : Int → Rorp), (o.map fun x => (some i, g x)) = some st → st.1 ≠ none := by
    intro o g hg
    cases o with
    | none => simp at hg
    | some x => simp only [Option.map_some, Option.some.injEq] at hg; rw [← hg]; simp
  obtain ⟨f, d⟩ := fd
  have ite_or : ∀ {p : Prop} [Decidable p] {a b : Option (Option (List Bytes) × Rorp)}, (if p then a else b) = some st →
      a = some st ∨ b = some st := by
    intro p _ a b hab
    split at hab
    · exact Or.inl hab
    · exact Or.inr hab
  have const : ∀ (o : Option (List Bytes)) (r' : Rorp), o ≠ none → some (o, r') = some st → st.1 ≠ none := by
    intro o r' ho hs
    rw [← Option.some.inj hs]; exact ho
  unfold setField at h
  simp only [] at h
  iterate 8
    rcases ite_or h with h | h
    · exact key _ _ h
  iterate 6
    rcases ite_or h with h | h
    · exact const _ _ (by simp) h
  rcases ite_or h with h | h
  · cases hsp : splitOn 32 d with
    | nil => rw [hsp] at h; simp at h
    | cons x l =>
      rw [hsp] at h
      match l, h with
      | [], h => simp at h
      | [_], h => simp at h
      | [a, b], h =>
        simp only [] at h
        cases hpa : parseInt a with
        | none => rw [hpa] at h; simp at h
        | some va =>
          cases hpb : parseInt b with
          | none => rw [hpa, hpb] at h; simp at h
          | some vb =>
            rw [hpa, hpb] at h
            exact const _ _ (by simp) h
      | _ :: _ :: _ :: _, h => simp at h
  iterate 2
    rcases ite_or h with h | h
    · exact const _ _ (by simp) h
  exact const _ _ (by simp) h

theorem fold_index (fs : List (Bytes × Bytes)) (st st' : Option (List Bytes) × Rorp) (h0 : st.1 ≠ none)
    (h : fs.foldlM setField st = some st') : st'.1 ≠ none := by
  induction fs generalizing st with
  | nil => simp only [List.foldlM_nil, Option.pure_def, Option.some.injEq] at h; rw [← h]; exact h0
  | cons f fs ih =>
    rw [List.foldlM_cons] at h
    cases h1 : setField st f with
    | none => rw [h1] at h; simp at h
    | some st1 =>
      rw [h1] at h
      obtain ⟨i, r⟩ := st
      obtain ⟨i, rfl⟩ := Option.ne_none_iff_exists'.1 h0
      exact ih st1 (setField_index h1) h

/-- a record whose first line names a path has an index -/
theorem parse_named {c : UInt8} (hc : c ≠ nl) (t : Bytes) : parseRecord (lit "File " ++ c :: t) ≠ .unbound := by
  have hsplit : ∃ l ls, splitLines (c :: t) = (c :: l) :: ls := by
    rw [splitLines, if_neg hc]
    cases splitLines t with
    | nil => exact ⟨[], [], rfl⟩
    | cons x xs => exact ⟨x, xs, rfl⟩
  obtain ⟨l, ls, hls⟩ := hsplit
  have hs : splitLines (lit "File " ++ c :: t) = (lit "File " ++ c :: l) :: ls := by
    rw [show lit "File " = [70, 105, 108, 101, 32] by decide]
    simp only [List.cons_append, List.nil_append]
    have step : ∀ (d : UInt8) (u x : Bytes) (xs : List Bytes), d ≠ nl → splitLines u = x :: xs → splitLines (d :: u) = (d :: x) :: xs := by
      intro d u x xs hd hu
      rw [splitLines, if_neg hd, hu]
    exact step _ _ _ _ (by decide) (step _ _ _ _ (by decide) (step _ _ _ _ (by decide) (step _ _ _ _ (by decide) (step _ _ _ _ (by decide) hls))))
  have hp : parseLine (lit "File " ++ c :: l) = some (lit "File", c :: l) := by
    rw [show lit "File " = [70, 105, 108, 101, 32] by decide, show lit "File" = [70, 105, 108, 101] by decide]
    simp [parseLine, isAlnum, List.dropWhile, List.takeWhile]
  intro hu
  unfold parseRecord at hu
  rw [hs, List.filterMap_cons, hp] at hu
  simp only [List.foldlM_cons] at hu
  rw [show setField (none, { index := [] }) (lit "File", c :: l) = some (some (filenameToIndex (c :: l)), { index := [] }) by
    simp [setField, show ∀ s, s ∈ [lit "Size", lit "NumHardLinks", lit "Inode", lit "DeviceLoc", lit "ModTime", lit "Uid", lit "Gid",
      lit "Permissions", lit "Type", lit "SHA1Digest", lit "Uname", lit "Gname"] → lit "File" ≠ s by decide]] at hu
  simp only [Option.bind_eq_bind, Option.bind_some] at hu
  cases hf : (ls.filterMap parseLine).foldlM setField (some (filenameToIndex (c :: l)), { index := [] }) with
  | none => rw [hf] at hu; simp at hu
  | some st =>
    have := fold_index _ _ st (by simp) hf
    rw [hf] at hu
    obtain ⟨i, r⟩ := st
    obtain ⟨i, rfl⟩ := Option.ne_none_iff_exists'.1 this
    simp at hu

/-- Whatever the content of a metadata file is, its reading doesn't end with an exception if it begins with `File ` and a name (or is
empty) and has no line with `File ` and no name. (Otherwise all which follows may be unread: `first_record`, `empty_name`.) -/
theorem no_exception (sizes : Nat → Nat) (content : Bytes)
    (hfirst : content = [] ∨ ∃ c t, c ≠ (10 : UInt8) ∧ content = lit "File " ++ c :: t)
    (hempty : ¬ lit "\nFile \n" <:+: content) : (readAll sizes content).2 = false := by
  rw [Bool.eq_false_iff]
  intro h
  rw [readAll_eq] at h
  obtain ⟨x, hx, hu⟩ := (collect_spec _).1.1 h
  rcases hfirst with rfl | ⟨c, t, hc, hcont⟩
  · rw [cuts_nil] at hx; simp at hx
  · have hne : content ≠ [] := by rw [hcont]; simp
    by_cases htail : x ∈ (cuts (lit "File ") content).tail
    · obtain ⟨h1, u, v, h2⟩ := cuts_heads (pre := lit "File ") (by decide) _ content (Nat.lt_succ_self _) x htail
      unfold startsLine at h1
      rw [Bool.and_eq_true, List.isPrefixOf_iff_prefix] at h1
      obtain ⟨⟨y, rfl⟩, hy⟩ := h1
      rw [List.drop_left] at hy
      cases y with
      | nil => simp at hy
      | cons d y =>
        by_cases hd : d = nl
        · apply hempty
          refine ⟨u, y ++ v, ?_⟩
          rw [h2, hd, show lit "\nFile \n" = [nl] ++ lit "File " ++ [nl] by decide]
          simp
        · exact parse_named hd y hu
    · -- the first piece
      rw [cuts_cons hne] at hx htail
      rcases List.mem_cons.1 hx with rfl | hx
      · have h6 : 6 ≤ firstEnd (lit "File ") content := by
          unfold firstEnd
          cases hs : searchFrom1 (lit "File ") content with
          | none => rw [hcont]; simp [lit]
          | some p =>
            obtain ⟨hp2, hb, -⟩ := (searchFrom1_spec content).1 p hs
            have h3 := hb.2.1
            rw [hcont, show lit "File " = [70, 105, 108, 101, 32] by decide] at h3
            simp only [Option.getD_some]
            by_contra hlt
            have : p = 2 ∨ p = 3 ∨ p = 4 ∨ p = 5 := by omega
            rcases this with rfl | rfl | rfl | rfl <;> simp [nl] at h3
        obtain ⟨k, hk⟩ := (⟨firstEnd (lit "File ") content - 6, by omega⟩ : ∃ k, firstEnd (lit "File ") content = k + 6)
        rw [hk, hcont, show lit "File " = [70, 105, 108, 101, 32] by decide] at hu
        simp only [List.cons_append, List.nil_append, List.take_succ_cons] at hu
        exact parse_named hc (t.take k) (by rw [show lit "File " = [70, 105, 108, 101, 32] by decide]; exact hu)
      · exact htail hx

theorem splitOn_ne (d : UInt8) (u : Bytes) : splitOn d u ≠ [] := by
  cases u with
  | nil => simp [splitOn]
  | cons c u =>
    rw [splitOn]
    by_cases hc : c = d
    · rw [if_pos hc]; simp
    · rw [if_neg hc]
      cases splitOn d u <;> simp

theorem splitOn_append (d : UInt8) (u w : Bytes) : splitOn d (u ++ d :: w) = splitOn d u ++ splitOn d w := by
  induction u with
  | nil => simp [splitOn]
  | cons c u ih =>
    rw [List.cons_append, splitOn, splitOn]
    by_cases hc : c = d
    · rw [if_pos hc, if_pos hc, ih]; rfl
    · rw [if_neg hc, if_neg hc, ih]
      cases h : splitOn d u with
      | nil => exact absurd h (splitOn_ne d u)
      | cons x xs => rfl

theorem splitOn_none {d : UInt8} {l : Bytes} (h : d ∉ l) : splitOn d l = [l] := by
  induction l with
  | nil => rfl
  | cons c l ih =>
    simp only [List.mem_cons, not_or] at h
    rw [splitOn, if_neg (fun e => h.1 e.symm), ih h.2]

theorem line_of_infix {L : List Bytes} (hL : ∀ l ∈ L, nl ∉ l) {l u v : Bytes} (hl : nl ∉ l) (h : u ++ [nl] ++ l ++ [nl] ++ v = joinLines L) :
    l ∈ L ∨ l = [] := by
  have h1 := Attrs.splitOn_lines L hL
  rw [← h, show u ++ [nl] ++ l ++ [nl] ++ v = u ++ nl :: (l ++ nl :: v) by simp, splitOn_append, splitOn_append, splitOn_none hl] at h1
  have : l ∈ L ++ [[]] := by rw [← h1]; simp
  simpa using this

/-- no record which is written has an empty name -/
theorem written_named (hl : Bool) {max : Nat} {rs : List Rorp} (hs : ∀ r ∈ rs, Storable r) {c : Bytes}
    (hc : writeObjects max (objectToRecord hl) rs = some c) :
    ¬ lit "\nFile \n" <:+: c ∧ (rs ≠ [] → ∃ d t, d ≠ nl ∧ c = lit "File " ++ d :: t) := by
  have : ∀ r ∈ rs, ∃ q fs, Value q ∧ (∀ f ∈ fs, FieldName f.1 ∧ Value f.2) ∧ objectToRecord hl r = some (lit "File " ++ q ++ [nl] ++ fieldsText fs) := by
    intro r hr
    obtain ⟨q, fs, hq, hfs, h1, h2, h3⟩ := record_roundtrip hl (hs r hr)
    exact ⟨q, fs, hq, hfs, h2⟩
  have hrec : ∃ rec : Rorp → Rec, ∀ r ∈ rs, (rec r).Ok (lit "File ") ∧ (rec r).name ≠ [] ∧
      objectToRecord hl r = some ((rec r).text (lit "File ")) := by
    have h' : ∀ r, ∃ x : Rec, r ∈ rs → x.Ok (lit "File ") ∧ x.name ≠ [] ∧ objectToRecord hl r = some (x.text (lit "File ")) := by
      intro r
      by_cases hr : r ∈ rs
      · obtain ⟨q, fs, hq, hfs, h1⟩ := this r hr
        exact ⟨mkRec q fs, fun _ => ⟨mkRec_ok hq hfs, hq.1, by rw [mkRec_text]; exact h1⟩⟩
      · exact ⟨⟨[], []⟩, fun h => absurd h hr⟩
    obtain ⟨f, hf⟩ := Classical.axiomOfChoice h'
    exact ⟨f, hf⟩
  obtain ⟨rec, hrec⟩ := hrec
  rw [writeObjects_spec max _ rs _ fun r hr => (hrec r hr).2.2] at hc
  have hc := (Option.some.inj hc).symm
  constructor
  · rintro ⟨u, v, huv⟩
    rw [show lit "\nFile \n" = [nl] ++ lit "File " ++ [nl] by decide] at huv
    have ht : c = joinLines ((rs.map rec).flatMap (Rec.lines (lit "File "))) := by
      rw [← texts_eq, hc]; simp [texts, List.flatMap_map]
    rw [ht] at huv
    have := line_of_infix (l := lit "File ") (u := u) (v := v) ?_ (by decide) (by rw [← huv]; simp)
    · rcases this with h | h
      · obtain ⟨x, hx, hl'⟩ := List.mem_flatMap.1 h
        obtain ⟨r, hr, rfl⟩ := List.mem_map.1 hx
        rcases List.mem_cons.1 hl' with h | h
        · have := congrArg List.length h
          have hn := List.length_pos_iff.2 (hrec r hr).2.1
          rw [List.length_append] at this
          omega
        · exact ((hrec r hr).1.body _ h).2 (List.prefix_refl _)
      · simp [lit] at h
    · intro l hl'
      obtain ⟨x, hx, hl'⟩ := List.mem_flatMap.1 hl'
      obtain ⟨r, hr, rfl⟩ := List.mem_map.1 hx
      rcases List.mem_cons.1 hl' with rfl | h
      · simp only [List.mem_append, not_or]
        exact ⟨by decide, (hrec r hr).1.name⟩
      · exact ((hrec r hr).1.body _ h).1
  · intro hne
    obtain ⟨r, rs', rfl⟩ := List.exists_cons_of_ne_nil hne
    have hr := hrec r List.mem_cons_self
    obtain ⟨d, q, hq⟩ := List.exists_cons_of_ne_nil hr.2.1
    have hd := hr.1.name
    rw [hq] at hd
    refine ⟨d, q ++ nl :: (joinLines (rec r).body ++ rs'.flatMap fun r => (rec r).text (lit "File ")), ?_, ?_⟩
    · rintro rfl; exact hd (by simp)
    · rw [hc, List.flatMap_cons, Rec.text, Rec.lines, joinLines_cons, hq]; simp

/-- A metadata file which ends early, at any byte: all paths whose records are complete, except possibly for the last one of them, are
read unchanged. (That one may get a wrong name: `truncated_name`.) -/
theorem truncated (hl : Bool) (max : Nat) (sizes : Nat → Nat) {rs : List Rorp} (hs : ∀ r ∈ rs, Storable r) {c : Bytes}
    (hc : writeObjects max (objectToRecord hl) rs = some c) (n : Nat) :
    ∃ A B cA, rs = A ++ B ∧ writeObjects max (objectToRecord hl) A = some cA ∧ cA.length ≤ n ∧
      (∀ b, B.head? = some b → n < cA.length + (recordOf hl (some b)).length) ∧
      A.dropLast.map (kept hl) <+: (readAll sizes (c.take n)).1 ∧
      (A ≠ [] → (readAll sizes (c.take n)).2 = false) := by
  obtain ⟨rec, hrec⟩ := recs_of_storable hl rs hs
  have hw : ∀ A : List Rorp, (∀ r ∈ A, r ∈ rs) → writeObjects max (objectToRecord hl) A = some (A.flatMap fun r => (rec r).text (lit "File ")) :=
    fun A hA => writeObjects_spec max _ A _ fun r hr => (hrec r (hA r hr)).2.2.1
  have hsplit : ∀ (l : List Rorp) (m : Nat), ∃ A B, l = A ++ B ∧ (A.flatMap fun r => (rec r).text (lit "File ")).length ≤ m ∧
      (∀ b, B.head? = some b → m < (A.flatMap fun r => (rec r).text (lit "File ")).length + ((rec b).text (lit "File ")).length) := by
    intro l
    induction l with
    | nil => intro m; exact ⟨[], [], rfl, by simp, by simp⟩
    | cons r l ih =>
      intro m
      by_cases hm : ((rec r).text (lit "File ")).length ≤ m
      · obtain ⟨A, B, h1, h2, h3⟩ := ih (m - ((rec r).text (lit "File ")).length)
        refine ⟨r :: A, B, by rw [h1]; rfl, by simp only [List.flatMap_cons, List.length_append]; omega, ?_⟩
        intro b hb
        have := h3 b hb
        simp only [List.flatMap_cons, List.length_append]; omega
      · exact ⟨[], r :: l, rfl, by simp, by intro b hb; simp only [List.head?_cons, Option.some.injEq] at hb; subst hb; simp; omega⟩
  obtain ⟨A, B, h1, h2, h3⟩ := hsplit rs n
  have hAmem : ∀ r ∈ A, r ∈ rs := by intro r hr; rw [h1]; simp [hr]
  have hcA := hw A hAmem
  generalize hcAeq : (A.flatMap fun r => (rec r).text (lit "File ")) = cA at hcA h2 h3
  have hcont : ∃ X, c.take n = cA ++ X ++ [] := by
    have : c = cA ++ (B.flatMap fun r => (rec r).text (lit "File ")) := by
      rw [hw rs (fun _ h => h), h1, List.flatMap_append, hcAeq] at hc
      exact (Option.some.inj hc).symm
    rw [this, List.take_append, List.take_of_length_le h2]
    exact ⟨_, (List.append_nil _).symm⟩
  obtain ⟨X, hX⟩ := hcont
  have hconf := confined hl max sizes (A := A) (B := []) (fun r hr => hs r (hAmem r hr)) (by simp) hcA (cB := []) (hw [] (by simp)) X
  rw [← hX] at hconf
  refine ⟨A, B, cA, h1, hcA, h2, ?_, hconf.1, ?_⟩
  · intro b hb
    have hbm : b ∈ rs := by rw [h1]; exact List.mem_append_right _ (List.mem_of_head? hb)
    have := h3 b hb
    simp only [recordOf, Option.bind_some, (hrec b hbm).2.2.1, Option.getD_some]
    exact this
  · intro hA
    obtain ⟨d, t, hd, hdt⟩ := (written_named hl (fun r hr => hs r (hAmem r hr)) hcA).2 hA
    refine no_exception sizes _ (Or.inr ⟨d, t ++ X, hd, by rw [hX, hdt]; simp⟩) ?_
    intro hinf
    exact (written_named hl hs hc).1 (hinf.trans (List.take_prefix _ _).isInfix)

/-- Reading restricted to a path, if the lines in place of the damaged records don't name a path from the wanted one on (and neither do
the records before): exactly the intact paths at or below the wanted one are read. -/
theorem restricted (hl : Bool) (max : Nat) (sizes : Nat → Nat) {index : List Bytes} (hi : index ≠ []) {A B : List Rorp}
    (hA : ∀ r ∈ A, Storable r) (hB : ∀ r ∈ B, Storable r) {cA cB : Bytes} (hcA : writeObjects max (objectToRecord hl) A = some cA)
    (hcB : writeObjects max (objectToRecord hl) B = some cB) (hbefore : ∀ r ∈ A, r.index < index)
    (hsort : B.Pairwise fun a b => a.index < b.index) {X : List Bytes}
    (hX : ∀ l ∈ X, (10 : UInt8) ∉ l ∧ ∀ name, l = lit "File " ++ name → filenameToIndex name < index) :
    getObjects (lit "File ") sizes filenameToIndex recordToObject Rorp.index index (cA ++ X.flatMap (· ++ [10]) ++ cB) =
      (B.filter fun r => index.isPrefixOf r.index).map (kept hl) := by
  obtain ⟨rec, hrec⟩ := recs_of_storable hl (A ++ B) (fun r hr => (List.mem_append.1 hr).elim (hA r) (hB r))
  have hrA := fun r hr => hrec r (List.mem_append_left B hr)
  have hrB := fun r hr => hrec r (List.mem_append_right A hr)
  rw [writeObjects_spec max _ A _ fun r hr => (hrA r hr).2.2.1] at hcA
  rw [writeObjects_spec max _ B _ fun r hr => (hrB r hr).2.2.1] at hcB
  have eA : cA = joinLines ((A.map rec).flatMap (Rec.lines (lit "File "))) := by
    rw [← Option.some.inj hcA, ← texts_eq]; simp [texts, List.flatMap_map]
  have eB : cB = texts (lit "File ") (B.map rec) := by rw [← Option.some.inj hcB]; simp [texts, List.flatMap_map]
  unfold getObjects
  rw [if_neg hi, eA, eB, show X.flatMap (· ++ [10]) = joinLines X from rfl, ← joinLines_append,
    iterateStartingWith_after (by decide) (by decide) (rs := B.map rec)]
  · rw [List.filter_map]
    rw [List.filter_congr (q := fun r : Rorp => index.isPrefixOf r.index)]
    rotate_left
    · intro r hr
      simp only [Function.comp, (hrB r hr).2.1]
      exact isPrefixOf_inst _ _ inferInstance inferInstance _ _
    exact filterMap_recs fun r hr => (hrB r (List.mem_filter.1 hr).1).2.2.2
  · intro l hl'
    rcases List.mem_append.1 hl' with h | h
    · obtain ⟨x, hx, hl'⟩ := List.mem_flatMap.1 h
      obtain ⟨r, hr, rfl⟩ := List.mem_map.1 hx
      rcases List.mem_cons.1 hl' with rfl | h
      · refine ⟨?_, ?_⟩
        · simp only [List.mem_append, not_or]
          exact ⟨by decide, (hrA r hr).1.name⟩
        · rw [List.drop_left, (hrA r hr).2.1]
          exact fun hh => absurd (hbefore r hr) (not_lt.2 hh.2)
      · exact ⟨((hrA r hr).1.body _ h).1, fun hh => ((hrA r hr).1.body _ h).2 (List.isPrefixOf_iff_prefix.1 hh.1)⟩
    · refine ⟨(hX l h).1, ?_⟩
      rintro ⟨hp, hge⟩
      obtain ⟨name, rfl⟩ := List.isPrefixOf_iff_prefix.1 hp
      rw [List.drop_left] at hge
      exact absurd ((hX _ h).2 name rfl) (not_lt.2 hge)
  · intro x hx
    obtain ⟨r, hr, rfl⟩ := List.mem_map.1 hx
    exact (hrB r hr).1
  · intro x hx o ho
    obtain ⟨r, hr, rfl⟩ := List.mem_map.1 hx
    rw [(hrB r hr).2.2.2] at ho
    rw [← Option.some.inj ho, kept_index, (hrB r hr).2.1]
  · rw [List.pairwise_map]
    refine hsort.imp_of_mem ?_
    intro a b ha hb hab
    rw [(hrB a ha).2.1, (hrB b hb).2.1]
    exact hab

example : ∃ cA cB, writeObjects 100 (objectToRecord true) C24.demo = some cA ∧ writeObjects 100 (objectToRecord true) demoB = some cB ∧
    getObjects (lit "File ") (fun k => k % 5) filenameToIndex recordToObject Rorp.index [lit "e"]
      (cA ++ [lit "  Ty", lit "File c", lit "Fil"].flatMap (· ++ [10]) ++ cB) =
      (demoB.filter fun r => [lit "e"].isPrefixOf r.index).map (kept true) := by
  obtain ⟨cA, hA, -⟩ := C24.iterate_written true 100 (fun _ => 0) C24.demo_storable
  obtain ⟨cB, hB, -⟩ := C24.iterate_written true 100 (fun _ => 0) demo_storableB
  refine ⟨cA, cB, hA, hB, restricted true 100 _ (by decide) C24.demo_storable demo_storableB hA hB (by decide +kernel) (by decide +kernel) ?_⟩
  intro l hl
  simp only [List.mem_cons, List.not_mem_nil, or_false] at hl
  rcases hl with rfl | rfl | rfl
  · refine ⟨by decide, fun name h => ?_⟩
    rw [show lit "File " = 70 :: lit "ile " by decide, show lit "  Ty" = 32 :: lit " Ty" by decide] at h
    simp at h
  · refine ⟨by decide, fun name h => ?_⟩
    have : name = lit "c" := by
      rw [show lit "File c" = lit "File " ++ lit "c" by decide] at h
      exact (List.append_cancel_left h).symm
    subst this
    decide +kernel
  · refine ⟨by decide, fun name h => ?_⟩
    have := congrArg List.length h
    simp [lit] at this

/-! ### where damage isn't confined -/

/-- A byte of the first record's `File`: the reading ends with an UnboundLocalError and nothing is read, although all other records are
intact (finding F95). -/
theorem first_record : readAll (fun _ => 9) (lit "Fale a\n  Type dir\nFile b\n  Type dir\n") = ([], true) := by decide +kernel

/-- The same for a name which is lost: nothing after it is read (finding F95). -/
theorem empty_name :
    readAll (fun _ => 9) (lit "File a\n  Type None\nFile \n  Type None\nFile c\n  Type None\n") = ([{ index := [lit "a"] }], true) := by
  decide +kernel

/-- A file ending inside of a first line: the record before, which is complete, gets the name cut off (finding F96). -/
theorem truncated_name :
    readAll (fun _ => 9) ((lit "File a\n  Type None\n  Uid 3\nFile bcd\n  Type None\n").take 34) = ([{ index := [lit "bc"], uid := some 3 }], false) := by
  decide +kernel

/-- A damaged name which is later in the order than the wanted path: restricted to this path, nothing is read, although its record is
intact (finding F97). -/
theorem restricted_lost : getObjects (lit "File ") (fun _ => 9) filenameToIndex recordToObject Rorp.index [lit "c"]
      (lit "File a\n  Type None\nFile x\n  Type None\nFile c\n  Type None\n") = [] ∧
    getObjects (lit "File ") (fun _ => 9) filenameToIndex recordToObject Rorp.index [lit "c"]
      (lit "File a\n  Type None\nFile b\n  Type None\nFile c\n  Type None\n") = [{ index := [lit "c"] }] := by
  decide +kernel

/-! ### extended attributes -/

/-- The same as `confined` for the file of extended attributes, where no exception is possible. -/
theorem confined_ea (max : Nat) (sizes : Nat → Nat) {A B : List Attrs.Ea} (hA : ∀ e ∈ A, Attrs.PlainEa e ∧ e.attrs ≠ [])
    (hB : ∀ e ∈ B, Attrs.PlainEa e ∧ e.attrs ≠ []) {cA cB : Bytes} (hcA : Attrs.eaFile max A = some cA) (hcB : Attrs.eaFile max B = some cB)
    (X : Bytes) :
    ∃ pieces : List Bytes, pieces.flatten = (A.getLast?.map Attrs.eaToRecord).getD [] ++ X ++ (B.head?.map Attrs.eaToRecord).getD [] ∧
      iterate (lit "# file: ") sizes Attrs.eaOfRecord (cA ++ X ++ cB) = A.dropLast ++ pieces.filterMap Attrs.eaOfRecord ++ B.tail := by
  have hline : ∀ e : Attrs.Ea, Attrs.PlainEa e → ∀ a ∈ e.attrs, a.2 = [] → Attrs.LineName a.1 :=
    fun e he a ha _ => C53.lineName_plain (he.names a ha)
  have hname : ∀ e : Attrs.Ea, Attrs.PlainEa e → ∀ a ∈ e.attrs, Attrs.readName a = a.1 := by
    intro e he a ha
    unfold Attrs.readName
    rw [C53.quote_plain (he.names a ha).2, ite_self]
  have hobj : ∀ e : Attrs.Ea, Attrs.PlainEa e → Attrs.eaOfRecord ((Attrs.eaRec e).text (lit "# file: ")) = some e := by
    intro e he
    have h1 : (e.attrs.map Attrs.readName) = e.attrs.map (·.1) := List.map_congr_left (hname e he)
    have h2 : (e.attrs.map fun a => (Attrs.readName a, a.2)) = e.attrs := by
      conv => rhs; rw [← List.map_id e.attrs]
      exact List.map_congr_left fun a ha => by rw [hname e he a ha]; rfl
    rw [Attrs.eaOfRecord_text he.index (hline e he) (by rw [h1]; exact he.distinct), h2]
  have hfile : ∀ (l : List Attrs.Ea) (c : Bytes), (∀ e ∈ l, Attrs.PlainEa e ∧ e.attrs ≠ []) → Attrs.eaFile max l = some c →
      c = texts (lit "# file: ") (l.map Attrs.eaRec) := by
    intro l c hl hc
    unfold Attrs.eaFile at hc
    rw [List.filter_eq_self.2 (fun e he => by simpa using (hl e he).2), writeObjects_spec max _ l Attrs.eaToRecord (fun _ _ => rfl)] at hc
    rw [← Option.some.inj hc, texts, List.flatMap_map]
    congr 1
    funext e
    exact Attrs.eaRec_text e
  obtain ⟨P, h1, h2, -⟩ := cuts_damaged (pre := lit "# file: ") (by decide) (by decide) (A := A.map Attrs.eaRec) (B := B.map Attrs.eaRec)
    (by intro x hx; obtain ⟨e, he, rfl⟩ := List.mem_map.1 hx; exact Attrs.eaRec_ok (hline e (hA e he).1))
    (by intro x hx; obtain ⟨e, he, rfl⟩ := List.mem_map.1 hx; exact Attrs.eaRec_ok (hline e (hB e he).1)) X
  have hmap : ∀ l : List Attrs.Ea, (∀ e ∈ l, Attrs.PlainEa e) →
      ((l.map Attrs.eaRec).map (Rec.text (lit "# file: "))).filterMap Attrs.eaOfRecord = l := by
    intro l hl
    induction l with
    | nil => rfl
    | cons e l ih =>
      rw [List.map_cons, List.map_cons, List.filterMap_cons, hobj e (hl e List.mem_cons_self)]
      simp only
      rw [ih fun e he => hl e (List.mem_cons_of_mem _ he)]
  refine ⟨P, ?_, ?_⟩
  · rw [h2, List.getLast?_map, List.head?_map]
    cases A.getLast? <;> cases B.head? <;> simp [optText, Attrs.eaRec_text]
  · rw [iterate_any (by decide), hfile A cA hA hcA, hfile B cB hB hcB, h1, List.filterMap_append, List.filterMap_append,
      ← List.map_dropLast, ← List.map_tail, hmap _ (fun e he => (hA e (List.dropLast_subset _ he)).1),
      hmap _ (fun e he => (hB e (List.mem_of_mem_tail he)).1)]

/-- two files with attributes, one with a value of three bytes and one with an empty value -/
def demoEas : List Attrs.Ea := [⟨[lit "a"], [(lit "user.x", [1, 10, 3])]⟩, ⟨[lit "a b"], [(lit "user.y", [])]⟩]

theorem demo_eas : ∀ e ∈ demoEas, Attrs.PlainEa e ∧ e.attrs ≠ [] := by
  intro e he
  simp only [demoEas, List.mem_cons, List.not_mem_nil, or_false] at he
  rcases he with rfl | rfl
  all_goals
    refine ⟨⟨by unfold Attrs.PathIndex; decide, ?_, by decide⟩, by simp⟩
    intro a ha
    rw [List.mem_singleton.1 ha]
    unfold Attrs.PlainName
    decide

example : ∃ c pieces, Attrs.eaFile 100 demoEas = some c ∧
    iterate (lit "# file: ") (fun k => k) Attrs.eaOfRecord (c ++ lit "#file:" ++ c) =
      demoEas.dropLast ++ (pieces : List Bytes).filterMap Attrs.eaOfRecord ++ demoEas.tail := by
  obtain ⟨c, hc⟩ : ∃ c, Attrs.eaFile 100 demoEas = some c := ⟨_, rfl⟩
  obtain ⟨pieces, -, h⟩ := confined_ea 100 (fun k => k) demo_eas demo_eas hc hc (lit "#file:")
  exact ⟨c, pieces, hc, h⟩

example : ∃ c, writeObjects 100 (objectToRecord true) C24.demo = some c ∧ (readAll (fun k => k) (c.take 120)).2 = false ∧
    (readAll (fun k => k) (c.take 120)).1.length = 2 := by
  refine ⟨_, rfl, ?_, ?_⟩ <;> decide +kernel

end Verif.C71
