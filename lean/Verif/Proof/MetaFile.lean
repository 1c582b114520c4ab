import Verif.Proof.MetaRecord
/- Whole metadata files. -/
namespace Verif.FlatFile
open Verif.Quoting

theorem writeRecord_spec (max : Nat) (w : Writer) (rec : Bytes) :
    (writeRecord max w rec).out ++ (writeRecord max w rec).buf.flatten = w.out ++ w.buf.flatten ++ rec := by
  simp only [writeRecord]
  split <;> simp

theorem closeWriter_spec (w : Writer) : closeWriter w = w.out ++ w.buf.flatten := by
  unfold closeWriter
  split
  · rfl
  · next h => rw [Classical.not_not.1 h]; simp

theorem writeObjects_spec {β : Type} (max : Nat) (toRecord : β → Option Bytes) (objs : List β) (text : β → Bytes)
    (h : ∀ o ∈ objs, toRecord o = some (text o)) : writeObjects max toRecord objs = some (objs.flatMap text) := by
  suffices ∀ w : Writer, (objs.foldlM (fun w o => (toRecord o).map (writeRecord max w)) w).map closeWriter =
      some (w.out ++ w.buf.flatten ++ objs.flatMap text) by
    exact this ⟨[], []⟩
  induction objs with
  | nil => intro w; simp [closeWriter_spec]
  | cons o objs ih =>
    intro w
    rw [List.foldlM_cons, h o List.mem_cons_self]
    simp only [Option.map_some, Option.bind_eq_bind, Option.bind_some]
    rw [ih (fun o ho => h o (List.mem_cons_of_mem _ ho)), writeRecord_spec]
    simp

end Verif.FlatFile

namespace Verif.MetaRecord
open Verif.Quoting Verif.FlatFile

instance instLinearOrderByte : LinearOrder UInt8 where
  le_refl := UInt8.le_refl
  le_trans := fun _ _ _ => UInt8.le_trans
  le_antisymm := fun _ _ => UInt8.le_antisymm
  le_total := UInt8.le_total
  toDecidableLE := inferInstance
  toDecidableLT := inferInstance
  toDecidableEq := inferInstance
  lt_iff_le_not_ge := by
    intro a b
    rw [UInt8.lt_iff_toNat_lt, UInt8.le_iff_toNat_le, UInt8.le_iff_toNat_le]; omega

/-- the record of a field list, as lines -/
def mkRec (q : Bytes) (fs : List (Bytes × Bytes)) : Rec := ⟨q, fs.map fun f => 32 :: 32 :: (f.1 ++ 32 :: f.2)⟩

theorem mkRec_text (q : Bytes) (fs : List (Bytes × Bytes)) :
    (mkRec q fs).text (lit "File ") = lit "File " ++ q ++ [nl] ++ fieldsText fs := by
  have : ∀ fs : List (Bytes × Bytes), joinLines (fs.map fun f => 32 :: 32 :: (f.1 ++ 32 :: f.2)) = fieldsText fs := by
    intro fs
    induction fs with
    | nil => rfl
    | cons f fs ih => simp [ih, fieldsText, line]
  simp [mkRec, Rec.text, Rec.lines, this]

theorem mkRec_ok {q : Bytes} (hq : Value q) {fs : List (Bytes × Bytes)} (h : ∀ f ∈ fs, FieldName f.1 ∧ Value f.2) :
    (mkRec q fs).Ok (lit "File ") := by
  refine ⟨hq.2, ?_⟩
  intro l hl
  obtain ⟨f, hf, rfl⟩ := List.mem_map.1 hl
  obtain ⟨⟨-, h1⟩, h2⟩ := h f hf
  constructor
  · simp only [List.mem_cons, List.mem_append, not_or]
    exact ⟨by decide, by decide, field_no_nl h1, by decide, h2.2⟩
  · rintro ⟨t, ht⟩
    rw [show lit "File " = 70 :: lit "ile " by decide] at ht
    simp at ht

/-- the records of a list of storable paths -/
theorem recs_of_storable (hardlinks : Bool) (rs : List Rorp) (h : ∀ r ∈ rs, Storable r) :
    ∃ rec : Rorp → Rec, ∀ r ∈ rs, (rec r).Ok (lit "File ") ∧ filenameToIndex (rec r).name = r.index ∧
      objectToRecord hardlinks r = some ((rec r).text (lit "File ")) ∧
      recordToObject ((rec r).text (lit "File ")) = some (kept hardlinks r) := by
  have : ∀ r, ∃ x : Rec, r ∈ rs → x.Ok (lit "File ") ∧ filenameToIndex x.name = r.index ∧
      objectToRecord hardlinks r = some (x.text (lit "File ")) ∧ recordToObject (x.text (lit "File ")) = some (kept hardlinks r) := by
    intro r
    by_cases hr : r ∈ rs
    · obtain ⟨q, fs, hq, hfs, h1, h2, h3⟩ := record_roundtrip hardlinks (h r hr)
      refine ⟨mkRec q fs, fun _ => ⟨mkRec_ok hq hfs, h1, ?_, ?_⟩⟩
      · rw [mkRec_text]; exact h2
      · rw [mkRec_text]; exact h3
    · exact ⟨⟨[], []⟩, fun h => absurd h hr⟩
  obtain ⟨f, hf⟩ := Classical.axiomOfChoice this
  exact ⟨f, hf⟩

theorem isPrefixOf_inst {α : Type} (i1 i2 : BEq α) (h1 : @LawfulBEq α i1) (h2 : @LawfulBEq α i2) (a b : List α) :
    @List.isPrefixOf α i1 a b = @List.isPrefixOf α i2 a b := by
  rw [Bool.eq_iff_iff, @List.isPrefixOf_iff_prefix α i1 h1, @List.isPrefixOf_iff_prefix α i2 h2]

theorem kept_index (hardlinks : Bool) (r : Rorp) : (kept hardlinks r).index = r.index := by
  unfold kept; split <;> rfl

theorem filterMap_recs {rs : List Rorp} {toObj : Bytes → Option Rorp} {rec : Rorp → Rec} {f : Rorp → Rorp}
    (h : ∀ r ∈ rs, toObj ((rec r).text (lit "File ")) = some (f r)) :
    (rs.map rec).filterMap (fun x => toObj (x.text (lit "File "))) = rs.map f := by
  rw [List.filterMap_map]
  induction rs with
  | nil => rfl
  | cons r rs ih =>
    rw [List.filterMap_cons]
    simp only [Function.comp, h r List.mem_cons_self]
    rw [List.map_cons]
    congr 1
    exact ih fun r hr => h r (List.mem_cons_of_mem _ hr)

end Verif.MetaRecord
