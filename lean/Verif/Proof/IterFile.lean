import Verif.Model.IterFile
import Verif.Props.C34
/-! Lemmas for C35: the writer's blocks consist of whole records, and the reader gets the records one after the other. -/
namespace Verif.IterFile
open Verif.Pipe
variable {O R E H : Type} {P : Pickles O R E H}

structure Sound (P : Pickles O R E H) : Prop where
  obj : C34.Inverse P.obj
  rorp : C34.Inverse P.rorp
  exc : C34.Inverse P.exc
  close : C34.Inverse P.close

theorem enc_eq {r : Rec O R E H} {b : Bytes} (h : enc P r = some b) :
    ∃ n, b = r.letter :: (n ++ r.data P) ∧ n.length = 7 ∧ b2i n = (r.data P).length := by
  obtain ⟨n, h1, rfl⟩ := Option.map_eq_some_iff.1 h
  obtain ⟨a, c⟩ := C34.b2i_i2b h1
  exact ⟨n, rfl, c (by omega), a⟩

theorem dec_enc (hP : Sound P) (r : Rec O R E H) : dec P r.letter (r.data P) = some r := by
  cases r with
  | obj o => simp [dec, Rec.letter, Rec.data, hP.obj o]
  | rorp r f => simp [dec, Rec.letter, Rec.data, hP.rorp (r, f)]
  | file b => simp [dec, Rec.letter, Rec.data]
  | cont b => simp [dec, Rec.letter, Rec.data]
  | close h => simp [dec, Rec.letter, Rec.data, hP.close h]
  | exc e => simp [dec, Rec.letter, Rec.data, hP.exc e]
  | fin => simp [dec, Rec.letter]

theorem encAll_append (rs ss : List (Rec O R E H)) : encAll P (rs ++ ss) = (encAll P rs).bind fun a => (encAll P ss).map (a ++ ·) := by
  induction rs with
  | nil => simp [encAll]
  | cons r rs ih =>
    simp only [List.cons_append, encAll, ih]
    cases enc P r <;> cases encAll P rs <;> cases encAll P ss <;> simp

theorem encAll_append_some {rs ss : List (Rec O R E H)} {a b : Bytes} (h1 : encAll P rs = some a) (h2 : encAll P ss = some b) :
    encAll P (rs ++ ss) = some (a ++ b) := by simp [encAll_append, h1, h2]

theorem encAll_cons_ne {r : Rec O R E H} {rs : List (Rec O R E H)} {b : Bytes} (h : encAll P (r :: rs) = some b) : b ≠ [] := by
  simp only [encAll, Option.bind_eq_some_iff, Option.map_eq_some_iff] at h
  obtain ⟨a, h1, c, _, rfl⟩ := h
  obtain ⟨n, rfl, _⟩ := enc_eq h1
  simp

theorem takeRec_cons (hP : Sound P) {r : Rec O R E H} {rs : List (Rec O R E H)} {s : Reader O R E H} (h : encAll P (r :: rs) = some s.buf) :
    ∃ b, encAll P rs = some b ∧ takeRec P s = (.ok (some r), { s with buf := b }) := by
  have hne := encAll_cons_ne h
  simp only [encAll, Option.bind_eq_some_iff, Option.map_eq_some_iff] at h
  obtain ⟨a, h1, c, h2, h3⟩ := h
  obtain ⟨n, rfl, hn, hl⟩ := enc_eq h1
  refine ⟨c, h2, ?_⟩
  have e1 : (s.buf.drop 1).take 7 = n := by
    rw [← h3]; simp only [List.cons_append, List.drop_succ_cons, List.drop_zero, List.append_assoc]
    exact List.take_left' hn
  have e2 : s.buf.drop 8 = r.data P ++ c := by
    rw [← h3]; simp only [List.cons_append, List.drop_succ_cons, List.append_assoc]
    exact List.drop_left' hn
  have e3 : s.buf.headD 0 = r.letter := by rw [← h3]; rfl
  have e4 : ¬ s.buf.length < 8 := by rw [← h3]; simp [hn]
  have e5 : (s.buf.drop 8).take (r.data P).length = r.data P := by rw [e2]; simp
  have e6 : s.buf.drop (8 + (r.data P).length) = c := by rw [← List.drop_drop, e2]; simp
  simp only [takeRec, if_neg hne, if_neg e4, e1, hl, e3, e5, dec_enc hP, e6]

/-! ### what the writer is going to write -/

/-- the records for a file; `none`: a flush -/
def Src.recs (f : Src E H) (pre : Bytes → Rec O R E H) : List (Rec O R E H) :=
  match f.blocks, f.ending with
  | b :: bs, .inl e => pre b :: (bs.map .cont ++ [.exc e])
  | b :: bs, .inr h => pre b :: (bs.map .cont ++ [.cont [], .close h])
  | [], .inl e => [.exc e]
  | [], .inr h => [pre [], .close h]

def Elem.recs : Elem O R E H → List (Option (Rec O R E H))
  | .obj o => [some (.obj o)]
  | .rorp r none => [some (.rorp r false)]
  | .rorp r (some f) => some (.rorp r true) :: (f.recs .file).map some
  | .flush => [none]
  | .flushRepeat o => [some (.obj o), none]

def Writer.pend (w : Writer O R E H) : List (Option (Rec O R E H)) :=
  (match w.inFile with | some f => (f.recs .cont).map some | none => []) ++
    ((match w.next with | some f => (f.recs .file).map some | none => []) ++ w.iter.flatMap Elem.recs)

/-- everything can be written -/
def Fits (P : Pickles O R E H) (L : List (Option (Rec O R E H))) : Prop := ∀ r, some r ∈ L → ∃ b, enc P r = some b

theorem encAll_some {rs : List (Rec O R E H)} (h : ∀ r ∈ rs, ∃ b, enc P r = some b) : ∃ b, encAll P rs = some b := by
  induction rs with
  | nil => exact ⟨[], rfl⟩
  | cons r rs ih =>
    obtain ⟨a, ha⟩ := h r (by simp)
    obtain ⟨b, hb⟩ := ih fun x hx => h x (by simp [hx])
    exact ⟨a ++ b, by simp [encAll, ha, hb]⟩

theorem fin_fits : ∃ b, enc P .fin = some b := ⟨_, by simp only [enc, Rec.data]; rfl⟩

theorem emit_eq {w : Writer O R E H} {rs : List (Rec O R E H)} (h : ∀ r ∈ rs, ∃ b, enc P r = some b) :
    ∃ b, encAll P rs = some b ∧ w.emit P rs = some { w with buf := w.buf ++ b } := by
  obtain ⟨b, hb⟩ := encAll_some h
  exact ⟨b, hb, by simp [Writer.emit, hb]⟩

theorem src_cons_recs (f : Src E H) {b : Bytes} {bs : List Bytes} (h : f.blocks = b :: bs) (pre : Bytes → Rec O R E H) :
    f.recs pre = pre b :: ({ f with blocks := bs } : Src E H).recs .cont := by
  obtain ⟨bl, en⟩ := f
  simp only at h; subst h
  cases en <;> cases bs <;> simp [Src.recs]

theorem addFromFile_eq {w : Writer O R E H} {f : Src E H} {pre : Bytes → Rec O R E H} (hf : ∀ r ∈ f.recs pre, ∃ b, enc P r = some b) :
    ∃ w' xs b, addFromFile P w f pre = some w' ∧ xs ≠ [] ∧ encAll P xs = some b ∧ w'.buf = w.buf ++ b ∧ w'.rorps = w.rorps ∧ w'.next = w.next ∧
      w'.iter = w.iter ∧ f.recs pre = xs ++ (match w'.inFile with | some f => f.recs .cont | none => []) := by
  simp only [addFromFile]
  split
  · rename_i b bs hb
    have hs := src_cons_recs f hb pre
    obtain ⟨c, h1, h2⟩ := emit_eq (P := P) (w := { w with inFile := some { f with blocks := bs } }) (rs := [pre b])
      (fun r hr => hf r (by rw [hs]; simp at hr; simp [hr]))
    exact ⟨_, [pre b], c, h2, by simp, h1, rfl, rfl, rfl, rfl, by rw [hs]; rfl⟩
  · rename_i e hb he
    have hs : f.recs pre = [.exc e] := by simp only [Src.recs]; rw [hb, he]
    obtain ⟨c, h1, h2⟩ := emit_eq (P := P) (w := { w with inFile := none }) (rs := [.exc e]) (fun r hr => hf r (by rw [hs]; exact hr))
    exact ⟨_, [.exc e], c, h2, by simp, h1, rfl, rfl, rfl, rfl, by rw [hs]; rfl⟩
  · rename_i h hb he
    have hs : f.recs pre = [pre [], .close h] := by simp only [Src.recs]; rw [hb, he]
    obtain ⟨c, h1, h2⟩ := emit_eq (P := P) (w := { w with inFile := none }) (rs := [pre [], .close h]) (fun r hr => hf r (by rw [hs]; exact hr))
    exact ⟨_, [pre [], .close h], c, h2, by simp, h1, rfl, rfl, rfl, rfl, by rw [hs]; rfl⟩

/-- what a call of `_add_to_buffer` does -/
theorem addToBuffer_eq {w : Writer O R E H} (hf : Fits P w.pend) :
    ∃ g w' xs b, addToBuffer P w = some (g, w') ∧ encAll P xs = some b ∧ w'.buf = w.buf ++ b ∧
      ((g = true ∧ xs ≠ [] ∧ w.pend = xs.map some ++ w'.pend) ∨
       (g = false ∧ xs = [.fin] ∧ w.pend = [] ∧ w'.pend = []) ∨
       (g = false ∧ w.pend = xs.map some ++ none :: w'.pend)) := by
  obtain ⟨es, inF, nx, buf, ro⟩ := w
  cases inF with
  | some f =>
    obtain ⟨w', xs, b, h1, h2, h3, h4, h5, h6, h7, h8⟩ := addFromFile_eq (P := P) (w := ⟨es, some f, nx, buf, ro⟩) (f := f) (pre := .cont)
      (fun r hr => hf r (by simp [Writer.pend, hr]))
    refine ⟨true, if w'.inFile.isNone then { w' with rorps := w'.rorps + 1 } else w', xs, b, by simp only [addToBuffer]; rw [h1]; rfl, h3, ?_, .inl ⟨rfl, h2, ?_⟩⟩
    · split <;> exact h4
    · have : (if w'.inFile.isNone then { w' with rorps := w'.rorps + 1 } else w').pend = w'.pend := by split <;> rfl
      rw [this]
      simp only [Writer.pend, h6, h7, h8]
      cases w'.inFile <;> simp
  | none =>
    cases nx with
    | some f =>
      obtain ⟨w', xs, b, h1, h2, h3, h4, h5, h6, h7, h8⟩ := addFromFile_eq (P := P) (w := ⟨es, none, none, buf, ro⟩) (f := f) (pre := .file)
        (fun r hr => hf r (by simp [Writer.pend, hr]))
      refine ⟨true, w', xs, b, by simp only [addToBuffer]; rw [h1]; rfl, h3, h4, .inl ⟨rfl, h2, ?_⟩⟩
      simp only [Writer.pend, h6, h7, h8]
      cases w'.inFile <;> simp
    | none =>
      cases es with
      | nil =>
        obtain ⟨b, h1, h2⟩ := emit_eq (P := P) (w := ⟨[], none, none, buf, ro⟩) (rs := [.fin]) (by simpa using fin_fits)
        exact ⟨false, _, [.fin], b, by simp only [addToBuffer]; rw [h2]; rfl, h1, rfl, .inr (.inl ⟨rfl, rfl, rfl, rfl⟩)⟩
      | cons e es =>
        cases e with
        | obj o =>
          obtain ⟨b, h1, h2⟩ := emit_eq (P := P) (w := ⟨es, none, none, buf, ro⟩) (rs := [.obj o])
            (fun r hr => hf r (by simp at hr; simp [Writer.pend, Elem.recs, hr]))
          exact ⟨true, _, [.obj o], b, by simp only [addToBuffer]; rw [h2]; rfl, h1, rfl, .inl ⟨rfl, by simp, rfl⟩⟩
        | rorp r f =>
          cases f with
          | none =>
            obtain ⟨b, h1, h2⟩ := emit_eq (P := P) (w := ⟨es, none, none, buf, ro + 1⟩) (rs := [.rorp r false])
              (fun r hr => hf r (by simp at hr; simp [Writer.pend, Elem.recs, hr]))
            exact ⟨true, _, [.rorp r false], b, by simp only [addToBuffer]; rw [h2]; rfl, h1, rfl, .inl ⟨rfl, by simp, rfl⟩⟩
          | some f =>
            obtain ⟨b, h1, h2⟩ := emit_eq (P := P) (w := ⟨es, none, some f, buf, ro⟩) (rs := [.rorp r true])
              (fun r hr => hf r (by simp at hr; simp [Writer.pend, Elem.recs, hr]))
            exact ⟨true, _, [.rorp r true], b, by simp only [addToBuffer]; rw [h2]; rfl, h1, rfl, .inl ⟨rfl, by simp, rfl⟩⟩
        | flush => exact ⟨false, _, [], [], rfl, rfl, by simp, .inr (.inr ⟨rfl, rfl⟩)⟩
        | flushRepeat o =>
          obtain ⟨b, h1, h2⟩ := emit_eq (P := P) (w := ⟨es, none, none, buf, ro⟩) (rs := [.obj o])
            (fun r hr => hf r (by simp at hr; simp [Writer.pend, Elem.recs, hr]))
          exact ⟨false, _, [.obj o], b, by simp only [addToBuffer]; rw [h2]; rfl, h1, rfl, .inr (.inr ⟨rfl, rfl⟩)⟩

/-- what is written by `read` -/
theorem fill_eq {mb mr : Nat} {w : Writer O R E H} (hf : Fits P w.pend) :
    ∃ w' xs b, fill P mb mr w = some w' ∧ encAll P xs = some b ∧ w'.buf = w.buf ++ b ∧
      ((∃ ys, xs = ys ++ [.fin] ∧ w.pend = ys.map some ∧ w'.pend = []) ∨ w.pend = xs.map some ++ w'.pend ∨ w.pend = xs.map some ++ none :: w'.pend) ∧
      (w.buf.length < mb → w.rorps < mr → xs ≠ [] ∨ w.pend = none :: w'.pend) := by
  induction hn : w.work using Nat.strong_induction_on generalizing w with
  | _ n ih =>
    subst hn
    rw [fill.eq_def]
    split
    · obtain ⟨g, w1, xs, b, h1, h2, h3, h4⟩ := addToBuffer_eq hf
      split
      · rename_i h; rw [h1] at h; cases h
      · rename_i w' h
        rw [h1] at h; cases h
        refine ⟨w1, xs, b, rfl, h2, h3, ?_, fun _ _ => ?_⟩
        · rcases h4 with ⟨h, _⟩ | ⟨_, h5, h6, h7⟩ | ⟨_, h5⟩
          · cases h
          · exact .inl ⟨[], by simp [h5], by simp [h6], h7⟩
          · exact .inr (.inr h5)
        · rcases h4 with ⟨h, _⟩ | ⟨_, h5, h6, h7⟩ | ⟨_, h5⟩
          · cases h
          · exact .inl (by simp [h5])
          · cases xs with
            | nil => exact .inr h5
            | cons => exact .inl (by simp)
      · rename_i w' h
        rw [h1] at h; cases h
        rcases h4 with ⟨_, h5, h6⟩ | ⟨h, _⟩ | ⟨h, _⟩
        rotate_left
        · cases h
        · cases h
        obtain ⟨w2, ys, c, i1, i2, i3, i4, i5⟩ := ih w1.work (addToBuffer_work P h1) (w := w1) (fun r hr => hf r (by rw [h6]; simp [hr])) rfl
        refine ⟨w2, xs ++ ys, b ++ c, i1, encAll_append_some h2 i2, by rw [i3, h3]; simp, ?_, fun _ _ => .inl (by simp [h5])⟩
        rcases i4 with ⟨zs, rfl, j2, j3⟩ | j | j
        · exact .inl ⟨xs ++ zs, by simp, by rw [h6, j2]; simp, j3⟩
        · exact .inr (.inl (by rw [h6, j]; simp))
        · exact .inr (.inr (by rw [h6, j]; simp))
    · rename_i hc
      exact ⟨w, [], [], rfl, rfl, by simp, .inr (.inl (by simp)), fun h1 h2 => absurd ⟨h1, h2⟩ hc⟩

/-! ### the reader -/

/-- the reader still has to get the records `A` (of the current element), then those of the elements `es` -/
structure Sim (P : Pickles O R E H) (s : Reader O R E H) (L : List (Option (Rec O R E H))) : Prop where
  fits : Fits P L
  buf : s.src.buf = []
  rorps : s.src.rorps = 0
  eq : ∃ rs k, encAll P (rs ++ List.replicate k .fin) = some s.buf ∧ L = rs.map some ++ s.src.pend ∧ (0 < k → s.src.pend = [])

theorem fits_append {L M : List (Option (Rec O R E H))} : Fits P (L ++ M) ↔ Fits P L ∧ Fits P M := by
  simp only [Fits, List.mem_append]
  exact ⟨fun h => ⟨fun r hr => h r (.inl hr), fun r hr => h r (.inr hr)⟩, fun h r hr => hr.elim (h.1 r) (h.2 r)⟩

/-- `L` without some flushes -/
inductive Thin : List (Option (Rec O R E H)) → List (Option (Rec O R E H)) → Prop
  | refl (L) : Thin L L
  | drop {L} : Thin (none :: L) L
  | cons {x L M} : Thin L M → Thin (x :: L) (x :: M)

theorem thin_map_append (rs : List (Rec O R E H)) {L M : List (Option (Rec O R E H))} (h : Thin L M) : Thin (rs.map some ++ L) (rs.map some ++ M) := by
  induction rs with
  | nil => exact h
  | cons r rs ih => exact .cons ih

/-- data in the buffer -/
theorem getRec_buffered (hP : Sound P) {mb mr : Nat} {s : Reader O R E H} {r : Rec O R E H} {rs : List (Rec O R E H)} {k : Nat}
    {L : List (Option (Rec O R E H))} (hs : Sim P s L) (he : encAll P (r :: rs ++ List.replicate k .fin) = some s.buf)
    (hL : L = (r :: rs).map some ++ s.src.pend) (hk : 0 < k → s.src.pend = []) :
    ∃ s', getRec P mb mr s = (.ok (some r), s') ∧ s'.inFile = s.inFile ∧ s'.vf = s.vf ∧ Sim P s' (rs.map some ++ s.src.pend) := by
  have hne := encAll_cons_ne he
  obtain ⟨b, h1, h2⟩ := takeRec_cons hP he
  refine ⟨{ s with buf := b }, by simp only [getRec, if_neg hne]; exact h2, rfl, rfl, ⟨?_, hs.buf, hs.rorps, rs, k, h1, rfl, hk⟩⟩
  intro x hx
  exact hs.fits x (by rw [hL]; simp only [List.map_cons, List.cons_append, List.mem_cons]; exact .inr hx)

theorem getRec_eq (hP : Sound P) {mb mr : Nat} (hmb : 0 < mb) (hmr : 0 < mr) {s : Reader O R E H} {L : List (Option (Rec O R E H))} (hs : Sim P s L) :
    ∃ r s', getRec P mb mr s = (.ok r, s') ∧ s'.inFile = s.inFile ∧ s'.vf = s.vf ∧
      ((∃ x L0 L1, r = some x ∧ L = some x :: L0 ∧ Thin L0 L1 ∧ Sim P s' L1) ∨
       (r = none ∧ ∃ L0, L = none :: L0 ∧ Sim P s' L0) ∨
       (r = some .fin ∧ L = [] ∧ Sim P s' [])) := by
  obtain ⟨rs, k, h1, h2, h3⟩ := hs.eq
  cases rs with
  | cons x rs =>
    obtain ⟨s', a, b, c, d⟩ := getRec_buffered hP (mb := mb) (mr := mr) hs h1 h2 h3
    exact ⟨some x, s', a, b, c, .inl ⟨x, rs.map some ++ s.src.pend, _, rfl, h2, .refl _, d⟩⟩
  | nil =>
    cases k with
    | succ k =>
      have hp := h3 (by omega)
      have h1' : encAll P (.fin :: List.replicate k .fin) = some s.buf := by simpa [List.replicate_succ] using h1
      have hne := encAll_cons_ne h1'
      obtain ⟨b, i1, i2⟩ := takeRec_cons hP h1'
      refine ⟨some .fin, { s with buf := b }, by simp only [getRec, if_neg hne]; exact i2, rfl, rfl, .inr (.inr ⟨rfl, by simp [h2, hp], ?_⟩)⟩
      exact ⟨fun r hr => by simp at hr, hs.buf, hs.rorps, [], k, by simpa using i1, by simp [hp], fun _ => hp⟩
    | zero =>
      have hb : s.buf = [] := by simpa [encAll] using h1
      have hL : L = s.src.pend := by simpa using h2
      have hfit := hs.fits
      rw [hL] at hfit
      obtain ⟨w', xs, b, f1, f2, f3, f4, f5⟩ := fill_eq (mb := mb) (mr := mr) hfit
      rw [hs.buf] at f3 f5
      simp only [List.nil_append] at f3
      have f5 := f5 (by simpa using hmb) (by rw [hs.rorps]; exact hmr)
      let s1 : Reader O R E H := { s with buf := w'.buf, src := { w' with buf := [], rorps := 0 } }
      have hg : getRec P mb mr s = takeRec P s1 := by
        simp only [getRec, if_pos hb, readBlock, f1, Option.map_some]; rfl
      have hp1 : s1.src.pend = w'.pend := rfl
      cases xs with
      | nil =>
        have hw : w'.buf = [] := by rw [f3]; simpa [encAll] using f2.symm
        have hpe : s.src.pend = none :: w'.pend := by rcases f5 with h | h; exact absurd rfl h; exact h
        refine ⟨none, s1, by rw [hg]; simp only [takeRec]; rw [if_pos hw], rfl, rfl, .inr (.inl ⟨rfl, w'.pend, by rw [hL, hpe], ?_⟩)⟩
        exact ⟨fun r hr => hfit r (by rw [hpe]; simp [hr]), rfl, rfl, [], 0, by simpa [encAll] using hw.symm, rfl, by simp⟩
      | cons x xs =>
        have henc : encAll P (x :: xs) = some s1.buf := by rw [f2]; exact congrArg some f3.symm
        obtain ⟨c, i1, i2⟩ := takeRec_cons hP henc
        refine ⟨some x, { s1 with buf := c }, by rw [hg, i2], rfl, rfl, ?_⟩
        rcases f4 with ⟨ys, j1, j2, j3⟩ | j | j
        · cases ys with
          | nil =>
            simp only [List.nil_append, List.cons.injEq] at j1
            obtain ⟨rfl, rfl⟩ := j1
            refine .inr (.inr ⟨rfl, by rw [hL, j2]; rfl, fun r hr => by simp at hr, rfl, rfl, [], 0, ?_, ?_, by simp⟩)
            · simpa [encAll] using i1
            · simp; exact j3
          | cons y ys =>
            simp only [List.cons_append, List.cons.injEq] at j1
            obtain ⟨rfl, rfl⟩ := j1
            refine .inl ⟨x, ys.map some, _, rfl, by rw [hL, j2]; rfl, .refl _, ?_⟩
            exact ⟨fun r hr => hfit r (by rw [j2]; simp only [List.map_cons, List.mem_cons]; exact .inr hr), rfl, rfl, ys, 1, i1,
              by simp; exact j3, fun _ => j3⟩
        · refine .inl ⟨x, xs.map some ++ w'.pend, _, rfl, by rw [hL, j]; rfl, .refl _, ?_⟩
          exact ⟨fun r hr => hfit r (by rw [j]; simp only [List.map_cons, List.cons_append, List.mem_cons]; exact .inr hr), rfl, rfl, xs, 0,
            by simpa using i1, rfl, by simp⟩
        · refine .inl ⟨x, xs.map some ++ none :: w'.pend, xs.map some ++ w'.pend, rfl, by rw [hL, j]; rfl, thin_map_append _ .drop, ?_⟩
          exact ⟨fun r hr => hfit r (by
            rw [j]; simp only [List.map_cons, List.cons_append, List.mem_cons, List.mem_append] at hr ⊢
            rcases hr with hr | hr
            · exact .inr (.inl hr)
            · exact .inr (.inr (.inr hr))), rfl, rfl, xs, 0, by simpa using i1, rfl, by simp⟩

end Verif.IterFile
