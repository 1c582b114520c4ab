import Mathlib.Order.MinMax
import Verif.Model.FileObj
/-! # C36: delta transfer loops are independent of buffer sizes -/
namespace Verif.C36
open Verif.FileObj
open Verif.Pipe (Bytes)
variable {F X C S : Type}

/-! ### what is expected of files and of librsync -/

/-- A file which is open and holds the bytes `c`, `Q f c`: reads return successive pieces, of any size, nothing only at the end. -/
def Reads (fo : FileObj F X C) (Q : F → Bytes → Prop) : Prop :=
  ∀ f c n, Q f c → 0 < n → ∃ b f' c', fo.read (some n) f = (.ok b, f') ∧ c = b ++ c' ∧ (b = [] → c = []) ∧ Q f' c'

/-- a file of which reads return as much as asked for, unless it ends -/
structure Full (fo : FileObj F X C) (Q : F → Bytes → Prop) : Prop where
  some : ∀ f c n, Q f c → ∃ f', fo.read (some n) f = (.ok (c.take n), f') ∧ Q f' (c.drop n)
  none : ∀ f c, Q f c → ∃ f', fo.read none f = (.ok c, f') ∧ Q f' []

theorem Full.reads {fo : FileObj F X C} {Q : F → Bytes → Prop} (h : Full fo Q) : Reads fo Q := by
  intro f c n hq hn
  obtain ⟨f', h1, h2⟩ := h.some f c n hq
  refine ⟨c.take n, f', c.drop n, h1, (List.take_append_drop n c).symm, fun hb => ?_, h2⟩
  rcases List.take_eq_nil_iff.1 hb with h | h
  · omega
  · exact h

/-- A librsync job: `den s x` is the output for the input `x` in state `s` (`none`: an error), whichever pieces it is fed with, as long as it isn't called
without input before the end; `rank`: it doesn't go on for ever. -/
def Streams (iter : JobIter S) (den : S → Bytes → Option Bytes) (rank : S → Bytes → Nat) : Prop :=
  ∀ s p rest eof room, 0 < room → (eof = true → rest = []) → (eof = false → p ≠ []) →
    match iter s p eof room with
    | (.done, _, o, _) => den s (p ++ rest) = some o
    | (.blocked, n, o, s') => n ≤ p.length ∧ den s (p ++ rest) = (den s' ((p ++ rest).drop n)).map (o ++ ·) ∧ rank s' ((p ++ rest).drop n) < rank s (p ++ rest)
    | (.failed, _, _, _) => den s (p ++ rest) = none

/-- what a sequence of reads should return of the bytes `o` -/
def readsSpec (o : Bytes) : List (Option Nat) → List Bytes
  | [] => []
  | some n :: ns => o.take n :: readsSpec (o.drop n) ns
  | none :: ns => o :: readsSpec [] ns

/-- a sequence of reads -/
def runReads (fo : FileObj F X C) : List (Option Nat) → F → List (Except X Bytes) × F
  | [], f => ([], f)
  | n :: ns, f =>
    let r := fo.read n f
    let rs := runReads fo ns r.2
    (r.1 :: rs.1, rs.2)

/-! ### proof -/

section
variable {fo : FileObj F X C} {iter : JobIter S} {den : S → Bytes → Option Bytes} {rank : S → Bytes → Nat} {Q : F → Bytes → Prop}

/-- the input which has not been used by the job -/
inductive Rest (Q : F → Bytes → Prop) (l : LikeFile F C S) : Bytes → Prop
  | reading {c} : l.infileEof = false → Q l.infile c → Rest Q l (l.inbuf ++ c)
  | ended : l.infileEof = true → Rest Q l l.inbuf

theorem addToInbuf_eq (hQ : Reads fo Q) {l : LikeFile F C S} {c : Bytes} (he : l.infileEof = false) (hq : Q l.infile c) :
    ∃ l' : LikeFile F C S, addToInbuf fo l = (.ok (), l') ∧ l'.outbuf = l.outbuf ∧ l'.eof = l.eof ∧ l'.job = l.job ∧ Rest Q l' (l.inbuf ++ c) ∧
      (l'.infileEof = false → l'.inbuf ≠ []) := by
  induction hn : blocksize - l.inbuf.length using Nat.strong_induction_on generalizing l c with
  | _ k ih =>
    subst hn
    rw [addToInbuf.eq_def]
    split
    · rename_i hlt
      obtain ⟨b, f', c', h1, h2, h3, h4⟩ := hQ l.infile c blocksize hq (by decide)
      rw [h1]
      cases b with
      | nil =>
        have hc := h3 rfl
        refine ⟨_, rfl, rfl, rfl, rfl, ?_, fun h => by simp at h⟩
        rw [hc, List.append_nil]
        exact .ended rfl
      | cons b bs =>
        obtain ⟨l', i1, i2, i3, i4, i5, i6⟩ := ih (blocksize - (l.inbuf ++ b :: bs).length) (by simp; omega)
          (l := { l with infile := f', inbuf := l.inbuf ++ b :: bs }) (c := c') he h4 rfl
        refine ⟨l', i1, i2, i3, i4, ?_, i6⟩
        rw [h2]
        simpa using i5
    · rename_i hlt
      refine ⟨l, rfl, rfl, rfl, rfl, .reading he hq, fun _ h => ?_⟩
      rw [h] at hlt
      exact hlt (by decide)

theorem addToOutbuf_eq (hS : Streams iter den rank) (hQ : Reads fo Q) {l : LikeFile F C S} {x : Bytes} (hx : Rest Q l x) :
    ∃ l' : LikeFile F C S,
      (addToOutbuf fo iter l = (.error .librsync, l') ∧ den l.job x = none) ∨
      (addToOutbuf fo iter l = (.ok (), l') ∧ ∃ o, l'.outbuf = l.outbuf ++ o ∧
        ((l'.eof = true ∧ den l.job x = some o) ∨
         (l'.eof = false ∧ ∃ x', Rest Q l' x' ∧ den l.job x = (den l'.job x').map (o ++ ·) ∧ rank l'.job x' < rank l.job x))) := by
  have key : ∀ l1 : LikeFile F C S, l1.outbuf = l.outbuf → l1.job = l.job → Rest Q l1 x → (l1.infileEof = false → l1.inbuf ≠ []) →
      (if l.infileEof then (.ok (), l) else addToInbuf fo l : Except (LErr X) Unit × LikeFile F C S) = (.ok (), l1) → ∃ l' : LikeFile F C S,
      (addToOutbuf fo iter l = (.error .librsync, l') ∧ den l.job x = none) ∨
      (addToOutbuf fo iter l = (.ok (), l') ∧ ∃ o, l'.outbuf = l.outbuf ++ o ∧
        ((l'.eof = true ∧ den l.job x = some o) ∨
         (l'.eof = false ∧ ∃ x', Rest Q l' x' ∧ den l.job x = (den l'.job x').map (o ++ ·) ∧ rank l'.job x' < rank l.job x))) := by
    intro l1 ho hj hx1 hne heq
    obtain ⟨rest, hxr, hre⟩ : ∃ rest, x = l1.inbuf ++ rest ∧ ((l1.inbuf.length == 0) = true → rest = []) := by
      cases hx1 with
      | reading h1 h2 => exact ⟨_, rfl, fun h => absurd (by simpa using h) (hne h1)⟩
      | ended h1 => exact ⟨[], by simp, fun _ => rfl⟩
    have hs := hS l1.job l1.inbuf rest (l1.inbuf.length == 0) blocksize (by decide) hre (by simp)
    rw [← hxr, hj] at hs
    simp only [addToOutbuf, heq, cycle, hj]
    cases hi : iter l.job l1.inbuf (l1.inbuf.length == 0) blocksize with
    | mk res r =>
      obtain ⟨n, o, s'⟩ := r
      rw [hi] at hs
      cases res with
      | done => exact ⟨_, .inr ⟨rfl, o, by simp [ho], .inl ⟨rfl, hs⟩⟩⟩
      | failed => exact ⟨_, .inl ⟨rfl, hs⟩⟩
      | blocked =>
        obtain ⟨h1, h2, h3⟩ := hs
        refine ⟨_, .inr ⟨rfl, o, by simp [ho], .inr ⟨rfl, x.drop n, ?_, h2, h3⟩⟩⟩
        cases hx1 with
        | reading a b => rw [List.drop_append_of_le_length h1]; exact .reading a b
        | ended a => exact .ended a
  cases hx with
  | reading h1 h2 =>
    obtain ⟨l', i1, i2, i3, i4, i5, i6⟩ := addToInbuf_eq hQ h1 h2
    exact key l' i2 i4 i5 i6 (by simp [h1, i1])
  | ended h1 => exact key l rfl rfl (.ended h1) (by simp [h1]) (by simp [h1])

/-- the bytes `o` are still to be read from the file -/
def Holds (fuel : Nat) (den : S → Bytes → Option Bytes) (rank : S → Bytes → Nat) (Q : F → Bytes → Prop) (l : LikeFile F C S) (o : Bytes) : Prop :=
  0 < fuel ∧ ((l.eof = true ∧ o = l.outbuf) ∨ (l.eof = false ∧ ∃ x d, Rest Q l x ∧ den l.job x = some d ∧ o = l.outbuf ++ d ∧ rank l.job x + 1 < fuel))

theorem fill_eq (hS : Streams iter den rank) (hQ : Reads fo Q) {length : Option Nat} {fuel : Nat} {l : LikeFile F C S} {o : Bytes} {N : Nat} (hN : fuel ≤ N)
    (h : Holds fuel den rank Q l o) :
    ∃ l' : LikeFile F C S, fill fo iter length fuel l = (.ok (), l') ∧ Holds N den rank Q l' o ∧ (l'.eof = true ∨ length.any (· ≤ l'.outbuf.length) = true) := by
  induction fuel generalizing l with
  | zero => exact absurd h.1 (by omega)
  | succ k ih =>
    obtain ⟨h0, h⟩ := h
    simp only [fill]
    rcases h with ⟨h1, h2⟩ | ⟨h1, x, d, h2, h3, h4, h5⟩
    · exact ⟨l, by simp [h1], ⟨by omega, .inl ⟨h1, h2⟩⟩, .inl h1⟩
    · by_cases hlen : length.all (l.outbuf.length < ·) = true
      · rw [if_pos (by simp only [h1, hlen]; rfl)]
        obtain ⟨l', hl⟩ := addToOutbuf_eq hS hQ h2
        rcases hl with ⟨_, i2⟩ | ⟨i1, o', i2, i3⟩
        · rw [h3] at i2; cases i2
        · rw [i1]
          refine ih (by omega) ⟨by omega, ?_⟩
          rcases i3 with ⟨j1, j2⟩ | ⟨j1, x', j2, j3, j4⟩
          · rw [h3] at j2
            simp only [Option.some.injEq] at j2
            exact .inl ⟨j1, by rw [h4, i2, j2]⟩
          · rw [h3] at j3
            obtain ⟨d', j5, j6⟩ := Option.map_eq_some_iff.1 j3.symm
            exact .inr ⟨j1, x', d', j2, j5, by rw [h4, i2, ← j6]; simp, by omega⟩
      · rw [if_neg (by simp only [h1, hlen]; simp)]
        refine ⟨l, rfl, ⟨by omega, .inr ⟨h1, x, d, h2, h3, h4, by omega⟩⟩, .inr ?_⟩
        cases length with
        | none => simp at hlen
        | some n => simpa using hlen

/-- A LikeFile is a file with exactly the bytes which librsync computes. -/
theorem likeFile_full (hS : Streams iter den rank) (hQ : Reads fo Q) (fuel : Nat) : Full (LikeFile.obj fo iter fuel) (Holds fuel den rank Q) where
  some := by
    intro l o n h
    obtain ⟨l', h1, h2, h3⟩ := fill_eq hS hQ (length := Option.some n) (le_refl fuel) h
    refine ⟨{ l' with outbuf := l'.outbuf.drop (min n l'.outbuf.length) }, ?_, h2.1, ?_⟩
    · simp only [LikeFile.obj, LikeFile.read, h1, Prod.mk.injEq, Except.ok.injEq, and_true]
      rcases h2.2 with ⟨a, rfl⟩ | ⟨a, x, d, b, c, e, g⟩
      · rw [List.take_eq_take_min (l := l'.outbuf) (i := n)]
      · have : n ≤ l'.outbuf.length := by simpa [a] using h3
        rw [e, Nat.min_eq_left this, List.take_append_of_le_length this]
    · rcases h2.2 with ⟨a, rfl⟩ | ⟨a, x, d, b, c, e, g⟩
      · left
        refine ⟨a, ?_⟩
        show l'.outbuf.drop n = l'.outbuf.drop (min n l'.outbuf.length)
        by_cases hn : n ≤ l'.outbuf.length
        · rw [Nat.min_eq_left hn]
        · rw [Nat.min_eq_right (by omega), List.drop_of_length_le (by omega), List.drop_of_length_le (by omega)]
      · have : n ≤ l'.outbuf.length := by simpa [a] using h3
        refine .inr ⟨a, x, d, ?_, c, ?_, g⟩
        · cases b with
          | reading u v => exact .reading (l := { l' with outbuf := l'.outbuf.drop (min n l'.outbuf.length) }) u v
          | ended u => exact .ended (l := { l' with outbuf := l'.outbuf.drop (min n l'.outbuf.length) }) u
        · rw [e, List.drop_append_of_le_length this, Nat.min_eq_left this]
  none := by
    intro l o h
    obtain ⟨l', h1, h2, h3⟩ := fill_eq hS hQ (length := Option.none) (le_refl fuel) h
    have he : l'.eof = true := by simpa using h3
    have ho : o = l'.outbuf := by rcases h2.2 with ⟨_, h⟩ | ⟨h, _⟩; exact h; simp [he] at h
    refine ⟨{ l' with outbuf := [] }, ?_, h2.1, .inl ⟨he, rfl⟩⟩
    simp [LikeFile.obj, LikeFile.read, h1, ho]

theorem full_runReads {fo : FileObj F X C} {Q : F → Bytes → Prop} (h : Full fo Q) (ns : List (Option Nat)) {f : F} {c : Bytes} (hq : Q f c) :
    (runReads fo ns f).1 = (readsSpec c ns).map .ok := by
  induction ns generalizing f c with
  | nil => rfl
  | cons n ns ih =>
    cases n with
    | none =>
      obtain ⟨f', h1, h2⟩ := h.none f c hq
      simp [runReads, readsSpec, h1, ih h2]
    | some n =>
      obtain ⟨f', h1, h2⟩ := h.some f c n hq
      simp [runReads, readsSpec, h1, ih h2]

end

/-! ### the theorems -/

/-- Whatever pieces the input is read in (`Q`), whatever the sizes of the reads, and wherever librsync stops to wait for input or for room: the reads return, one
after the other, the pieces of the output which librsync computes from the whole input. -/
theorem output_exact {fo : FileObj F X C} {iter : JobIter S} {den : S → Bytes → Option Bytes} {rank : S → Bytes → Nat} {Q : F → Bytes → Prop}
    (hS : Streams iter den rank) (hQ : Reads fo Q) {f : F} {x o : Bytes} (hf : Q f x) {s : S} (ho : den s x = some o) (ns : List (Option Nat)) :
    ∃ N, ∀ fuel ≥ N, (runReads (LikeFile.obj fo iter fuel) ns (.new f s)).1 = (readsSpec o ns).map .ok := by
  refine ⟨rank s x + 2, fun fuel hfuel => full_runReads (likeFile_full hS hQ fuel) ns ⟨by omega, .inr ⟨rfl, x, o, ?_, ho, rfl, by exact hfuel⟩⟩⟩
  have := Rest.reading (Q := Q) (l := (LikeFile.new f s : LikeFile F C S)) (c := x) rfl hf
  simpa [LikeFile.new] using this

/-- If librsync finds an error in the input (a damaged signature or delta), then no read returns less than asked for as if the file ended, and reading the whole
raises the exception. -/
theorem error_not_hidden {fo : FileObj F X C} {iter : JobIter S} {den : S → Bytes → Option Bytes} {rank : S → Bytes → Nat} {Q : F → Bytes → Prop}
    (hS : Streams iter den rank) (hQ : Reads fo Q) {f : F} {x : Bytes} (hf : Q f x) {s : S} (ho : den s x = none) :
    ∃ N, ∀ fuel ≥ N, ∀ ns : List Nat, (∀ r ∈ (runReads (LikeFile.obj fo iter fuel) (ns.map some) (.new f s)).1, ∃ b, r = .ok b) →
      (runReads (LikeFile.obj fo iter fuel) (ns.map some) (.new f s)).1.map (fun r => match r with | .ok b => b.length | _ => 0) = ns ∧
      ((LikeFile.obj fo iter fuel).read none (runReads (LikeFile.obj fo iter fuel) (ns.map some) (.new f s)).2).1 = .error .librsync := by
  have hfill : ∀ (length : Option Nat) (fuel : Nat) (l : LikeFile F C S) (x : Bytes), l.eof = false → Rest Q l x → den l.job x = none → rank l.job x + 1 < fuel →
      ∃ l' : LikeFile F C S, fill fo iter length fuel l = (.error .librsync, l') ∨
        (fill fo iter length fuel l = (.ok (), l') ∧ l'.eof = false ∧ length.any (· ≤ l'.outbuf.length) = true ∧
          ∃ x', Rest Q l' x' ∧ den l'.job x' = none ∧ rank l'.job x' ≤ rank l.job x) := by
    intro length fuel
    induction fuel with
    | zero => intro l x _ _ _ h; omega
    | succ k ih =>
      intro l x h1 h2 h3 h4
      simp only [fill]
      by_cases hlen : length.all (l.outbuf.length < ·) = true
      · rw [if_pos (by simp only [h1, hlen]; rfl)]
        obtain ⟨l', hl⟩ := addToOutbuf_eq hS hQ h2
        rcases hl with ⟨i1, _⟩ | ⟨i1, o', i2, i3⟩
        · exact ⟨l', .inl (by rw [i1])⟩
        · rw [i1]
          rcases i3 with ⟨j1, j2⟩ | ⟨j1, x', j2, j3, j4⟩
          · rw [h3] at j2; cases j2
          · rw [h3] at j3
            obtain ⟨l2, h⟩ := ih l' x' j1 j2 (by simpa using j3.symm) (by omega)
            refine ⟨l2, h.imp id ?_⟩
            rintro ⟨k1, k2, k3, x2, k4, k5, k6⟩
            exact ⟨k1, k2, k3, x2, k4, k5, by omega⟩
      · rw [if_neg (by simp only [h1, hlen]; simp)]
        refine ⟨l, .inr ⟨rfl, h1, ?_, x, h2, h3, le_refl _⟩⟩
        cases length with
        | none => simp at hlen
        | some n => simpa using hlen
  refine ⟨rank s x + 2, fun fuel hfuel ns => ?_⟩
  have main : ∀ (ns : List Nat) (l : LikeFile F C S) (x : Bytes), l.eof = false → Rest Q l x → den l.job x = none → rank l.job x + 1 < fuel →
      (∀ r ∈ (runReads (LikeFile.obj fo iter fuel) (ns.map some) l).1, ∃ b, r = .ok b) →
      (runReads (LikeFile.obj fo iter fuel) (ns.map some) l).1.map (fun r => match r with | .ok b => b.length | _ => 0) = ns ∧
      ((LikeFile.obj fo iter fuel).read none (runReads (LikeFile.obj fo iter fuel) (ns.map some) l).2).1 = .error .librsync := by
    intro ns
    induction ns with
    | nil =>
      intro l x h1 h2 h3 h4 _
      refine ⟨rfl, ?_⟩
      obtain ⟨l', h⟩ := hfill none fuel l x h1 h2 h3 h4
      rcases h with h | ⟨_, _, h, _⟩
      · simp only [runReads, List.map_nil, LikeFile.obj, LikeFile.read, h]
      · simp at h
    | cons n ns ih =>
      intro l x h1 h2 h3 h4 hall
      obtain ⟨l', h⟩ := hfill (some n) fuel l x h1 h2 h3 h4
      rcases h with h | ⟨i1, i2, i3, x', i4, i5, i6⟩
      · obtain ⟨b, hb⟩ := hall (.error .librsync) (by simp [runReads, LikeFile.obj, LikeFile.read, h])
        cases hb
      · have hn : n ≤ l'.outbuf.length := by simpa using i3
        have hr : (LikeFile.obj fo iter fuel).read (some n) l = (.ok (l'.outbuf.take n), { l' with outbuf := l'.outbuf.drop n }) := by
          simp only [LikeFile.obj, LikeFile.read, i1, Nat.min_eq_left hn]
        simp only [List.map_cons, runReads, hr] at hall ⊢
        have hrest : Rest Q { l' with outbuf := l'.outbuf.drop n } x' := by
          cases i4 with
          | reading u v => exact .reading (l := { l' with outbuf := l'.outbuf.drop n }) u v
          | ended u => exact .ended (l := { l' with outbuf := l'.outbuf.drop n }) u
        obtain ⟨a, b⟩ := ih { l' with outbuf := l'.outbuf.drop n } x' i2 hrest i5 (by simp only; omega) (fun r hr => hall r (by simp [hr]))
        exact ⟨by rw [a]; simp [hn], b⟩
  refine main ns _ x rfl ?_ ho (by exact hfuel)
  have := Rest.reading (Q := Q) (l := (LikeFile.new f s : LikeFile F C S)) (c := x) rfl hf
  simpa [LikeFile.new] using this

/-- a file which counts how often it is closed -/
def counted (fo : FileObj F X C) : FileObj (F × Nat) X C :=
  ⟨fun n f => let r := fo.read n f.1; (r.1, r.2, f.2), fun f => let r := fo.close f.1; (r.1, r.2, f.2 + 1)⟩

theorem addToInbuf_closed (fo : FileObj F X C) (l : LikeFile (F × Nat) C S) (h : l.infile.2 = 0 ∧ l.infileEof = false ∧ l.closeval = none) :
    let l' := (addToInbuf (counted fo) l).2
    (l'.infile.2 = 0 ∧ l'.infileEof = false ∧ l'.closeval = none) ∨ (l'.infile.2 = 1 ∧ l'.infileEof = true ∧ l'.closeval.isSome) := by
  induction hn : blocksize - l.inbuf.length using Nat.strong_induction_on generalizing l with
  | _ k ih =>
    subst hn
    rw [addToInbuf.eq_def]
    split
    · split
      · rename_i f hf
        left
        have : f.2 = l.infile.2 := by simp only [counted] at hf; rw [← (Prod.mk.inj hf).2]
        exact ⟨by simp [this, h.1], h.2.1, h.2.2⟩
      · rename_i f hf
        right
        have : f.2 = l.infile.2 := by simp only [counted] at hf; rw [← (Prod.mk.inj hf).2]
        simp [counted, this, h.1]
      · rename_i b bs f hf
        have : f.2 = l.infile.2 := by simp only [counted] at hf; rw [← (Prod.mk.inj hf).2]
        exact ih _ (by simp; omega) _ ⟨by simp [this, h.1], h.2.1, h.2.2⟩ rfl
    · exact .inl h

theorem addToOutbuf_closed (fo : FileObj F X C) (iter : JobIter S) (l : LikeFile (F × Nat) C S)
    (h : (l.infile.2 = 0 ∧ l.infileEof = false ∧ l.closeval = none) ∨ (l.infile.2 = 1 ∧ l.infileEof = true ∧ l.closeval.isSome)) :
    let l' := (addToOutbuf (counted fo) iter l).2
    (l'.infile.2 = 0 ∧ l'.infileEof = false ∧ l'.closeval = none) ∨ (l'.infile.2 = 1 ∧ l'.infileEof = true ∧ l'.closeval.isSome) := by
  have h1 : let l' := (if l.infileEof then (.ok (), l) else addToInbuf (counted fo) l : Except (LErr X) Unit × LikeFile (F × Nat) C S).2
      (l'.infile.2 = 0 ∧ l'.infileEof = false ∧ l'.closeval = none) ∨ (l'.infile.2 = 1 ∧ l'.infileEof = true ∧ l'.closeval.isSome) := by
    rcases h with h | h
    · simp only [h.2.1]; exact addToInbuf_closed fo l h
    · simp only [h.2.1]; exact .inr h
  simp only [addToOutbuf]
  split
  · rename_i hq; rw [hq] at h1; exact h1
  · rename_i l' hq
    rw [hq] at h1
    split <;> exact h1

theorem fill_closed (fo : FileObj F X C) (iter : JobIter S) (length : Option Nat) (fuel : Nat) (l : LikeFile (F × Nat) C S)
    (h : (l.infile.2 = 0 ∧ l.infileEof = false ∧ l.closeval = none) ∨ (l.infile.2 = 1 ∧ l.infileEof = true ∧ l.closeval.isSome)) :
    let l' := (fill (counted fo) iter length fuel l).2
    (l'.infile.2 = 0 ∧ l'.infileEof = false ∧ l'.closeval = none) ∨ (l'.infile.2 = 1 ∧ l'.infileEof = true ∧ l'.closeval.isSome) := by
  induction fuel generalizing l with
  | zero => exact h
  | succ k ih =>
    simp only [fill]
    split
    · have := addToOutbuf_closed fo iter l h
      split
      · rename_i hq; rw [hq] at this; exact ih _ this
      · rename_i hq; rw [hq] at this; exact this
    · exact h

/-- Whatever was read, and whether or not an exception was raised: when the file is closed, the input has been closed exactly once. -/
theorem input_closed_once (fo : FileObj F X C) (iter : JobIter S) (fuel : Nat) (f : F) (s : S) (ns : List (Option Nat)) :
    let l := (runReads (LikeFile.obj (counted fo) iter fuel) ns (.new (f, 0) s)).2
    (LikeFile.close (counted fo) l).2.infile.2 = 1 := by
  have main : ∀ (ns : List (Option Nat)) (l : LikeFile (F × Nat) C S),
      (l.infile.2 = 0 ∧ l.infileEof = false ∧ l.closeval = none) ∨ (l.infile.2 = 1 ∧ l.infileEof = true ∧ l.closeval.isSome) →
      let l' := (runReads (LikeFile.obj (counted fo) iter fuel) ns l).2
      (l'.infile.2 = 0 ∧ l'.infileEof = false ∧ l'.closeval = none) ∨ (l'.infile.2 = 1 ∧ l'.infileEof = true ∧ l'.closeval.isSome) := by
    intro ns
    induction ns with
    | nil => exact fun l h => h
    | cons n ns ih =>
      intro l h
      simp only [runReads]
      refine ih _ ?_
      have := fill_closed fo iter n fuel l h
      simp only [LikeFile.obj, LikeFile.read]
      split
      · rename_i hq; rw [hq] at this; exact this
      · rename_i hq; rw [hq] at this; exact this
  have := main ns (.new (f, 0) s) (.inl ⟨rfl, rfl, rfl⟩)
  intro l
  simp only [LikeFile.close]
  rcases this with h | h
  · rw [show l.closeval = none from h.2.2]
    simp only [counted]
    rw [show l.infile.2 = 0 from h.1]
  · obtain ⟨c, hc⟩ := Option.isSome_iff_exists.1 h.2.2
    rw [show l.closeval = some c from hc]
    exact h.1

/-! ### examples -/

/-- a file which returns its contents in given pieces -/
def pieces : FileObj (List Bytes) Unit Nat := ⟨fun _ f => match f with | [] => (.ok [], []) | b :: bs => (.ok b, bs), fun f => (7, f)⟩
def piecesHold (f : List Bytes) (c : Bytes) : Prop := (∀ b ∈ f, b ≠ []) ∧ c = f.flatten

theorem pieces_reads : Reads pieces piecesHold := by
  rintro f c n ⟨h1, rfl⟩ _
  cases f with
  | nil => exact ⟨[], [], [], rfl, rfl, fun _ => rfl, by simp, rfl⟩
  | cons b bs => exact ⟨b, bs, bs.flatten, rfl, by simp, fun h => absurd h (h1 b (by simp)), fun x hx => h1 x (by simp [hx]), rfl⟩

/-- a job which writes the sums of pairs of bytes, uses one byte per call, and doesn't like the byte 255 -/
def exJob : JobIter (Option UInt8) := fun s p _ _ =>
  match p with
  | x :: _ =>
    if x = 255 then (.failed, 0, [], s)
    else
      match s with
      | none => (.blocked, 1, [], some x)
      | some y => (.blocked, 1, [x + y], none)
  | [] => (.done, 0, s.toList, none)

def exDen : Option UInt8 → Bytes → Option Bytes
  | s, [] => some s.toList
  | s, x :: xs =>
    if x = 255 then none
    else
      match s with
      | none => exDen (some x) xs
      | some y => (exDen none xs).map ([x + y] ++ ·)

theorem exJob_streams : Streams exJob exDen fun _ x => x.length := by
  intro s p rest eof room _ h1 h2
  cases p with
  | nil =>
    have he : eof = true := by cases eof <;> simp_all
    simp [exJob, exDen, h1 he]
  | cons x xs =>
    by_cases hx : x = 255
    · simp [exJob, exDen, hx]
    · cases s <;> simp [exJob, exDen, hx]

example : piecesHold [[1, 2, 3], [4], [5]] [1, 2, 3, 4, 5] := ⟨by decide, rfl⟩
example : exDen none [1, 2, 3, 4, 5] = some [3, 7, 5] := by decide
example : (runReads (LikeFile.obj pieces exJob 10) [some 1, some 0, none, some 3] (.new [[1, 2, 3], [4], [5]] none)).1 = [.ok [3], .ok [], .ok [7, 5], .ok []] := by
  decide +kernel
example : (runReads (LikeFile.obj pieces exJob 10) [some 1, some 0, none, some 3] (.new [[1], [2, 3, 4, 5]] none)).1 = [.ok [3], .ok [], .ok [7, 5], .ok []] := by
  decide +kernel
example : exDen none [1, 2, 255, 4] = none := by decide
example : (runReads (LikeFile.obj pieces exJob 10) [some 1, none] (.new [[1, 2, 255], [4]] none)).1 = [.ok [3], .error .librsync] := by decide +kernel

end Verif.C36
