import Verif.Props.C36
import Mathlib.Tactic.Linarith
import Mathlib.Tactic.Set
/-! # C37: checksums cover exactly the bytes delivered; C50: copies are exact, C51: block sizes -/
namespace Verif.C37
open Verif.FileObj Verif.C36
open Verif.Pipe (Bytes)
variable {F X C S D : Type}

/-- the bytes which were returned by a sequence of reads -/
def delivered : List (Except X Bytes) → Bytes
  | [] => []
  | .ok b :: rs => b ++ delivered rs
  | .error _ :: rs => delivered rs

section
variable [DecidableEq D] {sha1 : Bytes → D} {fo : FileObj F X (CloseVal D)}

theorem runReads_seen (ns : List (Option Nat)) (w : Wrapped F) (h : w.closed = false) :
    (runReads (Wrapped.obj sha1 fo) ns w).2.seen = w.seen ++ delivered (runReads (Wrapped.obj sha1 fo) ns w).1 ∧
      (runReads (Wrapped.obj sha1 fo) ns w).2.closed = false := by
  induction ns generalizing w with
  | nil => simp [runReads, delivered, h]
  | cons n ns ih =>
    simp only [runReads]
    cases hr : fo.read n w.file with
    | mk r f =>
      cases r with
      | ok b =>
        have : (Wrapped.obj sha1 fo).read n w = (.ok b, { w with file := f, seen := w.seen ++ b }) := by
          simp [Wrapped.obj, Wrapped.read, h, hr]
        rw [this]
        obtain ⟨i1, i2⟩ := ih { w with file := f, seen := w.seen ++ b } h
        exact ⟨by simp only [i1, delivered]; simp, i2⟩
      | error x =>
        have : (Wrapped.obj sha1 fo).read n w = (.error (some x), { w with file := f }) := by
          simp [Wrapped.obj, Wrapped.read, h, hr]
        rw [this]
        obtain ⟨i1, i2⟩ := ih { w with file := f } h
        exact ⟨by simp only [i1, delivered], i2⟩

end

/-- After any sequence of reads, some of which may have failed, closing the file gives the digest of exactly the bytes which were returned (if the file below
returns nothing when closed, as plain files do). -/
theorem digest_of_delivered [DecidableEq D] (sha1 : Bytes → D) (fo : FileObj F X (CloseVal D)) (hc : ∀ f, (fo.close f).1 = .nothing) (ns : List (Option Nat)) (f : F) :
    let r := runReads (Wrapped.obj sha1 fo) ns (.new f)
    (Wrapped.close sha1 fo r.2).1 = .report (sha1 (delivered r.1)) := by
  intro r
  have := (runReads_seen (sha1 := sha1) (fo := fo) ns (.new f) rfl).1
  simp only [Wrapped.close, hc]
  rw [show r.2.seen = _ from this]
  rfl

/-- The same if the file is wrapped twice: the assertion in Report holds. -/
theorem nested_digest [DecidableEq D] (sha1 : Bytes → D) (fo : FileObj F X (CloseVal D)) (hc : ∀ f, (fo.close f).1 = .nothing) (ns : List (Option Nat)) (f : F) :
    let r := runReads (Wrapped.obj sha1 (Wrapped.obj sha1 fo)) ns (.new (.new f))
    (Wrapped.close sha1 (Wrapped.obj sha1 fo) r.2).1 = .report (sha1 (delivered r.1)) := by
  intro r
  have key : ∀ (ns : List (Option Nat)) (w : Wrapped (Wrapped F)), w.closed = false → w.file.closed = false → w.file.seen = w.seen →
      (runReads (Wrapped.obj sha1 (Wrapped.obj sha1 fo)) ns w).2.file.seen = (runReads (Wrapped.obj sha1 (Wrapped.obj sha1 fo)) ns w).2.seen := by
    intro ns
    induction ns with
    | nil => exact fun w _ _ h => h
    | cons n ns ih =>
      intro w h1 h2 h3
      simp only [runReads]
      cases hr : fo.read n w.file.file with
      | mk r f =>
        cases r with
        | ok b =>
          have : (Wrapped.obj sha1 (Wrapped.obj sha1 fo)).read n w =
              (.ok b, { w with file := { w.file with file := f, seen := w.file.seen ++ b }, seen := w.seen ++ b }) := by
            simp [Wrapped.obj, Wrapped.read, h1, h2, hr]
          rw [this]
          exact ih _ h1 h2 (by simp [h3])
        | error x =>
          have : (Wrapped.obj sha1 (Wrapped.obj sha1 fo)).read n w = (.error (some (some x)), { w with file := { w.file with file := f } }) := by
            simp [Wrapped.obj, Wrapped.read, h1, h2, hr]
          rw [this]
          exact ih _ h1 h2 h3
  have h1 := (runReads_seen (sha1 := sha1) (fo := Wrapped.obj sha1 fo) ns (.new (.new f)) rfl).1
  have h2 := key ns (.new (.new f)) rfl rfl rfl
  simp only [Wrapped.close]
  have h3 : ((Wrapped.obj sha1 fo).close r.2.file).1 = .report (sha1 r.2.file.seen) := by simp [Wrapped.obj, Wrapped.close, hc]
  rw [h3]
  simp only [r, h2, h1, if_true]
  simp [Wrapped.new]

/-! ### files read to the end -/

section
variable {fo : FileObj F X C} {Q : F → Bytes → Prop}

/-- the loop of compute_sha1_fp ends -/
theorem readLoop_eq (hQ : Reads fo Q) {fuel : Nat} {f : F} {c : Bytes} (hq : Q f c) (hfuel : c.length < fuel) :
    ∃ f0 f', readLoop fo fuel f = (some (.ok ()), f') ∧ Q f0 [] ∧ fo.read (some BLOCKSIZE) f0 = (.ok [], f') ∧ Q f' [] := by
  induction fuel generalizing f c with
  | zero => omega
  | succ k ih =>
    obtain ⟨b, f', c', h1, h2, h3, h4⟩ := hQ f c BLOCKSIZE hq (by decide)
    cases b with
    | nil =>
      have hc := h3 rfl
      subst hc
      have : c' = [] := by simpa using h2.symm
      subst this
      exact ⟨f, f', by simp [readLoop, h1], hq, h1, h4⟩
    | cons b bs =>
      obtain ⟨f0, f2, i1, i2, i3, i4⟩ := ih h4 (by rw [h2] at hfuel; simp at hfuel; omega)
      exact ⟨f0, f2, by simp [readLoop, h1, i1], i2, i3, i4⟩

end

/-- a wrapped file, all of whose contents are `total` -/
def WrappedHolds (Q : F → Bytes → Prop) (total : Bytes) (w : Wrapped F) (c : Bytes) : Prop := w.closed = false ∧ Q w.file c ∧ w.seen ++ c = total

theorem wrapped_reads [DecidableEq D] {sha1 : Bytes → D} {fo : FileObj F X (CloseVal D)} {Q : F → Bytes → Prop} (hQ : Reads fo Q) (total : Bytes) :
    Reads (Wrapped.obj sha1 fo) (WrappedHolds Q total) := by
  rintro w c n ⟨h1, h2, h3⟩ hn
  obtain ⟨b, f', c', i1, i2, i3, i4⟩ := hQ w.file c n h2 hn
  refine ⟨b, { w with file := f', seen := w.seen ++ b }, c', by simp [Wrapped.obj, Wrapped.read, h1, i1], i2, i3, h1, i4, ?_⟩
  rw [← h3, i2]; simp

/-- compute_sha1_fp gives the digest of the contents of the file, in whatever pieces they are read. -/
theorem computed_digest [DecidableEq D] (sha1 : Bytes → D) {fo : FileObj F X (CloseVal D)} (hc : ∀ f, (fo.close f).1 = .nothing) {Q : F → Bytes → Prop} (hQ : Reads fo Q)
    {f : F} {c : Bytes} (hq : Q f c) : ∃ N, ∀ fuel ≥ N, computeSha1Fp sha1 fo fuel f = some (sha1 c) := by
  refine ⟨c.length + 1, fun fuel hfuel => ?_⟩
  obtain ⟨f0, w, h1, _, _, h4⟩ := readLoop_eq (wrapped_reads (sha1 := sha1) hQ c) (f := Wrapped.new f) (c := c) (fuel := fuel) ⟨rfl, hq, rfl⟩ (by omega)
  obtain ⟨_, _, h5⟩ := h4
  rw [List.append_nil] at h5
  simp only [computeSha1Fp, h1, Wrapped.close, hc, h5]

/-! ### the digest which is passed on by librsync's files -/

/-- A job (signature, delta) whose output is not complete before it has been told that the input is over. -/
def Late (iter : JobIter S) (den : S → Bytes → Option Bytes) : Prop :=
  ∀ s p rest room, p ≠ [] → 0 < room →
    match iter s p false room with
    | (.done, _, _, _) => False
    | (.blocked, n, _, s') => den s' ((p ++ rest).drop n) ≠ some []
    | (.failed, _, _, _) => True

/-- A job (patch) for which the input `x` is not longer than necessary: when it is done, it has seen all of it. -/
def Uses (iter : JobIter S) (exact : S → Bytes → Prop) : Prop :=
  ∀ s p rest eof room, 0 < room → (eof = true → rest = []) → (eof = false → p ≠ []) → exact s (p ++ rest) →
    match iter s p eof room with
    | (.done, _, _, _) => rest = []
    | (.blocked, n, _, s') => exact s' ((p ++ rest).drop n)
    | (.failed, _, _, _) => True

section
variable {fo : FileObj F X C} {iter : JobIter S} {den : S → Bytes → Option Bytes} {rank : S → Bytes → Nat} {Q : F → Bytes → Prop} {V : C → Prop}
  {exact : S → Bytes → Prop}

theorem addToInbuf_close (hQ : Reads fo Q) (hV : ∀ f, Q f [] → V (fo.close f).1) {l : LikeFile F C S} {c : Bytes} (he : l.infileEof = false) (hn : l.closeval = none)
    (hq : Q l.infile c) {l' : LikeFile F C S} (h : addToInbuf fo l = (.ok (), l')) :
    l'.job = l.job ∧ l'.outbuf = l.outbuf ∧ l'.eof = l.eof ∧ ((l'.infileEof = false ∧ l'.closeval = none ∧ l'.inbuf ≠ [] ∧ ∃ c', Q l'.infile c' ∧ l.inbuf ++ c = l'.inbuf ++ c') ∨
      (l'.infileEof = true ∧ l'.inbuf = l.inbuf ++ c ∧ ∃ v, l'.closeval = some v ∧ V v)) := by
  induction hk : blocksize - l.inbuf.length using Nat.strong_induction_on generalizing l c with
  | _ k ih =>
    subst hk
    rw [addToInbuf.eq_def] at h
    split at h
    · obtain ⟨b, f', c', h1, h2, h3, h4⟩ := hQ l.infile c blocksize hq (by decide)
      rw [h1] at h
      cases b with
      | nil =>
        have hc := h3 rfl
        subst hc
        have : c' = [] := by simpa using h2.symm
        subst this
        simp only [Prod.mk.injEq, true_and] at h
        subst h
        exact ⟨rfl, rfl, rfl, .inr ⟨rfl, by simp, _, rfl, hV _ h4⟩⟩
      | cons b bs =>
        have := ih (blocksize - (l.inbuf ++ b :: bs).length) (by simp; omega) (l := { l with infile := f', inbuf := l.inbuf ++ b :: bs }) (c := c') he hn h4 h rfl
        rw [h2]
        simpa using this
    · rename_i hlt
      simp only [Prod.mk.injEq, true_and] at h
      subst h
      refine ⟨rfl, rfl, rfl, .inl ⟨he, hn, fun hb => hlt (by rw [hb]; decide), c, hq, rfl⟩⟩

/-- the close value of the input is known to be right, or it isn't closed and the output is not complete -/
structure LateInv (den : S → Bytes → Option Bytes) (Q : F → Bytes → Prop) (V : C → Prop) (l : LikeFile F C S) : Prop where
  reading : l.infileEof = false → l.closeval = none ∧ l.eof = false ∧ (∃ c, Q l.infile c) ∧ ∀ c, Q l.infile c → den l.job (l.inbuf ++ c) ≠ some []
  ended : l.infileEof = true → ∃ v, l.closeval = some v ∧ V v

theorem addToOutbuf_late (hS : Streams iter den rank) (hL : Late iter den) (hQ : Reads fo Q) (hV : ∀ f, Q f [] → V (fo.close f).1) {l l' : LikeFile F C S}
    (hi : LateInv den Q V l) (h : addToOutbuf fo iter l = (.ok (), l')) : LateInv den Q V l' := by
  have hend : ∀ l1 : LikeFile F C S, l1.infileEof = true → (∃ v, l1.closeval = some v ∧ V v) →
      (if l.infileEof then (.ok (), l) else addToInbuf fo l : Except (LErr X) Unit × LikeFile F C S) = (.ok (), l1) → LateInv den Q V l' := by
    intro l1 e1 e2 heq
    simp only [addToOutbuf, heq] at h
    split at h
    · cases h
    · simp only [Prod.mk.injEq, true_and] at h
      subst h
      exact ⟨fun h => by simp [e1] at h, fun _ => e2⟩
  by_cases he : l.infileEof = true
  · exact hend l he (hi.ended he) (by simp [he])
  · have he : l.infileEof = false := by simpa using he
    obtain ⟨h1, h2, ⟨c, h3⟩, h4⟩ := hi.reading he
    obtain ⟨l1, i1, _, _, _, _, _⟩ := addToInbuf_eq hQ he h3
    have heq : (if l.infileEof then (.ok (), l) else addToInbuf fo l : Except (LErr X) Unit × LikeFile F C S) = (.ok (), l1) := by simp [he, i1]
    obtain ⟨j1, j2, j3, j4⟩ := addToInbuf_close hQ hV he h1 h3 i1
    rcases j4 with ⟨k1, k2, k3, c', k4, k5⟩ | ⟨k1, _, k2⟩
    · simp only [addToOutbuf, heq, cycle] at h
      have hz : (l1.inbuf.length == 0) = false := by simpa using k3
      rw [hz] at h
      have hL' := fun rest => hL l1.job l1.inbuf rest blocksize k3 (by decide)
      have hS' := fun rest => hS l1.job l1.inbuf rest false blocksize (by decide) (by simp) (fun _ => k3)
      cases hit : iter l1.job l1.inbuf false blocksize with
      | mk res r =>
        obtain ⟨n, o, s'⟩ := r
        simp only [hit] at h hL' hS'
        cases res with
        | done => exact absurd (hL' []) id
        | failed => simp at h
        | blocked =>
          simp only [Prod.mk.injEq, true_and] at h
          subst h
          refine ⟨fun _ => ⟨k2, rfl, ⟨c', k4⟩, fun c hc => ?_⟩, fun h => by simp [k1] at h⟩
          have := hL' c
          have hn := hS' c
          simp only at this hn
          rw [List.drop_append_of_le_length hn.1] at this
          exact this
    · exact hend l1 k1 k2 heq

theorem fill_late (hS : Streams iter den rank) (hL : Late iter den) (hQ : Reads fo Q) (hV : ∀ f, Q f [] → V (fo.close f).1) {length : Option Nat} {fuel : Nat}
    {l l' : LikeFile F C S} (hi : LateInv den Q V l) (h : fill fo iter length fuel l = (.ok (), l')) : LateInv den Q V l' := by
  induction fuel generalizing l with
  | zero => simp [fill] at h
  | succ k ih =>
    simp only [fill] at h
    split at h
    · split at h
      · rename_i l1 hl1
        exact ih (addToOutbuf_late hS hL hQ hV hi hl1) h
      · cases h
    · simp only [Prod.mk.injEq, true_and] at h
      subst h; exact hi

theorem read_late (hS : Streams iter den rank) (hL : Late iter den) (hQ : Reads fo Q) (hV : ∀ f, Q f [] → V (fo.close f).1) {length : Option Nat} {fuel : Nat}
    {l l' : LikeFile F C S} {b : Bytes} (hi : LateInv den Q V l) (h : LikeFile.read fo iter fuel length l = (.ok b, l')) : LateInv den Q V l' := by
  simp only [LikeFile.read] at h
  split at h
  · cases h
  · rename_i l1 hl1
    have := fill_late hS hL hQ hV hi hl1
    simp only [Prod.mk.injEq] at h
    rw [← h.2]
    exact ⟨this.reading, this.ended⟩

/-- what a signature or delta file holds, with the close value -/
def LateHolds (fuel : Nat) (den : S → Bytes → Option Bytes) (rank : S → Bytes → Nat) (Q : F → Bytes → Prop) (V : C → Prop) (l : LikeFile F C S) (o : Bytes) : Prop :=
  Holds fuel den rank Q l o ∧ LateInv den Q V l

theorem lateFile_full (hS : Streams iter den rank) (hL : Late iter den) (hQ : Reads fo Q) (hV : ∀ f, Q f [] → V (fo.close f).1) (fuel : Nat) :
    Full (LikeFile.obj fo iter fuel) (LateHolds fuel den rank Q V) where
  some := by
    rintro l o n ⟨h, hi⟩
    obtain ⟨l', h1, h2⟩ := (likeFile_full hS hQ fuel).some l o n h
    exact ⟨l', h1, h2, read_late hS hL hQ hV hi h1⟩
  none := by
    rintro l o ⟨h, hi⟩
    obtain ⟨l', h1, h2⟩ := (likeFile_full hS hQ fuel).none l o h
    exact ⟨l', h1, h2, read_late hS hL hQ hV hi h1⟩

theorem lateFile_close {fuel : Nat} {l : LikeFile F C S} (h : LateHolds fuel den rank Q V l []) : V (LikeFile.close fo l).1 := by
  obtain ⟨⟨_, h1⟩, h2⟩ := h
  by_cases he : l.infileEof = true
  · obtain ⟨v, a, b⟩ := h2.ended he
    simpa [LikeFile.close, a] using b
  · have he : l.infileEof = false := by simpa using he
    obtain ⟨a, b, ⟨c, hc⟩, d⟩ := h2.reading he
    rcases h1 with ⟨h, _⟩ | ⟨_, x, y, h3, h4, h5, _⟩
    · simp [b] at h
    · have hy : y = [] := by
        have := List.append_eq_nil_iff.1 h5.symm; exact this.2
      subst hy
      cases h3 with
      | reading _ h => exact absurd h4 (d _ h)
      | ended h => simp [he] at h

theorem late_new (hd : ∀ c, den s c ≠ some []) {f : F} {x o : Bytes} (hf : Q f x) (ho : den s x = some o) {fuel : Nat} (hfuel : rank s x + 2 ≤ fuel) :
    LateHolds fuel den rank Q V (LikeFile.new f s : LikeFile F C S) o := by
  refine ⟨⟨by omega, .inr ⟨rfl, x, o, ?_, ho, rfl, by exact hfuel⟩⟩, fun _ => ⟨rfl, rfl, ⟨x, hf⟩, fun c _ => by simpa [LikeFile.new] using hd c⟩, fun h => by cases h⟩
  have := Rest.reading (Q := Q) (l := (LikeFile.new f s : LikeFile F C S)) (c := x) rfl hf
  simpa [LikeFile.new] using this

/-- for a patch: when it is done, everything of the input has been read -/
structure UsesInv (exact : S → Bytes → Prop) (Q : F → Bytes → Prop) (V : C → Prop) (l : LikeFile F C S) : Prop where
  reading : l.infileEof = false → l.closeval = none ∧ ∃ c, Q l.infile c ∧ (if l.eof then c = [] else exact l.job (l.inbuf ++ c))
  ended : l.infileEof = true → (∃ v, l.closeval = some v ∧ V v) ∧ (l.eof = false → exact l.job l.inbuf)

theorem addToOutbuf_uses (hS : Streams iter den rank) (hL : Uses iter exact) (hQ : Reads fo Q) (hV : ∀ f, Q f [] → V (fo.close f).1) {l l' : LikeFile F C S}
    (hi : UsesInv exact Q V l) (heof : l.eof = false) (h : addToOutbuf fo iter l = (.ok (), l')) : UsesInv exact Q V l' := by
  have key : ∀ (l1 : LikeFile F C S) (rest : Bytes), (l1.infileEof = false → l1.closeval = none ∧ Q l1.infile rest ∧ l1.inbuf ≠ []) →
      (l1.infileEof = true → rest = [] ∧ ∃ v, l1.closeval = some v ∧ V v) → exact l1.job (l1.inbuf ++ rest) →
      (if l.infileEof then (.ok (), l) else addToInbuf fo l : Except (LErr X) Unit × LikeFile F C S) = (.ok (), l1) → UsesInv exact Q V l' := by
    intro l1 rest e1 e2 e3 heq
    simp only [addToOutbuf, heq, cycle] at h
    have hr : (l1.inbuf.length == 0) = true → rest = [] := by
      intro hz
      by_cases hx : l1.infileEof = true
      · exact (e2 hx).1
      · exact absurd (by simpa using hz) (e1 (by simpa using hx)).2.2
    have hp : (l1.inbuf.length == 0) = false → l1.inbuf ≠ [] := by simp
    have hL' := hL l1.job l1.inbuf rest (l1.inbuf.length == 0) blocksize (by decide) hr hp e3
    have hS' := hS l1.job l1.inbuf rest (l1.inbuf.length == 0) blocksize (by decide) hr hp
    cases hit : iter l1.job l1.inbuf (l1.inbuf.length == 0) blocksize with
    | mk res r =>
      obtain ⟨n, o, s'⟩ := r
      simp only [hit] at h hL' hS'
      cases res with
      | failed => simp at h
      | done =>
        simp only [Prod.mk.injEq, true_and] at h
        subst h
        exact ⟨fun hf => ⟨(e1 hf).1, rest, (e1 hf).2.1, by simpa using hL'⟩, fun hf => ⟨(e2 hf).2, fun h => by simp at h⟩⟩
      | blocked =>
        simp only [Prod.mk.injEq, true_and] at h
        subst h
        have hd : (l1.inbuf ++ rest).drop n = l1.inbuf.drop n ++ rest := List.drop_append_of_le_length hS'.1
        simp only [hd] at hL'
        refine ⟨fun hf => ⟨(e1 hf).1, rest, (e1 hf).2.1, by simpa using hL'⟩, fun hf => ⟨(e2 hf).2, fun _ => ?_⟩⟩
        have := (e2 hf).1
        subst this
        simpa using hL'
  by_cases he : l.infileEof = true
  · obtain ⟨a, b⟩ := hi.ended he
    exact key l [] (by simp [he]) (fun _ => ⟨rfl, a⟩) (by simpa using b heof) (by simp [he])
  · have he : l.infileEof = false := by simpa using he
    obtain ⟨h1, c, h2, h3⟩ := hi.reading he
    rw [heof] at h3
    simp only [Bool.false_eq_true, if_false] at h3
    obtain ⟨l1, i1, _, _, _, _, _⟩ := addToInbuf_eq hQ he h2
    obtain ⟨j1, j2, j3, j4⟩ := addToInbuf_close hQ hV he h1 h2 i1
    rcases j4 with ⟨k1, k2, k3, c', k4, k5⟩ | ⟨k1, k5, k2⟩
    · exact key l1 c' (fun _ => ⟨k2, k4, k3⟩) (by simp [k1]) (by rw [← k5, j1]; exact h3) (by simp [he, i1])
    · exact key l1 [] (by simp [k1]) (fun _ => ⟨rfl, k2⟩) (by rw [List.append_nil, k5, j1]; exact h3) (by simp [he, i1])

theorem fill_uses (hS : Streams iter den rank) (hL : Uses iter exact) (hQ : Reads fo Q) (hV : ∀ f, Q f [] → V (fo.close f).1) {length : Option Nat} {fuel : Nat}
    {l l' : LikeFile F C S} (hi : UsesInv exact Q V l) (h : fill fo iter length fuel l = (.ok (), l')) : UsesInv exact Q V l' := by
  induction fuel generalizing l with
  | zero => simp [fill] at h
  | succ k ih =>
    simp only [fill] at h
    split at h
    · rename_i hc
      split at h
      · rename_i l1 hl1
        refine ih (addToOutbuf_uses hS hL hQ hV hi ?_ hl1) h
        simp only [Bool.and_eq_true] at hc
        simpa using hc.1
      · cases h
    · simp only [Prod.mk.injEq, true_and] at h
      subst h; exact hi

theorem read_uses (hS : Streams iter den rank) (hL : Uses iter exact) (hQ : Reads fo Q) (hV : ∀ f, Q f [] → V (fo.close f).1) {length : Option Nat} {fuel : Nat}
    {l l' : LikeFile F C S} {b : Bytes} (hi : UsesInv exact Q V l) (h : LikeFile.read fo iter fuel length l = (.ok b, l')) : UsesInv exact Q V l' := by
  simp only [LikeFile.read] at h
  split at h
  · cases h
  · rename_i l1 hl1
    have := fill_uses hS hL hQ hV hi hl1
    simp only [Prod.mk.injEq] at h
    rw [← h.2]
    exact ⟨this.reading, this.ended⟩

/-- a read which returns nothing although something was asked for -/
theorem read_eof (hS : Streams iter den rank) (hQ : Reads fo Q) {fuel n : Nat} (hn : 0 < n) {l l' : LikeFile F C S} {o : Bytes} (hh : Holds fuel den rank Q l o)
    (h : LikeFile.read fo iter fuel (some n) l = (.ok [], l')) : l'.eof = true := by
  obtain ⟨l1, h1, h2, h3⟩ := fill_eq hS hQ (length := some n) (le_refl fuel) hh
  simp only [LikeFile.read, h1, Prod.mk.injEq, Except.ok.injEq] at h
  rw [← h.2]
  rcases h3 with h3 | h3
  · exact h3
  · exfalso
    have hl : n ≤ l1.outbuf.length := by simpa using h3
    have := congrArg List.length h.1
    rw [Nat.min_eq_left hl] at this
    simp only [List.length_take, List.length_nil] at this
    omega

def UsesHolds (fuel : Nat) (den : S → Bytes → Option Bytes) (rank : S → Bytes → Nat) (exact : S → Bytes → Prop) (Q : F → Bytes → Prop) (V : C → Prop)
    (l : LikeFile F C S) (o : Bytes) : Prop := Holds fuel den rank Q l o ∧ UsesInv exact Q V l

theorem usesFile_full (hS : Streams iter den rank) (hL : Uses iter exact) (hQ : Reads fo Q) (hV : ∀ f, Q f [] → V (fo.close f).1) (fuel : Nat) :
    Full (LikeFile.obj fo iter fuel) (UsesHolds fuel den rank exact Q V) where
  some := by
    rintro l o n ⟨h, hi⟩
    obtain ⟨l', h1, h2⟩ := (likeFile_full hS hQ fuel).some l o n h
    exact ⟨l', h1, h2, read_uses hS hL hQ hV hi h1⟩
  none := by
    rintro l o ⟨h, hi⟩
    obtain ⟨l', h1, h2⟩ := (likeFile_full hS hQ fuel).none l o h
    exact ⟨l', h1, h2, read_uses hS hL hQ hV hi h1⟩

theorem usesFile_close (hV : ∀ f, Q f [] → V (fo.close f).1) {l : LikeFile F C S} (h : UsesInv exact Q V l) (he : l.eof = true) : V (LikeFile.close fo l).1 := by
  by_cases hf : l.infileEof = true
  · obtain ⟨⟨v, a, b⟩, _⟩ := h.ended hf
    simpa [LikeFile.close, a] using b
  · obtain ⟨a, c, b, d⟩ := h.reading (by simpa using hf)
    simp only [he, if_true] at d
    subst d
    simpa [LikeFile.close, a] using hV _ b

theorem uses_new {s : S} {f : F} {x o : Bytes} (hf : Q f x) (ho : den s x = some o) (hx : exact s x) {fuel : Nat} (hfuel : rank s x + 2 ≤ fuel) :
    UsesHolds fuel den rank exact Q V (LikeFile.new f s : LikeFile F C S) o := by
  refine ⟨⟨by omega, .inr ⟨rfl, x, o, ?_, ho, rfl, by exact hfuel⟩⟩, fun _ => ⟨rfl, x, hf, by simpa [LikeFile.new] using hx⟩, fun h => by cases h⟩
  have := Rest.reading (Q := Q) (l := (LikeFile.new f s : LikeFile F C S)) (c := x) rfl hf
  simpa [LikeFile.new] using this

end

/-! ### examples -/

/-- a file in given pieces, the second of which can't be read the first time -/
def exPieces : FileObj (List (Option Bytes)) Unit (CloseVal Bytes) :=
  ⟨fun _ f => match f with | [] => (.ok [], []) | some b :: bs => (.ok b, bs) | none :: bs => (.error (), bs), fun f => (.nothing, f)⟩
/-- (the digest is the reverse of the contents) -/
example :
    let r := runReads (Wrapped.obj List.reverse exPieces) [some 2, none, some 0, some 1] (.new [some [1, 2], none, some [3]])
    delivered r.1 = [1, 2, 3] ∧ (Wrapped.close List.reverse exPieces r.2).1 = .report [3, 2, 1] := by decide +kernel
/-- a file which isn't read to the end has the digest of what was read. -/
example : let r := runReads (Wrapped.obj List.reverse exPieces) [some 2] (.new [some [1, 2], some [3]])
    (Wrapped.close List.reverse exPieces r.2).1 = .report [2, 1] := by decide +kernel
example : let r := runReads (Wrapped.obj List.reverse (Wrapped.obj List.reverse exPieces)) [some 2, none] (.new (.new [some [1, 2], none, some [3]]))
    (Wrapped.close List.reverse (Wrapped.obj List.reverse exPieces) r.2).1 = .report [2, 1] := by decide +kernel

end Verif.C37

/-! ## C50: copies of files are exact -/
namespace Verif.C50
open Verif.FileObj Verif.C36 Verif.C37
open Verif.Pipe (Bytes)
variable {F X C S D : Type}

/-- what has been written is `w`, except for a hole at the end -/
structure OutInv (o : Out) (w : Bytes) (sparse : Bool) : Prop where
  eq : o.data ++ List.replicate (w.length - o.data.length) 0 = w
  pos : o.pos = w.length
  dense : sparse = false → o.data = w
  hole : sparse = true → o.data.length < w.length

theorem outInv_le {o : Out} {w : Bytes} {sparse : Bool} (h : OutInv o w sparse) : o.data.length ≤ w.length := by
  have := congrArg List.length h.eq
  simp at this
  omega

theorem write_inv {o : Out} {w : Bytes} {sparse : Bool} (h : OutInv o w sparse) (b : Bytes) : OutInv (o.write b) (w ++ b) false := by
  have hl := outInv_le h
  have : (o.write b).data = w ++ b := by
    simp only [Out.write, h.pos]
    rw [h.eq, List.take_of_length_le (le_refl _), List.drop_of_length_le (by omega)]
    simp
  exact ⟨by simp [this], by simp [Out.write, h.pos], fun _ => this, by simp⟩

theorem seek_inv {o : Out} {w : Bytes} {sparse : Bool} (h : OutInv o w sparse) {k : Nat} (hk : 0 < k) : OutInv (o.seek k) (w ++ List.replicate k 0) true := by
  have hl := outInv_le h
  refine ⟨?_, by simp [Out.seek, h.pos], by simp, fun _ => by simp [Out.seek]; omega⟩
  simp only [Out.seek, List.length_append, List.length_replicate]
  conv_rhs => rw [← h.eq]
  rw [List.append_assoc, List.replicate_append_replicate]
  congr 2; omega

theorem copyLoop_eq {fo : FileObj F X C} {Q : F → Bytes → Prop} (hQ : Reads fo Q) (compressed : Bool) {fuel : Nat} {sparse : Bool} {f : F} {c w : Bytes} {o : Out}
    (hq : Q f c) (hfuel : c.length < fuel) (ho : OutInv o w sparse) :
    ∃ sparse' f0 f' o', copyLoop fo compressed fuel sparse f o = (some (.ok sparse'), f', o') ∧ OutInv o' (w ++ c) sparse' ∧ Q f0 [] ∧
      fo.read (some BLOCKSIZE) f0 = (.ok [], f') ∧ Q f' [] := by
  induction fuel generalizing f c w o sparse with
  | zero => omega
  | succ k ih =>
    obtain ⟨b, f', c', h1, h2, h3, h4⟩ := hQ f c BLOCKSIZE hq (by decide)
    cases b with
    | nil =>
      have hc := h3 rfl
      subst hc
      have : c' = [] := by simpa using h2.symm
      subst this
      exact ⟨sparse, f, f', o, by simp [copyLoop, h1], by simpa using ho, hq, h1, h4⟩
    | cons b bs =>
      have hk : c'.length < k := by rw [h2] at hfuel; simp at hfuel; omega
      by_cases hz : (!compressed && (b :: bs) == List.replicate (b :: bs).length 0) = true
      · obtain ⟨s', f0, f2, o', i1, i2, i3⟩ := ih (sparse := true) h4 hk (seek_inv ho (k := (b :: bs).length) (by simp))
        refine ⟨s', f0, f2, o', ?_, ?_, i3⟩
        · simp only [copyLoop, h1, hz, if_true, i1]
        · have he : b :: bs = List.replicate (b :: bs).length 0 := by
            simp only [Bool.and_eq_true, beq_iff_eq] at hz; exact hz.2
          rw [h2, ← List.append_assoc]
          rw [← he] at i2
          exact i2
      · obtain ⟨s', f0, f2, o', i1, i2, i3⟩ := ih (sparse := false) h4 hk (write_inv ho (b :: bs))
        refine ⟨s', f0, f2, o', ?_, ?_, i3⟩
        · simp only [copyLoop, h1, hz, i1]
          simp
        · rw [h2, ← List.append_assoc]
          exact i2

/-- the loop ends, the contents have been written, and the input is at its end -/
theorem copy_eq {fo : FileObj F X C} {Q : F → Bytes → Prop} (hQ : Reads fo Q) (compressed : Bool) {fuel : Nat} {f : F} {c : Bytes} (hq : Q f c) (hfuel : c.length < fuel) :
    ∃ f0 f' p, copyfileobj fo compressed fuel f ⟨[], 0⟩ = (some (.ok ()), f', ⟨c, p⟩) ∧ Q f0 [] ∧ fo.read (some BLOCKSIZE) f0 = (.ok [], f') ∧ Q f' [] := by
  obtain ⟨sparse, f0, f', o', h1, h2, h3⟩ := copyLoop_eq hQ compressed (sparse := false) (w := []) (o := ⟨[], 0⟩) hq hfuel ⟨rfl, rfl, fun _ => rfl, by simp⟩
  rw [List.nil_append] at h2
  cases sparse with
  | false =>
    refine ⟨f0, f', o'.pos, ?_, h3⟩
    simp only [copyfileobj, h1, Bool.false_eq_true, if_false, Prod.mk.injEq, true_and]
    rw [← h2.dense rfl]
  | true =>
    refine ⟨f0, f', c.length, ?_, h3⟩
    have hh := h2.hole rfl
    simp only [copyfileobj, h1, if_true, Prod.mk.injEq, true_and, Out.seekBack, Out.write, h2.pos]
    have e1 : c = o'.data ++ List.replicate (c.length - 1 - o'.data.length) 0 ++ [0] := by
      conv_lhs => rw [← h2.eq]
      rw [List.append_assoc, ← List.replicate_succ']
      congr 2; omega
    congr 1
    · have e2 : (o'.data ++ List.replicate (c.length - 1 - o'.data.length) 0).length = c.length - 1 := by simp; omega
      rw [List.take_of_length_le (by omega), List.drop_of_length_le (by simp; omega), List.append_nil]
      exact e1.symm
    · simp; omega

/-- Whatever is in a file (blocks of zeros for which holes are made, at the end or not), and in whatever pieces it is read: the copy has the same contents. -/
theorem copy_exact {fo : FileObj F X C} {Q : F → Bytes → Prop} (hQ : Reads fo Q) (compressed : Bool) {f : F} {c : Bytes} (hq : Q f c) :
    ∃ N, ∀ fuel ≥ N, (copyfileobj fo compressed fuel f ⟨[], 0⟩).1 = some (.ok ()) ∧ (copyfileobj fo compressed fuel f ⟨[], 0⟩).2.2.data = c := by
  refine ⟨c.length + 1, fun fuel hfuel => ?_⟩
  obtain ⟨f0, f', p, h, _⟩ := copy_eq hQ compressed hq (fuel := fuel) (by omega)
  simp [h]

/-- `_cmp_file_obj` finds a difference exactly if there is one (if reads return as much as they are asked for). -/
theorem cmp_exact {F' : Type} {fo : FileObj F X C} {Q : F → Bytes → Prop} (hQ : Full fo Q) {fo' : FileObj F' X C} {Q' : F' → Bytes → Prop} (hQ' : Full fo' Q')
    {f : F} {f' : F'} {c c' : Bytes} (hq : Q f c) (hq' : Q' f' c') : ∃ N, ∀ fuel ≥ N, cmpFileObj fo fo' fuel f f' = some (.ok (decide (c = c'))) := by
  refine ⟨c.length + 1, fun fuel hfuel => ?_⟩
  induction fuel generalizing f f' c c' with
  | zero => omega
  | succ k ih =>
    obtain ⟨f1, h1, h2⟩ := hQ.some f c BLOCKSIZE hq
    obtain ⟨f1', h1', h2'⟩ := hQ'.some f' c' BLOCKSIZE hq'
    simp only [cmpFileObj, h1, h1']
    by_cases he : c.take BLOCKSIZE = c'.take BLOCKSIZE
    · rw [if_neg (by simpa using he)]
      by_cases hn : c.take BLOCKSIZE = []
      · rw [if_pos hn]
        have hc : c = [] := by rcases List.take_eq_nil_iff.1 hn with h | h; exact absurd h (by decide); exact h
        have hc' : c' = [] := by rcases List.take_eq_nil_iff.1 (he ▸ hn) with h | h; exact absurd h (by decide); exact h
        simp [hc, hc']
      · rw [if_neg hn]
        have hlen : (c.drop BLOCKSIZE).length < c.length := by
          have : c ≠ [] := fun h => hn (by simp [h])
          have : 0 < c.length := List.length_pos_iff.2 this
          simp only [List.length_drop]
          have : 0 < BLOCKSIZE := by decide
          omega
        rw [ih h2 h2' (by omega)]
        congr 3
        rw [eq_iff_iff]
        constructor
        · intro h
          rw [← List.take_append_drop BLOCKSIZE c, ← List.take_append_drop BLOCKSIZE c', he, h]
        · intro h; rw [h]
    · rw [if_pos (by simpa using he)]
      have : c ≠ c' := fun h => he (by rw [h])
      simp [this]

/-! ### an update of a file -/

/-- Rdiff.patch_local with a delta from Rdiff.get_delta_sigrp_hash: the new file, read through a FileWrapper, goes through the delta job, its output through the patch
job, and that is copied; the result of `close` is the digest for the metadata. If librsync is right, so that the patch of the delta is the new file, then the
written file has the contents of the new file, and the digest is that of the new file, whatever blocks and buffers there are on the way. -/
theorem update_exact [DecidableEq D] (sha1 : Bytes → D) {fo : FileObj F X (CloseVal D)} (hc : ∀ f, (fo.close f).1 = .nothing) {Q : F → Bytes → Prop} (hQ : Reads fo Q)
    {Sd Sp : Type} {delta : JobIter Sd} {denD : Sd → Bytes → Option Bytes} {rankD : Sd → Bytes → Nat} (hD : Streams delta denD rankD) (hLate : Late delta denD)
    {patch : JobIter Sp} {denP : Sp → Bytes → Option Bytes} {rankP : Sp → Bytes → Nat} (hP : Streams patch denP rankP) {exact : Sp → Bytes → Prop}
    (hUses : Uses patch exact) {sd : Sd} (hsd : ∀ x, denD sd x ≠ some []) {sp : Sp} {f : F} {new d : Bytes} (hf : Q f new) (hd : denD sd new = some d)
    (hp : denP sp d = some new) (hx : exact sp d) :
    ∃ N, ∀ fuel ≥ N,
      let dobj := LikeFile.obj (Wrapped.obj sha1 fo) delta fuel
      let pobj := LikeFile.obj dobj patch fuel
      let r := copyfileobj pobj false fuel (.new (.new (.new f) sd) sp) ⟨[], 0⟩
      r.1 = some (.ok ()) ∧ r.2.2.data = new ∧ (pobj.close r.2.1).1 = .report (sha1 new) := by
  refine ⟨rankD sd new + rankP sp d + new.length + 3, fun fuel hfuel => ?_⟩
  let V : CloseVal D → Prop := fun v => v = .report (sha1 new)
  have hW := wrapped_reads (sha1 := sha1) hQ new
  have hWV : ∀ w : Wrapped F, WrappedHolds Q new w [] → V ((Wrapped.obj sha1 fo).close w).1 := by
    rintro w ⟨_, _, h3⟩
    rw [List.append_nil] at h3
    simp [V, Wrapped.obj, Wrapped.close, hc, h3]
  have hDf := lateFile_full hD hLate hW hWV fuel
  have hDV : ∀ l, LateHolds fuel denD rankD (WrappedHolds Q new) V l [] → V ((LikeFile.obj (Wrapped.obj sha1 fo) delta fuel).close l).1 :=
    fun l h => lateFile_close h
  have hPf := usesFile_full hP hUses hDf.reads hDV fuel
  have h0 : LateHolds fuel denD rankD (WrappedHolds Q new) V (LikeFile.new (Wrapped.new f) sd) d :=
    late_new hsd (Q := WrappedHolds Q new) (x := new) ⟨rfl, hf, rfl⟩ hd (by omega)
  have h1 : UsesHolds fuel denP rankP exact (LateHolds fuel denD rankD (WrappedHolds Q new) V) V (LikeFile.new (LikeFile.new (Wrapped.new f) sd) sp) new :=
    uses_new h0 hp hx (by omega)
  obtain ⟨f0, f', p, i1, i2, i3, i4⟩ := copy_eq hPf.reads false h1 (fuel := fuel) (by omega)
  have he : f'.eof = true := read_eof hP hDf.reads (by decide) i2.1 i3
  refine ⟨by rw [i1], by rw [i1], ?_⟩
  rw [i1]
  exact usesFile_close hDV i4.2 he

/-! ### examples -/

example : (copyfileobj pieces false 10 [[1, 2], [0, 0], [0], [3], [0, 0, 0]] ⟨[], 0⟩).2.2 = ⟨[1, 2, 0, 0, 0, 3, 0, 0, 0], 9⟩ := by decide +kernel
example : (copyfileobj pieces false 10 [[0, 0]] ⟨[], 0⟩).2.2 = ⟨[0, 0], 2⟩ := by decide +kernel

/-- a delta job: the bytes literally, after one byte as a header and before one byte which says that it is over; it doesn't read ahead -/
def exDelta : JobIter Nat := fun s p _ _ =>
  match s, p with
  | 0, _ => (.blocked, 0, [72], 1)
  | 1, x :: _ => (.blocked, 1, [76, x], 1)
  | 1, [] => (.done, 0, [69], 2)
  | _, _ => (.failed, 0, [], 3)
def exDenD : Nat → Bytes → Option Bytes
  | 0, x => some (72 :: x.flatMap (fun b => [76, b]) ++ [69])
  | 1, x => some (x.flatMap (fun b => [76, b]) ++ [69])
  | _, _ => none
theorem exDelta_streams : Streams exDelta exDenD fun s x => x.length + 2 - s := by
  intro s p rest eof room _ h1 h2
  match s, p with
  | 0, p => simp [exDelta, exDenD]
  | 1, x :: xs => simp [exDelta, exDenD]
  | 1, [] =>
    have he : eof = true := by cases eof <;> simp_all
    simp [exDelta, exDenD, h1 he]
  | s + 2, p => cases p <;> simp [exDelta, exDenD]
theorem exDelta_late : Late exDelta exDenD := by
  intro s p rest room hp _
  match s, p with
  | 0, p => simp [exDelta, exDenD]
  | 1, x :: xs => simp [exDelta, exDenD]
  | 1, [] => exact absurd rfl hp
  | s + 2, p => cases p <;> simp [exDelta]
example : ∀ x, exDenD 0 x ≠ some [] := by simp [exDenD]

/-- the patch job for it -/
def exPatch : JobIter Nat := fun s p _ _ =>
  match s, p with
  | 0, x :: _ => if x = 72 then (.blocked, 1, [], 1) else (.failed, 0, [], 3)
  | 1, x :: _ => if x = 76 then (.blocked, 1, [], 2) else if x = 69 then (.done, 1, [], 3) else (.failed, 0, [], 3)
  | 2, x :: _ => (.blocked, 1, [x], 1)
  | _, _ => (.failed, 0, [], 3)
def exDenP : Nat → Bytes → Option Bytes
  | 0, x :: xs => if x = 72 then exDenP 1 xs else none
  | 1, x :: xs => if x = 76 then exDenP 2 xs else if x = 69 then some [] else none
  | 2, x :: xs => (exDenP 1 xs).map (x :: ·)
  | _, _ => none
/-- there is nothing after the byte which says that it is over -/
def exExact : Nat → Bytes → Prop
  | 0, x :: xs => x = 72 → exExact 1 xs
  | 1, x :: xs => if x = 76 then exExact 2 xs else x = 69 → xs = []
  | 2, _ :: xs => exExact 1 xs
  | _, _ => True
theorem exPatch_streams : Streams exPatch exDenP fun _ x => x.length := by
  intro s p rest eof room _ h1 h2
  match s, p with
  | 0, x :: xs => by_cases h : x = 72 <;> simp [exPatch, exDenP, h]
  | 1, x :: xs =>
    by_cases h : x = 76
    · simp [exPatch, exDenP, h]
    · by_cases h' : x = 69 <;> simp [exPatch, exDenP, h, h']
  | 2, x :: xs => simp [exPatch, exDenP]
  | 0, [] => have he : eof = true := by cases eof <;> simp_all
             simp [exPatch, exDenP, h1 he]
  | 1, [] => have he : eof = true := by cases eof <;> simp_all
             simp [exPatch, exDenP, h1 he]
  | 2, [] => have he : eof = true := by cases eof <;> simp_all
             simp [exPatch, exDenP, h1 he]
  | s + 3, p => cases p <;> simp [exPatch, exDenP]
theorem exPatch_uses : Uses exPatch exExact := by
  intro s p rest eof room _ h1 h2 hx
  match s, p with
  | 0, x :: xs => by_cases h : x = 72 <;> simp_all [exPatch, exExact]
  | 1, x :: xs =>
    by_cases h : x = 76
    · simp_all [exPatch, exExact]
    · by_cases h' : x = 69 <;> simp_all [exPatch, exExact]
  | 2, x :: xs => simp_all [exPatch, exExact]
  | 0, [] => simp [exPatch]
  | 1, [] => simp [exPatch]
  | 2, [] => simp [exPatch]
  | s + 3, p => cases p <;> simp [exPatch]

example : exDenD 0 [1, 0, 2] = some [72, 76, 1, 76, 0, 76, 2, 69] := by decide
example : exDenP 0 [72, 76, 1, 76, 0, 76, 2, 69] = some [1, 0, 2] := by decide
example : exExact 0 [72, 76, 1, 76, 0, 76, 2, 69] := by simp [exExact]
def exFile : FileObj (List Bytes) Unit (CloseVal Bytes) := ⟨pieces.read, fun f => (.nothing, f)⟩
example : Reads exFile piecesHold := pieces_reads
/-- (the digest here is the contents) -/
example :
    let dobj := LikeFile.obj (Wrapped.obj id exFile) exDelta 30
    let pobj := LikeFile.obj dobj exPatch 30
    let r := copyfileobj pobj false 30 (.new (.new (.new [[1, 0], [2]]) 0) 0) ⟨[], 0⟩
    r.2.2 = ⟨[1, 0, 2], 3⟩ ∧ (pobj.close r.2.1).1 = .report [1, 0, 2] := by decide +kernel

end Verif.C50

/-! ## C51: block sizes for signatures -/
namespace Verif.C51
open Verif.FileObj

theorem lt_two_pow_bitLength (n : Nat) : n < 2 ^ bitLength n := by
  induction n using Nat.strong_induction_on with
  | _ n ih =>
    rw [bitLength]
    split
    · simp [*]
    · rename_i h
      have := ih (n / 2) (by omega)
      rw [Nat.pow_succ]; omega

theorem two_pow_bitLength_le (n : Nat) (h : n ≠ 0) : 2 ^ (bitLength n - 1) ≤ n := by
  induction n using Nat.strong_induction_on with
  | _ n ih =>
    rw [bitLength, if_neg h]
    by_cases h2 : n / 2 = 0
    · rw [h2, bitLength]; simp; omega
    · have := ih (n / 2) (by omega) h2
      have hb : 0 < bitLength (n / 2) := by rw [bitLength, if_neg h2]; omega
      have e : bitLength (n / 2) + 1 - 1 = (bitLength (n / 2) - 1) + 1 := by omega
      rw [e, Nat.pow_succ]; omega

/-- For files of every length the block size is at least 64 and a multiple of 16, and, for those of at least 10240 bytes, between half and twice the square root of the
length, but for rounding to a multiple of 16. -/
theorem blocksize_range (n : Nat) :
    64 ≤ findBlocksize n ∧ 16 ∣ findBlocksize n ∧ (10240 ≤ n → findBlocksize n ^ 2 ≤ 4 * n ∧ n ≤ (2 * (findBlocksize n + 16)) ^ 2) := by
  by_cases h : n < 10240
  · simp only [findBlocksize, if_pos h]
    exact ⟨le_refl _, by decide, fun h' => by omega⟩
  · have h0 : n ≠ 0 := by omega
    have hlo := two_pow_bitLength_le n h0
    have hhi := lt_two_pow_bitLength n
    set b := bitLength n with hb
    have hb14 : 14 ≤ b := by
      by_contra hc
      have : 2 ^ b ≤ 2 ^ 13 := Nat.pow_le_pow_right (by omega) (by omega)
      omega
    have he : findBlocksize n = (n / 2 ^ (b / 2 + 4)) * 16 := by
      simp only [findBlocksize, if_neg h, ← hb, Nat.shiftLeft_eq, Nat.shiftRight_eq_div_pow]
    rw [he]
    have hq : n / 2 ^ (b / 2 + 4) * 2 ^ (b / 2 + 4) ≤ n := Nat.div_mul_le_self _ _
    have hr : n < (n / 2 ^ (b / 2 + 4) + 1) * 2 ^ (b / 2 + 4) := by
      have := Nat.lt_div_mul_add (a := n) (b := 2 ^ (b / 2 + 4)) (Nat.pos_of_ne_zero (by simp))
      rw [Nat.add_mul]; omega
    set q := n / 2 ^ (b / 2 + 4) with hqd
    have hp : 2 ^ (b / 2 + 4) = 2 ^ (b / 2) * 16 := by rw [Nat.pow_add]
    refine ⟨?_, ⟨q, by omega⟩, fun _ => ⟨?_, ?_⟩⟩
    · have : 4 ≤ q := by
        rw [hqd, Nat.le_div_iff_mul_le (Nat.pos_of_ne_zero (by simp))]
        refine le_trans ?_ hlo
        rw [show (4 : Nat) = 2 ^ 2 from rfl, ← Nat.pow_add]
        exact Nat.pow_le_pow_right (by omega) (by omega)
      omega
    · -- q*16 * 2^(b/2) ≤ n < 2^b ≤ 2^(b/2) * 2^(b/2) * 2
      have h1 : q * 16 * 2 ^ (b / 2) ≤ n := by rw [hp] at hq; linarith
      have h2 : 2 ^ b ≤ 2 ^ (b / 2) * (2 ^ (b / 2) * 2) := by
        rw [← Nat.pow_succ, ← Nat.pow_add]; exact Nat.pow_le_pow_right (by omega) (by omega)
      have h3 : q * 16 ≤ 2 * 2 ^ (b / 2) := by
        have : q * 16 * 2 ^ (b / 2) ≤ (2 * 2 ^ (b / 2)) * 2 ^ (b / 2) := by linarith [Nat.mul_comm (2 ^ (b / 2)) (2 ^ (b / 2) * 2)]
        exact Nat.le_of_mul_le_mul_right this (Nat.pos_of_ne_zero (by simp))
      have h4 : (2 ^ (b / 2)) * (q * 16) ≤ n := by linarith
      nlinarith
    · have h1 : n ≤ (q + 1) * 16 * 2 ^ (b / 2) := by rw [hp] at hr; linarith
      have h2 : 2 ^ (b / 2) * 2 ^ (b / 2) ≤ 2 ^ b := by
        rw [← Nat.pow_add]; exact Nat.pow_le_pow_right (by omega) (by omega)
      have h5 : 2 ^ b ≤ 2 * n := by
        have : 2 ^ b = 2 ^ (b - 1) * 2 := by rw [← Nat.pow_succ]; congr 1; omega
        omega
      have h3 : 2 ^ (b / 2) ≤ 2 * ((q + 1) * 16) := by
        have : 2 ^ (b / 2) * 2 ^ (b / 2) ≤ 2 * ((q + 1) * 16) * 2 ^ (b / 2) := by nlinarith
        exact Nat.le_of_mul_le_mul_right this (Nat.pos_of_ne_zero (by simp))
      nlinarith

example : findBlocksize 10240 = 80 ∧ findBlocksize 1000000 = 976 ∧ findBlocksize 5 = 64 := by decide +kernel

end Verif.C51
