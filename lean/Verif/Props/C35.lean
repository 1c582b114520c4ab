import Verif.Proof.IterFile
/-! # C35: file and iterator streams over a pipe round-trip -/
namespace Verif.C35
open Verif.Pipe Verif.IterFile
variable {O R E H : Type}

/-! ### the user of the iterator, and what should happen -/

/-- what the user of the iterator does with an element before asking for the next one: reads of the file (`none`: all, `some n`: `n` bytes), until an
exception is raised, and possibly a `close` -/
structure Script where
  reads : List (Option Nat)
  close : Bool

/-- what happens: `next` returns an element, `read` returns bytes, an exception is raised, `close` returns a value -/
inductive Ev (O R E H : Type) where
  | item (i : IterFile.Item O R E)
  | bytes (b : Bytes)
  | raised (e : Err E)
  | closed (h : Option H)
  deriving DecidableEq

/-- the next element which is no flush -/
def headElem : List (Elem O R E H) → Option (Elem O R E H × List (Elem O R E H))
  | [] => none
  | .flush :: es => headElem es
  | e :: es => some (e, es)

/-- reading a file, of which the bytes `c` have not been read, and whose end is `ending`: what happens, and what is left (`none` if an exception has been raised) -/
def readSpec (c : Bytes) (ending : E ⊕ H) : List (Option Nat) → List (Ev O R E H) × Option Bytes
  | [] => ([], some c)
  | n :: ns =>
    if n.any (· < c.length) then
      let r := readSpec (c.drop (n.getD 0)) ending ns
      (.bytes (c.take (n.getD 0)) :: r.1, r.2)
    else
      match ending with
      | .inl e => ([.raised (.raised e)], none)
      | .inr _ => let r := readSpec [] ending ns
        (.bytes c :: r.1, r.2)

/-- closing the file, or not; the second component: an exception which is going to be raised by the next `next` -/
def closeSpec (left : Option Bytes) (ending : E ⊕ H) (close : Bool) : List (Ev O R E H) × Option E :=
  match left, ending, close with
  | none, _, _ => ([], none)
  | some _, .inr h, true => ([.closed (some h)], none)
  | some _, .inr _, false => ([], none)
  | some _, .inl e, true => ([.raised (.raised e)], none)
  | some _, .inl e, false => ([], some e)

/-- what should happen -/
def spec (es : List (Elem O R E H)) (pending : Option E) : List Script → List (Ev O R E H)
  | [] => []
  | sc :: scs =>
    match pending with
    | some e => .raised (.raised e) :: spec es none scs
    | none =>
      match headElem es with
      | none => [.item .stop]
      | some (.obj o, es') => .item (.obj o) :: spec es' none scs
      | some (.flushRepeat o, es') => .item (.obj o) :: spec es' none scs
      | some (.rorp r none, es') => .item (.rorp r) :: spec es' none scs
      | some (.rorp r (some ⟨[], .inl e⟩), es') =>
        .item (.rorpError r e) :: ((if sc.reads ≠ [] then [.raised (.raised e)] else if sc.close then [.closed none] else []) ++ spec es' none scs)
      | some (.rorp r (some f), es') =>
        let a := readSpec f.blocks.flatten f.ending sc.reads
        let b := closeSpec a.2 f.ending sc.close
        .item (.rorpFile r) :: (a.1 ++ (b.1 ++ spec es' b.2 scs))
      | some (.flush, _) => []

/-- The files are read to their ends (or an exception is raised), or have at most two blocks. -/
def Tame (es : List (Elem O R E H)) (pending : Option E) : List Script → Prop
  | [] => True
  | sc :: scs =>
    match pending with
    | some _ => Tame es none scs
    | none =>
      match headElem es with
      | some (.rorp _ (some f), es') =>
        let a := readSpec (O := O) (R := R) f.blocks.flatten f.ending sc.reads
        (f.blocks.length ≤ 2 ∨ a.2 = none ∨ a.2 = some []) ∧
          Tame es' (if f.blocks = [] then none else (closeSpec (O := O) (R := R) a.2 f.ending sc.close).2) scs
      | some (_, es') => Tame es' none scs
      | none => True

/-! ### the same with the model -/

variable (P : Pickles O R E H) (maxBytes maxRorps : Nat)

def useReads (fuel : Nat) : List (Option Nat) → Reader O R E H → List (Ev O R E H) × Bool × Reader O R E H
  | [], s => ([], true, s)
  | n :: ns, s =>
    match readVf P maxBytes maxRorps fuel n s with
    | (.ok b, s') =>
      let r := useReads fuel ns s'
      (.bytes b :: r.1, r.2)
    | (.error e, s') => ([.raised e], false, s')

def useClose (fuel : Nat) (close : Bool) (s : Reader O R E H) : List (Ev O R E H) × Reader O R E H :=
  if close then
    match closeVf P maxBytes maxRorps fuel s with
    | (.ok h, s') => ([.closed (some h)], s')
    | (.error e, s') => ([.raised e], s')
  else ([], s)

def run (fuel : Nat) : List Script → Reader O R E H → List (Ev O R E H)
  | [], _ => []
  | sc :: scs, s =>
    match next P maxBytes maxRorps fuel s with
    | (.error e, s') => .raised e :: run fuel scs s'
    | (.ok .stop, _) => [.item .stop]
    | (.ok (.rorpFile r), s') =>
      let a := useReads P maxBytes maxRorps fuel sc.reads s'
      if a.2.1 then
        let b := useClose P maxBytes maxRorps fuel sc.close a.2.2
        .item (.rorpFile r) :: (a.1 ++ (b.1 ++ run fuel scs b.2))
      else .item (.rorpFile r) :: (a.1 ++ run fuel scs a.2.2)
    | (.ok (.rorpError r e), s') =>
      .item (.rorpError r e) :: ((if sc.reads ≠ [] then [.raised (.raised e)] else if sc.close then [.closed none] else []) ++ run fuel scs s')
    | (.ok i, s') => .item i :: run fuel scs s'

/-- a new iterator on one side, connected with a new one on the other side -/
def start (es : List (Elem O R E H)) : Reader O R E H := ⟨[], ⟨es, none, none, [], 0⟩, false, ⟨[], false, true, none⟩⟩

/-- no `read` returns nothing before the end -/
def NonEmpty (es : List (Elem O R E H)) : Prop := ∀ r f, Elem.rorp r (some f) ∈ es → ∀ b ∈ f.blocks, b ≠ []

/-! ### proof -/

variable {P} {maxBytes maxRorps}

/-- the records `T` are those of the elements `es`, with some flushes in between -/
inductive Rep : List (Elem O R E H) → List (Option (Rec O R E H)) → Prop
  | nil : Rep [] []
  | flush {es T} : Rep es T → Rep (.flush :: es) T
  | mark {es T} : Rep es T → Rep es (none :: T)
  | obj {es T o} : Rep es T → Rep (.obj o :: es) (some (.obj o) :: T)
  | flushRepeat {es T o} : Rep es T → Rep (.flushRepeat o :: es) (some (.obj o) :: T)
  | rorp {es T r} : Rep es T → Rep (.rorp r none :: es) (some (.rorp r false) :: T)
  | file {es T r f} : Rep es T → Rep (.rorp r (some f) :: es) (some (.rorp r true) :: ((f.recs .file).map some ++ T))

theorem rep_recs (es : List (Elem O R E H)) : Rep es (es.flatMap Elem.recs) := by
  induction es with
  | nil => exact .nil
  | cons e es ih =>
    rw [List.flatMap_cons]
    cases e with
    | obj o => exact .obj ih
    | flush => exact .flush (.mark ih)
    | flushRepeat o => exact .flushRepeat (.mark ih)
    | rorp r f =>
      cases f with
      | none => exact .rorp ih
      | some f => exact .file ih

theorem thin_recs {rs : List (Rec O R E H)} {T L : List (Option (Rec O R E H))} (h : Thin (rs.map some ++ T) L) :
    ∃ T', L = rs.map some ++ T' ∧ Thin T T' := by
  induction rs generalizing L with
  | nil => exact ⟨L, rfl, h⟩
  | cons r rs ih =>
    simp only [List.map_cons, List.cons_append] at h
    cases h with
    | refl => exact ⟨T, rfl, .refl _⟩
    | cons h =>
      obtain ⟨T', rfl, h2⟩ := ih h
      exact ⟨T', rfl, h2⟩

theorem thin_length {T T' : List (Option (Rec O R E H))} (h : Thin T T') : T'.length ≤ T.length := by
  induction h with
  | refl => exact le_refl _
  | drop => simp
  | cons _ ih => simpa using ih

theorem rep_thin {es : List (Elem O R E H)} {T T' : List (Option (Rec O R E H))} (h : Rep es T) (ht : Thin T T') : Rep es T' := by
  induction h generalizing T' with
  | nil => cases ht; exact .nil
  | flush _ ih => exact .flush (ih ht)
  | mark h ih =>
    cases ht with
    | refl => exact .mark h
    | drop => exact h
    | cons ht => exact .mark (ih ht)
  | obj h ih =>
    cases ht with
    | refl => exact .obj h
    | cons ht => exact .obj (ih ht)
  | flushRepeat h ih =>
    cases ht with
    | refl => exact .flushRepeat h
    | cons ht => exact .flushRepeat (ih ht)
  | rorp h ih =>
    cases ht with
    | refl => exact .rorp h
    | cons ht => exact .rorp (ih ht)
  | file h ih =>
    cases ht with
    | refl => exact .file h
    | cons ht =>
      obtain ⟨T2, rfl, h2⟩ := thin_recs ht
      exact .file (ih h2)

section
variable (hP : Sound P) (hmb : 0 < maxBytes) (hmr : 0 < maxRorps)
include hP hmb hmr

theorem getRec_in {s : Reader O R E H} {x : Rec O R E H} {rs : List (Rec O R E H)} {T : List (Option (Rec O R E H))}
    (hs : Sim P s (some x :: (rs.map some ++ T))) :
    ∃ s' T', getRec P maxBytes maxRorps s = (.ok (some x), s') ∧ s'.inFile = s.inFile ∧ s'.vf = s.vf ∧ Sim P s' (rs.map some ++ T') ∧ Thin T T' := by
  obtain ⟨r, s', h1, h2, h3, h4⟩ := getRec_eq hP hmb hmr hs
  rcases h4 with ⟨y, L0, L1, rfl, h5, h6, h7⟩ | ⟨_, L0, h5, _⟩ | ⟨_, h5, _⟩
  · simp only [List.cons.injEq, Option.some.injEq] at h5
    obtain ⟨rfl, rfl⟩ := h5
    obtain ⟨T', rfl, h8⟩ := thin_recs h6
    exact ⟨s', T', h1, h2, h3, h7, h8⟩
  · simp at h5
  · simp at h5

theorem getRec_one {s : Reader O R E H} {x : Rec O R E H} {T : List (Option (Rec O R E H))} (hs : Sim P s (some x :: T)) :
    ∃ s' T', getRec P maxBytes maxRorps s = (.ok (some x), s') ∧ s'.inFile = s.inFile ∧ s'.vf = s.vf ∧ Sim P s' T' ∧ Thin T T' := by
  simpa using getRec_in hP hmb hmr (s := s) (x := x) (rs := []) (T := T) hs

theorem setCloseVal_eq {s : Reader O R E H} {h : H} {T : List (Option (Rec O R E H))} (hs : Sim P s (some (.close h) :: T)) (hi : s.inFile = true) :
    ∃ s' T', setCloseVal P maxBytes maxRorps s = (.ok (), s') ∧ s'.inFile = false ∧ s'.vf = { s.vf with closeVal := some h } ∧ Sim P s' T' ∧ Thin T T' := by
  have hs' : Sim P { s with inFile := false } (some (.close h) :: T) := ⟨hs.fits, hs.buf, hs.rorps, hs.eq⟩
  obtain ⟨s', T', h1, h2, h3, h4, h5⟩ := getRec_one hP hmb hmr hs'
  refine ⟨{ s' with vf := { s'.vf with closeVal := some h } }, T', by simp [setCloseVal, hi, h1], h2, by simp [h3], ⟨h4.fits, h4.buf, h4.rorps, h4.eq⟩, h5⟩

/-- a block is fetched -/
theorem addVf_block {s : Reader O R E H} {f : Src E H} {b : Bytes} {bs : List Bytes} {T : List (Option (Rec O R E H))} (hb : f.blocks = b :: bs) (hne : b ≠ [])
    (hs : Sim P s ((f.recs .cont).map some ++ T)) (hi : s.inFile = true) (hst : s.vf.str = false) :
    ∃ s' T', addVf P maxBytes maxRorps s = (.ok true, s') ∧ s'.inFile = true ∧ s'.vf = { s.vf with buffer := s.vf.buffer ++ b } ∧
      Sim P s' (((⟨bs, f.ending⟩ : Src E H).recs .cont).map some ++ T') ∧ Thin T T' := by
  rw [src_cons_recs f hb] at hs
  simp only [List.map_cons, List.cons_append] at hs
  obtain ⟨s', T', h1, h2, h3, h4, h5⟩ := getRec_in hP hmb hmr hs
  refine ⟨{ s' with vf := { s'.vf with buffer := s'.vf.buffer ++ b } }, T', ?_, by simp [h2, hi], by simp [h3], ⟨h4.fits, h4.buf, h4.rorps, h4.eq⟩, h5⟩
  simp [addVf, hi, h1, hne, h3, hst]

/-- the end of the file, with an exception -/
theorem addVf_exc {s : Reader O R E H} {f : Src E H} {e : E} {T : List (Option (Rec O R E H))} (hb : f.blocks = []) (he : f.ending = .inl e)
    (hs : Sim P s ((f.recs .cont).map some ++ T)) (hi : s.inFile = true) :
    ∃ s' T', addVf P maxBytes maxRorps s = (.error (.raised e), s') ∧ s'.inFile = false ∧ Sim P s' T' ∧ Thin T T' := by
  have : f.recs (.cont : Bytes → Rec O R E H) = [.exc e] := by simp only [Src.recs]; rw [hb, he]
  rw [this] at hs
  obtain ⟨s', T', h1, h2, h3, h4, h5⟩ := getRec_one hP hmb hmr (by simpa using hs)
  exact ⟨{ s' with inFile := false }, T', by simp [addVf, hi, h1], rfl, ⟨h4.fits, h4.buf, h4.rorps, h4.eq⟩, h5⟩

/-- the end of the file -/
theorem addVf_end {s : Reader O R E H} {f : Src E H} {h : H} {T : List (Option (Rec O R E H))} (hb : f.blocks = []) (he : f.ending = .inr h)
    (hs : Sim P s ((f.recs .cont).map some ++ T)) (hi : s.inFile = true) :
    ∃ s' T', addVf P maxBytes maxRorps s = (.ok false, s') ∧ s'.inFile = false ∧ s'.vf = { s.vf with closeVal := some h } ∧ Sim P s' T' ∧
      T'.length ≤ T.length ∧ ∀ es, Rep es T → Rep es T' := by
  have : f.recs (.cont : Bytes → Rec O R E H) = [.cont [], .close h] := by simp only [Src.recs]; rw [hb, he]
  rw [this] at hs
  obtain ⟨s', T', h1, h2, h3, h4, h5⟩ := getRec_in hP hmb hmr (x := .cont []) (rs := [.close h]) (by simpa using hs)
  obtain ⟨s'', T'', i1, i2, i3, i4, i5⟩ := setCloseVal_eq hP hmb hmr (h := h) (by simpa using h4) (h2.trans hi)
  refine ⟨s'', T'', by simp [addVf, hi, h1, i1], i2, by rw [i3, h3], i4, (thin_length i5).trans (thin_length h5), fun es hr => rep_thin (rep_thin hr h5) i5⟩

/-- the loop of `read` -/
theorem fillVf_eq {f : Src E H} {T : List (Option (Rec O R E H))} (length : Option Nat) {fuel : Nat} (hfuel : f.blocks.length < fuel)
    (hne : ∀ b ∈ f.blocks, b ≠ []) {s : Reader O R E H} (hs : Sim P s ((f.recs .cont).map some ++ T)) (hi : s.inFile = true) (hst : s.vf.str = false) :
    ∃ s' T', T'.length ≤ T.length ∧ (∀ es, Rep es T → Rep es T') ∧
      ((length.any (· < (s.vf.buffer ++ f.blocks.flatten).length) = true ∧ fillVf P maxBytes maxRorps length fuel s = (.ok (), s') ∧ s'.inFile = true ∧
          ∃ b' bs', s'.vf = { s.vf with buffer := b' } ∧ b' ++ bs'.flatten = s.vf.buffer ++ f.blocks.flatten ∧ length.any (· < b'.length) = true ∧
            bs' <:+ f.blocks ∧ Sim P s' (((⟨bs', f.ending⟩ : Src E H).recs .cont).map some ++ T')) ∨
       (length.any (· < (s.vf.buffer ++ f.blocks.flatten).length) = false ∧ ∃ e, f.ending = .inl e ∧
          fillVf P maxBytes maxRorps length fuel s = (.error (.raised e), s') ∧ s'.inFile = false ∧ Sim P s' T') ∨
       (length.any (· < (s.vf.buffer ++ f.blocks.flatten).length) = false ∧ ∃ h, f.ending = .inr h ∧
          fillVf P maxBytes maxRorps length fuel s = (.ok (), s') ∧ s'.inFile = false ∧
          s'.vf = { s.vf with buffer := s.vf.buffer ++ f.blocks.flatten, closeVal := some h } ∧ Sim P s' T')) := by
  obtain ⟨bl, en⟩ := f
  simp only at hfuel hne ⊢
  induction bl generalizing s T fuel with
  | nil =>
    obtain ⟨fuel, rfl⟩ : ∃ k, fuel = k + 1 := ⟨fuel - 1, by simp at hfuel; omega⟩
    by_cases hlen : length.all (s.vf.buffer.length ≤ ·) = true
    · have hany : length.any (· < (s.vf.buffer ++ [].flatten).length) = false := by
        cases length <;> simp_all
      cases en with
      | inl e =>
        obtain ⟨s', T', h1, h2, h3, h4⟩ := addVf_exc hP hmb hmr (f := ⟨[], .inl e⟩) rfl rfl hs hi
        refine ⟨s', T', thin_length h4, fun es h => rep_thin h h4, .inr (.inl ⟨hany, e, rfl, ?_, h2, h3⟩)⟩
        simp [fillVf, hlen, h1]
      | inr h =>
        obtain ⟨s', T', h1, h2, h3, h4, h5, h6⟩ := addVf_end hP hmb hmr (f := ⟨[], .inr h⟩) rfl rfl hs hi
        refine ⟨s', T', h5, h6, .inr (.inr ⟨hany, h, rfl, ?_, h2, by simp [h3], h4⟩)⟩
        simp [fillVf, hlen, h1]
    · have hany : length.any (· < s.vf.buffer.length) = true := by
        cases length <;> simp_all
      refine ⟨s, T, le_refl _, fun _ h => h, .inl ⟨by simpa using hany, by simp [fillVf, hlen], hi, s.vf.buffer, [], rfl, rfl, hany, List.suffix_refl _, hs⟩⟩
  | cons b bs ih =>
    obtain ⟨fuel, rfl⟩ : ∃ k, fuel = k + 1 := ⟨fuel - 1, by simp at hfuel; omega⟩
    by_cases hlen : length.all (s.vf.buffer.length ≤ ·) = true
    · obtain ⟨s1, T1, h1, h2, h3, h4, h5⟩ := addVf_block hP hmb hmr (f := ⟨b :: bs, en⟩) rfl (hne b (by simp)) hs hi hst
      obtain ⟨s', T', i1, i2, i3⟩ := ih (fuel := fuel) (s := s1) (T := T1) h2 (by simp [h3, hst]) (by simp at hfuel ⊢; omega)
        (fun x hx => hne x (by simp [hx])) h4
      have hf : fillVf P maxBytes maxRorps length (fuel + 1) s = fillVf P maxBytes maxRorps length fuel s1 := by
        simp [fillVf, hlen, h1]
      have hbuf : s1.vf.buffer ++ bs.flatten = s.vf.buffer ++ (b :: bs).flatten := by simp [h3]
      rw [hbuf] at i3
      refine ⟨s', T', i1.trans (thin_length h5), fun es h => i2 es (rep_thin h h5), ?_⟩
      rcases i3 with ⟨j1, j2, j3, b', bs', j4, j5, j6, j7, j8⟩ | ⟨j1, e, j2, j3, j4, j5⟩ | ⟨j1, h, j2, j3, j4, j5, j6⟩
      · exact .inl ⟨j1, by rw [hf, j2], j3, b', bs', by rw [j4, h3], j5, j6, j7.trans (List.suffix_cons _ _), j8⟩
      · exact .inr (.inl ⟨j1, e, j2, by rw [hf, j3], j4, j5⟩)
      · exact .inr (.inr ⟨j1, h, j2, by rw [hf, j3], j4, by rw [j5, h3], j6⟩)
    · have hany : length.any (· < s.vf.buffer.length) = true := by
        cases length <;> simp_all
      refine ⟨s, T, le_refl _, fun _ h => h, .inl ⟨?_, by simp [fillVf, hlen], hi, s.vf.buffer, b :: bs, rfl, rfl, hany, List.suffix_refl _, hs⟩⟩
      cases length with
      | none => simp at hany
      | some n => simp at hany ⊢; omega

/-- the state of a file with ending `en` of whose contents `c` is left: `bs` have not been fetched, or it is over -/
inductive St (P : Pickles O R E H) (n : Nat) (en : E ⊕ H) (T : List (Option (Rec O R E H))) (c : Bytes) (s : Reader O R E H) : Prop
  | inFile (bs : List Bytes) (hi : s.inFile = true) (hst : s.vf.str = false) (hcl : s.vf.closed = false) (hc : s.vf.buffer ++ bs.flatten = c)
      (hn : bs.length ≤ n) (hne : ∀ b ∈ bs, b ≠ []) (hs : Sim P s (((⟨bs, en⟩ : Src E H).recs .cont).map some ++ T))
  | ended (h : H) (he : en = .inr h) (hi : s.inFile = false) (hb : s.vf.buffer = []) (hv : s.vf.closeVal = some h) (hcl : s.vf.closed = false)
      (hc : c = []) (hs : Sim P s T)

theorem readVf_eq {n : Nat} {en : E ⊕ H} {T : List (Option (Rec O R E H))} {c : Bytes} {s : Reader O R E H} (h : St P n en T c s) (length : Option Nat) {fuel : Nat}
    (hfuel : n < fuel) :
    ∃ s' T', T'.length ≤ T.length ∧ (∀ es, Rep es T → Rep es T') ∧
      (if length.any (· < c.length) then readVf P maxBytes maxRorps fuel length s = (.ok (c.take (length.getD 0)), s') ∧ St P n en T' (c.drop (length.getD 0)) s'
       else match (generalizing := false) en with
        | .inl e => readVf P maxBytes maxRorps fuel length s = (.error (.raised e), s') ∧ s'.inFile = false ∧ Sim P s' T'
        | .inr _ => readVf P maxBytes maxRorps fuel length s = (.ok c, s') ∧ St P n en T' [] s') := by
  cases h with
  | ended h he hi hb hv hcl hc hs =>
    subst hc he
    refine ⟨{ s with vf := { s.vf with buffer := [] } }, T, le_refl _, fun _ h => h, ?_⟩
    have : ¬ length.any (· < ([] : Bytes).length) = true := by cases length <;> simp
    rw [if_neg this]
    refine ⟨?_, .ended h rfl hi rfl hv hcl rfl ⟨hs.fits, hs.buf, hs.rorps, hs.eq⟩⟩
    simp [readVf, hcl, hi, hb]
  | inFile bs hi hst hcl hc hn hne hs =>
    obtain ⟨s', T', h1, h2, h3⟩ := fillVf_eq hP hmb hmr (f := ⟨bs, en⟩) (T := T) length (fuel := fuel) (by simp; omega) hne hs hi hst
    simp only [hc] at h3
    rcases h3 with ⟨j1, j2, j3, b', bs', j4, j5, j6, j7, j8⟩ | ⟨j1, e, j2, j3, j4, j5⟩ | ⟨j1, h, j2, j3, j4, j5, j6⟩
    · obtain ⟨m, rfl⟩ : ∃ m, length = some m := by cases length <;> simp_all
      simp only [Option.any_some, decide_eq_true_eq] at j1 j6
      refine ⟨{ s' with vf := { s'.vf with buffer := b'.drop m } }, T', h1, h2, ?_⟩
      rw [if_pos (by simpa using j1)]
      refine ⟨?_, .inFile bs' j3 (by simp [j4, hst]) (by simp [j4, hcl]) ?_ (j7.length_le.trans hn) (fun b hb => hne b (j7.subset hb)) ⟨j8.fits, j8.buf, j8.rorps, j8.eq⟩⟩
      · simp only [readVf, hcl, hi, j2, Bool.false_eq_true, if_false, if_true, Prod.mk.injEq, Except.ok.injEq, Option.getD_some]
        have hb : s'.vf.buffer = b' := by simp [j4]
        rw [hb, Nat.min_eq_left (le_of_lt j6)]
        refine ⟨?_, rfl⟩
        rw [← j5, List.take_append_of_le_length (le_of_lt j6)]
      · simp only [Option.getD_some]
        rw [← j5, List.drop_append_of_le_length (le_of_lt j6)]
    · refine ⟨s', T', h1, h2, ?_⟩
      rw [if_neg (by simp [j1])]
      subst j2
      refine ⟨?_, j4, j5⟩
      simp [readVf, hcl, hi, j3]
    · refine ⟨{ s' with vf := { s'.vf with buffer := [] } }, T', h1, h2, ?_⟩
      rw [if_neg (by simp [j1])]
      subst j2
      have hb : s'.vf.buffer = c := by simp [j5]
      refine ⟨?_, .ended h rfl j4 rfl (by simp [j5]) (by simp [j5, hcl]) rfl ⟨j6.fits, j6.buf, j6.rorps, j6.eq⟩⟩
      simp only [readVf, hcl, hi, j3, Bool.false_eq_true, if_false, if_true, hb]
      cases length with
      | none => simp
      | some m =>
        have : c.length ≤ m := by simpa using j1
        simp [Nat.min_eq_right this]

theorem useReads_eq {n : Nat} {en : E ⊕ H} {fuel : Nat} (hfuel : n < fuel) (ns : List (Option Nat)) {T : List (Option (Rec O R E H))} {c : Bytes}
    {s : Reader O R E H} (h : St P n en T c s) :
    ∃ s' T', T'.length ≤ T.length ∧ (∀ es, Rep es T → Rep es T') ∧
      useReads P maxBytes maxRorps fuel ns s = ((readSpec c en ns).1, ((readSpec (O := O) (R := R) c en ns).2).isSome, s') ∧
      (match (readSpec (O := O) (R := R) c en ns).2 with
        | none => s'.inFile = false ∧ Sim P s' T'
        | some c' => St P n en T' c' s') := by
  induction ns generalizing T c s with
  | nil => exact ⟨s, T, le_refl _, fun _ h => h, rfl, h⟩
  | cons m ns ih =>
    obtain ⟨s1, T1, h1, h2, h3⟩ := readVf_eq hP hmb hmr h m hfuel
    by_cases hm : m.any (· < c.length) = true
    · rw [if_pos hm] at h3
      obtain ⟨s2, T2, i1, i2, i3, i4⟩ := ih h3.2
      refine ⟨s2, T2, i1.trans h1, fun es hr => i2 es (h2 es hr), ?_, ?_⟩
      · simp only [useReads, h3.1, readSpec, if_pos hm, i3]
      · simpa only [readSpec, if_pos hm] using i4
    · rw [if_neg hm] at h3
      cases en with
      | inl e =>
        refine ⟨s1, T1, h1, h2, ?_, ?_⟩
        · simp [useReads, h3.1, readSpec, if_neg hm]
        · simpa only [readSpec, if_neg hm] using h3.2
      | inr x =>
        obtain ⟨s2, T2, i1, i2, i3, i4⟩ := ih h3.2
        refine ⟨s2, T2, i1.trans h1, fun es hr => i2 es (h2 es hr), ?_, ?_⟩
        · simp only [useReads, h3.1, readSpec, if_neg hm, i3]
        · simpa only [readSpec, if_neg hm] using i4

/-- the end of the loop of `close` -/
theorem closeVf_end {en : E ⊕ H} {T : List (Option (Rec O R E H))} {s : Reader O R E H} {fuel : Nat} (hfuel : 2 ≤ fuel)
    (hs : Sim P s (((⟨[], en⟩ : Src E H).recs .cont).map some ++ T)) (hi : s.inFile = true) :
    ∃ s' T', T'.length ≤ T.length ∧ (∀ es, Rep es T → Rep es T') ∧ s'.inFile = false ∧ Sim P s' T' ∧
      (match (generalizing := false) en with
        | .inl e => closeVf P maxBytes maxRorps fuel s = (.error (.raised e), s')
        | .inr h => closeVf P maxBytes maxRorps fuel s = (.ok h, s')) := by
  obtain ⟨k, rfl⟩ : ∃ k, fuel = k + 2 := ⟨fuel - 2, by omega⟩
  cases en with
  | inl e =>
    obtain ⟨s', T', h1, h2, h3, h4⟩ := addVf_exc hP hmb hmr (f := ⟨[], .inl e⟩) rfl rfl hs hi
    refine ⟨s', T', thin_length h4, fun es h => rep_thin h h4, h2, h3, ?_⟩
    simp [closeVf, closeLoop, hi, h1]
  | inr h =>
    obtain ⟨s', T', h1, h2, h3, h4, h5, h6⟩ := addVf_end hP hmb hmr (f := ⟨[], .inr h⟩) rfl rfl hs hi
    refine ⟨{ s' with vf := { s'.vf with buffer := [], str := true, closed := true } }, T', h5, h6, h2, ⟨h4.fits, h4.buf, h4.rorps, h4.eq⟩, ?_⟩
    simp [closeVf, closeLoop, hi, h1, h2, h3]

/-- `close` with at most one block left -/
theorem closeVf_eq {en : E ⊕ H} {T : List (Option (Rec O R E H))} {s : Reader O R E H} {fuel : Nat} (hfuel : 3 ≤ fuel) {bs : List Bytes} (hl : bs.length ≤ 1)
    (hne : ∀ b ∈ bs, b ≠ []) (hs : Sim P s (((⟨bs, en⟩ : Src E H).recs .cont).map some ++ T)) (hi : s.inFile = true) (hst : s.vf.str = false) :
    ∃ s' T', T'.length ≤ T.length ∧ (∀ es, Rep es T → Rep es T') ∧ s'.inFile = false ∧ Sim P s' T' ∧
      (match (generalizing := false) en with
        | .inl e => closeVf P maxBytes maxRorps fuel s = (.error (.raised e), s')
        | .inr h => closeVf P maxBytes maxRorps fuel s = (.ok h, s')) := by
  cases bs with
  | nil => exact closeVf_end hP hmb hmr (by omega) hs hi
  | cons b bs =>
    have hbs : bs = [] := by cases bs with | nil => rfl | cons => simp at hl
    subst hbs
    obtain ⟨k, rfl⟩ : ∃ k, fuel = k + 1 := ⟨fuel - 1, by omega⟩
    obtain ⟨s1, T1, h1, h2, h3, h4, h5⟩ := addVf_block hP hmb hmr (f := ⟨[b], en⟩) rfl (hne b (by simp)) hs hi hst
    obtain ⟨s', T', i1, i2, i3, i4, i5⟩ := closeVf_end hP hmb hmr (s := { s1 with vf := { s1.vf with buffer := [], str := true } }) (fuel := k) (en := en) (T := T1)
      (by omega) ⟨h4.fits, h4.buf, h4.rorps, h4.eq⟩ h2
    refine ⟨s', T', i1.trans (thin_length h5), fun es h => i2 es (rep_thin h h5), i3, i4, ?_⟩
    have : closeVf P maxBytes maxRorps (k + 1) s = closeVf P maxBytes maxRorps k { s1 with vf := { s1.vf with buffer := [], str := true } } := by
      simp only [closeVf, closeLoop, hi, h1, if_true]
    rw [this]
    exact i5

/-- the records of an element without flushes -/
def elemRecs : Elem O R E H → List (Rec O R E H)
  | .obj o => [.obj o]
  | .rorp r none => [.rorp r false]
  | .rorp r (some f) => .rorp r true :: f.recs .file
  | .flush => []
  | .flushRepeat o => [.obj o]

theorem waitRec_eq {es : List (Elem O R E H)} {T : List (Option (Rec O R E H))} (h : Rep es T) {s : Reader O R E H} (hs : Sim P s T) {fuel : Nat}
    (hfuel : T.length < fuel) :
    match headElem es with
    | none => ∃ s', waitRec P maxBytes maxRorps fuel s = (.ok .fin, s')
    | some (e, es') => ∃ x rest s' T', elemRecs e = x :: rest ∧ waitRec P maxBytes maxRorps fuel s = (.ok x, s') ∧ s'.inFile = s.inFile ∧ s'.vf = s.vf ∧
        Sim P s' (rest.map some ++ T') ∧ Rep es' T' ∧ rest.length + T'.length < T.length := by
  induction h generalizing s fuel with
  | nil =>
    obtain ⟨k, rfl⟩ : ∃ k, fuel = k + 1 := ⟨fuel - 1, by omega⟩
    obtain ⟨r, s', h1, h2, h3, h4⟩ := getRec_eq hP hmb hmr hs
    rcases h4 with ⟨y, L0, L1, rfl, h5, h6, h7⟩ | ⟨_, L0, h5, _⟩ | ⟨rfl, h5, _⟩
    · simp at h5
    · simp at h5
    · exact ⟨s', by simp [waitRec, h1]⟩
  | flush _ ih => exact ih hs hfuel
  | @mark es T hr ih =>
    obtain ⟨k, rfl⟩ : ∃ k, fuel = k + 1 := ⟨fuel - 1, by omega⟩
    obtain ⟨r, s', h1, h2, h3, h4⟩ := getRec_eq hP hmb hmr hs
    rcases h4 with ⟨y, L0, L1, rfl, h5, h6, h7⟩ | ⟨rfl, L0, h5, h6⟩ | ⟨rfl, h5, _⟩
    · simp at h5
    · simp only [List.cons.injEq, true_and] at h5
      subst h5
      have := ih h6 (fuel := k) (by simp at hfuel; omega)
      have hw : waitRec P maxBytes maxRorps (k + 1) s = waitRec P maxBytes maxRorps k s' := by simp [waitRec, h1]
      rw [hw]
      cases hh : headElem es with
      | none => rw [hh] at this; exact this
      | some p =>
        rw [hh] at this
        obtain ⟨x, rest, s2, T2, i1, i2, i3, i4, i5, i6, i7⟩ := this
        exact ⟨x, rest, s2, T2, i1, i2, i3.trans h2, i4.trans h3, i5, i6, by simp; omega⟩
    · simp at h5
  | @obj es T o hr ih =>
    obtain ⟨k, rfl⟩ : ∃ k, fuel = k + 1 := ⟨fuel - 1, by omega⟩
    obtain ⟨s', T', h1, h2, h3, h4, h5⟩ := getRec_one hP hmb hmr hs
    exact ⟨_, [], s', T', rfl, by simp [waitRec, h1], h2, h3, h4, rep_thin hr h5, by have := thin_length h5; simp; omega⟩
  | @flushRepeat es T o hr ih =>
    obtain ⟨k, rfl⟩ : ∃ k, fuel = k + 1 := ⟨fuel - 1, by omega⟩
    obtain ⟨s', T', h1, h2, h3, h4, h5⟩ := getRec_one hP hmb hmr hs
    exact ⟨_, [], s', T', rfl, by simp [waitRec, h1], h2, h3, h4, rep_thin hr h5, by have := thin_length h5; simp; omega⟩
  | @rorp es T r hr ih =>
    obtain ⟨k, rfl⟩ : ∃ k, fuel = k + 1 := ⟨fuel - 1, by omega⟩
    obtain ⟨s', T', h1, h2, h3, h4, h5⟩ := getRec_one hP hmb hmr hs
    exact ⟨_, [], s', T', rfl, by simp [waitRec, h1], h2, h3, h4, rep_thin hr h5, by have := thin_length h5; simp; omega⟩
  | @file es T r f hr ih =>
    obtain ⟨k, rfl⟩ : ∃ k, fuel = k + 1 := ⟨fuel - 1, by omega⟩
    obtain ⟨s', T', h1, h2, h3, h4, h5⟩ := getRec_in hP hmb hmr hs
    exact ⟨_, f.recs .file, s', T', rfl, by simp [waitRec, h1], h2, h3, h4, rep_thin hr h5, by have := thin_length h5; simp; omega⟩

omit hP hmb hmr in
theorem recs_length (f : Src E H) (pre : Bytes → Rec O R E H) : f.blocks.length < (f.recs pre).length := by
  obtain ⟨bl, en⟩ := f
  cases bl <;> cases en <;> simp [Src.recs]

theorem getFile_eq {f : Src E H} {T : List (Option (Rec O R E H))} {s : Reader O R E H} (r : R) (hne : ∀ b ∈ f.blocks, b ≠ [])
    (hs : Sim P s ((f.recs .file).map some ++ T)) (hi : s.inFile = false) :
    ∃ s' T', T'.length ≤ T.length ∧ (∀ es, Rep es T → Rep es T') ∧
      (match (generalizing := false) f.blocks, f.ending with
        | [], .inl e => getFile P maxBytes maxRorps r s = (.ok (.rorpError r e), s') ∧ s'.inFile = false ∧ Sim P s' T'
        | bl, en => getFile P maxBytes maxRorps r s = (.ok (.rorpFile r), s') ∧ St P (f.blocks.length - 1) en T' bl.flatten s') := by
  obtain ⟨bl, en⟩ := f
  cases bl with
  | nil =>
    cases en with
    | inl e =>
      obtain ⟨s', T', h1, h2, h3, h4, h5⟩ := getRec_one hP hmb hmr (x := .exc e) (by simpa [Src.recs] using hs)
      exact ⟨s', T', thin_length h5, fun es h => rep_thin h h5, by simp [getFile, h1], h2.trans hi, h4⟩
    | inr h =>
      obtain ⟨s', T', h1, h2, h3, h4, h5⟩ := getRec_in hP hmb hmr (x := .file []) (rs := [.close h]) (by simpa [Src.recs] using hs)
      obtain ⟨s2, T2, i1, i2, i3, i4, i5⟩ := setCloseVal_eq hP hmb hmr (s := { s' with inFile := true, vf := ⟨[], false, false, none⟩ }) (h := h) (T := T')
        ⟨h4.fits, h4.buf, h4.rorps, h4.eq⟩ rfl
      refine ⟨s2, T2, (thin_length i5).trans (thin_length h5), fun es h => rep_thin (rep_thin h h5) i5, ?_,
        .ended h rfl i2 (by simp [i3]) (by simp [i3]) (by simp [i3]) rfl i4⟩
      simp [getFile, h1, i1]
  | cons b bs =>
    have hs' : Sim P s (some (.file b) :: ((((⟨bs, en⟩ : Src E H).recs .cont).map some) ++ T)) := by
      rw [src_cons_recs _ rfl] at hs; exact hs
    obtain ⟨s', T', h1, h2, h3, h4, h5⟩ := getRec_in hP hmb hmr hs'
    have hb := hne b (by simp)
    refine ⟨{ s' with inFile := true, vf := ⟨b, false, false, none⟩ }, T', thin_length h5, fun es h => rep_thin h h5, ?_⟩
    have : getFile P maxBytes maxRorps r s = (.ok (.rorpFile r), { s' with inFile := true, vf := ⟨b, false, false, none⟩ }) := by
      simp [getFile, h1, hb]
    simp only
    exact ⟨this, .inFile bs rfl rfl rfl (by simp) (by simp) (fun x hx => hne x (by simp [hx])) ⟨h4.fits, h4.buf, h4.rorps, h4.eq⟩⟩

omit hP hmb hmr in
theorem headElem_mem {es : List (Elem O R E H)} {e : Elem O R E H} {es' : List (Elem O R E H)} (h : headElem es = some (e, es')) : e ∈ es ∧ ∀ x ∈ es', x ∈ es := by
  induction es with
  | nil => simp [headElem] at h
  | cons x es ih =>
    cases x with
    | flush =>
      obtain ⟨a, b⟩ := ih h
      exact ⟨by simp [a], fun y hy => by simp [b y hy]⟩
    | obj o => simp only [headElem, Option.some.injEq, Prod.mk.injEq] at h; obtain ⟨rfl, rfl⟩ := h; simp +contextual
    | flushRepeat o => simp only [headElem, Option.some.injEq, Prod.mk.injEq] at h; obtain ⟨rfl, rfl⟩ := h; simp +contextual
    | rorp r f => simp only [headElem, Option.some.injEq, Prod.mk.injEq] at h; obtain ⟨rfl, rfl⟩ := h; simp +contextual

/-- between two elements -/
inductive Between (P : Pickles O R E H) (es : List (Elem O R E H)) (T : List (Option (Rec O R E H))) (s : Reader O R E H) : Option E → Prop
  | free (hi : s.inFile = false) (hs : Sim P s T) (hr : Rep es T) : Between P es T s none
  | unread (bs : List Bytes) (en : E ⊕ H) (hi : s.inFile = true) (hst : s.vf.str = false) (hl : bs.length ≤ 1) (hne : ∀ b ∈ bs, b ≠ [])
      (hs : Sim P s (((⟨bs, en⟩ : Src E H).recs .cont).map some ++ T)) (hr : Rep es T) : Between P es T s en.getLeft?

/-- after the reads of a file -/
theorem useClose_eq {n : Nat} {en : E ⊕ H} {T : List (Option (Rec O R E H))} {c : Bytes} {s : Reader O R E H} {fuel : Nat} (hfuel : 3 ≤ fuel) (h : St P n en T c s)
    (ht : n ≤ 1 ∨ c = []) (close : Bool) {es : List (Elem O R E H)} (hr : Rep es T) :
    ∃ s' T', T'.length ≤ T.length ∧ useClose P maxBytes maxRorps fuel close s = ((closeSpec (some c) en close).1, s') ∧
      Between P es T' s' (closeSpec (O := O) (R := R) (some c) en close).2 := by
  cases h with
  | ended x he hi hb hv hcl hc hs =>
    subst he
    cases close with
    | false => exact ⟨s, T, le_refl _, rfl, .free hi hs hr⟩
    | true =>
      refine ⟨{ s with vf := { s.vf with closed := true } }, T, le_refl _, ?_, .free hi ⟨hs.fits, hs.buf, hs.rorps, hs.eq⟩ hr⟩
      obtain ⟨k, rfl⟩ : ∃ k, fuel = k + 1 := ⟨fuel - 1, by omega⟩
      simp [useClose, closeVf, closeLoop, hi, hv, closeSpec]
  | inFile bs hi hst hcl hc hn hne hs =>
    have hl : bs.length ≤ 1 := by
      rcases ht with h | rfl
      · omega
      · have : bs.flatten = [] := by
          have := List.append_eq_nil_iff.1 hc; exact this.2
        cases bs with
        | nil => simp
        | cons b bs =>
          exfalso
          refine hne b (by simp) ?_
          simp at this
          exact this.1
    cases close with
    | false =>
      refine ⟨s, T, le_refl _, by cases en <;> rfl, ?_⟩
      have := Between.unread (P := P) (es := es) (T := T) (s := s) bs en hi hst hl hne hs hr
      cases en <;> exact this
    | true =>
      obtain ⟨s', T', h1, h2, h3, h4, h5⟩ := closeVf_eq hP hmb hmr hfuel hl hne hs hi hst
      refine ⟨s', T', h1, ?_, ?_⟩
      · cases en <;> simp only at h5 <;> simp [useClose, h5, closeSpec]
      · cases en <;> exact .free h3 h4 (h2 es hr)

theorem run_eq (scripts : List Script) {fuel : Nat} {es : List (Elem O R E H)} {T : List (Option (Rec O R E H))} {s : Reader O R E H} {pending : Option E}
    (hb : Between P es T s pending) (hfuel : T.length + 3 ≤ fuel) (hne : NonEmpty es) (ht : Tame es pending scripts) :
    run P maxBytes maxRorps fuel scripts s = spec es pending scripts := by
  induction scripts generalizing es T s pending with
  | nil => rfl
  | cons sc scs ih =>
    have core : ∀ (T : List (Option (Rec O R E H))) (s : Reader O R E H), s.inFile = false → Sim P s T → Rep es T → T.length + 3 ≤ fuel → Tame es none (sc :: scs) →
        run P maxBytes maxRorps fuel (sc :: scs) s = spec es none (sc :: scs) := by
      intro T s hi hs hr hfuel ht
      have hw := waitRec_eq hP hmb hmr hr hs (fuel := fuel) (by omega)
      simp only [Tame] at ht
      simp only [spec]
      cases hh : headElem es with
      | none =>
        rw [hh] at hw
        obtain ⟨s', h1⟩ := hw
        simp [run, next, nextItem, hi, h1]
      | some p =>
        obtain ⟨e, es'⟩ := p
        rw [hh] at hw ht
        obtain ⟨x, rest, s', T', h1, h2, h3, h4, h5, h6, h7⟩ := hw
        obtain ⟨hmem, hsub⟩ := headElem_mem hh
        have hne' : NonEmpty es' := fun r f hf => hne r f (hsub _ hf)
        cases e with
        | flush => simp [elemRecs] at h1
        | obj o =>
          simp only [elemRecs, List.cons.injEq] at h1
          obtain ⟨rfl, rfl⟩ := h1
          simp only [run, next, nextItem, hi, h2]
          simp [ih (.free (h3.trans hi) (by simpa using h5) h6) (by omega) hne' ht]
        | flushRepeat o =>
          simp only [elemRecs, List.cons.injEq] at h1
          obtain ⟨rfl, rfl⟩ := h1
          simp only [run, next, nextItem, hi, h2]
          simp [ih (.free (h3.trans hi) (by simpa using h5) h6) (by omega) hne' ht]
        | rorp r f =>
          cases f with
          | none =>
            simp only [elemRecs, List.cons.injEq] at h1
            obtain ⟨rfl, rfl⟩ := h1
            simp only [run, next, nextItem, hi, h2]
            simp [ih (.free (h3.trans hi) (by simpa using h5) h6) (by omega) hne' ht]
          | some f =>
            simp only [elemRecs, List.cons.injEq] at h1
            obtain ⟨rfl, rfl⟩ := h1
            obtain ⟨s1, T1, i1, i2, i3⟩ := getFile_eq hP hmb hmr r (hne r f hmem) h5 (h3.trans hi)
            have hlen := recs_length f (Rec.file : Bytes → Rec O R E H)
            obtain ⟨bl, en⟩ := f
            simp only at ht hlen i3
            by_cases hE : ∃ e, bl = [] ∧ en = .inl e
            · obtain ⟨e, rfl, rfl⟩ := hE
              obtain ⟨j1, j2, j3⟩ := i3
              simp only [run, next, nextItem, hi, h2]
              simp [j1, ih (.free j2 j3 (i2 es' h6)) (by omega) hne' ht.2]
            · have i3' : getFile P maxBytes maxRorps r s' = (.ok (.rorpFile r), s1) ∧ St P (bl.length - 1) en T1 bl.flatten s1 := by
                cases bl <;> cases en <;> simp_all
              obtain ⟨j1, j2⟩ := i3'
              have hspec : (match some (Elem.rorp r (some ⟨bl, en⟩), es') with
                | none => [Ev.item .stop]
                | some (.obj o, es') => .item (.obj o) :: spec es' none scs
                | some (.flushRepeat o, es') => .item (.obj o) :: spec es' none scs
                | some (.rorp r none, es') => .item (.rorp r) :: spec es' none scs
                | some (.rorp r (some ⟨[], .inl e⟩), es') =>
                  .item (.rorpError r e) :: ((if sc.reads ≠ [] then [.raised (.raised e)] else if sc.close then [.closed none] else []) ++ spec es' none scs)
                | some (.rorp r (some f), es') =>
                  let a := readSpec f.blocks.flatten f.ending sc.reads
                  let b := closeSpec a.2 f.ending sc.close
                  .item (.rorpFile r) :: (a.1 ++ (b.1 ++ spec es' b.2 scs))
                | some (.flush, _) => []) = .item (.rorpFile r) :: ((readSpec bl.flatten en sc.reads).1 ++
                  ((closeSpec (readSpec (O := O) (R := R) bl.flatten en sc.reads).2 en sc.close).1 ++
                    spec es' (closeSpec (O := O) (R := R) (readSpec (O := O) (R := R) bl.flatten en sc.reads).2 en sc.close).2 scs)) := by
                cases bl <;> cases en <;> simp_all
              rw [hspec]
              obtain ⟨ht1, ht2⟩ := ht
              have ht2' : Tame es' (closeSpec (O := O) (R := R) (readSpec (O := O) (R := R) bl.flatten en sc.reads).2 en sc.close).2 scs := by
                by_cases hbl : bl = []
                · rw [if_pos hbl] at ht2
                  cases en with
                  | inl e => exact absurd ⟨e, hbl, rfl⟩ hE
                  | inr y =>
                    have : (closeSpec (O := O) (R := R) (readSpec (O := O) (R := R) bl.flatten (.inr y : E ⊕ H) sc.reads).2 (.inr y : E ⊕ H) sc.close).2 = none := by
                      cases (readSpec (O := O) (R := R) bl.flatten (.inr y : E ⊕ H) sc.reads).2 <;> cases sc.close <;> rfl
                    rw [this]; exact ht2
                · rw [if_neg hbl] at ht2; exact ht2
              obtain ⟨s2, T2, k1, k2, k3, k4⟩ := useReads_eq hP hmb hmr (fuel := fuel) (by omega) sc.reads j2
              have hnx : next P maxBytes maxRorps fuel s = (.ok (.rorpFile r), s1) := by
                simp only [next, nextItem, hi, h2]; simp [j1]
              cases hrs : (readSpec (O := O) (R := R) bl.flatten en sc.reads).2 with
              | none =>
                rw [hrs] at k4 k3 ht2'
                simp only [run, hnx, k3]
                have : closeSpec (O := O) (R := R) (H := H) none en sc.close = ([], none) := by simp [closeSpec]
                rw [this] at ht2' ⊢
                simp [ih (.free k4.1 k4.2 (k2 es' (i2 es' h6))) (by omega) hne' ht2']
              | some c =>
                rw [hrs] at k4 k3 ht2' ht1
                obtain ⟨s3, T3, l1, l2, l3⟩ := useClose_eq hP hmb hmr (fuel := fuel) (by omega) k4 (by
                  rcases ht1 with h | h | h
                  · exact .inl (by omega)
                  · cases h
                  · exact .inr (by simpa using h)) sc.close (k2 es' (i2 es' h6))
                simp only [run, hnx, k3, l2]
                simp [ih l3 (by omega) hne' ht2']
    cases hb with
    | free hi hs hr => exact core T s hi hs hr hfuel ht
    | unread bs en hi hst hl hne' hs hr =>
      obtain ⟨s', T', h1, h2, h3, h4, h5⟩ := closeVf_eq hP hmb hmr (fuel := fuel) (by omega) hl hne' hs hi hst
      cases en with
      | inl e =>
        simp only at h5
        simp only [run, next, hi, h5, spec, Sum.getLeft?]
        simp only [Tame, Sum.getLeft?] at ht
        simp [ih (.free h3 h4 (h2 es hr)) (by omega) hne ht]
      | inr x =>
        simp only at h5
        have := core T' s' h3 h4 (h2 es hr) (by omega) ht
        rw [show (Sum.inr x : E ⊕ H).getLeft? = none from rfl, ← this]
        simp only [run, next, hi, h5, h3]
        simp

end

/-! ### the theorem -/

/-- all data can be written, that is have less than 2^56 bytes -/
def Sendable (P : Pickles O R E H) (es : List (Elem O R E H)) : Prop := Fits P (es.flatMap Elem.recs)

/-- For every iterator of objects and RORPaths with files, whatever is in the files, whatever blocks the data are read in, whatever fails, wherever there are
flushes, whatever limits there are for the size of a message, and whatever the user on the other side reads: the elements arrive in order, `read` returns the
contents of the files, `close` returns what closing the original file has returned, an exception raised there is raised here, at the same place, and then
the iteration goes on with the next element.

`_partial`: only if the files which are not read to the end have at most two blocks (`Tame`): see `skipped_file_fails`. -/
theorem roundtrip_partial {P : Pickles O R E H} (hP : Sound P) {maxBytes maxRorps : Nat} (hmb : 0 < maxBytes) (hmr : 0 < maxRorps) {es : List (Elem O R E H)}
    (hes : Sendable P es) (hne : NonEmpty es) (scripts : List Script) (ht : Tame es none scripts) :
    ∃ N, ∀ fuel ≥ N, run P maxBytes maxRorps fuel scripts (start es) = spec es none scripts := by
  refine ⟨(es.flatMap Elem.recs).length + 3, fun fuel h => run_eq hP hmb hmr scripts (T := es.flatMap Elem.recs) (.free rfl ?_ (rep_recs es)) h hne ht⟩
  exact ⟨hes, rfl, rfl, [], 0, by simp [encAll, start], rfl, by simp⟩

/-- Reading everything, all elements arrive unchanged. -/
theorem all_read {P : Pickles O R E H} (hP : Sound P) {maxBytes maxRorps : Nat} (hmb : 0 < maxBytes) (hmr : 0 < maxRorps) {es : List (Elem O R E H)}
    (hes : Sendable P es) (hne : NonEmpty es) (n : Nat) :
    ∃ N, ∀ fuel ≥ N, run P maxBytes maxRorps fuel (List.replicate n ⟨[none], true⟩) (start es) = spec es none (List.replicate n ⟨[none], true⟩) := by
  refine roundtrip_partial hP hmb hmr hes hne _ ?_
  clear hes hne
  have : ∀ (c : Bytes) (en : E ⊕ H), (readSpec (O := O) (R := R) c en [none]).2 = none ∨ (readSpec (O := O) (R := R) c en [none]).2 = some [] := by
    intro c en
    cases en <;> simp [readSpec]
  have h2 : ∀ (c : Bytes) (en : E ⊕ H), (closeSpec (O := O) (R := R) (readSpec (O := O) (R := R) c en [none]).2 en true).2 = none := by
    intro c en
    cases en <;> simp [readSpec, closeSpec]
  induction n generalizing es with
  | zero => trivial
  | succ n ih =>
    simp only [List.replicate_succ, Tame]
    split
    · rename_i f es' h
      refine ⟨.inr (this _ _), ?_⟩
      rw [h2, ite_self]
      exact ih
    · exact ih
    · trivial

/-! ### examples, and what goes wrong -/

def exNat : Pickle Nat := ⟨fun n => (i2b n 0).getD [], fun b => some (b2i b)⟩
def exPair : Pickle (Nat × Bool) := ⟨fun x => (if x.2 then 1 else 0) :: (i2b x.1 0).getD [], fun b => some (b2i b.tail, b.headD 0 == 1)⟩
def exP : IterFile.Pickles Nat Nat Nat Nat := ⟨exNat, exPair, exNat, exNat⟩

theorem exNat_inverse : C34.Inverse exNat := by
  intro n
  obtain ⟨b, h⟩ := C34.i2b_zero n
  simp [exNat, h, (C34.b2i_i2b h).1]

theorem exP_sound : Sound exP := by
  refine ⟨exNat_inverse, ?_, exNat_inverse, exNat_inverse⟩
  rintro ⟨n, f⟩
  obtain ⟨b, h⟩ := C34.i2b_zero n
  cases f <;> simp [exP, exPair, h, (C34.b2i_i2b h).1]

/-- objects, flushes, a file of three blocks, one which can't be read to the end, one which can't be read, an empty one -/
def exEs : List (Elem Nat Nat Nat Nat) :=
  [.obj 5, .flush, .rorp 1 (some ⟨[[1, 2], [3], [4, 5]], .inr 70⟩), .flushRepeat 6, .rorp 2 (some ⟨[[6], [7]], .inl 13⟩), .rorp 3 none,
   .rorp 4 (some ⟨[], .inl 14⟩), .rorp 5 (some ⟨[], .inr 71⟩)]
def exScripts : List Script := [⟨[], false⟩, ⟨[some 1, some 2, none, some 3], true⟩, ⟨[], false⟩, ⟨[some 1], false⟩, ⟨[], false⟩, ⟨[], false⟩, ⟨[none], true⟩,
  ⟨[none, some 2], true⟩, ⟨[], false⟩, ⟨[], false⟩]

theorem fits_of_small {P : IterFile.Pickles O R E H} {L : List (Option (Rec O R E H))} (h : ∀ r, some r ∈ L → (r.data P).length < 2 ^ 56) : Fits P L := by
  intro r hr
  have : i2b (r.data P).length 7 = some (digits (r.data P).length 7) := by
    simp only [i2b, toBytes]
    exact if_pos (by have := h r hr; norm_num at this ⊢; exact this)
  exact ⟨_, by simp only [enc, this, Option.map_some]; rfl⟩

example : Sendable exP exEs := by
  refine fits_of_small fun r hr => ?_
  have : ∀ x ∈ exEs.flatMap Elem.recs, ∀ r ∈ x, (r.data exP).length < 2 ^ 56 := by decide +kernel
  exact this _ hr r rfl
example : NonEmpty exEs := by
  intro r f h b hb
  simp only [exEs, List.mem_cons, Elem.rorp.injEq, reduceCtorEq, List.not_mem_nil, or_false, false_or, Option.some.injEq, and_false] at h
  rcases h with ⟨_, rfl⟩ | ⟨_, rfl⟩ | ⟨_, rfl⟩ | ⟨_, rfl⟩ <;> simp at hb <;> rcases hb with rfl | rfl | rfl <;> simp
example : Tame exEs none exScripts := by simp [exEs, exScripts, Tame, headElem, readSpec, closeSpec]
/-- with small messages, so that the file is spread over several, -/
example : run exP 12 2 100 exScripts (start exEs) =
    [.item (.obj 5), .item (.rorpFile 1), .bytes [1], .bytes [2, 3], .bytes [4, 5], .bytes [], .closed (some 70), .item (.obj 6), .item (.rorpFile 2), .bytes [6],
     .raised (.raised 13), .item (.rorp 3), .item (.rorpError 4 14), .raised (.raised 14), .item (.rorpFile 5), .bytes [], .bytes [], .closed (some 71), .item .stop] := by
  decide +kernel
example : spec exEs none exScripts = run exP 12 2 100 exScripts (start exEs) := by decide +kernel

/-- F33: if a file of three blocks is not read (or has been read only in part), `next` or `close` raises TypeError for each block but one: `close` sets the buffer
to a text string, to which bytes can't be added. (No file of more than 128 KiB can be skipped.) -/
theorem skipped_file_fails :
    run exP 1000 1000 100 [⟨[], false⟩, ⟨[], false⟩, ⟨[], false⟩] (start [.rorp 1 (some ⟨[[1], [2], [3]], .inr 70⟩), .obj 5]) =
      [.item (.rorpFile 1), .raised .type, .item (.obj 5)] ∧
    spec [.rorp 1 (some ⟨[[1], [2], [3]], .inr 70⟩), .obj 5] none [⟨[], false⟩, ⟨[], false⟩, ⟨[], false⟩] = [.item (.rorpFile 1), .item (.obj 5), .item (.stop : IterFile.Item Nat Nat Nat)] := by
  decide +kernel

/-- F34: after `read` has raised an exception of the other side, `close` raises AttributeError. -/
theorem close_after_error :
    let s := (next exP 1000 1000 100 (start [.rorp 1 (some ⟨[[1]], .inl 13⟩)])).2
    let s' := (readVf exP 1000 1000 100 none s).2
    (readVf exP 1000 1000 100 none s).1 = .error (.raised 13) ∧ (closeVf exP 1000 1000 100 s').1 = .error .attribute := by
  decide +kernel

end Verif.C35
