import Verif.Model.Ends
import Mathlib.Order.MinMax
import Mathlib.Data.List.Induction
import Mathlib.Data.List.Forall2

/-!
C73: all ends of a session agree on the version of the API and on the settings.

Specification: `Suits`, `Sound`, `SameServer`, `inits`, `lastSet`, `Early`, `Late` below. The model: `Verif.Ends` (`session`, `steps`).
-/

namespace Verif.C73
open Verif.Ends

/-! ### Specification -/

/-- Version `v` is one which the end knows. -/
def Suits (v : Nat) (a : Api) : Prop := a.min ≤ v ∧ v ≤ a.max

/-- What specifics.py 48 tells of this version: the preferred version is known, and no version was chosen yet. -/
structure Sound (a : Api) : Prop where
  pos : 0 < a.min
  dflt : Suits a.default a
  fresh : a.actual = 0

/-- A server before and after: only the version in use may have changed. -/
def SameServer (s s' : Server) : Prop :=
  s'.answers = s.answers ∧ s'.is20 = s.is20 ∧
    (match s.api, s'.api with
      | none, none => True
      | some r, some r' => r'.min = r.min ∧ r'.max = r.max ∧ r'.default = r.default
      | _, _ => False)

/-- The servers among the locations -/
def servers (l : List (Option Server)) : List Server := l.filterMap id

/-! ### API versions -/

theorem setApi_some {v a a'} (h : setApi v a = some a') : Suits v a ∧ a' = { a with actual := v } := by
  unfold setApi at h
  split at h
  · cases h
  · rename_i hn
    simp only [Option.some.injEq] at h
    exact ⟨⟨by omega, by omega⟩, h.symm⟩

theorem setApi_ok {v a} (h : Suits v a) : setApi v a = some { a with actual := v } := by
  unfold setApi Suits at *
  rw [if_neg (by omega)]

/-- The invariant of a client between two connections -/
structure Inv (c0 c : Api) : Prop where
  mn : c.min = c0.min
  mx : c.max = c0.max
  df : c.default = c0.default
  ok : c.actual = 0 ∨ Suits c.actual c

theorem validate_some {c0 c s c' s'} (hs : Suits c0.default c0) (hp : 200 < c0.min) (hi : Inv c0 c)
    (h : validate c s = some (c', s')) :
    Inv c0 c' ∧ SameServer s s' ∧ s.answers = true ∧ c'.actual ≠ 0 ∧ (c.actual ≠ 0 → c' = c) ∧
      ∃ r r', s.api = some r ∧ s'.api = some r' ∧ r'.actual = c'.actual ∧ Suits c'.actual r' ∧
        (c.actual = 0 → c'.actual = max r.min (min r.max c.default)) := by
  obtain ⟨hmn, hmx, hdf, hok⟩ := hi
  unfold Suits at hs hok
  unfold validate at h
  split at h
  · cases h
  · rename_i ha
    have ha' : s.answers = true := by simpa using ha
    split at h
    · rename_i hn
      by_cases hc : s.is20 = true ∧ (if c.actual ≠ 0 then c.actual else c.min) = 200
      · obtain ⟨_, hc⟩ := hc
        split at hc <;> omega
      · rw [if_neg hc] at h
        cases h
    · rename_i r hr
      split at h
      · cases h
      · rename_i hov
        split at h
        · rename_i hac
          split at h
          · split at h
            · cases h
            · rename_i r' hr'
              obtain ⟨hsu, rfl⟩ := setApi_some hr'
              simp only [Option.some.injEq, Prod.mk.injEq] at h
              obtain ⟨rfl, rfl⟩ := h
              exact ⟨⟨hmn, hmx, hdf, hok⟩, ⟨rfl, rfl, by simp [hr]⟩, ha', hac, fun _ => rfl, r, _, hr, rfl, rfl, hsu,
                fun h0 => absurd h0 hac⟩
          · cases h
        · rename_i hac
          have hac : c.actual = 0 := by omega
          simp only [] at h
          split at h
          · cases h
          · rename_i r' hr'
            obtain ⟨hsu, rfl⟩ := setApi_some hr'
            simp only [Option.some.injEq, Prod.mk.injEq] at h
            obtain ⟨rfl, rfl⟩ := h
            have h1 := hsu
            unfold Suits at h1
            refine ⟨⟨hmn, hmx, hdf, Or.inr ?_⟩, ⟨rfl, rfl, by simp [hr]⟩, ha', ?_, fun h0 => absurd hac h0, r, _, hr, rfl, rfl, ?_,
              fun _ => rfl⟩
            · simp only [Suits]; omega
            · simp only; omega
            · simpa only [Suits] using h1

/-- What is true of the ends after all locations were connected -/
theorem connectAll_some {c0 : Api} (hs : Suits c0.default c0) (hp : 200 < c0.min) :
    ∀ (l : List (Option Server)) (c c' : Api) (l' : List (Option Server)), Inv c0 c → connectAll c l = some (c', l') →
      Inv c0 c' ∧ (c.actual ≠ 0 → c' = c) ∧
      List.Forall₂ (fun a b => (a = none ∧ b = none) ∨ ∃ s s', a = some s ∧ b = some s' ∧ SameServer s s') l l' ∧
      (∀ s' ∈ servers l', ∃ r', s'.answers = true ∧ s'.api = some r' ∧ c'.actual ≠ 0 ∧ r'.actual = c'.actual ∧ Suits c'.actual r') ∧
      (servers l = [] → c' = c) := by
  intro l
  induction l with
  | nil =>
      intro c c' l' hi h
      simp only [connectAll, Option.some.injEq, Prod.mk.injEq] at h
      obtain ⟨rfl, rfl⟩ := h
      exact ⟨hi, fun _ => rfl, List.Forall₂.nil, by simp [servers], fun _ => rfl⟩
  | cons x l ih =>
      intro c c' l' hi h
      cases x with
      | none =>
          rw [connectAll] at h
          split at h
          · cases h
          · rename_i c1 l1 h1
            simp only [Option.some.injEq, Prod.mk.injEq] at h
            obtain ⟨rfl, rfl⟩ := h
            obtain ⟨a, b, d, e, f⟩ := ih c _ _ hi h1
            exact ⟨a, b, List.Forall₂.cons (Or.inl ⟨rfl, rfl⟩) d, by simpa [servers] using e, by simpa [servers] using f⟩
      | some s =>
          rw [connectAll] at h
          split at h
          · cases h
          · rename_i c1 s1 h1
            split at h
            · cases h
            · rename_i c2 l2 h2
              simp only [Option.some.injEq, Prod.mk.injEq] at h
              obtain ⟨rfl, rfl⟩ := h
              obtain ⟨hi1, hss, han, hne, hsame, r, r', hr, hr', hra, hsu, _⟩ := validate_some hs hp hi h1
              obtain ⟨a, b, d, e, f⟩ := ih c1 _ _ hi1 h2
              have hb := b hne
              subst hb
              refine ⟨a, fun h0 => hsame h0, List.Forall₂.cons (Or.inr ⟨s, s1, rfl, rfl, hss⟩) d, ?_, by simp [servers]⟩
              intro s' hs'
              simp only [servers, List.filterMap_cons, id, List.mem_cons] at hs'
              rcases hs' with rfl | hs'
              · exact ⟨r', by rw [hss.1]; exact han, hr', hne, hra, hsu⟩
              · exact e s' hs'

/-- **C73 (version).** If a session starts, whatever the locations and the option `--api-version`, then all ends use the same version of the API, each of them
knows it, a version asked for is the one used, and without servers it is the preferred one. Nothing else about a server has changed. -/
theorem one_version {c : Api} (hc : Sound c) (hmin : 200 < c.min) (opt : Option Nat) (l : List (Option Server)) {c' : Api}
    {l' : List (Option Server)} (h : session c opt l = some (c', l')) :
    Suits (getApi c') c ∧ (∀ v, opt = some v → getApi c' = v) ∧
    (∀ s' ∈ servers l', ∃ r', s'.answers = true ∧ s'.api = some r' ∧ r'.actual = getApi c' ∧ getApi r' = getApi c' ∧ Suits (getApi c') r') ∧
    List.Forall₂ (fun a b => (a = none ∧ b = none) ∨ ∃ s s', a = some s ∧ b = some s' ∧ SameServer s s') l l' ∧
    (servers l = [] → opt = none → getApi c' = c.default) := by
  have key : ∀ c1, Inv c c1 → connectAll c1 l = some (c', l') → _ := fun c1 hi h => connectAll_some hc.dflt hmin l c1 c' l' hi h
  have hsv : ∀ {c2 : Api}, Inv c c2 → Suits (getApi c2) c := by
    intro c2 hi
    obtain ⟨h1, h2, h3, h4⟩ := hi
    have := hc.dflt
    unfold Suits getApi at *
    split
    · rcases h4 with h4 | h4
      · contradiction
      · omega
    · omega
  have hserv : (∀ s' ∈ servers l', ∃ r', s'.answers = true ∧ s'.api = some r' ∧ c'.actual ≠ 0 ∧ r'.actual = c'.actual ∧ Suits c'.actual r') →
      ∀ s' ∈ servers l', ∃ r', s'.answers = true ∧ s'.api = some r' ∧ r'.actual = getApi c' ∧ getApi r' = getApi c' ∧ Suits (getApi c') r' := by
    intro hh s' hs'
    obtain ⟨r', a, b, d, e, f⟩ := hh s' hs'
    have hg : getApi c' = c'.actual := by simp [getApi, d]
    refine ⟨r', a, b, by rw [hg, e], ?_, by rw [hg]; exact f⟩
    rw [hg, getApi, if_pos (by omega), e]
  cases opt with
  | none =>
      obtain ⟨a, b, d, e, f⟩ := key c ⟨rfl, rfl, rfl, Or.inl hc.fresh⟩ h
      refine ⟨hsv a, by simp, hserv e, d, ?_⟩
      intro hl _
      rw [f hl, getApi, if_neg (by simp [hc.fresh])]
  | some v =>
      rw [session] at h
      split at h
      · cases h
      · rename_i c1 h1
        obtain ⟨hsu, rfl⟩ := setApi_some h1
        obtain ⟨a, b, d, e, f⟩ := key { c with actual := v } ⟨rfl, rfl, rfl, Or.inr (by simpa [Suits] using hsu)⟩ h
        have hv : v ≠ 0 := by have := hsu.1; have := hc.pos; omega
        refine ⟨hsv a, ?_, hserv e, d, by simp⟩
        intro u hu
        cases hu
        rw [b hv]
        simp [getApi, hv]

/-- **C73 (version asked for).** With `--api-version V` a session starts exactly if every end answers and knows version `V`. -/
theorem explicit_version {c : Api} (hc : Sound c) (hmin : 200 < c.min) (v : Nat) (l : List (Option Server)) :
    (session c (some v) l).isSome ↔ Suits v c ∧ ∀ s ∈ servers l, s.answers = true ∧ ∃ r, s.api = some r ∧ Suits v r := by
  have aux : ∀ (l : List (Option Server)) (c1 : Api), c1.actual = v → v ≠ 0 → 200 < v → Suits v c1 →
      ((connectAll c1 l).isSome ↔ ∀ s ∈ servers l, s.answers = true ∧ ∃ r, s.api = some r ∧ Suits v r) := by
    intro l
    induction l with
    | nil => intro c1 _ _ _ _; simp [connectAll, servers]
    | cons x l ih =>
        intro c1 ha hv hv2 hsu
        cases x with
        | none =>
            have := ih c1 ha hv hv2 hsu
            rw [connectAll]
            simp only [servers, List.filterMap_cons, id] at this ⊢
            rw [← this]
            cases connectAll c1 l <;> simp
        | some s =>
            have ih' := ih c1 ha hv hv2 hsu
            rw [connectAll]
            simp only [servers, List.filterMap_cons, id, List.mem_cons, forall_eq_or_imp] at ih' ⊢
            rw [← ih']
            by_cases hok : s.answers = true ∧ ∃ r, s.api = some r ∧ Suits v r
            · obtain ⟨han, r, hr, hsr⟩ := hok
              have hval : validate c1 s = some (c1, { s with api := some { r with actual := v } }) := by
                unfold validate
                simp only [han, hr, ha]
                have h1 : ¬ (min r.max c1.max < max r.min c1.min) := by
                  unfold Suits at hsu hsr
                  omega
                rw [if_neg (by simp), if_neg h1, if_pos hv, if_pos (show r.min ≤ v ∧ v ≤ r.max from hsr), setApi_ok hsr]
              rw [hval]
              simp only
              have : (s.answers = true ∧ ∃ r, s.api = some r ∧ Suits v r) := ⟨han, r, hr, hsr⟩
              simp only [this, true_and]
              cases connectAll c1 l <;> simp
            · have hval : validate c1 s = none := by
                unfold validate
                split
                · rfl
                · rename_i han
                  have han : s.answers = true := by simpa using han
                  split
                  · rw [if_neg]
                    rintro ⟨_, h⟩
                    rw [if_pos (by omega)] at h
                    omega
                  · rename_i r hr
                    split
                    · rfl
                    · rw [if_pos (by omega), if_neg]
                      intro h
                      exact hok ⟨han, r, hr, by rw [← ha]; exact h⟩
              rw [hval]
              simp [hok]
  rw [session]
  by_cases hsu : Suits v c
  · rw [setApi_ok hsu]
    simp only [hsu, true_and]
    have h1 := hsu.1
    have h2 := hc.pos
    refine aux l _ rfl (by omega) (by omega) ?_
    simpa [Suits] using hsu
  · have : setApi v c = none := by
      unfold setApi Suits at *
      rw [if_pos (by omega)]
    rw [this]
    simp [hsu]

/-- **C73 (one server).** Without the option, a session with one server starts exactly if there is a version which both know, and the preferred version of the client is
used if the server knows it, and else the one nearest to it. -/
theorem one_server {c : Api} (hc : Sound c) (hmin : 200 < c.min) (s : Server) (r : Api) (ha : s.answers = true) (hr : s.api = some r)
    (hrr : r.min ≤ r.max) :
    ((session c none [some s]).isSome ↔ ∃ v, Suits v c ∧ Suits v r) ∧
    (∀ c' l', session c none [some s] = some (c', l') →
      (Suits c.default r → getApi c' = c.default) ∧ (c.default < r.min → getApi c' = r.min) ∧ (r.max < c.default → getApi c' = r.max)) := by
  have hd := hc.dflt
  have hf := hc.fresh
  unfold Suits at hd
  constructor
  · simp only [session, connectAll]
    unfold validate
    simp only [ha, hr, hf]
    by_cases hov : min r.max c.max < max r.min c.min
    · simp only [Bool.not_true, Bool.false_eq_true, if_false, if_pos hov]
      simp only [Option.isSome_none, Bool.false_eq_true, false_iff, not_exists]
      rintro v ⟨h1, h2⟩
      unfold Suits at h1 h2
      omega
    · have hs : Suits (max r.min (min r.max c.default)) r := by
        unfold Suits
        omega
      simp only [Bool.not_true, Bool.false_eq_true, if_false, if_neg hov, ne_eq, not_true_eq_false, setApi_ok hs]
      simp only [Option.isSome_some, true_iff]
      refine ⟨max r.min c.min, ?_, ?_⟩ <;> unfold Suits <;> omega
  · intro c' l' h
    simp only [session, connectAll] at h
    split at h
    · cases h
    · rename_i c1 s1 h1
      simp only [Option.some.injEq, Prod.mk.injEq] at h
      obtain ⟨rfl, _⟩ := h
      obtain ⟨_, _, _, hne, _, r0, r', hr0, _, _, _, hv⟩ := validate_some hc.dflt hmin ⟨rfl, rfl, rfl, Or.inl hf⟩ h1
      rw [hr] at hr0
      cases hr0
      have hv := hv hf
      have hg : getApi c1 = c1.actual := by simp [getApi, hne]
      rw [hg, hv]
      unfold Suits
      refine ⟨?_, ?_, ?_⟩ <;> intro h <;> omega

/-- This version meets the hypotheses, and a session with two servers, one of them with a later minimum, starts. -/
example : Sound this ∧ 200 < this.min ∧
    session this none [some ⟨true, false, some ⟨250, 230, 320, 0⟩⟩, none, some ⟨true, false, some ⟨219, 219, 299, 0⟩⟩] =
      some ({ this with actual := 230 }, [some ⟨true, false, some ⟨250, 230, 320, 230⟩⟩, none, some ⟨true, false, some ⟨219, 219, 299, 230⟩⟩]) := by
  exact ⟨⟨by decide, by unfold Suits; decide, rfl⟩, by decide, by decide⟩

/-- F103: the version is settled with the first server alone. Two servers which, with the client, all know version 230 are refused in one order and not in the
other one; with `--api-version 230` any order works (`explicit_version`). -/
theorem order_matters :
    ∃ s1 s2 : Server, (session this none [some s1, some s2]).isSome = true ∧ session this none [some s2, some s1] = none ∧
      (session this (some 230) [some s2, some s1]).isSome = true :=
  ⟨⟨true, false, some ⟨250, 230, 320, 0⟩⟩, ⟨true, false, some ⟨219, 219, 299, 0⟩⟩, by decide⟩

/-- F104: for an end which still knows version 200 (by the variable `RDIFF_BACKUP_API_VERSION`), line 406 should choose version 200 for a server of version 2.0, but only
compares: the connection is accepted, and the client goes on with its preferred version. -/
theorem old_server : ∃ (c c' : Api) (s : Server) (l' : List (Option Server)), Sound c ∧ s.api = none ∧ session c none [some s] = some (c', l') ∧ getApi c' ≠ 200 :=
  ⟨⟨219, 200, 299, 0⟩, ⟨219, 200, 299, 0⟩, ⟨true, true, none⟩, [some ⟨true, true, none⟩],
    ⟨by decide, by unfold Suits; decide, rfl⟩, rfl, by decide, by decide⟩

/-! ### Settings -/

section Settings
set_option linter.unusedSectionVars false
variable {S V : Type} [DecidableEq S]

/-- the values with which each end started -/
def inits (init : S → V) (h : List (Event S V)) : List (S → V) :=
  init :: h.filterMap fun | .connect i => some i | .setAt .. => none

/-- the value which was last given to a setting, by whichever end -/
def lastSet (h : List (Event S V)) (s : S) : Option V :=
  h.foldl (fun acc e => match e with | .setAt _ t v => if t = s then some v else acc | .connect _ => acc) none

/-- While connections are made, only the client sets something (actions/__init__.py 593: all are made in one go, before any code of an action runs at a server). -/
def Early (h : List (Event S V)) : Prop := ∀ e ∈ h, ∀ i s v, e = .setAt i s v → i = 0

/-- Afterwards, each of the `n` ends may. -/
def Late (n : Nat) (h : List (Event S V)) : Prop := ∀ e ∈ h, ∃ i s v, e = .setAt i s v ∧ i < n

theorem upd_length (w : World S V) (i f) : (upd w i f).length = w.length := by simp [upd]

theorem upd_get (w : World S V) (i k : Nat) (f) : (upd w i f)[k]? = (fun e => if i = k then f e else e) <$> w[k]? := by
  simp [upd, List.getElem?_modify]

theorem setLocal_idem (s : S) (v : V) (e : End S V) : setLocal s v (setLocal s v e) = setLocal s v e := by
  simp only [setLocal]
  congr 1
  funext t
  split <;> rfl

theorem foldl_upd (s : S) (v : V) : ∀ (l : List Nat) (w : World S V),
    (l.foldl (fun w j => upd w j (setLocal s v)) w).length = w.length ∧
    ∀ k, (l.foldl (fun w j => upd w j (setLocal s v)) w)[k]? = w[k]?.map fun e => if k ∈ l then setLocal s v e else e := by
  intro l
  induction l with
  | nil => intro w; simp
  | cons j l ih =>
      intro w
      obtain ⟨h1, h2⟩ := ih (upd w j (setLocal s v))
      refine ⟨by rw [List.foldl_cons, h1, upd_length], fun k => ?_⟩
      rw [List.foldl_cons, h2 k, upd_get]
      cases w[k]? with
      | none => rfl
      | some e =>
          simp only [Option.map_eq_map, Option.map_some, Option.some.injEq, List.mem_cons]
          by_cases hjk : j = k
          · subst hjk
            simp only [if_true, true_or]
            split
            · exact setLocal_idem s v e
            · rfl
          · have : k ≠ j := fun h => hjk h.symm
            simp [hjk, this]

theorem dispatch_eq (client : End S V) : ∀ (l : List S) (e : End S V),
    (l.foldl (fun e s => setLocal s (client.vals s) e) e).dict = e.dict ∧
    ∀ s, (l.foldl (fun e s => setLocal s (client.vals s) e) e).vals s = if s ∈ l then client.vals s else e.vals s := by
  intro l
  induction l with
  | nil => intro e; simp
  | cons t l ih =>
      intro e
      obtain ⟨h1, h2⟩ := ih (setLocal t (client.vals t) e)
      refine ⟨by rw [List.foldl_cons, h1]; rfl, fun s => ?_⟩
      rw [List.foldl_cons, h2 s]
      by_cases hs : s ∈ l
      · simp [hs]
      · by_cases hst : s = t
        · subst hst; simp [setLocal, hs]
        · simp [setLocal, hs, hst]

/-- What holds after any history -/
structure Good (init : S → V) (h : List (Event S V)) (w : World S V) : Prop where
  len : w.length = (inits init h).length
  reach : ∀ (k : Nat) (e : End S V), w[k]? = some e → ∀ j, j ∈ e.dict ↔ j < w.length
  vals : ∀ (k : Nat) (e : End S V), w[k]? = some e → ∃ i0 : S → V, (inits init h)[k]? = some i0 ∧ ∀ s, e.vals s = (lastSet h s).getD (i0 s)

theorem good_set {init : S → V} {h w} (hg : Good init h w) {i s v} (hi : i < w.length) :
    Good init (h ++ [.setAt i s v]) (setAt i s v w) ∧
    ∀ k e', (setAt i s v w)[k]? = some e' → ∃ e, w[k]? = some e ∧ e'.changed = if k = i then e.changed ++ [s] else e.changed := by
  obtain ⟨e0, he0⟩ : ∃ e, w[i]? = some e := ⟨w[i], by simp [hi]⟩
  have hset : setAt i s v w = e0.dict.foldl (fun w j => upd w j (setLocal s v)) (upd w i fun e => { e with changed := e.changed ++ [s] }) := by
    rw [setAt, he0]
  obtain ⟨h1, h2⟩ := foldl_upd s v e0.dict (upd w i fun e => { e with changed := e.changed ++ [s] })
  rw [← hset] at h1 h2
  rw [upd_length] at h1
  have hin : inits init (h ++ [.setAt i s v]) = inits init h := by simp [inits]
  have hlast : ∀ t, lastSet (h ++ [Event.setAt i s v]) t = if s = t then some v else lastSet h t := by
    intro t; simp [lastSet, List.foldl_append]
  have hk : ∀ k e', (setAt i s v w)[k]? = some e' → ∃ e, w[k]? = some e ∧ e'.dict = e.dict ∧
      (e'.changed = if k = i then e.changed ++ [s] else e.changed) ∧ ∀ t, e'.vals t = if t = s then v else e.vals t := by
    intro k e' hk
    rw [h2 k, upd_get] at hk
    cases hw : w[k]? with
    | none => rw [hw] at hk; simp at hk
    | some e =>
        rw [hw] at hk
        have hkl : k < w.length := by
          by_contra hn
          rw [List.getElem?_eq_none (by omega)] at hw
          cases hw
        have hm : k ∈ e0.dict := (hg.reach i e0 he0 k).mpr hkl
        simp only [Option.map_eq_map, Option.map_some, Option.some.injEq, hm, if_true] at hk
        refine ⟨e, rfl, ?_, ?_, ?_⟩
        · rw [← hk]; split <;> rfl
        · rw [← hk]
          by_cases hki : k = i
          · subst hki; simp [setLocal]
          · have : i ≠ k := fun h => hki h.symm
            simp [setLocal, hki, this]
        · intro t
          rw [← hk]
          simp only [setLocal]
          split
          · rfl
          · split <;> rfl
  refine ⟨⟨by rw [h1, hin, hg.len], ?_, ?_⟩, ?_⟩
  · intro k e' hke j
    obtain ⟨e, he, hd, _, _⟩ := hk k e' hke
    rw [hd, h1]
    exact hg.reach k e he j
  · intro k e' hke
    obtain ⟨e, he, _, _, hv⟩ := hk k e' hke
    obtain ⟨i0, hi0, hiv⟩ := hg.vals k e he
    refine ⟨i0, by rw [hin]; exact hi0, fun t => ?_⟩
    rw [hv t, hlast t]
    by_cases hts : t = s
    · simp [hts]
    · have : s ≠ t := fun h => hts h.symm
      simp [hts, this, hiv t]
  · intro k e' hke
    obtain ⟨e, he, _, hc, _⟩ := hk k e' hke
    exact ⟨e, he, hc⟩

/-- what holds while connections are made -/
structure GoodEarly (init : S → V) (h : List (Event S V)) (w : World S V) : Prop extends Good init h w where
  chg : ∀ e : End S V, w[0]? = some e → ∀ s, s ∈ e.changed ↔ (lastSet h s).isSome

theorem good_connect {init i : S → V} {h w} (hg : GoodEarly init h w) : GoodEarly init (h ++ [.connect i]) (connect i w) := by
  have hlen := hg.len
  obtain ⟨client, rest, rfl⟩ : ∃ c r, w = c :: r := by
    cases w with
    | nil => simp [inits] at hlen
    | cons c r => exact ⟨c, r, rfl⟩
  have hin : inits init (h ++ [.connect i]) = inits init h ++ [i] := by simp [inits]
  have hlast : ∀ t, lastSet (h ++ [Event.connect i]) t = lastSet h t := by
    intro t; simp [lastSet, List.foldl_append]
  set w := client :: rest with hw
  have hc0 : w[0]? = some client := by simp [hw]
  set new := dispatch client { vals := i, changed := [], dict := [0, w.length] ++ (List.range w.length).tail } with hnew
  have hcon : connect i w = (w.map fun e => { e with dict := e.dict ++ [w.length] }) ++ [new] := by
    rw [hnew, hw, connect]
  have hnd : new.dict = [0, w.length] ++ (List.range w.length).tail := (dispatch_eq client client.changed _).1
  have hnv : ∀ s, new.vals s = if s ∈ client.changed then client.vals s else i s := (dispatch_eq client client.changed _).2
  have hl : (connect i w).length = w.length + 1 := by rw [hcon]; simp
  have hk : ∀ k e', (connect i w)[k]? = some e' →
      (∃ e, w[k]? = some e ∧ e' = { e with dict := e.dict ++ [w.length] }) ∨ (k = w.length ∧ e' = new) := by
    intro k e' hke
    rw [hcon, List.getElem?_append] at hke
    simp only [List.length_map, List.getElem?_map] at hke
    split at hke
    · left
      cases hwk : w[k]? with
      | none => rw [hwk] at hke; cases hke
      | some e =>
          rw [hwk] at hke
          exact ⟨e, rfl, (Option.some.inj hke).symm⟩
    · right
      rename_i hkl
      have h0 : k - w.length = 0 := by
        by_contra hn
        rw [List.getElem?_eq_none (by simp; omega)] at hke
        cases hke
      rw [h0] at hke
      simp only [List.getElem?_cons_zero, Option.some.injEq] at hke
      exact ⟨by omega, hke.symm⟩
  have hpos : 0 < w.length := by rw [hw]; simp
  refine ⟨⟨by rw [hl, hin]; simp [hg.len], ?_, ?_⟩, ?_⟩
  · intro k e' hke j
    rw [hl]
    rcases hk k e' hke with ⟨e, he, rfl⟩ | ⟨rfl, rfl⟩
    · simp only [List.mem_append, List.mem_singleton, hg.reach k e he j]
      omega
    · rw [hnd]
      have ht : j ∈ (List.range w.length).tail ↔ 1 ≤ j ∧ j < w.length := by
        obtain ⟨m, hm⟩ : ∃ m, w.length = m + 1 := ⟨w.length - 1, by omega⟩
        rw [hm, List.range_succ_eq_map]
        simp only [List.tail_cons, List.mem_map, List.mem_range]
        constructor
        · rintro ⟨a, ha, rfl⟩; omega
        · rintro ⟨h1, h2⟩; exact ⟨j - 1, by omega, by omega⟩
      simp only [List.mem_append, List.mem_cons, List.not_mem_nil, or_false, ht]
      omega
  · intro k e' hke
    rw [hin]
    rcases hk k e' hke with ⟨e, he, rfl⟩ | ⟨rfl, rfl⟩
    · obtain ⟨i0, hi0, hv⟩ := hg.vals k e he
      have hkl : k < (inits init h).length := by
        by_contra hn
        rw [List.getElem?_eq_none (by omega)] at hi0
        cases hi0
      exact ⟨i0, by rw [List.getElem?_append_left hkl]; exact hi0, fun s => by rw [hlast]; exact hv s⟩
    · refine ⟨i, by rw [hg.len]; simp, fun s => ?_⟩
      rw [hnv s, hlast]
      have hch := hg.chg client hc0 s
      obtain ⟨i0, hi0, hv⟩ := hg.vals 0 client hc0
      by_cases hs : s ∈ client.changed
      · rw [if_pos hs, hv s]
        obtain ⟨v, hv⟩ := Option.isSome_iff_exists.mp (hch.mp hs)
        rw [hv]; rfl
      · rw [if_neg hs]
        have : lastSet h s = none := by
          cases hx : lastSet h s with
          | none => rfl
          | some v => exact absurd (hch.mpr (by rw [hx]; rfl)) hs
        rw [this]; rfl
  · intro e' he' s
    rcases hk 0 e' he' with ⟨e, he, rfl⟩ | ⟨h0, _⟩
    · rw [hlast]; exact hg.chg e he s
    · omega

theorem good_early (init : S → V) (h : List (Event S V)) (hE : Early h) : GoodEarly init h (steps (start init) h) := by
  induction h using List.reverseRecOn with
  | nil =>
      refine ⟨⟨by simp [steps, start, inits], ?_, ?_⟩, ?_⟩
      · intro k e hk j
        cases k with
        | zero => simp only [steps, start, List.foldl_nil, List.getElem?_cons_zero, Option.some.injEq] at hk; subst hk; simp [steps, start]
        | succ k => simp [steps, start] at hk
      · intro k e hk
        cases k with
        | zero =>
            simp only [steps, start, List.foldl_nil, List.getElem?_cons_zero, Option.some.injEq] at hk
            subst hk
            exact ⟨init, by simp [inits], fun s => by simp [lastSet]⟩
        | succ k => simp [steps, start] at hk
      · intro e hk s
        simp only [steps, start, List.foldl_nil, List.getElem?_cons_zero, Option.some.injEq] at hk
        subst hk
        simp [lastSet]
  | append_singleton h x ih =>
      have ih := ih (fun e he => hE e (by simp [he]))
      have hst : steps (start init) (h ++ [x]) = step (steps (start init) h) x := by simp [steps, List.foldl_append]
      rw [hst]
      cases x with
      | connect i => exact good_connect ih
      | setAt i s v =>
          have hi : i = 0 := hE _ (by simp) i s v rfl
          subst hi
          have hpos : 0 < (steps (start init) h).length := by rw [ih.len]; simp [inits]
          obtain ⟨hg, hc⟩ := good_set ih.toGood (i := 0) (s := s) (v := v) hpos
          refine ⟨hg, ?_⟩
          intro e' he' t
          obtain ⟨e, he, hch⟩ := hc 0 e' he'
          rw [hch, if_pos rfl]
          have := ih.chg e he t
          have hlast : lastSet (h ++ [Event.setAt 0 s v]) t = if s = t then some v else lastSet h t := by
            simp [lastSet, List.foldl_append]
          rw [hlast]
          by_cases hst : s = t
          · subst hst; simp
          · have : t ≠ s := fun h => hst h.symm
            simp [hst, this, ih.chg e he t]

theorem good_all (init : S → V) (h1 h2 : List (Event S V)) (hE : Early h1) (hL : Late (inits init h1).length h2) :
    Good init (h1 ++ h2) (steps (start init) (h1 ++ h2)) := by
  induction h2 using List.reverseRecOn with
  | nil => simpa using (good_early init h1 hE).toGood
  | append_singleton h x ih =>
      have ih := ih (fun e he => hL e (by simp [he]))
      have hst : steps (start init) (h1 ++ (h ++ [x])) = step (steps (start init) (h1 ++ h)) x := by
        simp [steps, List.foldl_append]
      rw [hst, ← List.append_assoc]
      obtain ⟨i, s, v, rfl, hi⟩ := hL x (by simp)
      refine (good_set ih ?_).1
      rw [ih.len]
      have : (inits init h1).length ≤ (inits init (h1 ++ h)).length := by simp [inits]
      omega

/-- **C73 (settings).** However connections are made, and whatever the client sets before, between and after them and any end after them: at every end each setting has
the value which was last given to it by any end; a setting which was never set has the value with which the end itself started. -/
theorem one_value (init : S → V) (h1 h2 : List (Event S V)) (hE : Early h1) (hL : Late (inits init h1).length h2) {k : Nat} {e : End S V}
    (he : (steps (start init) (h1 ++ h2))[k]? = some e) :
    ∃ i0, (inits init (h1 ++ h2))[k]? = some i0 ∧ ∀ s, e.vals s = (lastSet (h1 ++ h2) s).getD (i0 s) :=
  (good_all init h1 h2 hE hL).vals k e he

/-- **C73 (settings).** So any two ends agree on every setting which was set. -/
theorem agree (init : S → V) (h1 h2 : List (Event S V)) (hE : Early h1) (hL : Late (inits init h1).length h2) {e e' : End S V}
    (he : e ∈ steps (start init) (h1 ++ h2)) (he' : e' ∈ steps (start init) (h1 ++ h2)) {s : S} (hs : ∃ i v, Event.setAt i s v ∈ h1 ++ h2) :
    e.vals s = e'.vals s := by
  obtain ⟨k, hk⟩ := List.getElem?_of_mem he
  obtain ⟨k', hk'⟩ := List.getElem?_of_mem he'
  obtain ⟨i0, _, h0⟩ := one_value init h1 h2 hE hL hk
  obtain ⟨i0', _, h0'⟩ := one_value init h1 h2 hE hL hk'
  have key : ∀ l : List (Event S V), (∃ i v, Event.setAt i s v ∈ l) → ∃ v, lastSet l s = some v := by
    intro l
    induction l using List.reverseRecOn with
    | nil => rintro ⟨_, _, h⟩; cases h
    | append_singleton l x ih =>
        rintro ⟨i, v, hm⟩
        have hx : lastSet (l ++ [x]) s = (match (generalizing := false) x with | .setAt _ t v => if t = s then some v else lastSet l s | .connect _ => lastSet l s) := by
          simp only [lastSet, List.foldl_append, List.foldl_cons, List.foldl_nil]
        rw [hx]
        simp only [List.mem_append, List.mem_singleton] at hm
        rcases hm with hm | rfl
        · obtain ⟨v', hv'⟩ := ih ⟨i, v, hm⟩
          cases x with
          | connect _ => exact ⟨v', hv'⟩
          | setAt j t u =>
              simp only
              split
              · exact ⟨u, rfl⟩
              · exact ⟨v', hv'⟩
        · exact ⟨v, by simp⟩
  obtain ⟨v, hv⟩ := key _ hs
  rw [h0, h0', hv]
  rfl

/-- **C73 (routes).** Every end can reach every end, and there is one for each connection. -/
theorem all_reach (init : S → V) (h1 h2 : List (Event S V)) (hE : Early h1) (hL : Late (inits init h1).length h2) :
    (steps (start init) (h1 ++ h2)).length = (inits init (h1 ++ h2)).length ∧
    ∀ e ∈ steps (start init) (h1 ++ h2), ∀ j, j ∈ e.dict ↔ j < (inits init (h1 ++ h2)).length := by
  have hg := good_all init h1 h2 hE hL
  refine ⟨hg.len, fun e he j => ?_⟩
  obtain ⟨k, hk⟩ := List.getElem?_of_mem he
  rw [← hg.len]
  exact hg.reach k e hk j

end Settings

/-- A history with two servers, settings before, between and after, the last one by server 2; the hypotheses are met. -/
example : Early [Event.setAt 0 1 5, .connect (fun _ : Nat => 0), .setAt 0 2 6, .connect fun _ => 7] ∧
    Late 3 [Event.setAt 2 (1 : Nat) 8, .setAt 1 3 9] ∧
    (steps (start fun _ : Nat => 0) ([Event.setAt 0 1 5, .connect (fun _ => 0), .setAt 0 2 6, .connect fun _ => 7] ++
      [Event.setAt 2 1 8, .setAt 1 3 9])).map (fun e => [e.vals 1, e.vals 2, e.vals 3, e.vals 4]) = [[8, 6, 9, 0], [8, 6, 9, 0], [8, 6, 9, 7]] := by
  refine ⟨?_, ?_, by decide⟩
  · intro e he i s v h
    simp only [List.mem_cons, List.not_mem_nil, or_false] at he
    rcases he with rfl | rfl | rfl | rfl <;> cases h <;> rfl
  · intro e he
    simp only [List.mem_cons, List.not_mem_nil, or_false] at he
    rcases he with rfl | rfl
    · exact ⟨2, 1, 8, rfl, by decide⟩
    · exact ⟨1, 3, 9, rfl, by decide⟩

/-- The condition on the order is needed: what a server sets is remembered there and not at the client, and does not reach a server which is connected later. -/
theorem late_connection :
    ∃ h : List (Event Nat Nat), (steps (start fun _ => 0) h).map (fun e => e.vals 1) = [5, 5, 0] :=
  ⟨[.connect fun _ => 0, .setAt 1 1 5, .connect fun _ => 0], by decide⟩

end Verif.C73
