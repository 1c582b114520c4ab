import Verif.Model.SelParse
import Verif.Proof.FStatsText
import Verif.Props.C27
import Mathlib.Order.MinMax
import Mathlib.Data.List.Forall2

/-!
C77: the selection options mean what they say: each in its place, lists in files as if their lines were options.

Specification: `Raw`, `Raw.text`, `render` (what a list looks like), `Under` (paths below the base directory). The model: `Verif.SelParse` (`parseArgs`), and `Verif.Selection`.
-/

namespace Verif.C77
open Verif.SelParse Verif.Quoting Verif.Selection Verif.MetaRecord

/-! ### Specification: lists of files -/

/-- what stands between two separators of a list: nothing, or a path, with or without a sign; and carriage returns at the end -/
inductive Raw where
  | blank (crs : Nat)
  | entry (sign : Option Bool) (path : Bytes) (crs : Nat)

/-- `+ ` or `- ` -/
def signText : Option Bool → Bytes
  | none => []
  | some true => [43, 32]
  | some false => [45, 32]

def Raw.text : Raw → Bytes
  | .blank k => List.replicate k 13
  | .entry s p k => signText s ++ p ++ List.replicate k 13

/-- A path can be listed if it isn't empty, has no separator in it and no carriage return at its end, and, without a sign, doesn't begin like one. -/
def Raw.ok (sep : UInt8) : Raw → Prop
  | .blank _ => True
  | .entry s p _ => p ≠ [] ∧ sep ∉ p ∧ p.getLast? ≠ some 13 ∧ (s = none → ¬ [43, 32] <+: p ∧ ¬ [45, 32] <+: p)

/-- the whole list -/
def render (sep : UInt8) : List Raw → Bytes
  | [] => []
  | [r] => r.text
  | r :: rs => r.text ++ sep :: render sep rs

/-- the entries of a list: path, and whether it is to be included -/
def entries (incl : Bool) (raws : List Raw) : List (Bytes × Bool) :=
  raws.filterMap fun r => match r with
    | .blank _ => none
    | .entry s p _ => some (p, s.getD incl)

/-! ### Lines -/

theorem rstrip_append (l : Bytes) (k : Nat) (h : l.getLast? ≠ some 13) : rstripCr (l ++ List.replicate k 13) = l := by
  unfold rstripCr
  rw [List.reverse_append, List.reverse_replicate]
  have hk : ∀ (k : Nat) (x : Bytes), (List.replicate k 13 ++ x).dropWhile (fun c => decide (c = 13)) = x.dropWhile (fun c => decide (c = 13)) := by
    intro k
    induction k with
    | zero => intro x; rfl
    | succ k ih => intro x; rw [List.replicate_succ, List.cons_append, List.dropWhile_cons]; simp [ih]
  rw [hk]
  have : l.reverse.dropWhile (fun c => decide (c = 13)) = l.reverse := by
    cases hl : l.reverse with
    | nil => rfl
    | cons c r =>
        rw [List.dropWhile_cons]
        have hc : c ≠ 13 := by
          rintro rfl
          apply h
          rw [← List.head?_reverse, hl]
          rfl
        simp [hc]
  rw [this, List.reverse_reverse]

theorem signText_sep {sep : UInt8} (h : sep = 10 ∨ sep = 0) (s) : sep ∉ signText s := by
  rcases h with rfl | rfl <;> cases s with
  | none => simp [signText]
  | some b => cases b <;> decide

theorem text_sep {sep : UInt8} (h : sep = 10 ∨ sep = 0) (r : Raw) (hr : r.ok sep) : sep ∉ r.text := by
  have h13 : ∀ k, sep ∉ List.replicate k (13 : UInt8) := by
    intro k hk
    have := (List.mem_replicate.mp hk).2
    rcases h with rfl | rfl <;> exact absurd this (by decide)
  cases r with
  | blank k => exact h13 k
  | entry s p k =>
      simp only [Raw.text, List.mem_append, not_or]
      exact ⟨⟨signText_sep h s, hr.2.1⟩, h13 k⟩

theorem getLast_sign (s) (p : Bytes) (hp : p ≠ []) (h : p.getLast? ≠ some 13) : (signText s ++ p).getLast? ≠ some 13 := by
  rw [List.getLast?_append_of_ne_nil _ hp]
  exact h

/-- the text of an entry without the end of the line -/
def body : Raw → Option Bytes
  | .blank _ => none
  | .entry s p _ => some (signText s ++ p)

theorem rstrip_text {sep} (r : Raw) (hr : r.ok sep) : rstripCr r.text = (body r).getD [] := by
  cases r with
  | blank k => simpa [Raw.text, body] using rstrip_append [] k (by simp)
  | entry s p k => exact rstrip_append _ k (getLast_sign s p hr.1 hr.2.2.1)

theorem split_render {sep : UInt8} (h : sep = 10 ∨ sep = 0) : ∀ raws : List Raw, raws ≠ [] → (∀ r ∈ raws, r.ok sep) → splitOn sep (render sep raws) = raws.map Raw.text := by
  intro raws
  induction raws with
  | nil => intro h; exact absurd rfl h
  | cons r rs ih =>
      intro _ hr
      cases rs with
      | nil => simpa [render] using splitOn_last (text_sep h r (hr r (by simp)))
      | cons r2 rs =>
          rw [render, splitOn_cons (text_sep h r (hr r (by simp))), ih (by simp) fun x hx => hr x (by simp [hx])]
          · rfl
          · simp

/-- **C77 (lines).** The lines of a list are what stands in it, without blank ones and carriage returns. -/
theorem lines_render {sep : UInt8} (h : sep = 10 ∨ sep = 0) (raws : List Raw) (hr : ∀ r ∈ raws, r.ok sep) : lines sep (render sep raws) = raws.filterMap body := by
  by_cases he : raws = []
  · subst he; simp [render, lines, splitOn, rstripCr]
  · unfold lines
    rw [split_render h raws he hr, List.map_map]
    clear he
    induction raws with
    | nil => rfl
    | cons r rs ih =>
        rw [List.map_cons, List.filter_cons, ih fun x hx => hr x (by simp [hx]), List.filterMap_cons]
        have := rstrip_text r (hr r (by simp))
        simp only [Function.comp]
        cases r with
        | blank k => simp only [this, body]; simp
        | entry s p k =>
            have hne : signText s ++ p ≠ [] := by
              intro hh
              exact (hr (.entry s p k) (by simp)).1 (List.append_eq_nil_iff.mp hh).2
            simp only [this, body]; simp [hne]

theorem signOf_body {sep} {s : Option Bool} {p : Bytes} {k : Nat} (hr : (Raw.entry s p k).ok sep) (incl : Bool) : signOf incl (signText s ++ p) = (s.getD incl, p) := by
  cases s with
  | some b => cases b <;> simp [signText, signOf]
  | none =>
      obtain ⟨_, _, _, hn⟩ := hr
      obtain ⟨h1, h2⟩ := hn rfl
      simp only [signText, List.nil_append, Option.getD_none]
      unfold signOf
      split
      · exact absurd ⟨_, rfl⟩ h1
      · exact absurd ⟨_, rfl⟩ h2
      · rfl

/-- **C77 (file lists).** A list of files is read as what stands in it: each path with its sign (otherwise the one of the option), relative to the base directory; paths
elsewhere are left out. -/
theorem filelist_exact (base : Bytes) {sep : UInt8} (h : sep = 10 ∨ sep = 0) (incl : Bool) (raws : List Raw) (hr : ∀ r ∈ raws, r.ok sep) :
    readList base sep incl (render sep raws) = (entries incl raws).filterMap fun x => (relIndex base x.1).map fun i => (i, x.2) := by
  unfold readList entries
  rw [lines_render h raws hr, List.filterMap_filterMap, List.filterMap_filterMap]
  apply List.filterMap_congr
  intro r hrr
  cases r with
  | blank k => rfl
  | entry s p k =>
      simp only [body, Option.bind_some, SelParse.parseLine, signOf_body (hr _ hrr)]

/-! ### Paths -/

theorem comps_append (x y : Bytes) : comps (x ++ 47 :: y) = comps x ++ comps y := by
  unfold comps
  rw [Verif.FStats.splitOn_sep, List.filter_append]

/-- **C77 (paths).** The index of a path is what follows the components of the base directory, whatever the number of slashes. -/
theorem relative (base p : Bytes) (i : List Bytes) : relIndex base p = some i ↔ comps p = comps base ++ i := by
  unfold relIndex
  split
  · rename_i h
    constructor
    · intro hi
      simp only [Option.some.injEq] at hi
      rw [← hi]
      conv_lhs => rw [← List.take_append_drop (comps base).length (comps p), h]
    · intro hi
      rw [hi]; simp
  · rename_i h
    constructor
    · intro hi; cases hi
    · intro hi
      exact absurd (by rw [hi]; simp) h

theorem comps_name {n : Bytes} (h : n ≠ []) (hs : (47 : UInt8) ∉ n) : comps n = [n] := by
  unfold comps
  rw [splitOn_last hs]
  simp [h]

theorem comps_joinName (p n : Bytes) (h : n ≠ []) (hs : (47 : UInt8) ∉ n) : comps (Glob.joinName p n) = comps p ++ [n] := by
  unfold Glob.joinName
  split
  · rename_i hp
    rcases hp with rfl | hp
    · rw [List.nil_append, comps_name h hs]; rfl
    · obtain ⟨q, rfl⟩ : ∃ q, p = q ++ [47] := by
        have hne : p ≠ [] := by rintro rfl; cases hp
        refine ⟨p.dropLast, ?_⟩
        conv_lhs => rw [← List.dropLast_append_getLast hne]
        rw [List.getLast?_eq_some_getLast hne, Option.some.injEq] at hp
        rw [hp]
      have e : q ++ [47] ++ n = q ++ 47 :: n := by simp
      rw [e, comps_append, comps_name h hs]
      have e2 : q ++ [47] = q ++ 47 :: [] := rfl
      rw [e2, comps_append]
      simp [comps, splitOn]
  · rw [comps_append, comps_name h hs]

/-- **C77 (paths below).** The path of a file below the base directory has its index. -/
theorem below (base : Bytes) (i : List Bytes) (h : ∀ n ∈ i, n ≠ [] ∧ (47 : UInt8) ∉ n) : relIndex base (Glob.path base i) = some i := by
  rw [relative]
  unfold Glob.path
  have : ∀ (b : Bytes), comps (i.foldl Glob.joinName b) = comps b ++ i := by
    induction i with
    | nil => intro b; simp
    | cons n r ih =>
        intro b
        rw [List.foldl_cons, ih (fun x hx => h x (by simp [hx])), comps_joinName _ _ (h n (by simp)).1 (h n (by simp)).2]
        simp
  exact this base

/-! ### The options in their places -/

theorem allConds_append (e : Env) (a b : List Opt) :
    allConds e (a ++ b) = match allConds e a with
      | .error x => .error x
      | .ok cs => match allConds e b with
        | .error x => .error x
        | .ok ds => .ok (cs ++ ds) := by
  induction a with
  | nil =>
      simp only [List.nil_append, allConds]
      cases allConds e b <;> rfl
  | cons o os ih =>
      simp only [List.cons_append, allConds, ih]
      cases condsOf e o with
      | error x => rfl
      | ok cs =>
          cases allConds e os with
          | error x => rfl
          | ok ds =>
              cases allConds e b with
              | error x => rfl
              | ok ds' => simp

/-- **C77 (in order).** If the options are accepted, the conditions are those of the options, one option after the other, after the one which keeps the data directory out. -/
theorem in_order (e : Env) (opts : List Opt) (cs : List (Cond Bytes)) (h : parseArgs e opts = .ok cs) :
    ∃ blocks, List.Forall₂ (fun o b => condsOf e o = .ok b) opts blocks ∧ cs = .tuple [dataDir] false :: blocks.flatten := by
  unfold parseArgs at h
  have key : ∀ (opts : List Opt) cs, allConds e opts = .ok cs → ∃ blocks, List.Forall₂ (fun o b => condsOf e o = .ok b) opts blocks ∧ cs = blocks.flatten := by
    intro opts
    induction opts with
    | nil => intro cs h; simp only [allConds, Except.ok.injEq] at h; exact ⟨[], .nil, by simp [← h]⟩
    | cons o os ih =>
        intro cs h
        simp only [allConds] at h
        cases ho : condsOf e o with
        | error x => simp [ho] at h
        | ok c =>
            cases hos : allConds e os with
            | error x => simp [ho, hos] at h
            | ok d =>
                simp only [ho, hos, Except.ok.injEq] at h
                obtain ⟨bl, hb, rfl⟩ := ih d hos
                exact ⟨c :: bl, .cons ho hb, by simp [← h]⟩
  cases ha : allConds e opts with
  | error x => simp [ha] at h
  | ok c =>
      simp only [ha] at h
      split at h
      · cases h
      · obtain ⟨bl, hb, rfl⟩ := key opts c ha
        simp only [Except.ok.injEq] at h
        exact ⟨bl, hb, h.symm⟩

/-- **C77 (redundant options).** When the last option only includes, the program refuses; no option is left aside. -/
theorem last_includes (e : Env) (opts : List Opt) (o : Opt) (c : Cond Bytes) (cs : List (Cond Bytes)) (ho : condsOf e o = .ok (cs ++ [c])) (hc : c.exclude = false) (r : List (Cond Bytes)) :
    parseArgs e (opts ++ [o]) ≠ .ok r := by
  intro h
  unfold parseArgs at h
  rw [allConds_append] at h
  cases ha : allConds e opts with
  | error x => simp [ha] at h
  | ok d =>
      simp [ha, allConds, ho, List.getLast?_append, hc] at h

/-- **C77 (lists of patterns).** A list of patterns is like options for its entries, in its place: `--include` or `--exclude` as the sign says, otherwise as the option. -/
theorem globlist_as_options (e : Env) (hsep : e.sep = 10 ∨ e.sep = 0) (pre post : List Opt) (incl : Bool) (raws : List Raw) (hr : ∀ r ∈ raws, r.ok e.sep) :
    parseArgs e (pre ++ .globlist (render e.sep raws) incl :: post) = parseArgs e (pre ++ (entries incl raws).map (fun x => .glob x.1 x.2) ++ post) := by
  have key : ∀ raws : List Raw, (∀ r ∈ raws, r.ok e.sep) →
      ((raws.filterMap body).mapM fun l => globSf e.base (signOf incl l).2 (signOf incl l).1) = allConds e ((entries incl raws).map fun x => .glob x.1 x.2) := by
    intro raws
    induction raws with
    | nil => intro _; rfl
    | cons r rs ih =>
        intro hr
        have ih' := ih fun x hx => hr x (by simp [hx])
        cases r with
        | blank k => exact ih'
        | entry s p k =>
            have h1 : (Raw.entry s p k :: rs).filterMap body = (signText s ++ p) :: rs.filterMap body := rfl
            have h2 : entries incl (Raw.entry s p k :: rs) = (p, s.getD incl) :: entries incl rs := rfl
            rw [h1, h2, List.mapM_cons, ih', List.map_cons, signOf_body (hr (.entry s p k) (by simp))]
            simp only [allConds, condsOf]
            cases globSf e.base p (s.getD incl) with
            | error x => rfl
            | ok c =>
                cases allConds e ((entries incl rs).map fun x => .glob x.1 x.2) with
                | error x => rfl
                | ok d => rfl
  have hc : condsOf e (.globlist (render e.sep raws) incl) = allConds e ((entries incl raws).map fun x => .glob x.1 x.2) := by
    rw [← key raws hr, condsOf, lines_render hsep raws hr]
  have : allConds e (pre ++ .globlist (render e.sep raws) incl :: post) = allConds e (pre ++ (entries incl raws).map (fun x => .glob x.1 x.2) ++ post) := by
    rw [List.append_assoc, allConds_append, allConds_append e pre, allConds_append e ((entries incl raws).map fun x => .glob x.1 x.2), ← hc]
    rfl
  unfold parseArgs
  rw [this]

/-! ### What is selected -/

theorem take_prefix {β : Type} [DecidableEq β] (a b : List β) : b.take a.length = a ↔ a <+: b := by
  rw [List.prefix_iff_eq_take]; exact eq_comm

/-- a path which isn't a pattern -/
structure Plain (base p : Bytes) (i : List Bytes) : Prop where
  noGlob : isGlob p = false
  under : comps p = comps base ++ i

theorem globSf_plain {base p : Bytes} {i : List Bytes} (h : Plain base p i) (incl : Bool) : globSf base p incl = .ok (.tuple i incl) := by
  unfold globSf
  rw [if_neg, if_neg, (relative base p i).mpr h.under]
  · rw [h.noGlob]; decide
  · rintro rfl
    exact absurd h.noGlob (by decide)

theorem allConds_plain {e : Env} {ps : List Bytes} {is : List (List Bytes)} (h : List.Forall₂ (Plain e.base) ps is) (incl : Bool) :
    allConds e (ps.map fun p => .glob p incl) = .ok (is.map fun i => .tuple i incl) := by
  induction h with
  | nil => rfl
  | cons h1 _ ih => simp only [List.map_cons, allConds, condsOf, globSf_plain h1, ih, Except.map]; rfl

theorem select_rb (cs : List (Cond Bytes)) (i : List Bytes) (f : Option File) (h : ¬ [dataDir] <+: i) :
    (selectDefault (withRbdir dataDir cs) i f).map (·.1) = (selectDefault cs i f).map (·.1) := by
  unfold selectDefault withRbdir
  have h' : ¬ i.take [dataDir].length = [dataDir] := fun hh => h ((take_prefix _ _).mp hh)
  rw [selectFrom]
  simp only [Cond.apply, Bool.false_eq_true, if_false, if_neg h']
  rw [Option.map_map]
  rfl

/-- **C77 (only these).** With `--include` for some paths and then `--exclude '**'`, a file is selected exactly if it is at or below one of them, or a directory on the way to one
of them. -/
theorem only_these (e : Env) (ps : List Bytes) (is : List (List Bytes)) (h : List.Forall₂ (Plain e.base) ps is) :
    ∃ cs, parseArgs e (ps.map (fun p => .glob p true) ++ [.glob [42, 42] false]) = .ok cs ∧
      ∀ i f, ¬ [dataDir] <+: i →
        ((∃ t ∈ is, t <+: i ∨ i <+: t) → (selectDefault cs i (some f)).map (·.1) = some .incl) ∧
        ((¬ ∃ t ∈ is, t <+: i ∨ i <+: t) → (selectDefault cs i (some f)).map (·.1) = some .excl) := by
  refine ⟨withRbdir dataDir (is.map (fun t => .tuple t true) ++ [.all false]), ?_, ?_⟩
  · unfold parseArgs
    rw [allConds_append, allConds_plain h]
    have : allConds e [.glob [42, 42] false] = .ok [.all false] := rfl
    rw [this]
    simp [List.getLast?_append, Cond.exclude]
  · intro i f hi
    rw [select_rb _ _ _ hi]
    clear h hi
    unfold selectDefault
    induction is with
    | nil => simp [selectFrom, Cond.apply, Selection.val]
    | cons t ts ih =>
        rw [List.map_cons, List.cons_append, selectFrom]
        simp only [Cond.apply, if_true]
        by_cases ht : t <+: i ∨ i <+: t
        · have : i = t.take i.length ∨ i.take t.length = t := by
            rcases ht with ht | ht
            · exact .inr ((take_prefix _ _).mpr ht)
            · exact .inl (List.prefix_iff_eq_take.mp ht)
          rw [if_pos this]
          refine ⟨fun _ => rfl, fun hn => absurd ⟨t, by simp, ht⟩ hn⟩
        · have : ¬ (i = t.take i.length ∨ i.take t.length = t) := by
            rintro (h1 | h1)
            · exact ht (.inr (List.prefix_iff_eq_take.mpr h1))
            · exact ht (.inl ((take_prefix _ _).mp h1))
          rw [if_neg this]
          simp only [Option.map_map]
          have e : (∃ x ∈ t :: ts, x <+: i ∨ i <+: x) ↔ ∃ x ∈ ts, x <+: i ∨ i <+: x := by
            simp [ht]
          rw [e]
          exact ih

/-- **C77 (all but these).** With `--exclude` for some paths, a file is selected exactly if it is neither at nor below one of them. -/
theorem all_but_these (e : Env) (ps : List Bytes) (is : List (List Bytes)) (h : List.Forall₂ (Plain e.base) ps is) :
    ∃ cs, parseArgs e (ps.map fun p => .glob p false) = .ok cs ∧
      ∀ i f, ¬ [dataDir] <+: i →
        ((∃ t ∈ is, t <+: i) → (selectDefault cs i (some f)).map (·.1) = some .excl) ∧
        ((¬ ∃ t ∈ is, t <+: i) → (selectDefault cs i (some f)).map (·.1) = some .incl) := by
  refine ⟨withRbdir dataDir (is.map fun t => .tuple t false), ?_, ?_⟩
  · unfold parseArgs
    rw [allConds_plain h]
    simp only []
    rw [if_neg]
    simp only [List.getLast?_map, Option.any_map]
    cases is.getLast? <;> simp [Cond.exclude]
  · intro i f hi
    rw [select_rb _ _ _ hi]
    clear h hi
    unfold selectDefault
    induction is with
    | nil => simp [selectFrom]
    | cons t ts ih =>
        rw [List.map_cons, selectFrom]
        simp only [Cond.apply, Bool.false_eq_true, if_false]
        by_cases ht : t <+: i
        · rw [if_pos ((take_prefix _ _).mpr ht)]
          exact ⟨fun _ => rfl, fun hn => absurd ⟨t, by simp, ht⟩ hn⟩
        · rw [if_neg fun h1 => ht ((take_prefix _ _).mp h1)]
          simp only [Option.map_map]
          have e : (∃ x ∈ t :: ts, x <+: i) ↔ ∃ x ∈ ts, x <+: i := by simp [ht]
          rw [e]
          exact ih

/-- **C77 (wrong paths).** A path which isn't below the base directory makes the program refuse, wherever the option stands. -/
theorem elsewhere_refused (e : Env) (pre post : List Opt) (p : Bytes) (incl : Bool) (hg : isGlob p = false) (h : ¬ comps e.base <+: comps p) (r : List (Cond Bytes)) :
    parseArgs e (pre ++ .glob p incl :: post) ≠ .ok r := by
  intro hr
  obtain ⟨bl, hb, -⟩ := in_order e _ r hr
  have : ∀ (pre : List Opt) bl, ¬ List.Forall₂ (fun o b => condsOf e o = .ok b) (pre ++ .glob p incl :: post) bl := by
    intro pre
    induction pre with
    | nil =>
        intro bl hb
        cases hb with
        | cons h1 _ =>
            simp only [condsOf, globSf] at h1
            have hn : p ≠ [42, 42] := by rintro rfl; exact absurd hg (by decide)
            have hrel : relIndex e.base p = none := by
              unfold relIndex
              rw [if_neg]
              exact fun hh => h ((take_prefix _ _).mp hh)
            rw [if_neg hn, hg, if_neg (by decide), hrel] at h1
            cases h1
    | cons o os ih =>
        intro bl hb
        cases hb with
        | cons _ h2 => exact ih _ h2
  exact this pre bl hb

theorem decide_rb (cs : List (Cond Bytes)) (i : List Bytes) (f : File) (h : [dataDir] <+: i) : decide' (withRbdir dataDir cs) i f = .excl := by
  unfold decide' selectDefault withRbdir
  rw [selectFrom]
  simp only [Cond.apply, Bool.false_eq_true, if_false, if_pos ((take_prefix _ _).mpr h)]
  rfl

/-- What an iteration yields when the decision includes exactly the paths of a set closed upwards. -/
theorem iterate_closed {cs : List (Cond Bytes)} (hp : ∀ c ∈ cs, C26.Plain c) (P : List Bytes → Prop) (hP : ∀ i j, j <+: i → P i → P j)
    (hd : ∀ i f, (P i → decide' cs i f = .incl) ∧ (¬ P i → decide' cs i f = .excl)) (root : File) (hroot : root.isdir = true) (content : Forest Bytes) (hF : content.Ok) :
    ∃ out, iterate cs root content = some out ∧ out.Pairwise (· < ·) ∧ ∀ i, i ∈ out ↔ i = [] ∨ (∃ f, (i, f) ∈ listing [] content) ∧ P i := by
  obtain ⟨out, h1, h2, h3⟩ := C27.iterates_selected_partial hp root hroot content hF
  refine ⟨out, h1, h2, fun i => ?_⟩
  rw [h3 i]
  constructor
  · rintro (h | ⟨f, hf, -, hs⟩)
    · exact .inl h
    · refine .inr ⟨⟨f, hf⟩, ?_⟩
      by_contra hn
      rw [(hd i f).2 hn] at hs
      rcases hs with hs | ⟨hs, -⟩ <;> cases hs
  · rintro (h | ⟨⟨f, hf⟩, hi⟩)
    · exact .inl h
    · refine .inr ⟨f, hf, ?_, .inl ((hd i f).1 hi)⟩
      intro j g _ hj _
      rw [(hd j g).1 (hP i j hj hi)]
      decide

/-- **C77 (only these, whole tree).** From the command line to the iteration: `--include p1 --include p2 … --exclude '**'` makes the backup look at the base directory and, in order
and once each, at exactly the files of the tree at or below one of the paths or on the way to one, never at `rdiff-backup-data`. -/
theorem only_these_iterated (e : Env) (ps : List Bytes) (is : List (List Bytes)) (h : List.Forall₂ (Plain e.base) ps is) (root : File) (hroot : root.isdir = true)
    (content : Forest Bytes) (hF : content.Ok) :
    ∃ cs out, parseArgs e (ps.map (fun p => .glob p true) ++ [.glob [42, 42] false]) = .ok cs ∧ iterate cs root content = some out ∧ out.Pairwise (· < ·) ∧
      ∀ i, i ∈ out ↔ i = [] ∨ (∃ f, (i, f) ∈ listing [] content) ∧ ¬ [dataDir] <+: i ∧ ∃ t ∈ is, t <+: i ∨ i <+: t := by
  obtain ⟨cs, h1, h2⟩ := only_these e ps is h
  obtain ⟨bl, hb, hcs⟩ := in_order e _ cs h1
  have hpl : ∀ c ∈ cs, C26.Plain c := by
    have h1' := h1
    unfold parseArgs at h1'
    rw [allConds_append, allConds_plain h] at h1'
    have : allConds e [.glob [42, 42] false] = .ok [.all false] := rfl
    rw [this] at h1'
    simp [List.getLast?_append, Cond.exclude, withRbdir] at h1'
    intro c hc
    rw [← h1'] at hc
    simp only [List.mem_cons, List.mem_append, List.mem_map, List.not_mem_nil, or_false] at hc
    rcases hc with rfl | ⟨t, -, rfl⟩ | rfl <;> trivial
  obtain ⟨out, h3, h4, h5⟩ := iterate_closed hpl (fun i => ¬ [dataDir] <+: i ∧ ∃ t ∈ is, t <+: i ∨ i <+: t)
    (by
      rintro i j hj ⟨hn, t, ht, hh⟩
      refine ⟨fun hh' => hn (hh'.trans hj), t, ht, ?_⟩
      rcases hh with hh | hh
      · exact List.prefix_or_prefix_of_prefix hh hj
      · exact .inr (hj.trans hh))
    (by
      intro i f
      by_cases hd : [dataDir] <+: i
      · refine ⟨fun hh => absurd hd hh.1, fun _ => ?_⟩
        rw [hcs]; exact decide_rb _ _ _ hd
      · refine ⟨fun hh => ?_, fun hh => ?_⟩
        · unfold decide'; rw [(h2 i f hd).1 hh.2]; rfl
        · unfold decide'; rw [(h2 i f hd).2 fun h' => hh ⟨hd, h'⟩]; rfl)
    root hroot content hF
  exact ⟨cs, out, h1, h3, h4, h5⟩

/-- **C77 (all but these, whole tree).** `--exclude p1 --exclude p2 …` makes the backup look at exactly the files of the tree which are neither at nor below one of the paths, nor
in `rdiff-backup-data`. -/
theorem all_but_these_iterated (e : Env) (ps : List Bytes) (is : List (List Bytes)) (h : List.Forall₂ (Plain e.base) ps is) (root : File) (hroot : root.isdir = true)
    (content : Forest Bytes) (hF : content.Ok) :
    ∃ cs out, parseArgs e (ps.map fun p => .glob p false) = .ok cs ∧ iterate cs root content = some out ∧ out.Pairwise (· < ·) ∧
      ∀ i, i ∈ out ↔ i = [] ∨ (∃ f, (i, f) ∈ listing [] content) ∧ ¬ [dataDir] <+: i ∧ ¬ ∃ t ∈ is, t <+: i := by
  obtain ⟨cs, h1, h2⟩ := all_but_these e ps is h
  obtain ⟨bl, hb, hcs⟩ := in_order e _ cs h1
  have hpl : ∀ c ∈ cs, C26.Plain c := by
    have h1' := h1
    unfold parseArgs at h1'
    rw [allConds_plain h] at h1'
    simp only [] at h1'
    split at h1'
    · cases h1'
    simp only [Except.ok.injEq, withRbdir] at h1'
    intro c hc
    rw [← h1'] at hc
    simp only [List.mem_cons, List.mem_map] at hc
    rcases hc with rfl | ⟨t, -, rfl⟩ <;> trivial
  obtain ⟨out, h3, h4, h5⟩ := iterate_closed hpl (fun i => ¬ [dataDir] <+: i ∧ ¬ ∃ t ∈ is, t <+: i)
    (by
      rintro i j hj ⟨hn, hh⟩
      refine ⟨fun hh' => hn (hh'.trans hj), fun ⟨t, ht, h'⟩ => hh ⟨t, ht, h'.trans hj⟩⟩)
    (by
      intro i f
      by_cases hd : [dataDir] <+: i
      · refine ⟨fun hh => absurd hd hh.1, fun _ => ?_⟩
        rw [hcs]; exact decide_rb _ _ _ hd
      · refine ⟨fun hh => ?_, fun hh => ?_⟩
        · unfold decide'; rw [(h2 i f hd).2 hh.2]; rfl
        · unfold decide'
          have : ∃ t ∈ is, t <+: i := by
            by_contra h'; exact hh ⟨hd, h'⟩
          rw [(h2 i f hd).1 this]; rfl)
    root hroot content hF
  exact ⟨cs, out, h1, h3, h4, h5⟩

/-! ### Each option -/

/-- which files the options about types, devices and sizes ask for, and whether they include them -/
def asked (e : Env) : Opt → Option ((File → Bool) × Bool)
  | .special incl => some (fun f => f.kind ≠ .reg && f.kind ≠ .dir, incl)
  | .symlinks incl => some (fun f => f.kind = .sym, incl)
  | .devices => some (fun f => f.kind = .dev, false)
  | .sockets => some (fun f => f.kind = .sock, false)
  | .fifos => some (fun f => f.kind = .fifo, false)
  | .otherFs => some (fun f => f.devloc ≠ e.device, false)
  | .size t mx =>
      match e.int t with
      | some n => if 0 < n then some (fun f => f.kind = .reg && (if mx then n < f.size else f.size < n), false) else none
      | none => none
  | _ => none

/-- **C77 (types, devices, sizes).** These options include or exclude just the files which they name, and say nothing of others. -/
theorem option_means (e : Env) (o : Opt) (p : File → Bool) (incl : Bool) (h : asked e o = some (p, incl)) :
    ∃ c, condsOf e o = .ok [c] ∧ c.exclude = !incl ∧ ∀ i f, c.apply i (some f) = some (if p f then some (if incl then .incl else .excl) else none, c) := by
  cases o <;> simp only [asked, Option.some.injEq, Prod.mk.injEq, reduceCtorEq] at h
  · obtain ⟨rfl, rfl⟩ := h
    refine ⟨_, rfl, rfl, fun i f => ?_⟩
    cases hk : f.kind <;> simp [Cond.apply, Verif.Selection.val, hk]
  · obtain ⟨rfl, rfl⟩ := h
    refine ⟨_, rfl, rfl, fun i f => ?_⟩
    simp [Cond.apply, Verif.Selection.val]
  all_goals first
    | (obtain ⟨rfl, rfl⟩ := h
       refine ⟨_, rfl, rfl, fun i f => ?_⟩
       simp [Cond.apply, Verif.Selection.val])
    | skip
  rename_i t mx
  split at h
  · rename_i n hn
    split at h
    · rename_i hpos
      simp only [Option.some.injEq, Prod.mk.injEq] at h
      obtain ⟨rfl, rfl⟩ := h
      refine ⟨.size n.toNat mx, ?_, rfl, fun i f => ?_⟩
      · simp only [condsOf, hn]
        rw [if_neg (by omega)]
      · obtain ⟨k, sz, dv⟩ := f
        cases k <;> simp [Cond.apply]
        cases mx
        · have : (sz : Int) < n ↔ ¬ n ≤ sz := by omega
          by_cases hh : n ≤ sz <;> simp [this, hh]
        · have : n < (sz : Int) ↔ ¬ sz ≤ n.toNat := by omega
          by_cases hh : sz ≤ n.toNat <;> simp [this, hh]
    · cases h
  · cases h

/-- **C77 (sizes refused).** A size which isn't a positive number ends the program. -/
theorem bad_size (e : Env) (t : Bytes) (mx : Bool) (h : ∀ n, e.int t = some n → n ≤ 0) : condsOf e (.size t mx) = .error .size := by
  cases hn : e.int t with
  | none => simp only [condsOf, hn]
  | some n => simp only [condsOf, hn, if_pos (h n hn)]

/-- **C77 (file lists as conditions).** The condition of an option with a list of files is the list's, with the paths below the base directory; it counts as one which excludes if any
of its entries excludes or the option does. -/
theorem filelist_option (e : Env) (hsep : e.sep = 10 ∨ e.sep = 0) (incl : Bool) (raws : List Raw) (hr : ∀ r ∈ raws, r.ok e.sep) :
    ∃ c rest ex, condsOf e (.filelist (render e.sep raws) incl) = .ok [c] ∧ c = .filelist rest ex ∧
      (∀ x, x ∈ rest ↔ ∃ q, q ∈ entries incl raws ∧ relIndex e.base q.1 = some x.1 ∧ q.2 = x.2) ∧
      (ex = true ↔ incl = false ∨ ∃ q ∈ entries incl raws, (relIndex e.base q.1).isSome ∧ q.2 = false) := by
  refine ⟨_, _, _, rfl, rfl, fun x => ?_, ?_⟩
  · rw [(Verif.Sort.sortBy_perm _ _).mem_iff, filelist_exact _ hsep _ _ hr, List.mem_filterMap]
    constructor
    · rintro ⟨q, hq, h⟩
      simp only [Option.map_eq_some_iff] at h
      obtain ⟨i, hi, rfl⟩ := h
      exact ⟨q, hq, hi, rfl⟩
    · rintro ⟨q, hq, hi, h2⟩
      exact ⟨q, hq, by rw [hi, h2]; rfl⟩
  · rw [filelist_exact _ hsep _ _ hr]
    simp only [Bool.or_eq_true, Bool.not_eq_true', List.any_eq_true, List.mem_filterMap]
    constructor
    · rintro (⟨x, ⟨q, hq, h⟩, hx⟩ | h)
      · simp only [Option.map_eq_some_iff] at h
        obtain ⟨i, hi, rfl⟩ := h
        exact .inr ⟨q, hq, by rw [hi]; rfl, hx⟩
      · exact .inl h
    · rintro (h | ⟨q, hq, h1, h2⟩)
      · exact .inr h
      · obtain ⟨i, hi⟩ := Option.isSome_iff_exists.mp h1
        exact .inl ⟨(i, q.2), ⟨q, hq, by rw [hi]; rfl⟩, h2⟩

/-- **C77 (wildcards).** A path is a pattern if one of `*`, `?`, `[` and `\` occurs in it or it begins with `ignorecase:`, in capitals or not; otherwise it stands for itself. -/
theorem wildcard (g : Bytes) : isGlob g = true ↔ (42 ∈ g ∨ 63 ∈ g ∨ 91 ∈ g ∨ 92 ∈ g) ∨ ∃ pre r, g = pre ++ r ∧
    pre.map Glob.lower = [105, 103, 110, 111, 114, 101, 99, 97, 115, 101, 58] := by
  unfold isGlob
  rw [Bool.or_eq_true, List.any_eq_true, decide_eq_true_eq]
  refine or_congr ?_ ?_
  · constructor
    · rintro ⟨c, hc, h⟩
      simp only [Bool.or_eq_true, decide_eq_true_eq] at h
      rcases h with ((rfl | rfl) | rfl) | rfl <;> simp [hc]
    · rintro (h | h | h | h) <;> exact ⟨_, h, by decide⟩
  · constructor
    · intro h; exact ⟨g.take 11, g.drop 11, (List.take_append_drop _ _).symm, h⟩
    · rintro ⟨pre, r, rfl, h⟩
      have : pre.length = 11 := by have := congrArg List.length h; simpa using this
      rw [List.take_left' this]; exact h

/-- The directory which is never selected is `rdiff-backup-data`. -/
theorem data_directory : dataDir.map (fun c => Char.ofNat c.toNat) = "rdiff-backup-data".toList := by decide +kernel

/-! ### Examples, and what is wrong -/

/-- the base directory `/h` -/
def env : Env := ⟨[47, 104], 0, 10, fun _ => none, fun _ => none, fun _ _ => false, fun _ _ => false⟩

/-- `/h/a/b` and `h//c/` -/
def paths : List Bytes := [[47, 104, 47, 97, 47, 98], [104, 47, 47, 99, 47]]

theorem paths_plain : List.Forall₂ (Plain env.base) paths [[[97], [98]], [[99]]] :=
  .cons ⟨by decide +kernel, by decide +kernel⟩ (.cons ⟨by decide +kernel, by decide +kernel⟩ .nil)

/-- a directory with `a/b`, `a/x`, `c` and `d` -/
def tree : Forest Bytes :=
  .cons [97] ⟨.dir, 0, 0⟩ (.cons [98] ⟨.reg, 1, 0⟩ .nil (.cons [120] ⟨.reg, 1, 0⟩ .nil .nil)) (.cons [99] ⟨.reg, 1, 0⟩ .nil (.cons [100] ⟨.reg, 1, 0⟩ .nil .nil))

theorem tree_ok : tree.Ok := by
  simp [tree, Forest.Ok, Forest.names]
  decide +kernel

def out (r : Except Err (List (Cond Bytes))) : Option (List (List Bytes)) :=
  match r with
  | .ok cs => iterate cs ⟨.dir, 0, 0⟩ tree
  | .error _ => none

example : out (parseArgs env (paths.map (fun p => .glob p true) ++ [.glob [42, 42] false])) = some [[], [[97]], [[97], [98]], [[99]]] := by decide +kernel
example : out (parseArgs env (paths.map fun p => .glob p false)) = some [[], [[97]], [[97], [120]], [[100]]] := by decide +kernel

/-- `+ /h/a/b`, an empty line, `/h/a` and a carriage return -/
def list : List Raw := [.entry (some true) [47, 104, 47, 97, 47, 98] 0, .blank 0, .entry none [47, 104, 47, 97] 1, .blank 0]

example : (∀ r ∈ list, r.ok 10) ∧ render 10 list = [43, 32, 47, 104, 47, 97, 47, 98, 10, 10, 47, 104, 47, 97, 13, 10] ∧
    readList [47, 104] 10 false (render 10 list) = [([[97], [98]], true), ([[97]], false)] := by
  refine ⟨?_, by decide +kernel, by decide +kernel⟩
  intro r hr
  simp only [list, List.mem_cons, List.not_mem_nil, or_false] at hr
  rcases hr with rfl | rfl | rfl | rfl <;> simp [Raw.ok, List.prefix_iff_eq_take]

example : out (parseArgs env [.globlist (render 10 list) false]) = some [[], [[97]], [[97], [98]], [[99]], [[100]]] := by decide +kernel
example : (parseArgs env [.glob [47, 104, 47, 97] true]).toOption.isNone = true := by decide +kernel
example : isGlob [47, 101, 116, 99] = false ∧ ¬ comps env.base <+: comps [47, 101, 116, 99] := by
  rw [List.prefix_iff_eq_take]
  decide +kernel

/-- `--max-file-size 7`, with a Python `int` which reads one digit -/
example : ∃ c, condsOf { env with int := fun t => match t with | [c] => some (c.toNat - 48 : Int) | _ => none } (.size [55] true) = .ok [c] ∧
    (c.apply [[97]] (some ⟨.reg, 8, 0⟩)).map (·.1) = some (some .excl) ∧ (c.apply [[97]] (some ⟨.reg, 7, 0⟩)).map (·.1) = some none := ⟨_, rfl, rfl, rfl⟩

/-- **Not absolute (F114).** A relative path is taken for the absolute one with the same components (the current directory doesn't matter): with the base directory `/h`, the option
`--exclude h/a` given anywhere excludes `/h/a`; and with the base directory given as `h`, the path `/h/a` (another directory unless the current one is `/`) stands for `h/a`. -/
theorem relative_as_absolute : relIndex [47, 104] [104, 47, 97] = some [[97]] ∧ relIndex [104] [47, 104, 47, 97] = some [[97]] := by decide +kernel

/-- **Signs.** A file whose path begins with `- ` can't be listed without a sign: it's taken for the exclusion of something else. -/
theorem sign_in_name : signOf true [45, 32, 97] = (false, [97]) := by decide +kernel

end Verif.C77
