import Verif.Model.Owners
import Mathlib.Order.MinMax
import Mathlib.Data.List.Induction
/-! # C33: owner mapping -/
namespace Verif.C33
open Verif.Owners

/-! ### specification -/

/-- A line of a mapping file, without surrounding blanks: `old:new` -/
def Line (line old new : Str) : Prop := line = old ++ ':' :: new ∧ ':' ∉ old ∧ ':' ∉ new

/-- what the right hand side of a line stands for: a number, or else a name looked up in the target's database -/
def Target (int : Str → Option Int) (db : Db) (new : Str) (r : Option Int) : Prop :=
  (∃ n, int new = some n ∧ r = some n) ∨ (int new = none ∧ r = getpwnam db new)

/-- the last line in the file for which `P` holds of the left hand side -/
def LastFor (strip : Str → Str) (lines : List Str) (P : Str → Prop) (new : Str) : Prop :=
  ∃ before line after old, lines = before ++ line :: after ∧ Line (strip line) old new ∧ P old ∧
    ∀ l ∈ after, ∀ o n, Line (strip l) o n → ¬ P o

/-- the file has a line for the name -/
def ForName (int : Str → Option Int) (strip : Str → Str) (lines : List Str) (name new : Str) : Prop :=
  LastFor strip lines (fun old => int old = none ∧ old = name) new
/-- the file has a line for the number -/
def ForId (int : Str → Option Int) (strip : Str → Str) (lines : List Str) (id : Int) (new : Str) : Prop :=
  LastFor strip lines (fun old => int old = some id) new

/-- the id on the target of an owner with number `id` and name `name` (empty: unknown), for a mapping file with the lines `lines`;
`none`: cannot be mapped -/
inductive Maps (int : Str → Option Int) (strip : Str → Str) (db : Db) (lines : List Str) (id : Int) (name : Str) : Option Int → Prop
  | byName {new : Str} {r : Option Int} : name ≠ [] → ForName int strip lines name new → Target int db new r → Maps int strip db lines id name r
  | sameName {n : Int} : name ≠ [] → (∀ new, ¬ ForName int strip lines name new) → getpwnam db name = some n → Maps int strip db lines id name (some n)
  | byId {new : Str} {r : Option Int} : (name ≠ [] → (∀ new, ¬ ForName int strip lines name new) ∧ getpwnam db name = none) → ForId int strip lines id new →
      Target int db new r → Maps int strip db lines id name r
  | unmapped : (name ≠ [] → (∀ new, ¬ ForName int strip lines name new) ∧ getpwnam db name = none) → (∀ new, ¬ ForId int strip lines id new) →
      Maps int strip db lines id name none

/-! ### splitting lines -/

theorem split_ne_nil (c : Char) (s : Str) : split c s ≠ [] := by
  cases s with
  | nil => simp [split]
  | cons x xs =>
    simp only [split]
    split
    · simp
    · split <;> simp

theorem split_notin {c : Char} {s : Str} (h : c ∉ s) : split c s = [s] := by
  induction s with
  | nil => rfl
  | cons x xs ih =>
    simp only [List.mem_cons, not_or] at h
    simp only [split]
    rw [if_neg (fun hx => h.1 hx.symm), ih h.2]

theorem split_append {c : Char} {s t : Str} (h : c ∉ s) : split c (s ++ c :: t) = s :: split c t := by
  induction s with
  | nil => simp [split]
  | cons x xs ih =>
    simp only [List.mem_cons, not_or] at h
    simp only [List.cons_append, split]
    rw [if_neg (fun hx => h.1 hx.symm), ih h.2]

theorem split_eq_one {c : Char} {s t : Str} (h : split c s = [t]) : s = t ∧ c ∉ t := by
  induction s generalizing t with
  | nil => simp [split] at h; subst h; simp
  | cons x xs ih =>
    simp only [split] at h
    split at h
    · simp at h; exact absurd h.2 (split_ne_nil _ _)
    · rename_i hx
      split at h
      · rename_i he; exact absurd he (split_ne_nil _ _)
      · rename_i y ys he
        simp at h
        obtain ⟨rfl, rfl⟩ := h
        obtain ⟨rfl, h2⟩ := ih he
        exact ⟨rfl, by simp [h2]; exact fun h => hx h.symm⟩

theorem split_eq_two {c : Char} {s t u : Str} : split c s = [t, u] ↔ s = t ++ c :: u ∧ c ∉ t ∧ c ∉ u := by
  constructor
  · intro h
    induction s generalizing t with
    | nil => simp [split] at h
    | cons x xs ih =>
      simp only [split] at h
      split at h
      · rename_i hx
        simp at h
        obtain ⟨rfl, h⟩ := h
        obtain ⟨rfl, h2⟩ := split_eq_one h
        exact ⟨by simp [hx], by simp, h2⟩
      · rename_i hx
        split at h
        · rename_i he; exact absurd he (split_ne_nil _ _)
        · rename_i y ys he
          simp at h
          obtain ⟨rfl, rfl⟩ := h
          obtain ⟨rfl, h2, h3⟩ := ih he
          exact ⟨rfl, by simp [h2]; exact fun h => hx h.symm, h3⟩
  · rintro ⟨rfl, h1, h2⟩
    rw [split_append h1, split_notin h2]

/-! ### the file is read as specified -/

variable {int : Str → Option Int} {strip : Str → Str}

/-- the right hand side of the last line for which `P` holds of the left hand side -/
def lastFor (strip : Str → Str) (lines : List Str) (P : Str → Bool) : Option Str :=
  (lines.reverse.filterMap fun l => match split ':' (strip l) with
    | [old, new] => if P old then some new else none
    | _ => none).head?

theorem lastFor_snoc (lines : List Str) (l : Str) (P : Str → Bool) :
    lastFor strip (lines ++ [l]) P = (match split ':' (strip l) with
      | [old, new] => if P old then some new else none
      | _ => none).or (lastFor strip lines P) := by
  simp only [lastFor, List.reverse_append, List.reverse_cons, List.reverse_nil, List.nil_append, List.singleton_append, List.filterMap_cons]
  split <;> split <;> simp_all

theorem line_split {s o n : Str} : Line s o n ↔ split ':' s = [o, n] := split_eq_two.symm

theorem lastFor_iff {lines : List Str} {P : Str → Bool} {new : Str} :
    lastFor strip lines P = some new ↔ LastFor strip lines (fun o => P o = true) new := by
  induction lines using List.reverseRecOn with
  | nil =>
    simp only [lastFor, List.reverse_nil, List.filterMap_nil, List.head?_nil, reduceCtorEq, false_iff]
    rintro ⟨b, l, a, o, h, _⟩
    simp at h
  | append_singleton lines l ih =>
    rw [lastFor_snoc, Option.or_eq_some_iff, ih]
    have key : ∀ x, (match split ':' (strip l) with
      | [old, new] => if P old then some new else none
      | _ => none) = some x ↔ ∃ o, Line (strip l) o x ∧ P o = true := by
      intro x
      split
      · rename_i o n he
        constructor
        · intro h
          split at h
          · rename_i hp; cases h; exact ⟨o, line_split.2 he, hp⟩
          · cases h
        · rintro ⟨o', h1, h2⟩
          rw [line_split, he] at h1
          simp at h1
          obtain ⟨rfl, rfl⟩ := h1
          simp [h2]
      · rename_i hne
        simp only [reduceCtorEq, false_iff]
        rintro ⟨o', h1, h2⟩
        exact hne _ _ (line_split.1 h1)
    constructor
    · rintro (h | ⟨h, hl⟩)
      · obtain ⟨o, h1, h2⟩ := (key new).1 h
        exact ⟨lines, l, [], o, rfl, h1, h2, by simp⟩
      · obtain ⟨b, l', a, o, rfl, h1, h2, h3⟩ := hl
        refine ⟨b, l', a ++ [l], o, by simp, h1, h2, ?_⟩
        intro m hm o' n hmo hp
        rcases List.mem_append.1 hm with hm | hm
        · exact h3 m hm o' n hmo hp
        · simp at hm; subst hm
          rw [(key n).2 ⟨o', hmo, hp⟩] at h
          cases h
    · rintro ⟨b, l', a, o, he, h1, h2, h3⟩
      rcases List.eq_nil_or_concat a with rfl | ⟨a', x, rfl⟩
      · obtain ⟨rfl, hx⟩ := List.append_inj' he rfl
        simp at hx; subst hx
        exact .inl ((key new).2 ⟨o, h1, h2⟩)
      · rw [List.concat_eq_append] at he h3
        have he' : lines ++ [l] = (b ++ l' :: a') ++ [x] := by simp [he]
        obtain ⟨rfl, hx⟩ := List.append_inj' he' rfl
        simp at hx; subst hx
        refine .inr ⟨?_, b, l', a', o, rfl, h1, h2, fun m hm => h3 m (by simp [hm])⟩
        cases hk : (match split ':' (strip l) with
          | [old, new] => if P old then some new else none
          | _ => none) with
        | none => rfl
        | some y =>
          obtain ⟨o', h4, h5⟩ := (key y).1 hk
          exact absurd h5 (h3 l (by simp) o' y h4)

/-- a line which is not blank and has not exactly one colon -/
def Bad (strip : Str → Str) (line : Str) : Prop := strip line ≠ [] ∧ ∀ o n, ¬ Line (strip line) o n

theorem define_snoc (f : Str → Option Int) (lines : List Str) (l : Str) :
    define int strip f (lines ++ [l]) = (define int strip f lines).bind (addLine int strip f · l) := by
  simp [define, List.foldlM_append]

/-- The file is refused exactly if it has a bad line. -/
theorem bad_line_refused (f : Str → Option Int) (lines : List Str) : define int strip f lines = none ↔ ∃ l ∈ lines, Bad strip l := by
  induction lines using List.reverseRecOn with
  | nil => simp [define]
  | append_singleton lines l ih =>
    rw [define_snoc]
    cases hd : define int strip f lines with
    | none =>
      obtain ⟨x, hx, hb⟩ := ih.1 hd
      simp only [Option.bind_none, true_iff]
      exact ⟨x, by simp [hx], hb⟩
    | some m =>
      have hno : ¬ ∃ x ∈ lines, Bad strip x := fun h => by rw [ih.2 h] at hd; cases hd
      have : addLine int strip f m l = none ↔ Bad strip l := by
        simp only [addLine, Bad, line_split]
        split
        · simp [*]
        · split
          · rename_i h he
            simp only [he]
            constructor
            · intro h; split at h <;> cases h
            · rintro ⟨_, h2⟩; exact absurd rfl (h2 _ _)
          · rename_i h _ hne
            simp only [true_iff]
            exact ⟨h, hne⟩
      simp only [Option.bind_some, this]
      constructor
      · intro h; exact ⟨l, by simp, h⟩
      · rintro ⟨x, hx, hb⟩
        rcases List.mem_append.1 hx with hx | hx
        · exact absurd ⟨x, hx, hb⟩ hno
        · simp at hx; subst hx; exact hb

theorem define_dicts {f : Str → Option Int} {lines : List Str} {m : Defined} (h : define int strip f lines = some m) :
    (∀ name, m.names name = (lastFor strip lines (fun o => (int o).isNone && o == name)).map (newId int f)) ∧
    (∀ id, m.ids id = (lastFor strip lines (fun o => int o == some id)).map (newId int f)) := by
  induction lines using List.reverseRecOn generalizing m with
  | nil => simp [define] at h; subst h; simp [lastFor]
  | append_singleton lines l ih =>
    rw [define_snoc] at h
    obtain ⟨m', h1, h2⟩ := Option.bind_eq_some_iff.1 h
    obtain ⟨i1, i2⟩ := ih h1
    simp only [lastFor_snoc]
    simp only [addLine] at h2
    split at h2
    · rename_i he; cases h2
      simp [he, split, i1, i2]
    · split at h2
      · rename_i o n he
        rw [he]
        split at h2
        · rename_i k hk; cases h2
          refine ⟨fun name => ?_, fun id => ?_⟩
          · simp [hk, i1]
          · simp only [hk]
            by_cases hid : id = k
            · simp [hid]
            · simp [hid, Ne.symm hid, i2]
        · rename_i hk; cases h2
          refine ⟨fun name => ?_, fun id => ?_⟩
          · simp only [hk]
            by_cases hn : name = o
            · simp [hn]
            · simp [hn, Ne.symm hn, i1]
          · simp [hk, i2]
      · cases h2

theorem target_newId (db : Db) (new : Str) : Target int db new (newId int (getpwnam db) new) := by
  simp only [Target, newId]
  cases h : int new <;> simp

/-- A mapping file which is accepted is applied as specified (also to the owners in ACLs). -/
theorem defined_maps {db : Db} {lines : List Str} {m : Defined} (h : define int strip (getpwnam db) lines = some m) (id : Int) (name : Str) :
    Maps int strip db lines id name (m.acl (getpwnam db) id name) := by
  obtain ⟨h1, h2⟩ := define_dicts h
  have hN : ∀ new, lastFor strip lines (fun o => (int o).isNone && o == name) = some new ↔ ForName int strip lines name new := fun new => by
    rw [lastFor_iff]; simp only [ForName, Bool.and_eq_true, Option.isNone_iff_eq_none, beq_iff_eq]
  have hI : ∀ new, lastFor strip lines (fun o => int o == some id) = some new ↔ ForId int strip lines id new := fun new => by
    rw [lastFor_iff]; simp only [ForId, beq_iff_eq]
  have hI' : (name ≠ [] → (∀ new, ¬ ForName int strip lines name new) ∧ getpwnam db name = none) →
      Maps int strip db lines id name (match m.ids id with | some r => r | none => none) := by
    intro hn
    rw [h2]
    cases hl : lastFor strip lines (fun o => int o == some id) with
    | none => exact .unmapped hn fun new hf => by rw [(hI new).2 hf] at hl; cases hl
    | some new => exact .byId hn ((hI new).1 hl) (target_newId db new)
  simp only [Defined.acl]
  split
  · rename_i hn; exact hI' fun h => absurd hn h
  · rename_i hn
    cases hl : lastFor strip lines (fun o => (int o).isNone && o == name) with
    | some new =>
      rw [h1, hl]
      exact .byName hn ((hN new).1 hl) (target_newId db new)
    | none =>
      have hno : ∀ new, ¬ ForName int strip lines name new := fun new hf => by rw [(hN new).2 hf] at hl; cases hl
      rw [h1, hl]
      simp only [Option.map_none]
      cases hg : getpwnam db name with
      | some n => exact .sameName hn hno hg
      | none => exact hI' fun _ => ⟨hno, hg⟩

/-- the last line of some kind is only one -/
theorem lastFor_unique {lines : List Str} {P : Str → Prop} {x y : Str} (hx : LastFor strip lines P x) (hy : LastFor strip lines P y) : x = y := by
  classical
  have hx' := (lastFor_iff (P := fun o => decide (P o))).2 (by simpa using hx)
  have hy' := (lastFor_iff (P := fun o => decide (P o))).2 (by simpa using hy)
  rw [hx'] at hy'
  simpa using hy'

theorem target_unique {db : Db} {new : Str} {r s : Option Int} (hr : Target int db new r) (hs : Target int db new s) : r = s := by
  rcases hr with ⟨n, h1, rfl⟩ | ⟨h1, rfl⟩ <;> rcases hs with ⟨k, h2, rfl⟩ | ⟨h2, rfl⟩ <;> simp_all

/-- The specification determines the result. -/
theorem maps_unique {db : Db} {lines : List Str} {id : Int} {name : Str} {r s : Option Int} (hr : Maps int strip db lines id name r)
    (hs : Maps int strip db lines id name s) : r = s := by
  cases hr with
  | byName a b c =>
    cases hs with
    | byName a' b' c' => have := lastFor_unique b b'; subst this; exact target_unique c c'
    | sameName a' b' c' => exact absurd b (b' _)
    | byId a' b' c' => exact absurd b ((a' a).1 _)
    | unmapped a' b' => exact absurd b ((a' a).1 _)
  | sameName a b c =>
    cases hs with
    | byName a' b' c' => exact absurd b' (b _)
    | sameName a' b' c' => rw [c] at c'; exact c'
    | byId a' b' c' => rw [(a' a).2] at c; cases c
    | unmapped a' b' => rw [(a' a).2] at c; cases c
  | byId a b c =>
    cases hs with
    | byName a' b' c' => exact absurd b' ((a a').1 _)
    | sameName a' b' c' => rw [(a a').2] at c'; cases c'
    | byId a' b' c' => have := lastFor_unique b b'; subst this; exact target_unique c c'
    | unmapped a' b' => exact absurd b (b' _)
  | unmapped a b =>
    cases hs with
    | byName a' b' c' => exact absurd b' ((a a').1 _)
    | sameName a' b' c' => rw [(a a').2] at c'; cases c'
    | byId a' b' c' => exact absurd b' (b _)
    | unmapped a' b' => rfl

/-- C33: with a mapping file (which is not empty) and without numerical ids: files get the owner of the specification, or keep the number if it cannot be mapped;
entries of ACLs which cannot be mapped are dropped. -/
theorem mapping_applied {db : Db} {text : Str} {m : Map} (ht : text ≠ []) (h : initMap int strip (getpwnam db) (some text) false = some m) (id : Int) (name : Str) :
    ∃ r, Maps int strip db (split '\n' text) id name r ∧ m.call (getpwnam db) id name = r.getD id ∧ m.acl (getpwnam db) id name = r := by
  cases text with
  | nil => exact absurd rfl ht
  | cons x xs =>
    simp only [initMap, Bool.false_eq_true, if_false, Option.map_eq_some_iff] at h
    obtain ⟨d, h1, rfl⟩ := h
    exact ⟨_, defined_maps h1 id name, rfl, rfl⟩

/-- without a mapping file (or with an empty one): the same name on the target, or else the same number; unknown names are dropped from ACLs -/
theorem no_mapping {db : Db} {m : Map} {text : Option Str} (ht : text = none ∨ text = some []) (h : initMap int strip (getpwnam db) text false = some m)
    (id : Int) (name : Str) :
    (name = [] → m.call (getpwnam db) id name = id ∧ m.acl (getpwnam db) id name = some id) ∧
    (name ≠ [] → ∀ n, getpwnam db name = some n → m.call (getpwnam db) id name = n ∧ m.acl (getpwnam db) id name = some n) ∧
    (name ≠ [] → getpwnam db name = none → m.call (getpwnam db) id name = id ∧ m.acl (getpwnam db) id name = none) := by
  have : m = .plain := by rcases ht with rfl | rfl <;> simpa [initMap] using h.symm
  subst this
  refine ⟨?_, ?_, ?_⟩
  · rintro rfl; simp [Map.call, Map.acl]
  · intro hn n hg; simp [Map.call, Map.acl, hn, hg]
  · intro hn hg; simp [Map.call, Map.acl, hn, hg]

/-- numerical ids: every number is kept -/
theorem numerical {db : Db} {m : Map} {text : Option Str} (h : initMap int strip (getpwnam db) text true = some m) (id : Int) (name : Str) :
    m.call (getpwnam db) id name = id ∧ m.acl (getpwnam db) id name = some id := by
  simp [initMap] at h; subst h; simp [Map.call, Map.acl]

/-! ### the database's cache -/

/-- no name and no id is in the database twice -/
def Unique (db : Db) : Prop := (db.map (·.1)).Nodup ∧ (db.map (·.2)).Nodup

/-- a cache which only holds what is in the database -/
structure Good (db : Db) (c : Cache) : Prop where
  ids : ∀ i r, c.uid2uname i = some r → r = getpwuid db i
  names : ∀ n r, c.uname2uid n = some r → r = getpwnam db n

theorem good_empty (db : Db) : Good db .empty := ⟨fun _ _ h => by simp [Cache.empty] at h, fun _ _ h => by simp [Cache.empty] at h⟩

theorem getpwnam_iff {db : Db} (hu : Unique db) {n : Str} {i : Int} : getpwnam db n = some i ↔ (n, i) ∈ db := by
  induction db with
  | nil => simp [getpwnam]
  | cons e db ih =>
    obtain ⟨h1, h2⟩ := hu
    simp only [List.map_cons, List.nodup_cons] at h1 h2
    simp only [getpwnam, List.find?_cons] at ih ⊢
    by_cases he : e.1 = n
    · simp only [he, decide_true, Option.map_some, Option.some.injEq, List.mem_cons]
      constructor
      · intro h; left; rw [← he, ← h]
      · rintro (h | h)
        · rw [← h]
        · exact absurd (by rw [he]; exact List.mem_map_of_mem h) h1.1
    · simp only [he, decide_false, List.mem_cons]
      rw [ih ⟨h1.2, h2.2⟩]
      constructor
      · exact .inr
      · rintro (h | h)
        · exact absurd (by rw [← h]) he
        · exact h

theorem getpwuid_iff {db : Db} (hu : Unique db) {n : Str} {i : Int} : getpwuid db i = some n ↔ (n, i) ∈ db := by
  induction db with
  | nil => simp [getpwuid]
  | cons e db ih =>
    obtain ⟨h1, h2⟩ := hu
    simp only [List.map_cons, List.nodup_cons] at h1 h2
    simp only [getpwuid, List.find?_cons] at ih ⊢
    by_cases he : e.2 = i
    · simp only [he, decide_true, Option.map_some, Option.some.injEq, List.mem_cons]
      constructor
      · intro h; left; rw [← he, ← h]
      · rintro (h | h)
        · rw [← h]
        · exact absurd (by rw [he]; exact List.mem_map_of_mem h) h2.1
    · simp only [he, decide_false, List.mem_cons]
      rw [ih ⟨h1.2, h2.2⟩]
      constructor
      · exact .inr
      · rintro (h | h)
        · exact absurd (by rw [← h]) he
        · exact h

/-- any lookups, in any order -/
def lookups (db : Db) (c : Cache) : List (Int ⊕ Str) → Cache
  | [] => c
  | .inl i :: qs => lookups db (uid2uname db c i).2 qs
  | .inr n :: qs => lookups db (uname2uid db c n).2 qs

theorem good_uid2uname {db : Db} (hu : Unique db) {c : Cache} (hg : Good db c) (i : Int) :
    (uid2uname db c i).1 = getpwuid db i ∧ Good db (uid2uname db c i).2 := by
  simp only [uid2uname]
  split
  · rename_i r hr; exact ⟨hg.ids i r hr, hg⟩
  · split
    · rename_i n hn
      refine ⟨hn.symm, ⟨fun j r h => ?_, fun m r h => ?_⟩⟩
      · simp only at h; split at h
        · rename_i hj; cases h; rw [hj, hn]
        · exact hg.ids j r h
      · simp only at h; split at h
        · rename_i hj; cases h; rw [hj]; exact ((getpwnam_iff hu).2 ((getpwuid_iff hu).1 hn)).symm
        · exact hg.names m r h
    · rename_i hn
      refine ⟨hn.symm, ⟨fun j r h => ?_, hg.names⟩⟩
      simp only at h; split at h
      · rename_i hj; cases h; rw [hj, hn]
      · exact hg.ids j r h

theorem good_uname2uid {db : Db} (hu : Unique db) {c : Cache} (hg : Good db c) (n : Str) :
    (uname2uid db c n).1 = getpwnam db n ∧ Good db (uname2uid db c n).2 := by
  simp only [uname2uid]
  split
  · rename_i r hr; exact ⟨hg.names n r hr, hg⟩
  · split
    · rename_i i hn
      refine ⟨hn.symm, ⟨fun j r h => ?_, fun m r h => ?_⟩⟩
      · simp only at h; split at h
        · rename_i hj; cases h; rw [hj]; exact ((getpwuid_iff hu).2 ((getpwnam_iff hu).1 hn)).symm
        · exact hg.ids j r h
      · simp only at h; split at h
        · rename_i hj; cases h; rw [hj, hn]
        · exact hg.names m r h
    · rename_i hn
      refine ⟨hn.symm, ⟨hg.ids, fun j r h => ?_⟩⟩
      simp only at h; split at h
      · rename_i hj; cases h; rw [hj, hn]
      · exact hg.names j r h

/-- The caches don't change the answers, whatever has been asked before, if the database has no duplicate ids or names. -/
theorem cache_transparent {db : Db} (hu : Unique db) (qs : List (Int ⊕ Str)) (id : Int) (name : Str) :
    (uid2uname db (lookups db .empty qs) id).1 = getpwuid db id ∧ (uname2uid db (lookups db .empty qs) name).1 = getpwnam db name := by
  have : ∀ c, Good db c → Good db (lookups db c qs) := by
    induction qs with
    | nil => exact fun c h => h
    | cons q qs ih =>
      intro c hc
      cases q with
      | inl i => exact ih _ (good_uid2uname hu hc i).2
      | inr n => exact ih _ (good_uname2uid hu hc n).2
  have hg := this _ (good_empty db)
  exact ⟨(good_uid2uname hu hg id).1, (good_uname2uid hu hg name).1⟩

/-! ### examples -/

/-- decimal numbers -/
def digits : Str → Option Int
  | [] => none
  | s => if s.all (fun c => '0' ≤ c ∧ c ≤ '9') then some (s.foldl (fun n c => 10 * n + (c.toNat - 48 : Int)) 0) else none
def noStrip : Str → Str := fun s => s

def db : Db := [("root".toList, 0), ("alice".toList, 1000), ("bob".toList, 1001)]
def mapping : Str := "carol:bob\n1002:7\n\nbob:8\n1003:nobody".toList

example : (initMap digits noStrip (getpwnam db) (some mapping) false).map (fun m =>
    [m.call (getpwnam db) 55 "carol".toList, m.call (getpwnam db) 55 "bob".toList, m.call (getpwnam db) 1002 "alice".toList,
     m.call (getpwnam db) 1002 "dave".toList, m.call (getpwnam db) 1003 [], m.call (getpwnam db) 9 "dave".toList]) =
    some [1001, 8, 1000, 7, 1003, 9] := by decide +kernel

example : initMap digits noStrip (getpwnam db) (some "a:b:c".toList) false |>.isNone := by decide +kernel
example : Bad noStrip "a:b:c".toList := by
  refine ⟨by decide, fun o n h => ?_⟩
  have := line_split.1 h
  have hs : split ':' "a:b:c".toList = ["a".toList, "b".toList, "c".toList] := by decide +kernel
  simp only [noStrip] at this
  rw [hs] at this
  simp at this

example : Unique db := by simp only [Unique]; decide +kernel

/-- Finding F29: the option `--preserve-numerical-ids` has no effect: it is looked for under another name. -/
theorem numerical_option_ignored (f : Str → Option Int) (text : Option Str) :
    initOwners int strip f (values text true) = initOwners int strip f (values text false) := by
  simp [initOwners, values]

/-- e.g. alice's files get the number of the target's alice -/
theorem numerical_option_wrong : ∃ m, initOwners digits noStrip (getpwnam db) (values none true) = some m ∧ m.call (getpwnam db) 500 "alice".toList = 1000 :=
  ⟨.plain, by simp [initOwners, values, initMap], by decide +kernel⟩

/-- Finding F30: with a mapping file an ACL entry for a number without a name is dropped if the number is not listed, though without a mapping file it
is kept ("If a name or id is not listed, they are treated in the default way"). -/
theorem acl_number_dropped : ∃ m m', initMap digits noStrip (getpwnam db) (some "carol:bob".toList) false = some m ∧
    m.acl (getpwnam db) 5 [] = none ∧ initMap digits noStrip (getpwnam db) none false = some m' ∧ m'.acl (getpwnam db) 5 [] = some 5 := by
  refine ⟨(initMap digits noStrip (getpwnam db) (some "carol:bob".toList) false).get (by decide +kernel), .plain, ?_, ?_, rfl, rfl⟩
  · simp
  · decide +kernel

/-- Finding F31: with two names for an id (as root and toor) the recorded name depends on what has been looked up before. -/
theorem cache_not_transparent : ∃ db : Db, (uid2uname db (lookups db .empty [.inr "toor".toList]) 0).1 ≠ (uid2uname db .empty 0).1 :=
  ⟨[("root".toList, 0), ("toor".toList, 0)], by decide +kernel⟩

end Verif.C33
