import Verif.Model.Plugins
import Mathlib.Data.List.Nodup

/-
C91  A plug-in can't take the place of a built-in part
-/
namespace Verif.C91
open Verif.Plugins

variable {K V : Type} [DecidableEq K]

theorem put_lookup (d : List (K × V)) (k : K) (v : V) (x : K) : (put d k v).lookup x = if x = k then some v else d.lookup x := by
  induction d with
  | nil =>
    by_cases h : x = k
    · subst h; simp [put]
    · have : (x == k) = false := by simpa using h
      simp [put, List.lookup_cons, this, h]
  | cons a d ih =>
    obtain ⟨k', v'⟩ := a
    by_cases hk : k' = k
    · subst hk
      by_cases h : x = k'
      · subst h; simp [put]
      · have : (x == k') = false := by simpa using h
        simp [put, List.lookup_cons, this, h]
    · simp only [put, if_neg hk, List.lookup_cons, ih]
      by_cases h : x = k'
      · subst h; simp [hk]
      · have : (x == k') = false := by simpa using h
        simp [this]

theorem put_keys (d : List (K × V)) (k : K) (v : V) : (put d k v).map (·.1) = if k ∈ d.map (·.1) then d.map (·.1) else d.map (·.1) ++ [k] := by
  induction d with
  | nil => simp [put]
  | cons a d ih =>
    obtain ⟨k', v'⟩ := a
    by_cases hk : k' = k
    · subst hk; simp [put]
    · have hk' : ¬k = k' := fun h => hk h.symm
      simp only [put, if_neg hk, List.map_cons, ih, List.mem_cons, hk', false_or]
      split <;> simp

theorem put_nodup {d : List (K × V)} (h : (d.map (·.1)).Nodup) (k : K) (v : V) : ((put d k v).map (·.1)).Nodup := by
  rw [put_keys]
  split
  · exact h
  · next hk => exact List.nodup_append.2 ⟨h, by simp, by simpa using fun a b hab e => hk (by subst e; simpa using ⟨b, hab⟩)⟩

theorem put_new {d : List (K × V)} {k : K} (h : k ∉ d.map (·.1)) (v : V) : put d k v = d ++ [(k, v)] := by
  induction d with
  | nil => rfl
  | cons a d ih =>
    obtain ⟨k', v'⟩ := a
    simp only [List.map_cons, List.mem_cons, not_or] at h
    simp [put, Ne.symm h.1, ih h.2]

theorem put_same {d : List (K × V)} {k : K} {v : V} (hn : (d.map (·.1)).Nodup) (h : (k, v) ∈ d) : put d k v = d := by
  induction d with
  | nil => simp at h
  | cons a d ih =>
    obtain ⟨k', v'⟩ := a
    simp only [List.map_cons, List.nodup_cons] at hn
    rcases List.mem_cons.1 h with e | h
    · cases e; simp [put]
    · have : k' ≠ k := by rintro rfl; exact hn.1 (List.mem_map.2 ⟨_, h, rfl⟩)
      simp [put, this, ih hn.2 h]

/-- the modules are kept with their names, and once -/
def Faithful (load : String → Plugin) (d : List (String × Plugin)) : Prop := (d.map (·.1)).Nodup ∧ ∀ m ∈ d, m.2 = load m.1

theorem load_all (load : String → Plugin) (l : List String) {d : List (String × Plugin)} (h : Faithful load d) :
    ∃ new, l.foldl (fun d n => put d n (load n)) d = d ++ new ∧ Faithful load (d ++ new) ∧ (∀ m ∈ new, m.1 ∈ l) ∧
      ∀ n ∈ l, (n, load n) ∈ d ++ new := by
  induction l generalizing d with
  | nil => exact ⟨[], by simp, by simpa using h, by simp, by simp⟩
  | cons n l ih =>
    by_cases hn : n ∈ d.map (·.1)
    · obtain ⟨m, hm, rfl⟩ := List.mem_map.1 hn
      have hm' : (m.1, load m.1) ∈ d := by rw [← h.2 m hm]; exact hm
      obtain ⟨new, h1, h2, h3, h4⟩ := ih h
      refine ⟨new, by rw [List.foldl_cons, put_same h.1 hm', h1], h2, fun x hx => List.mem_cons_of_mem _ (h3 x hx), ?_⟩
      intro x hx
      rcases List.mem_cons.1 hx with rfl | hx
      · exact List.mem_append_left _ hm'
      · exact h4 x hx
    · have hF : Faithful load (d ++ [(n, load n)]) := by
        constructor
        · have := put_nodup h.1 n (load n)
          rwa [put_new hn] at this
        · intro m hm
          rcases List.mem_append.1 hm with hm | hm
          · exact h.2 m hm
          · simp only [List.mem_singleton] at hm; rw [hm]
      obtain ⟨new, h1, h2, h3, h4⟩ := ih hF
      rw [List.append_assoc] at h1 h2
      refine ⟨(n, load n) :: new, by rw [List.foldl_cons, put_new hn, h1]; rfl, h2, ?_, ?_⟩
      · intro m hm
        rcases List.mem_cons.1 hm with rfl | hm
        · simp
        · exact List.mem_cons_of_mem _ (h3 m hm)
      · intro x hx
        rcases List.mem_cons.1 hx with rfl | hx
        · simp
        · have := h4 x hx
          rw [List.append_assoc] at this; exact this

/-- The modules which are found: those of other people first, then the built-in ones. -/
theorem modules_found (load : String → Plugin) (pre : String) (top inner : List String) (hdot : ∀ n ∈ inner, n ∉ top) :
    ∃ a b, modules load pre top inner = a ++ b ∧ Faithful load (a ++ b) ∧ (∀ m, m ∈ a ↔ m.1 ∈ top ∧ m.1.startsWith pre = true ∧ m.2 = load m.1) ∧
      ∀ m, m ∈ b ↔ m.1 ∈ inner ∧ m.2 = load m.1 := by
  obtain ⟨a, h1, h2, h3, h4⟩ := load_all load (top.filter fun n => n.startsWith pre) (d := []) ⟨by simp, by simp⟩
  rw [List.nil_append] at h1 h2 h4
  obtain ⟨b, k1, k2, k3, k4⟩ := load_all load inner h2
  refine ⟨a, b, by rw [modules, h1, k1], k2, ?_, ?_⟩
  · intro m
    constructor
    · intro hm
      have := h3 m hm
      rw [List.mem_filter] at this
      exact ⟨this.1, this.2, h2.2 m hm⟩
    · rintro ⟨hm1, hm2, hm3⟩
      have := h4 m.1 (List.mem_filter.2 ⟨hm1, hm2⟩)
      rw [← hm3] at this; exact this
  · intro m
    constructor
    · intro hm
      exact ⟨k3 m hm, k2.2 m (List.mem_append_right _ hm)⟩
    · rintro ⟨hm1, hm2⟩
      have := k4 m.1 hm1
      rw [← hm2] at this
      rcases List.mem_append.1 this with h | h
      · have := h3 m h
        exact absurd (List.mem_filter.1 this).1 (hdot _ hm1)
      · exact h

/-- a dictionary by the names of the plug-ins -/
theorem names_lookup (ms : List (String × Plugin)) (d : List (String × Plugin)) (p : String) :
    (ms.foldl (fun d m => put d m.2.name m.2) d).lookup p =
      (((ms.map (·.2)).reverse.find? fun x => x.name == p) <|> d.lookup p) := by
  induction ms generalizing d with
  | nil => simp
  | cons m ms ih =>
    rw [List.foldl_cons, ih, put_lookup, List.map_cons, List.reverse_cons, List.find?_append]
    cases (ms.map (·.2)).reverse.find? fun x => x.name == p with
    | some x => rfl
    | none =>
      by_cases h : p = m.2.name
      · subst h; simp
      · have : (m.2.name == p) = false := by simpa using fun e => h e.symm
        simp [this, h]

/-- C91 A built-in action (or kind of metadata) is the built-in one, whatever other modules are installed. (Names of top-level modules have no dot, so they
aren't names of built-in modules.) -/
theorem builtin (load : String → Plugin) (pre : String) (top inner : List String) (hdot : ∀ n ∈ inner, n ∉ top) {n : String} (hn : n ∈ inner)
    (huniq : ∀ n' ∈ inner, (load n').name = (load n).name → n' = n) : (discovered load pre top inner).lookup (load n).name = some (load n) := by
  obtain ⟨a, b, h1, -, -, h4⟩ := modules_found load pre top inner hdot
  rw [discovered, names_lookup, h1, List.map_append, List.reverse_append, List.find?_append]
  have : ((b.map (·.2)).reverse.find? fun x => x.name == (load n).name) = some (load n) := by
    cases hf : (b.map (·.2)).reverse.find? fun x => x.name == (load n).name with
    | none =>
      rw [List.find?_eq_none] at hf
      have := hf (load n) (by simpa using ⟨n, (h4 (n, load n)).2 ⟨hn, rfl⟩⟩)
      simp at this
    | some x =>
      have h5 := List.mem_of_find?_eq_some hf
      have h6 := List.find?_some hf
      simp only [List.mem_reverse, List.mem_map] at h5
      obtain ⟨m, hm, rfl⟩ := h5
      obtain ⟨h7, h8⟩ := (h4 m).1 hm
      rw [h8, huniq m.1 h7 (by rw [← h8]; simpa using h6)]
  rw [this]; rfl

/-- C91 A plug-in of someone else with a name of its own is offered. -/
theorem added (load : String → Plugin) (pre : String) (top inner : List String) (hdot : ∀ n ∈ inner, n ∉ top) {n : String} (hn : n ∈ top)
    (hpre : n.startsWith pre = true) (huniq : ∀ n', n' ∈ inner ∨ n' ∈ top ∧ n'.startsWith pre = true → (load n').name = (load n).name → n' = n) :
    (discovered load pre top inner).lookup (load n).name = some (load n) := by
  obtain ⟨a, b, h1, h2, h3, h4⟩ := modules_found load pre top inner hdot
  rw [discovered, names_lookup, h1]
  have : (((a ++ b).map (·.2)).reverse.find? fun x => x.name == (load n).name) = some (load n) := by
    cases hf : ((a ++ b).map (·.2)).reverse.find? fun x => x.name == (load n).name with
    | none =>
      rw [List.find?_eq_none] at hf
      have := hf (load n) (by rw [List.mem_reverse]; exact List.mem_map.2 ⟨(n, load n), List.mem_append_left _ ((h3 (n, load n)).2 ⟨hn, hpre, rfl⟩), rfl⟩)
      simp at this
    | some x =>
      have h5 := List.mem_of_find?_eq_some hf
      have h6 := List.find?_some hf
      rw [List.mem_reverse] at h5
      obtain ⟨m, hm, rfl⟩ := List.mem_map.1 h5
      have h8 := h2.2 m hm
      rw [h8, huniq m.1 ?_ (by rw [← h8]; simpa using h6)]
      rcases List.mem_append.1 hm with h | h
      · obtain ⟨q1, q2, -⟩ := (h3 m).1 h; exact .inr ⟨q1, q2⟩
      · exact .inl ((h4 m).1 h).1
  rw [this]; rfl

/-- C91 Nothing else is offered: each plug-in is that of a built-in module, or of a top-level one whose name has the prefix, and it goes by its own name. -/
theorem offered (load : String → Plugin) (pre : String) (top inner : List String) (hdot : ∀ n ∈ inner, n ∉ top) {p : String} {c : Plugin}
    (h : (discovered load pre top inner).lookup p = some c) :
    c.name = p ∧ ∃ n, load n = c ∧ (n ∈ inner ∨ n ∈ top ∧ n.startsWith pre = true) := by
  obtain ⟨a, b, h1, h2, h3, h4⟩ := modules_found load pre top inner hdot
  rw [discovered, names_lookup, h1] at h
  cases hf : ((a ++ b).map (·.2)).reverse.find? fun x => x.name == p with
  | none => rw [hf] at h; simp at h
  | some x =>
    rw [hf] at h
    have hx : x = c := by simpa using h
    subst hx
    have h5 := List.mem_of_find?_eq_some hf
    have h6 := List.find?_some hf
    rw [List.mem_reverse] at h5
    obtain ⟨m, hm, rfl⟩ := List.mem_map.1 h5
    refine ⟨by simpa using h6, m.1, (h2.2 m hm).symm, ?_⟩
    rcases List.mem_append.1 hm with h | h
    · obtain ⟨q1, q2, -⟩ := (h3 m).1 h; exact .inr ⟨q1, q2⟩
    · exact .inl ((h4 m).1 h).1

/-! ## Metadata -/

theorem sift_spec (l : List Plugin) (m : Option Plugin) (k : List Plugin) :
    sift l (m, k) = if (m.toList ++ l.filter (·.main)).length ≤ 1 then some ((m.toList ++ l.filter (·.main)).head?, k ++ l.filter fun p => !p.main) else none := by
  induction l generalizing m k with
  | nil => cases m <;> simp [sift]
  | cons p l ih =>
    by_cases hp : p.main = true
    · cases m with
      | none => simp [sift, hp, ih]
      | some q => simp [sift, hp]
    · simp only [Bool.not_eq_true] at hp
      simp [sift, hp, ih]

/-- C91 The kinds of metadata: there is exactly one main one, it comes first, and the others follow, each as often as it was found; or it fails. -/
theorem main_first (d : List (String × Plugin)) (l : List Plugin) :
    metaList d = some l ↔ ∃ m rest, l = m :: rest ∧ (d.map (·.2)).filter (fun p => p.main) = [m] ∧ rest = (d.map (·.2)).filter fun p => !p.main := by
  unfold metaList
  rw [sift_spec]
  generalize d.map (·.2) = x
  simp only [Option.toList_none, List.nil_append]
  generalize x.filter (fun p => p.main) = y
  generalize x.filter (fun p => !p.main) = z
  rcases y with _ | ⟨m, _ | ⟨q, r⟩⟩
  · simp
  · constructor
    · intro h
      have h : m :: z = l := by simpa using h
      exact ⟨m, z, h.symm, rfl, rfl⟩
    · rintro ⟨m', rest, rfl, h, rfl⟩
      simp only [List.cons.injEq, and_true] at h
      subst h; rfl
  · simp

/-- C91 It fails exactly if there is no main one or if there are several. -/
theorem main_needed (d : List (String × Plugin)) : metaList d = none ↔ ((d.map (·.2)).filter (fun p => p.main)).length ≠ 1 := by
  constructor
  · intro h h1
    obtain ⟨m, hm⟩ := List.length_eq_one_iff.1 h1
    have := (main_first d (m :: (d.map (·.2)).filter fun p => !p.main)).2 ⟨m, _, rfl, hm, rfl⟩
    rw [h] at this; cases this
  · intro h
    cases hl : metaList d with
    | none => rfl
    | some l =>
      obtain ⟨m, -, -, hm, -⟩ := (main_first d l).1 hl
      rw [hm] at h; simp at h

/-! ## The theorems speak about something -/

def demo : String → Plugin
  | "rdb_action_x" => ⟨"backup", 1, false⟩
  | "rdb_action_y" => ⟨"sync", 2, false⟩
  | "rdiffbackup.actions.backup" => ⟨"backup", 3, false⟩
  | "rdiffbackup.actions.list_" => ⟨"list", 4, false⟩
  | "rdb_meta_z" => ⟨"mine", 5, true⟩
  | "rdiffbackup.meta.stdattr" => ⟨"attr", 6, true⟩
  | "rdiffbackup.meta.ea" => ⟨"ea", 7, false⟩
  | _ => ⟨"?", 0, false⟩

def demoTop : List String := ["os", "rdb_action_x", "rdb_action_y", "sys"]
def demoInner : List String := ["rdiffbackup.actions.backup", "rdiffbackup.actions.list_"]

example : (discovered demo "rdb_action_" demoTop demoInner).lookup "backup" = some ⟨"backup", 3, false⟩ :=
  builtin demo "rdb_action_" demoTop demoInner (by decide) (n := "rdiffbackup.actions.backup") (by decide) (by decide +kernel)
example : (discovered demo "rdb_action_" demoTop demoInner).lookup "sync" = some ⟨"sync", 2, false⟩ :=
  added demo "rdb_action_" demoTop demoInner (by decide) (n := "rdb_action_y") (by decide) (by decide +kernel) (by
    rintro n' (h | ⟨h, -⟩) <;> revert n' <;> decide +kernel)
example : ∀ n ∈ demoInner, n ∉ demoTop := by decide
example : (metaList [("ea", demo "rdiffbackup.meta.ea"), ("attr", demo "rdiffbackup.meta.stdattr")]).map (·.map (·.name)) = some ["attr", "ea"] := by decide +kernel
/-- so someone else's plug-in which claims to be the main one stops every action which needs metadata -/
theorem second_main : metaList [("mine", demo "rdb_meta_z"), ("attr", demo "rdiffbackup.meta.stdattr"), ("ea", demo "rdiffbackup.meta.ea")] = none := by
  decide +kernel

end Verif.C91
