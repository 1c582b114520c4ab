import Verif.Model.Power
import Mathlib.Order.MinMax

/-!
C78: a power failure during a backup, and further ones while it is regressed, lose nothing of the last good backup.

Specification: `Holds` (what is in the mirror), `Clean` (the repository before the backup), `Distinct` (what a failure can leave of the new file doesn't look like the old one). The model:
`Verif.Power`.
-/

set_option linter.unusedSectionVars false
namespace Verif.C78
open Verif.Power
variable {C A S H : Type} [DecidableEq A] [DecidableEq S] [DecidableEq H]

/-! ### Specification -/

/-- at this name is the file `f` with its data and attributes -/
def Holds (s : St C A S) (n : Name) (f : Option (File C A S)) : Prop :=
  match f with
  | none => s.ent n = none
  | some (.reg c a) => ∃ i, s.ent n = some i ∧ s.kind i = .reg ∧ s.data i = c ∧ s.attr i = a
  | some (.spec x a) => ∃ i, s.ent n = some i ∧ s.kind i = .spec x ∧ s.attr i = a

/-- before the backup: the file `old` is in the mirror, on the disk, and there is no increment yet with the name which the new one will get -/
structure Clean (s : St C A S) (old : Option (File C A S)) : Prop where
  holds : Holds s .mir old
  noInc : s.ent .inc = none
  durable : Durable s
  used : ∀ n i, s.ent n = some i → i < s.next

/-- a file of this type, with these data and attributes, is like `old` as far as types, sizes and attributes tell: a device is another one if its number is, a link if its target is;
an empty regular file may stand for a fifo or a socket -/
def Similar (e : Env C A S H) (old : Option (File C A S)) (k : Kind S) (c : C) (a : A) : Prop :=
  match old with
  | none => False
  | some (.reg c0 a0) => k = .reg ∧ e.size c = e.size c0 ∧ a = a0
  | some (.spec x a0) => a = a0 ∧ (k = .spec x ∨ k = .reg ∧ e.plain x = true ∧ e.size c = 0)

/-- What a failure can leave of the new file isn't like the old one: with the attributes of a new file or those which it gets, and its data, or any data unless the file system writes
them before renaming. -/
def Distinct (o : Opts) (e : Env C A S H) (old new : Option (File C A S)) (k : Nat) : Prop :=
  match new with
  | none => True
  | some (.reg c a) => ∀ c' a', (a' = e.fresh (.tmp k) ∨ a' = a) → (o.flush = true → c' = c) → ¬ Similar e old .reg c' a'
  | some (.spec x a) => ∀ c' a', (a' = e.fresh (.tmp k) ∨ a' = a) → ¬ Similar e old (.spec x) c' a'

theorem looks_iff (e : Env C A S H) (hasSha : Bool) (old : Option (File C A S)) (k : Kind S) (c : C) (a : A) :
    looks e (metaOf e hasSha old) (some (k, c, a)) = true ↔ Similar e old k c a := by
  cases old with
  | none => cases k <;> simp [looks, metaOf, Similar]
  | some f =>
      cases f with
      | reg c0 a0 => cases k <;> simp [looks, metaOf, Similar]
      | spec x a0 =>
          cases k <;> simp [looks, metaOf, Similar]
          · exact and_comm
          · exact and_comm

theorem looks_false {e : Env C A S H} {hasSha : Bool} {old : Option (File C A S)} {k : Kind S} {c : C} {a : A} (h : ¬ Similar e old k c a) :
    looks e (metaOf e hasSha old) (some (k, c, a)) = false := by
  rw [← looks_iff e hasSha, Bool.not_eq_true] at h; exact h

/-! ### What can be restored -/

/-- enough is left -/
def Rec (e : Env C A S H) (hasSha : Bool) (old : Option (File C A S)) (w : St C A S) : Prop :=
  (looks e (metaOf e hasSha old) (fileAt w .mir) = true → Holds w .mir old) ∧
  (looks e (metaOf e hasSha old) (fileAt w .mir) = false → ∀ c a, old = some (.reg c a) →
    (hasSha = true ∧ ∃ a', fileAt w .mir = some (.reg, c, a')) ∨ restoreFp e w = c)

/-- all states on the way -/
def moments (o : Opts) (e : Env C A S H) (s : St C A S) : List (Op C A S) → List (St C A S)
  | [] => [s]
  | op :: ops => s :: moments o e (step o e s op) ops

theorem run_moment (o : Opts) (e : Env C A S H) : ∀ (ops pre : List (Op C A S)) (s : St C A S), pre <+: ops → run o e s pre ∈ moments o e s ops := by
  intro ops
  induction ops with
  | nil => intro pre s h; rw [List.prefix_nil.mp h]; simp [run, moments]
  | cons op ops ih =>
      intro pre s h
      cases pre with
      | nil => simp [run, moments]
      | cons p pre =>
          obtain ⟨rfl, h'⟩ := List.cons_prefix_cons.mp h
          exact List.mem_cons_of_mem _ (ih pre _ h')

@[simp] theorem upd_same {I V : Type} [DecidableEq I] (f : I → V) (i : I) (v : V) : upd f i v i = v := by simp [upd]

theorem upd_ne {I V : Type} [DecidableEq I] (f : I → V) {i j : I} (v : V) (h : j ≠ i) : upd f i v j = f j := by simp [upd, h]


/-- names lead to files which there are -/
def Used (s : St C A S) : Prop := ∀ n i, (s.ent n = some i ∨ s.mayEnt n (some i)) → i < s.next

theorem used_step (o : Opts) (e : Env C A S H) {s : St C A S} (h : Used s) (op : Op C A S) : Used (step o e s op) := by
  intro n i hi
  cases op with
  | mk m k =>
      simp only [step, upd] at hi ⊢
      split at hi
      · rcases hi with hi | hi | hi
        · simp only [Option.some.injEq] at hi; omega
        · have := h _ _ (.inr hi); omega
        · simp only [Option.some.injEq] at hi; omega
      · have := h _ _ hi; omega
  | wr m c => simp only [step] at hi ⊢; split at hi <;> exact h _ _ hi
  | «at» m c => simp only [step] at hi ⊢; split at hi <;> exact h _ _ hi
  | sync m => simp only [step] at hi ⊢; split at hi <;> exact h _ _ hi
  | syncDir m =>
      simp only [step] at hi ⊢
      rcases hi with hi | hi
      · exact h _ _ (.inl hi)
      · split at hi
        · exact h _ _ (.inl hi.symm)
        · exact h _ _ (.inr hi)
  | mv a b =>
      simp only [step] at hi ⊢
      cases ha : s.ent a with
      | none => rw [ha] at hi; exact h _ _ hi
      | some j =>
          rw [ha] at hi
          simp only [upd] at hi ⊢
          by_cases hna : n = a
          · subst hna
            simp only [if_true] at hi
            rcases hi with hi | hi | hi
            · cases hi
            · exact h _ _ (.inr hi)
            · cases hi
          · simp only [if_neg hna] at hi
            by_cases hnb : n = b
            · subst hnb
              simp only [if_true, Option.some.injEq] at hi
              rcases hi with hi | hi | hi
              · subst hi; exact h _ _ (.inl ha)
              · exact h _ _ (.inr hi)
              · subst hi; exact h _ _ (.inl ha)
            · simp only [if_neg hnb] at hi
              exact h _ _ hi
  | rm m =>
      simp only [step, upd] at hi ⊢
      split at hi
      · rcases hi with hi | hi | hi
        · cases hi
        · exact h _ _ (.inr hi)
        · cases hi
      · exact h _ _ hi
  | syncAll =>
      simp only [step] at hi ⊢
      rcases hi with hi | hi
      · exact h _ _ (.inl hi)
      · exact h _ _ (.inl hi.symm)

theorem used_run (o : Opts) (e : Env C A S H) (ops : List (Op C A S)) : ∀ {s : St C A S}, Used s → Used (run o e s ops) := by
  induction ops with
  | nil => intro s h; exact h
  | cons op ops ih => intro s h; exact ih (used_step o e h op)

theorem used_fail {s w : St C A S} (h : Used s) (hw : Fail s w) : Used w := by
  intro n i hi
  rw [hw.next]
  rcases hi with hi | hi
  · have := hw.ent n; rw [hi] at this; exact h _ _ (.inr this)
  · have h1 := (hw.durable.ent n _).mp hi
    have := hw.ent n; rw [← h1] at this; exact h _ _ (.inr this)

theorem clean_used {s : St C A S} {old} (h : Clean s old) : Used s := by
  intro n i hi
  rcases hi with hi | hi
  · exact h.used _ _ hi
  · exact h.used _ _ ((h.durable.ent _ _).mp hi).symm

/-- a regular file is in the mirror -/
def MirReg (s : St C A S) : Prop := ∃ i, s.ent .mir = some i ∧ s.kind i = .reg

theorem rec_reg {e : Env C A S H} {hasSha : Bool} {c : C} {a : A} {w : St C A S} {i : Nat} (h1 : w.ent .mir = some i) (h2 : w.kind i = .reg) (h3 : w.data i = c)
    (h4 : w.attr i = a) : Rec e hasSha (some (.reg c a)) w ∧ MirReg w := by
  refine ⟨⟨fun _ => ⟨i, h1, h2, h3, h4⟩, fun h => ?_⟩, i, h1, h2⟩
  simp [looks, metaOf, fileAt, h1, h2, h3, h4] at h

theorem rec_sha {e : Env C A S H} {c : C} {a : A} {w : St C A S} {i : Nat} (h1 : w.ent .mir = some i) (h2 : w.kind i = .reg) (h3 : w.data i = c) :
    Rec e true (some (.reg c a)) w ∧ MirReg w := by
  refine ⟨⟨fun h => ?_, fun _ c' a' he => ?_⟩, i, h1, h2⟩
  · simp [looks, metaOf, fileAt, h1, h2, h3] at h
    exact ⟨i, h1, h2, h3, h⟩
  · simp only [Option.some.injEq, File.reg.injEq] at he
    obtain ⟨rfl, rfl⟩ := he
    exact .inl ⟨rfl, w.attr i, by simp [fileAt, h1, h2, h3]⟩

theorem rec_none {e : Env C A S H} {hasSha : Bool} {w : St C A S} (h : w.ent .mir = none) : Rec e hasSha none w :=
  ⟨fun _ => h, fun _ _ _ he => by cases he⟩

theorem rec_none' {e : Env C A S H} {hasSha : Bool} {w : St C A S} {i : Nat} (h : w.ent .mir = some i) : Rec e hasSha none w :=
  ⟨fun hl => by simp [looks, metaOf, fileAt, h] at hl, fun _ _ _ he => by cases he⟩

theorem rec_spec {e : Env C A S H} {hasSha : Bool} {x : S} {a : A} {w : St C A S} {i : Nat} (h1 : w.ent .mir = some i) (h2 : w.kind i = .spec x) :
    Rec e hasSha (some (.spec x a)) w := by
  refine ⟨fun h => ?_, fun _ _ _ he => by cases he⟩
  simp [looks, metaOf, fileAt, h1, h2] at h
  exact ⟨i, h1, h2, h⟩

theorem rec_spec' {e : Env C A S H} {hasSha : Bool} {x : S} {a : A} {w : St C A S} (h : looks e (metaOf e hasSha (some (.spec x a))) (fileAt w .mir) = false) :
    Rec e hasSha (some (.spec x a)) w :=
  ⟨fun hl => (by rw [h] at hl; cases hl), fun _ _ _ he => by cases he⟩

theorem rec_snap {e : Env C A S H} {hasSha : Bool} {c : C} {a : A} {w : St C A S} {j : Nat} (h : looks e (metaOf e hasSha (some (.reg c a))) (fileAt w .mir) = false)
    (h1 : w.ent .inc = some j) (h2 : w.kind j = .snap) (h3 : w.data j = c) : Rec e hasSha (some (.reg c a)) w := by
  refine ⟨fun hl => (by rw [h] at hl; cases hl), fun _ c' a' he => .inr ?_⟩
  simp only [Option.some.injEq, File.reg.injEq] at he
  obtain ⟨rfl, rfl⟩ := he
  have : fileAt w .inc = some (.snap, c, w.attr j) := by simp [fileAt, h1, h2, h3]
  simp only [restoreFp, this]

theorem rec_diff {e : Env C A S H} {hasSha : Bool} {c c' : C} {a : A} {w : St C A S} {i j : Nat} (h : looks e (metaOf e hasSha (some (.reg c a))) (fileAt w .mir) = false)
    (h1 : w.ent .inc = some j) (h2 : w.kind j = .diff) (h3 : w.data j = e.delta c' c) (h4 : w.ent .mir = some i) (h5 : w.kind i = .reg) (h6 : w.data i = c')
    (hp : e.patch c' (e.delta c' c) = c) : Rec e hasSha (some (.reg c a)) w ∧ MirReg w := by
  refine ⟨⟨fun hl => (by rw [h] at hl; cases hl), fun _ c1 a1 he => .inr ?_⟩, i, h4, h5⟩
  simp only [Option.some.injEq, File.reg.injEq] at he
  obtain ⟨rfl, rfl⟩ := he
  have t1 : fileAt w .inc = some (.diff, e.delta c' c, w.attr j) := by simp [fileAt, h1, h2, h3]
  have t2 : fileAt w .mir = some (.reg, c', w.attr i) := by simp [fileAt, h4, h5, h6]
  simp only [restoreFp, t1, t2, hp]

/-- the backup fails: both regular -/
theorem backup_reg {o : Opts} {e : Env C A S H} (hf : o.fsync = true) (hd : o.syncDirs = true) (hfl : o.flush = true) {hasSha : Bool} {c c' : C} {a a' : A} {k : Nat}
    (hdist : Distinct o e (some (.reg c a)) (some (.reg c' a')) k) (hp : e.patch c' (e.delta c' c) = c)
    {s0 : St C A S} (hc : Clean s0 (some (.reg c a))) {m w : St C A S} (hm : m ∈ moments o e s0 (backupOps o e (some (.reg c a)) (some (.reg c' a')) k)) (hw : Fail m w) :
    Rec e hasSha (some (.reg c a)) w ∧ MirReg w := by
  obtain ⟨i, hi, hk, hdt, hat⟩ := hc.holds
  have hlt := hc.used _ _ hi
  have n1 : i ≠ s0.next := by omega
  have n2 : i ≠ s0.next + 1 := by omega
  have dE := hc.durable.ent
  have dD := hc.durable.data
  have dA := hc.durable.attr
  have hm1 := hw.ent .mir
  have hm2 := hw.ent .inc
  have d0 := hw.data i
  have d1 := hw.data s0.next
  have d2 := hw.data (s0.next + 1)
  have a0 := hw.attr i
  have a1 := hw.attr s0.next
  have k0 := congrFun hw.kind i
  have k1 := congrFun hw.kind s0.next
  have k2 := congrFun hw.kind (s0.next + 1)
  simp [backupOps, tempOps, incOps, fsyncWithDir, hf, hd, moments] at hm
  rcases hm with rfl | rfl | rfl | rfl | rfl | rfl | rfl | rfl | rfl | rfl
  all_goals simp [step, upd, sameDir, n1, n2, dE, dD, dA, hi, hfl, hc.noInc, hk, hdt, hat] at hm1 hm2 d0 d1 d2 a0 a1 k0 k1 k2
  all_goals first
    | exact rec_reg hm1 k0 d0 a0
    | skip
  rcases hm1 with hm1 | hm1
  · exact rec_reg hm1 k0 d0 a0
  · refine rec_diff ?_ hm2 k2 d2 hm1 k1 d1 hp
    simp only [fileAt, hm1, Option.map_some, k1]
    exact looks_false (hdist _ _ a1 fun _ => d1)

/-- the backup fails: a regular file becomes another one -/
theorem backup_reg_spec {o : Opts} {e : Env C A S H} (hf : o.fsync = true) (hd : o.syncDirs = true) {hasSha : Bool} {c : C} {a : A} {x : S} {a' : A} {k : Nat}
    {s0 : St C A S} (hc : Clean s0 (some (.reg c a))) {m w : St C A S} (hm : m ∈ moments o e s0 (backupOps o e (some (.reg c a)) (some (.spec x a')) k)) (hw : Fail m w) :
    Rec e hasSha (some (.reg c a)) w := by
  obtain ⟨i, hi, hk, hdt, hat⟩ := hc.holds
  have hlt := hc.used _ _ hi
  have n1 : i ≠ s0.next := by omega
  have n2 : i ≠ s0.next + 1 := by omega
  have dE := hc.durable.ent
  have dD := hc.durable.data
  have dA := hc.durable.attr
  have hm1 := hw.ent .mir
  have hm2 := hw.ent .inc
  have d0 := hw.data i
  have d2 := hw.data (s0.next + 1)
  have a0 := hw.attr i
  have k0 := congrFun hw.kind i
  have k1 := congrFun hw.kind s0.next
  have k2 := congrFun hw.kind (s0.next + 1)
  simp [backupOps, tempOps, incOps, fsyncWithDir, hf, hd, moments] at hm
  rcases hm with rfl | rfl | rfl | rfl | rfl | rfl | rfl | rfl | rfl
  all_goals cases hfl : o.flush
  all_goals simp [step, hfl, upd, sameDir, n1, n2, dE, dD, dA, hi, hc.noInc, hk, hdt, hat] at hm1 hm2 d0 d2 a0 k0 k1 k2
  all_goals first
    | exact (rec_reg hm1 k0 d0 a0).1
    | skip
  all_goals
    rcases hm1 with hm1 | hm1
    · exact (rec_reg hm1 k0 d0 a0).1
    · refine rec_snap ?_ hm2 k2 d2
      simp only [fileAt, hm1, Option.map_some, k1]
      simp [looks, metaOf]

/-- the backup fails: a regular file is deleted -/
theorem backup_reg_none {o : Opts} {e : Env C A S H} (hf : o.fsync = true) (hd : o.syncDirs = true) {hasSha : Bool} {c : C} {a : A} {k : Nat}
    {s0 : St C A S} (hc : Clean s0 (some (.reg c a))) {m w : St C A S} (hm : m ∈ moments o e s0 (backupOps o e (some (.reg c a)) none k)) (hw : Fail m w) :
    Rec e hasSha (some (.reg c a)) w := by
  obtain ⟨i, hi, hk, hdt, hat⟩ := hc.holds
  have hlt := hc.used _ _ hi
  have n1 : i ≠ s0.next := by omega
  have dE := hc.durable.ent
  have dD := hc.durable.data
  have dA := hc.durable.attr
  have hm1 := hw.ent .mir
  have hm2 := hw.ent .inc
  have d0 := hw.data i
  have d2 := hw.data s0.next
  have a0 := hw.attr i
  have k0 := congrFun hw.kind i
  have k1 := congrFun hw.kind s0.next
  simp [backupOps, incOps, fsyncWithDir, hf, hd, moments] at hm
  rcases hm with rfl | rfl | rfl | rfl | rfl | rfl | rfl
  all_goals simp [step, upd, sameDir, n1, dE, dD, dA, hi, hc.noInc, hk, hdt, hat] at hm1 hm2 d0 d2 a0 k0 k1
  all_goals first
    | exact (rec_reg hm1 k0 d0 a0).1
    | skip
  rcases hm1 with hm1 | hm1
  · exact (rec_reg hm1 k0 d0 a0).1
  · refine rec_snap ?_ hm2 k1 d2
    simp [fileAt, hm1, looks, metaOf]

/-- the backup fails: a new file -/
theorem backup_new {e : Env C A S H} {hasSha : Bool} {w : St C A S} : Rec e hasSha none w := by
  cases h : w.ent .mir with
  | none => exact rec_none h
  | some i => exact rec_none' h

/-- the backup fails: a special file changes -/
theorem backup_spec {o : Opts} {e : Env C A S H} {hasSha : Bool} {x : S} {a : A} {new : Option (File C A S)} {k : Nat}
    (hdist : Distinct o e (some (.spec x a)) new k) {s0 : St C A S} (hc : Clean s0 (some (.spec x a))) {m w : St C A S}
    (hm : m ∈ moments o e s0 (backupOps o e (some (.spec x a)) new k)) (hw : Fail m w) : Rec e hasSha (some (.spec x a)) w := by
  obtain ⟨i, hi, hk, hat⟩ := hc.holds
  have hlt := hc.used _ _ hi
  have n1 : i ≠ s0.next := by omega
  have n2 : i ≠ s0.next + 1 := by omega
  have dE := hc.durable.ent
  have dD := hc.durable.data
  have dA := hc.durable.attr
  have hm1 := hw.ent .mir
  have d1 := hw.data s0.next
  have a0 := hw.attr i
  have a1 := hw.attr s0.next
  have k0 := congrFun hw.kind i
  have k1 := congrFun hw.kind s0.next
  cases new with
  | none =>
      simp [backupOps, incOps, moments] at hm
      rcases hm with rfl | rfl | rfl | rfl
      all_goals simp [step, upd, n1, dE, dD, dA, hi, hc.noInc, hk, hat] at hm1 d1 a0 a1 k0 k1
      all_goals first
        | exact rec_spec hm1 k0
        | skip
      rcases hm1 with hm1 | hm1
      · exact rec_spec hm1 k0
      · exact rec_spec' (by simp [fileAt, hm1, looks, metaOf])
  | some f =>
      cases f with
      | spec y b =>
          simp [backupOps, tempOps, incOps, moments] at hm
          rcases hm with rfl | rfl | rfl | rfl | rfl | rfl
          all_goals simp [step, upd, n1, n2, dE, dD, dA, hi, hc.noInc, hk, hat] at hm1 d1 a0 a1 k0 k1
          all_goals first
            | exact rec_spec hm1 k0
            | skip
          rcases hm1 with hm1 | hm1
          · exact rec_spec hm1 k0
          · refine rec_spec' ?_
            simp only [fileAt, hm1, Option.map_some, k1]
            exact looks_false (hdist _ _ a1)
      | reg c' b =>
          simp [backupOps, tempOps, incOps, moments] at hm
          rcases hm with rfl | rfl | rfl | rfl | rfl | rfl | rfl
          all_goals cases hfl : o.flush
          all_goals simp [step, hfl, upd, n1, n2, dE, dD, dA, hi, hc.noInc, hk, hat] at hm1 d1 a0 a1 k0 k1
          all_goals first
            | exact rec_spec hm1 k0
            | skip
          all_goals
            rcases hm1 with hm1 | hm1
            · exact rec_spec hm1 k0
            · refine rec_spec' ?_
              simp only [fileAt, hm1, Option.map_some, k1]
              exact looks_false (hdist _ _ a1 (by simp [hfl, d1]))

/-- When both are regular files, the file system must write data before renaming (the program doesn't see to it: `not_flushed`), and the delta must be right (C39). -/
def Regular (o : Opts) (e : Env C A S H) (old new : Option (File C A S)) : Prop :=
  ∀ c a c' a', old = some (.reg c a) → new = some (.reg c' a') → o.flush = true ∧ e.patch c' (e.delta c' c) = c

theorem backup_fail {o : Opts} {e : Env C A S H} (hf : o.fsync = true) (hd : o.syncDirs = true) {hasSha : Bool} {old new : Option (File C A S)} {k : Nat}
    (hr : Regular o e old new) (hdist : Distinct o e old new k) {s0 : St C A S} (hc : Clean s0 old) {m w : St C A S}
    (hm : m ∈ moments o e s0 (backupOps o e old new k)) (hw : Fail m w) : Rec e hasSha old w := by
  cases old with
  | none => exact backup_new
  | some f =>
      cases f with
      | spec x a => exact backup_spec hdist hc hm hw
      | reg c a =>
          cases new with
          | none => exact backup_reg_none hf hd hc hm hw
          | some g =>
              cases g with
              | spec x a' => exact backup_reg_spec hf hd hc hm hw
              | reg c' a' =>
                  obtain ⟨h1, h2⟩ := hr c a c' a' rfl rfl
                  exact (backup_reg hf hd h1 hdist h2 hc hm hw).1

/-- the backup fails: only the attributes change -/
theorem touch_fail {o : Opts} {e : Env C A S H} {hasSha : Bool} {c : C} {a a' : A} {s0 : St C A S} (hc : Clean s0 (some (.reg c a))) {m w : St C A S}
    (hm : m ∈ moments o e s0 (touchOps a')) (hw : Fail m w) : Rec e hasSha (some (.reg c a)) w ∧ MirReg w := by
  obtain ⟨i, hi, hk, hdt, hat⟩ := hc.holds
  have dE := hc.durable.ent
  have dD := hc.durable.data
  have dA := hc.durable.attr
  have hm1 := hw.ent .mir
  have hm2 := hw.ent .inc
  have d0 := hw.data i
  have a0 := hw.attr i
  have k0 := congrFun hw.kind i
  simp [touchOps, moments] at hm
  rcases hm with rfl | rfl
  all_goals simp [step, upd, dE, dD, dA, hi, hc.noInc, hk, hdt, hat] at hm1 hm2 d0 a0 k0
  · exact rec_reg hm1 k0 d0 a0
  · rcases a0 with a0 | a0
    · exact rec_reg hm1 k0 d0 a0
    · refine ⟨⟨fun h => ?_, fun _ c1 a1 he => .inr ?_⟩, i, hm1, k0⟩
      · simp [looks, metaOf, fileAt, hm1, k0, d0] at h
        exact ⟨i, hm1, k0, d0, h⟩
      · simp only [Option.some.injEq, File.reg.injEq] at he
        obtain ⟨rfl, rfl⟩ := he
        simp [restoreFp, fileAt, hm1, hm2, k0, d0]

/-! ### The regress -/

theorem run_append (o : Opts) (e : Env C A S H) (s : St C A S) (x y : List (Op C A S)) : run o e s (x ++ y) = run o e (run o e s x) y := by
  simp [run, List.foldl_append]

theorem rm_inc {o : Opts} {e : Env C A S H} {old : Option (File C A S)} {s t : St C A S} (h : Holds t .mir old) (hi : t.ent .inc = s.ent .inc) :
    Holds (run o e t (if (s.ent .inc).isSome then [.rm .inc] else [])) .mir old ∧ (run o e t (if (s.ent .inc).isSome then [.rm .inc] else [])).ent .inc = none := by
  cases hs : s.ent .inc with
  | none => simp only [Option.isSome_none, Bool.false_eq_true, if_false, run, List.foldl_nil]; exact ⟨h, by rw [hi, hs]⟩
  | some j =>
      simp only [Option.isSome_some, if_true, run, List.foldl_cons, List.foldl_nil]
      refine ⟨?_, by simp [step]⟩
      cases old with
      | none => simpa [Holds, step, upd] using h
      | some f => cases f <;> simpa [Holds, step, upd] using h

/-- A regress which isn't interrupted restores the file, and removes the increment. -/
theorem regress_done {o : Opts} {e : Env C A S H} {hasSha : Bool} {old : Option (File C A S)} {s : St C A S} (hsha : ∀ c c', e.sha c = e.sha c' → c = c')
    (hr : Rec e hasSha old s) (k : Nat) :
    Holds (run o e s (regressOps o e (metaOf e hasSha old) s k)) .mir old ∧ (run o e s (regressOps o e (metaOf e hasSha old) s k)).ent .inc = none := by
  unfold regressOps
  rw [run_append]
  cases hl : looks e (metaOf e hasSha old) (fileAt s .mir) with
  | true => exact rm_inc (by simpa [run] using hr.1 hl) (by simp [run])
  | false =>
      simp only [Bool.false_eq_true, if_false]
      cases old with
      | none =>
          simp only [metaOf]
          cases hm : s.ent .mir with
          | none => exact rm_inc (by simpa [Holds, run] using hm) (by simp [run])
          | some i => exact rm_inc (by simp [Holds, run, step]) (by simp [run, step, upd])
      | some f =>
          cases f with
          | spec x a =>
              simp only [metaOf]
              apply rm_inc
              · cases hm : s.ent .mir <;> simp [Holds, run, step]
              · cases hm : s.ent .mir <;> simp [run, step, upd]
          | reg c a =>
              have h2 := hr.2 hl c a rfl
              simp only [metaOf, restoreRegOps]
              cases hm : s.ent .mir with
              | none =>
                  have hfa : fileAt s .mir = none := by simp [fileAt, hm]
                  rw [hfa] at h2
                  have h3 : restoreFp e s = c := by
                    rcases h2 with ⟨_, _, h2⟩ | h2
                    · cases h2
                    · exact h2
                  simp only [hfa, h3]
                  apply rm_inc
                  · cases q1 : o.fsync <;> cases q2 : o.syncDirs <;> simp [q1, q2, Holds, run, step, fsyncParent]
                  · cases q1 : o.fsync <;> cases q2 : o.syncDirs <;> simp [q1, q2, run, step, upd, fsyncParent]
              | some i =>
                  have hfa : fileAt s .mir = some (s.kind i, s.data i, s.attr i) := by simp [fileAt, hm]
                  rw [hfa] at h2
                  cases hk : s.kind i with
                  | reg =>
                      simp only [hfa, hk]
                      by_cases hc : e.size (s.data i) = e.size c ∧ (if hasSha then some (e.sha c) else none) = some (e.sha (s.data i))
                      · rw [if_pos hc]
                        have hd : s.data i = c := by
                          cases hasSha with
                          | false => simp at hc
                          | true => simp at hc; exact (hsha _ _ hc.2).symm
                        apply rm_inc
                        · cases q1 : o.fsync <;> cases q2 : o.syncDirs <;> simp [q1, q2, Holds, run, step, fsyncParent, hm, hk, hd]
                        · cases q1 : o.fsync <;> cases q2 : o.syncDirs <;> simp [q1, q2, run, step, fsyncParent, hm]
                      · rw [if_neg hc]
                        have h3 : restoreFp e s = c := by
                          rcases h2 with ⟨hs, b, h2⟩ | h2
                          · simp only [Option.some.injEq, Prod.mk.injEq] at h2
                            rw [h2.2.1, hs] at hc
                            simp at hc
                          · exact h2
                        rw [h3]
                        apply rm_inc
                        · cases q1 : o.fsync <;> cases q2 : o.syncDirs <;> cases q3 : o.flush <;> simp [q1, q2, q3, Holds, run, step, fsyncParent, fsyncWithDir, upd]
                        · cases q1 : o.fsync <;> cases q2 : o.syncDirs <;> cases q3 : o.flush <;> simp [q1, q2, q3, run, step, fsyncParent, fsyncWithDir, upd]
                  | _ =>
                      all_goals
                        simp only [hfa, hk]
                        have h3 : restoreFp e s = c := by
                          rcases h2 with ⟨hs, b, h2⟩ | h2
                          · rw [hk] at h2; simp at h2
                          · exact h2
                        rw [h3]
                        apply rm_inc
                        · cases q1 : o.fsync <;> cases q2 : o.syncDirs <;> simp [q1, q2, Holds, run, step, fsyncParent]
                        · cases q1 : o.fsync <;> cases q2 : o.syncDirs <;> simp [q1, q2, run, step, fsyncParent, upd]

/-- nothing has changed in the mirror, and the increment neither -/
theorem rec_same {e : Env C A S H} {hasSha : Bool} {old : Option (File C A S)} {s v : St C A S} (hr : Rec e hasSha old s)
    (h1 : v.ent .mir = s.ent .mir) (h2 : ∀ i, s.ent .mir = some i → v.kind i = s.kind i ∧ v.data i = s.data i ∧ v.attr i = s.attr i)
    (h3 : fileAt v .inc = fileAt s .inc) : Rec e hasSha old v := by
  have hf : fileAt v .mir = fileAt s .mir := by
    unfold fileAt
    rw [h1]
    cases hh : s.ent .mir with
    | none => rfl
    | some i => obtain ⟨p1, p2, p3⟩ := h2 i hh; simp [p1, p2, p3]
  refine ⟨fun hl => ?_, fun hl c a ho => ?_⟩
  · rw [hf] at hl
    have := hr.1 hl
    cases old with
    | none => exact h1.trans this
    | some f =>
        cases f with
        | reg c a =>
            obtain ⟨i, p1, p2, p3, p4⟩ := this
            obtain ⟨q1, q2, q3⟩ := h2 i p1
            exact ⟨i, by rw [h1, p1], by rw [q1, p2], by rw [q2, p3], by rw [q3, p4]⟩
        | spec x a =>
            obtain ⟨i, p1, p2, p3⟩ := this
            obtain ⟨q1, q2, q3⟩ := h2 i p1
            exact ⟨i, by rw [h1, p1], by rw [q1, p2], by rw [q3, p3]⟩
  · rw [hf] at hl ⊢
    have := hr.2 hl c a ho
    unfold restoreFp
    rw [hf, h3]
    exact this

/-- a regress fails: the file looks as it should -/
theorem regress_fail_looks {o : Opts} {e : Env C A S H} {hasSha : Bool} {old : Option (File C A S)} {s : St C A S} (hd : Durable s) (hr : Rec e hasSha old s)
    (hl : looks e (metaOf e hasSha old) (fileAt s .mir) = true) {m w : St C A S} (hm : m ∈ moments o e s (if (s.ent .inc).isSome then [.rm .inc] else [])) (hw : Fail m w) :
    Rec e hasSha old w ∧ (MirReg s → MirReg w) := by
  have hmir : w.ent .mir = s.ent .mir ∧ (∀ i, w.kind i = s.kind i ∧ w.data i = s.data i ∧ w.attr i = s.attr i) := by
    have hm1 := hw.ent .mir
    have d0 := hw.data
    have a0 := hw.attr
    have k0 := hw.kind
    cases hi : s.ent .inc with
    | none =>
        simp [hi, moments] at hm
        subst hm
        exact ⟨(hd.ent _ _).mp hm1, fun i => ⟨congrFun k0 i, (hd.data _ _).mp (d0 i), (hd.attr _ _).mp (a0 i)⟩⟩
    | some j =>
        simp [hi, moments] at hm
        rcases hm with rfl | rfl
        · exact ⟨(hd.ent _ _).mp hm1, fun i => ⟨congrFun k0 i, (hd.data _ _).mp (d0 i), (hd.attr _ _).mp (a0 i)⟩⟩
        · simp [step, upd] at hm1 d0 a0 k0
          exact ⟨(hd.ent _ _).mp hm1, fun i => ⟨congrFun k0 i, (hd.data _ _).mp (d0 i), (hd.attr _ _).mp (a0 i)⟩⟩
  obtain ⟨h1, h2⟩ := hmir
  have hf : fileAt w .mir = fileAt s .mir := by
    unfold fileAt
    rw [h1]
    cases hh : s.ent .mir with
    | none => rfl
    | some i => obtain ⟨p1, p2, p3⟩ := h2 i; simp [p1, p2, p3]
  refine ⟨⟨fun _ => ?_, fun hh => ?_⟩, fun ⟨i, p, q⟩ => ⟨i, h1.trans p, (h2 i).1.trans q⟩⟩
  · have := hr.1 hl
    cases old with
    | none => exact h1.trans this
    | some f =>
        cases f with
        | reg c a =>
            obtain ⟨i, p1, p2, p3, p4⟩ := this
            obtain ⟨q1, q2, q3⟩ := h2 i
            exact ⟨i, by rw [h1, p1], by rw [q1, p2], by rw [q2, p3], by rw [q3, p4]⟩
        | spec x a =>
            obtain ⟨i, p1, p2, p3⟩ := this
            obtain ⟨q1, q2, q3⟩ := h2 i
            exact ⟨i, by rw [h1, p1], by rw [q1, p2], by rw [q3, p3]⟩
  · rw [hf, hl] at hh; cases hh

/-- a regress fails: others than regular files -/
theorem regress_fail_spec {o : Opts} {e : Env C A S H} {hasSha : Bool} {x : S} {a : A} {s : St C A S} (hd : Durable s) (hu : Used s) (hr : Rec e hasSha (some (.spec x a)) s)
    {k : Nat} {m w : St C A S} (hm : m ∈ moments o e s (regressOps o e (metaOf e hasSha (some (.spec x a))) s k)) (hw : Fail m w) : Rec e hasSha (some (.spec x a)) w := by
  unfold regressOps at hm
  cases hl : looks e (metaOf e hasSha (some (.spec x a))) (fileAt s .mir) with
  | true =>
      rw [hl] at hm
      exact (regress_fail_looks hd hr hl (by simpa using hm) hw).1
  | false =>
      rw [hl] at hm
      simp only [Bool.false_eq_true, if_false, metaOf] at hm
      have dE := hd.ent
      have dD := hd.data
      have dA := hd.attr
      have hm1 := hw.ent .mir
      have k1 := congrFun hw.kind s.next
      have key : w.ent .mir = none ∨ (w.ent .mir = some s.next ∧ w.kind s.next = .spec x) ∨
          (w.ent .mir = s.ent .mir ∧ ∀ i, s.ent .mir = some i → w.kind i = s.kind i ∧ w.data i = s.data i ∧ w.attr i = s.attr i) := by
        cases hmi : s.ent .mir with
        | none =>
            have d0 := True.intro
            cases hin : s.ent .inc with
            | none =>
                simp [hmi, hin, moments] at hm
                rcases hm with rfl | rfl | rfl
                all_goals simp [step, upd, dE, hmi] at hm1 k1
                · exact .inl hm1
                all_goals
                  rcases hm1 with hm1 | hm1
                  · exact .inl hm1
                  · exact .inr (.inl ⟨hm1, k1⟩)
            | some j =>
                simp [hmi, hin, moments] at hm
                rcases hm with rfl | rfl | rfl | rfl
                all_goals simp [step, upd, dE, hmi] at hm1 k1
                · exact .inl hm1
                all_goals
                  rcases hm1 with hm1 | hm1
                  · exact .inl hm1
                  · exact .inr (.inl ⟨hm1, k1⟩)
        | some i =>
            have hlt := hu _ _ (.inl hmi)
            have n1 : i ≠ s.next := by omega
            have d0 := hw.data i
            have a0 := hw.attr i
            have k0 := congrFun hw.kind i
            cases hin : s.ent .inc with
            | none =>
                simp [hmi, hin, moments] at hm
                rcases hm with rfl | rfl | rfl | rfl
                all_goals simp [step, upd, dE, dD, dA, hmi, n1] at hm1 k1 d0 a0 k0
                · exact .inr (.inr ⟨hm1, fun i' h => by cases h; exact ⟨k0, d0, a0⟩⟩)
                · rcases hm1 with hm1 | hm1
                  · exact .inr (.inr ⟨hm1, fun i' h => by cases h; exact ⟨k0, d0, a0⟩⟩)
                  · exact .inl hm1
                all_goals
                  rcases hm1 with (hm1 | hm1) | hm1
                  · exact .inr (.inr ⟨hm1, fun i' h => by cases h; exact ⟨k0, d0, a0⟩⟩)
                  · exact .inl hm1
                  · exact .inr (.inl ⟨hm1, k1⟩)
            | some j =>
                simp [hmi, hin, moments] at hm
                rcases hm with rfl | rfl | rfl | rfl | rfl
                all_goals simp [step, upd, dE, dD, dA, hmi, n1] at hm1 k1 d0 a0 k0
                · exact .inr (.inr ⟨hm1, fun i' h => by cases h; exact ⟨k0, d0, a0⟩⟩)
                · rcases hm1 with hm1 | hm1
                  · exact .inr (.inr ⟨hm1, fun i' h => by cases h; exact ⟨k0, d0, a0⟩⟩)
                  · exact .inl hm1
                all_goals
                  rcases hm1 with (hm1 | hm1) | hm1
                  · exact .inr (.inr ⟨hm1, fun i' h => by cases h; exact ⟨k0, d0, a0⟩⟩)
                  · exact .inl hm1
                  · exact .inr (.inl ⟨hm1, k1⟩)
      rcases key with h | ⟨h, h'⟩ | ⟨h1, h2⟩
      · exact rec_spec' (by simp [fileAt, h, looks, metaOf])
      · exact rec_spec h h'
      · have hf : fileAt w .mir = fileAt s .mir := by
          unfold fileAt
          rw [h1]
          cases hh : s.ent .mir with
          | none => rfl
          | some i => obtain ⟨p1, p2, p3⟩ := h2 i hh; simp [p1, p2, p3]
        exact rec_spec' (by rw [hf]; exact hl)

/-- a regress fails: a regular file, with a hash in the metadata, which is a regular file in the mirror too -/
theorem regress_fail_reg {o : Opts} {e : Env C A S H} (hf : o.fsync = true) (hsd : o.syncDirs = true) {c : C} {a : A} {s : St C A S} (hsha : ∀ c c', e.sha c = e.sha c' → c = c')
    (hd : Durable s) (hu : Used s) (hr : Rec e true (some (.reg c a)) s) (hmr : MirReg s)
    {k : Nat} {m w : St C A S} (hm : m ∈ moments o e s (regressOps o e (metaOf e true (some (.reg c a))) s k)) (hw : Fail m w) : Rec e true (some (.reg c a)) w ∧ MirReg w := by
  unfold regressOps at hm
  cases hl : looks e (metaOf e true (some (.reg c a))) (fileAt s .mir) with
  | true =>
      rw [hl] at hm
      obtain ⟨h1, h2⟩ := regress_fail_looks hd hr hl (by simpa using hm) hw
      exact ⟨h1, h2 hmr⟩
  | false =>
      rw [hl] at hm
      have h2 := hr.2 hl c a rfl
      obtain ⟨i, hi, hk⟩ := hmr
      have hfa : fileAt s .mir = some (.reg, s.data i, s.attr i) := by simp [fileAt, hi, hk]
      simp only [Bool.false_eq_true, if_false, metaOf, restoreRegOps, hfa, if_true] at hm
      have dE := hd.ent
      have dD := hd.data
      have dA := hd.attr
      have hlt := hu _ _ (.inl hi)
      have n1 : i ≠ s.next := by omega
      have hm1 := hw.ent .mir
      have hm2 := hw.ent .inc
      have d0 := hw.data i
      have a0 := hw.attr i
      have k0 := congrFun hw.kind i
      have d1 := hw.data s.next
      have k1 := congrFun hw.kind s.next
      by_cases hc : e.size (s.data i) = e.size c ∧ some (e.sha c) = some (e.sha (s.data i))
      · rw [if_pos hc] at hm
        have hdc : s.data i = c := (hsha _ _ (Option.some.inj hc.2)).symm
        have key : w.ent .mir = some i ∧ w.kind i = .reg ∧ w.data i = c := by
          cases hin : s.ent .inc with
          | none =>
              simp [hin, moments, fsyncParent, hf, hsd] at hm
              rcases hm with rfl | rfl | rfl
              all_goals simp [step, sameDir, dE, dD, dA, hi, hk, hdc] at hm1 d0 k0
              all_goals exact ⟨hm1, k0, d0⟩
          | some j =>
              simp [hin, moments, fsyncParent, hf, hsd] at hm
              rcases hm with rfl | rfl | rfl | rfl
              all_goals simp [step, upd, sameDir, dE, dD, dA, hi, hk, hdc] at hm1 d0 k0
              all_goals exact ⟨hm1, k0, d0⟩
        exact rec_sha key.1 key.2.1 key.2.2
      · rw [if_neg hc] at hm
        have h3 : restoreFp e s = c := by
          rcases h2 with ⟨_, b, h2⟩ | h2
          · rw [hfa] at h2
            simp only [Option.some.injEq, Prod.mk.injEq] at h2
            exact absurd (by rw [h2.2.1]; exact ⟨rfl, rfl⟩) hc
          · exact h2
        rw [h3] at hm
        have key : (w.ent .mir = some i ∧ w.kind i = .reg ∧ w.data i = s.data i ∧ w.attr i = s.attr i ∧ fileAt w .inc = fileAt s .inc) ∨
            (w.ent .mir = some s.next ∧ w.kind s.next = .reg ∧ w.data s.next = c) := by
          cases hin : s.ent .inc with
          | none =>
              simp [hin, moments, fsyncParent, fsyncWithDir, hf, hsd] at hm
              rcases hm with rfl | rfl | rfl | rfl | rfl | rfl | rfl | rfl
              all_goals cases hfl : o.flush
              all_goals simp [step, upd, sameDir, dE, dD, dA, hi, hk, hin, hfl, n1] at hm1 hm2 d0 a0 k0 d1 k1
              all_goals first
                | exact .inl ⟨hm1, k0, d0, a0, by simp [fileAt, hm2, hin]⟩
                | exact .inr ⟨hm1, k1, d1⟩
                | (rcases hm1 with hm1 | hm1
                   · exact .inl ⟨hm1, k0, d0, a0, by simp [fileAt, hm2, hin]⟩
                   · exact .inr ⟨hm1, k1, d1⟩)
          | some j =>
              have hltj := hu _ _ (.inl hin)
              have n3 : j ≠ s.next := by omega
              have dj := hw.data j
              have aj := hw.attr j
              have kj := congrFun hw.kind j
              simp [hin, moments, fsyncParent, fsyncWithDir, hf, hsd] at hm
              rcases hm with rfl | rfl | rfl | rfl | rfl | rfl | rfl | rfl | rfl
              all_goals cases hfl : o.flush
              all_goals simp [step, upd, sameDir, dE, dD, dA, hi, hk, hin, hfl, n1, n3] at hm1 hm2 d0 a0 k0 d1 k1 dj aj kj
              all_goals first
                | exact .inl ⟨hm1, k0, d0, a0, by simp [fileAt, hm2, hin, dj, aj, kj]⟩
                | exact .inr ⟨hm1, k1, d1⟩
                | (rcases hm1 with hm1 | hm1
                   · exact .inl ⟨hm1, k0, d0, a0, by simp [fileAt, hm2, hin, dj, aj, kj]⟩
                   · exact .inr ⟨hm1, k1, d1⟩)
        rcases key with ⟨p1, p2, p3, p4, p5⟩ | ⟨p1, p2, p3⟩
        · refine ⟨rec_same hr (p1.trans hi.symm) (fun i' h => ?_) p5, i, p1, p2⟩
          rw [hi] at h; cases h
          exact ⟨p2.trans hk.symm, p3, p4⟩
        · exact rec_sha p1 p2 p3

/-! ### The claims -/

/-- What there can be after power failures: one during the backup of the file, and any number of others while that backup is regressed. -/
inductive Reach (o : Opts) (e : Env C A S H) (hasSha : Bool) (old new : Option (File C A S)) : St C A S → Prop
  | backup {s0 k pre s} : Clean s0 old → Distinct o e old new k → pre <+: backupOps o e old new k → Fail (run o e s0 pre) s → Reach o e hasSha old new s
  | touch {s0 c a a' pre s} : Clean s0 old → old = some (.reg c a) → new = some (.reg c a') → pre <+: touchOps a' → Fail (run o e s0 pre) s → Reach o e hasSha old new s
  | regress {s k pre s'} : Reach o e hasSha old new s → pre <+: regressOps o e (metaOf e hasSha old) s k → Fail (run o e s pre) s' → Reach o e hasSha old new s'

/-- after everything is synchronised, a failure changes nothing -/
theorem sync_durable {o : Opts} {e : Env C A S H} {s w : St C A S} {old : Option (File C A S)} (h : Holds s .mir old) (hi : s.ent .inc = none) (hw : Fail (step o e s .syncAll) w) :
    Holds w .mir old ∧ w.ent .inc = none := by
  have h1 := hw.ent
  have h2 := hw.data
  have h3 := hw.attr
  have h4 := hw.kind
  simp only [step] at h1 h2 h3 h4
  refine ⟨?_, (h1 _).trans hi⟩
  cases old with
  | none => exact (h1 _).trans h
  | some f =>
      cases f with
      | reg c a => obtain ⟨i, p1, p2, p3, p4⟩ := h; exact ⟨i, (h1 _).trans p1, by rw [h4, p2], (h2 _).trans p3, (h3 _).trans p4⟩
      | spec x a => obtain ⟨i, p1, p2, p3⟩ := h; exact ⟨i, (h1 _).trans p1, by rw [h4, p2], (h3 _).trans p3⟩

/-- the regress, and the synchronisation before the mark of the failed backup is removed (RS 1718-1722): also after a further failure, the file is there -/
def Restored (o : Opts) (e : Env C A S H) (hasSha : Bool) (old : Option (File C A S)) (s : St C A S) (k : Nat) : Prop :=
  let t := run o e s (regressOps o e (metaOf e hasSha old) s k)
  Holds t .mir old ∧ t.ent .inc = none ∧ ∀ w, Fail (step o e t .syncAll) w → Holds w .mir old ∧ w.ent .inc = none

theorem restored_of_rec {o : Opts} {e : Env C A S H} {hasSha : Bool} {old : Option (File C A S)} {s : St C A S} (hsha : ∀ c c', e.sha c = e.sha c' → c = c')
    (hr : Rec e hasSha old s) (k : Nat) : Restored o e hasSha old s k := by
  obtain ⟨h1, h2⟩ := regress_done (o := o) hsha hr k
  exact ⟨h1, h2, fun w hw => sync_durable h1 h2 hw⟩

/-- **C78 (one failure).** Whenever the power fails while a file is backed up, and whatever of the writes not yet synchronised is lost: the regress gives back the file as it was, of
any type, with or without a hash. -/
theorem one_failure_partial {o : Opts} {e : Env C A S H} (hf : o.fsync = true) (hd : o.syncDirs = true) (hsha : ∀ c c', e.sha c = e.sha c' → c = c') {hasSha : Bool}
    {old new : Option (File C A S)} (hr : Regular o e old new) {k : Nat} (hdist : Distinct o e old new k) {s0 : St C A S} (hc : Clean s0 old)
    {pre : List (Op C A S)} (hp : pre <+: backupOps o e old new k) {s : St C A S} (hw : Fail (run o e s0 pre) s) (j : Nat) : Restored o e hasSha old s j :=
  restored_of_rec hsha (backup_fail hf hd hr hdist hc (run_moment o e _ _ _ hp) hw) j

/-- **C78 (any failures).** The same after any number of failures, also while it is regressed: if the file was a regular file and is one in the source, and has a hash in the
metadata; or if it wasn't a regular file. -/
theorem any_failures_partial {o : Opts} {e : Env C A S H} (hf : o.fsync = true) (hd : o.syncDirs = true) (hsha : ∀ c c', e.sha c = e.sha c' → c = c') {hasSha : Bool}
    {old new : Option (File C A S)} (hr : Regular o e old new) (hreg : ∀ c a, old = some (.reg c a) → hasSha = true ∧ ∃ c' a', new = some (.reg c' a'))
    {s : St C A S} (h : Reach o e hasSha old new s) (j : Nat) : Restored o e hasSha old s j := by
  have key : Durable s ∧ Used s ∧ Rec e hasSha old s ∧ (∀ c a, old = some (.reg c a) → MirReg s) := by
    induction h with
    | @backup s0 k pre s hc hdist hp hw =>
        refine ⟨hw.durable, used_fail (used_run o e pre (clean_used hc)) hw, backup_fail hf hd hr hdist hc (run_moment o e _ _ _ hp) hw, fun c a ho => ?_⟩
        obtain ⟨-, c', a', hn⟩ := hreg c a ho
        subst ho; subst hn
        obtain ⟨h1, h2⟩ := hr c a c' a' rfl rfl
        exact (backup_reg (hasSha := hasSha) hf hd h1 hdist h2 hc (run_moment o e _ _ _ hp) hw).2
    | @touch s0 c a a' pre s hc ho hn hp hw =>
        subst ho
        obtain ⟨h1, h2⟩ := touch_fail (hasSha := hasSha) hc (run_moment o e _ _ _ hp) hw
        exact ⟨hw.durable, used_fail (used_run o e pre (clean_used hc)) hw, h1, fun _ _ _ => h2⟩
    | @regress s k pre s' _ hp hw ih =>
        obtain ⟨i1, i2, i3, i4⟩ := ih
        refine ⟨hw.durable, used_fail (used_run o e pre i2) hw, ?_⟩
        have hm := run_moment o e _ _ s hp
        cases old with
        | none => exact ⟨backup_new, fun _ _ he => by cases he⟩
        | some f =>
            cases f with
            | spec x a => exact ⟨regress_fail_spec i1 i2 i3 hm hw, fun _ _ he => by cases he⟩
            | reg c a =>
                obtain ⟨rfl, -⟩ := hreg c a rfl
                obtain ⟨h1, h2⟩ := regress_fail_reg hf hd hsha i1 i2 i3 (i4 c a rfl) hm hw
                exact ⟨h1, fun _ _ _ => h2⟩
  exact restored_of_rec hsha key.2.2.1 j

/-- **C78 (one failure, attributes only).** -/
theorem touch_failure {o : Opts} {e : Env C A S H} (hsha : ∀ c c', e.sha c = e.sha c' → c = c') {hasSha : Bool} {c : C} {a a' : A} {s0 : St C A S} (hc : Clean s0 (some (.reg c a)))
    {pre : List (Op C A S)} (hp : pre <+: touchOps a') {s : St C A S} (hw : Fail (run o e s0 pre) s) (j : Nat) : Restored o e hasSha (some (.reg c a)) s j :=
  restored_of_rec hsha (touch_fail hc (run_moment o e _ _ _ hp) hw).1 j

/-- the increment of a file: of its own type, with its attributes; a regular file can be made from it (and the mirror); there was none: it says so -/
def Increment (e : Env C A S H) (s : St C A S) : Option (File C A S) → Prop
  | none => ∃ i, s.ent .inc = some i ∧ s.kind i = .missing
  | some (.reg c a) => restoreFp e s = c ∧ ∃ i, s.ent .inc = some i ∧ s.attr i = a
  | some (.spec x a) => ∃ i, s.ent .inc = some i ∧ s.kind i = .spec x ∧ s.attr i = a

/-- **C78 (no failure).** A backup which isn't interrupted leaves the new file in the mirror, and an increment for the old one. -/
theorem backup_done {o : Opts} {e : Env C A S H} {old new : Option (File C A S)} (hp : ∀ c c', e.patch c' (e.delta c' c) = c) {s0 : St C A S} (hc : Clean s0 old) (k : Nat) :
    Holds (run o e s0 (backupOps o e old new k)) .mir new ∧ Increment e (run o e s0 (backupOps o e old new k)) old := by
  obtain ⟨h1, h2, -, h4⟩ := hc
  obtain ⟨f, sd, fl⟩ := o
  rcases old with _ | ⟨c, a⟩ | ⟨x, a⟩ <;> rcases new with _ | ⟨c', a'⟩ | ⟨x', a'⟩ <;> cases f <;> cases sd <;> simp only [Holds] at h1
  all_goals
    try obtain ⟨i, hi, hk, hd⟩ := h1
    simp_all [backupOps, tempOps, incOps, fsyncWithDir, run, step, upd, sameDir, Holds, Increment, restoreFp, fileAt]

/-! ### Examples, and what is wrong -/

/-- contents are numbers, deltas differences -/
def env : Env Int Nat Bool Int := ⟨0, Int.natAbs, id, fun n o => o - n, fun c d => c + d, fun _ => 9, fun _ => false⟩

/-- a state which is on the disk -/
def disk (mir inc : Option Nat) (kind : Nat → Kind Bool) (data : Nat → Int) (attr : Nat → Nat) (next : Nat) : St Int Nat Bool :=
  let ent : Name → Option Nat := fun n => match n with
    | .mir => mir
    | .inc => inc
    | .tmp _ => none
  ⟨ent, fun n x => x = ent n, kind, data, fun i x => x = data i, attr, fun i x => x = attr i, next⟩

theorem disk_durable {mir inc kind data attr next} : Durable (disk mir inc kind data attr next) := ⟨fun _ _ => .rfl, fun _ _ => .rfl, fun _ _ => .rfl⟩

/-- the file with content 5 -/
def start : St Int Nat Bool := disk (some 0) none (fun _ => .reg) (fun _ => 5) (fun _ => 1) 1
def oldFile : Option (File Int Nat Bool) := some (.reg 5 1)
def newFile : Option (File Int Nat Bool) := some (.reg 7 2)

theorem start_clean : Clean start oldFile := by
  refine ⟨⟨0, rfl, rfl, rfl, rfl⟩, rfl, disk_durable, fun n i h => ?_⟩
  cases n with
  | mir => cases h; decide
  | inc => cases h
  | tmp k => cases h

theorem env_sha : ∀ c c', env.sha c = env.sha c' → c = c' := fun _ _ h => h

theorem distinct (o : Opts) (k : Nat) : Distinct o env oldFile newFile k := by
  intro c' a' h _
  rcases h with rfl | rfl <;> simp [Similar, oldFile, env]

theorem regular (b1 b2 : Bool) : Regular ⟨b1, b2, true⟩ env oldFile newFile := by
  intro c a c' a' _ _
  exact ⟨rfl, by simp only [env]; omega⟩

/-- after the whole backup, all of it on the disk -/
def after : St Int Nat Bool :=
  disk (some 1) (some 2) (fun i => if i = 2 then .diff else .reg) (fun i => if i = 1 then 7 else if i = 2 then -2 else 5) (fun i => if i = 1 then 2 else 1) 3

theorem after_reach (hasSha : Bool) : Reach ⟨true, true, true⟩ env hasSha oldFile newFile after := by
  refine .backup (k := 0) start_clean (distinct _ _) (List.prefix_refl _) ⟨fun n => ?_, fun i => ?_, fun i => ?_, ?_, rfl, disk_durable⟩
  · cases n with
    | mir => exact .inr rfl
    | inc => exact rfl
    | tmp k =>
        by_cases hk : k = 0
        · subst hk; exact .inr rfl
        · simp [run, backupOps, tempOps, incOps, fsyncWithDir, oldFile, newFile, step, upd, sameDir, hk, start, disk, after]
  · simp [run, backupOps, tempOps, incOps, fsyncWithDir, oldFile, newFile, step, upd, sameDir, start, disk, after, env]
    by_cases h1 : i = 1 <;> by_cases h2 : i = 2 <;> simp_all
  · simp [run, backupOps, tempOps, incOps, fsyncWithDir, oldFile, newFile, step, upd, sameDir, start, disk, after, env]
    by_cases h1 : i = 1 <;> by_cases h2 : i = 2 <;> simp_all
  · funext i
    simp [run, backupOps, tempOps, incOps, fsyncWithDir, oldFile, newFile, step, upd, sameDir, start, disk, after, env]

example : Restored ⟨true, true, true⟩ env true oldFile after 1 :=
  any_failures_partial rfl rfl env_sha (regular _ _) (fun _ _ _ => ⟨rfl, 7, 2, rfl⟩) (after_reach true) 1

/-- **The new file (F115).** The data of the new file are not synchronised before it is renamed. Unless the file system sees to it, they may be lost while the new name is on the
disk already: the mirror has neither the new nor the old content, the increment is a delta from the new one, and the regress makes something else out of it. -/
theorem not_flushed : ∃ s : St Int Nat Bool, Clean start oldFile ∧ Distinct ⟨true, true, false⟩ env oldFile newFile 0 ∧
    Fail (run ⟨true, true, false⟩ env start (backupOps ⟨true, true, false⟩ env oldFile newFile 0)) s ∧ ¬ Restored ⟨true, true, false⟩ env true oldFile s 1 := by
  refine ⟨disk (some 1) (some 2) (fun i => if i = 2 then .diff else .reg) (fun i => if i = 1 then 0 else if i = 2 then -2 else 5) (fun i => if i = 1 then 2 else 1) 3,
    start_clean, distinct _ _, ⟨fun n => ?_, fun i => ?_, fun i => ?_, ?_, rfl, disk_durable⟩, ?_⟩
  · cases n with
    | mir => exact .inr rfl
    | inc => exact rfl
    | tmp k =>
        by_cases hk : k = 0
        · subst hk; exact .inr rfl
        · simp [run, backupOps, tempOps, incOps, fsyncWithDir, oldFile, newFile, step, upd, sameDir, hk, start, disk]
  · simp [run, backupOps, tempOps, incOps, fsyncWithDir, oldFile, newFile, step, upd, sameDir, start, disk, env]
    by_cases h1 : i = 1 <;> by_cases h2 : i = 2 <;> simp_all
  · simp [run, backupOps, tempOps, incOps, fsyncWithDir, oldFile, newFile, step, upd, sameDir, start, disk, env]
    by_cases h1 : i = 1 <;> by_cases h2 : i = 2 <;> simp_all
  · funext i
    simp [run, backupOps, tempOps, incOps, fsyncWithDir, oldFile, newFile, step, upd, sameDir, start, disk, env]
  · rintro ⟨⟨i, h1, -, h3, -⟩, -⟩
    have e1 : i = 3 := by
      have : some i = some 3 := h1.symm.trans rfl
      exact Option.some.inj this
    subst e1
    exact absurd (h3.symm.trans (rfl : _ = (-2 : Int))) (by decide)

/-- **Written directly (F116).** If the file was deleted or replaced by another type of file, the regress writes it directly and doesn't synchronise it (only its directory), and
then deletes the increment: after a power failure before the end of the regress, both may be lost. -/
theorem written_directly : ∃ s : St Int Nat Bool, Reach ⟨true, true, true⟩ env true oldFile none s ∧ ¬ Restored ⟨true, true, true⟩ env true oldFile s 1 := by
  have r1 : Reach ⟨true, true, true⟩ env true oldFile none (disk none (some 1) (fun i => if i = 1 then .snap else .reg) (fun _ => 5) (fun _ => 1) 2) := by
    refine .backup (k := 0) start_clean trivial (List.prefix_refl _) ⟨fun n => ?_, fun i => ?_, fun i => ?_, ?_, rfl, disk_durable⟩
    · cases n with
      | mir => exact .inr rfl
      | inc => exact rfl
      | tmp k => simp [run, backupOps, incOps, fsyncWithDir, oldFile, step, upd, sameDir, start, disk]
    · simp [run, backupOps, incOps, fsyncWithDir, oldFile, step, upd, sameDir, start, disk, env]
      by_cases h1 : i = 1 <;> simp_all
    · simp [run, backupOps, incOps, fsyncWithDir, oldFile, step, upd, sameDir, start, disk, env]
      by_cases h1 : i = 1 <;> simp_all
    · funext i
      simp [run, backupOps, incOps, fsyncWithDir, oldFile, step, upd, sameDir, start, disk, env]
  refine ⟨disk (some 2) none (fun i => if i = 1 then .snap else .reg) (fun i => if i = 2 then 0 else 5) (fun _ => 1) 3,
    .regress (k := 0) r1 (List.prefix_refl _) ⟨fun n => ?_, fun i => ?_, fun i => ?_, ?_, rfl, disk_durable⟩, ?_⟩
  · cases n with
    | mir => exact rfl
    | inc => exact .inr rfl
    | tmp k => exact rfl
  · by_cases h1 : i = 2
    · subst h1; exact trivial
    · simp [run, regressOps, looks, metaOf, fileAt, restoreRegOps, fsyncParent, oldFile, step, upd, sameDir, disk, env, h1]
  · by_cases h1 : i = 2
    · subst h1; exact .inr rfl
    · simp [run, regressOps, looks, metaOf, fileAt, restoreRegOps, fsyncParent, oldFile, step, upd, sameDir, disk, env, h1]
  · funext i
    by_cases h1 : i = 2
    · subst h1; rfl
    · simp [run, regressOps, looks, metaOf, fileAt, restoreRegOps, fsyncParent, oldFile, step, upd, sameDir, disk, env, h1]
  · rintro ⟨⟨i, h1, -, h3, -⟩, -⟩
    have e1 : i = 3 := by
      have : some i = some 3 := h1.symm.trans rfl
      exact Option.some.inj this
    subst e1
    exact absurd (h3.symm.trans (rfl : _ = (0 : Int))) (by decide)

/-- **Attributes after synchronising (F117).** The regress synchronises the restored file and sets its attributes only then. If these are lost by a power failure and the metadata have
no hash (all but one of several hard links), the next regress doesn't see that the file is restored, and applies the delta to it again. -/
theorem no_hash : ∃ s : St Int Nat Bool, Reach ⟨true, true, true⟩ env false oldFile newFile s ∧ ¬ Restored ⟨true, true, true⟩ env false oldFile s 1 := by
  refine ⟨disk (some 3) (some 2) (fun i => if i = 2 then .diff else .reg) (fun i => if i = 1 then 7 else if i = 2 then -2 else 5)
      (fun i => if i = 1 then 2 else if i = 3 then 9 else 1) 4,
    .regress (k := 0) (after_reach false) (pre := (regressOps ⟨true, true, true⟩ env (metaOf env false oldFile) after 0).dropLast) (List.dropLast_prefix _)
      ⟨fun n => ?_, fun i => ?_, fun i => ?_, ?_, rfl, disk_durable⟩, ?_⟩
  · cases n with
    | mir => exact rfl
    | inc => exact rfl
    | tmp k =>
        by_cases hk : k = 0
        · subst hk; exact rfl
        · simp [run, regressOps, looks, metaOf, fileAt, restoreRegOps, fsyncParent, fsyncWithDir, oldFile, step, upd, sameDir, disk, env, after, hk]
  · by_cases h1 : i = 3
    · subst h1; exact rfl
    · simp [run, regressOps, looks, metaOf, fileAt, restoreRegOps, fsyncParent, fsyncWithDir, oldFile, step, upd, sameDir, disk, env, after, h1]
  · by_cases h1 : i = 3
    · subst h1; exact .inl rfl
    · simp [run, regressOps, looks, metaOf, fileAt, restoreRegOps, fsyncParent, fsyncWithDir, oldFile, step, upd, sameDir, disk, env, after, h1]
  · funext i
    by_cases h1 : i = 3
    · subst h1; rfl
    · simp [run, regressOps, looks, metaOf, fileAt, restoreRegOps, fsyncParent, fsyncWithDir, oldFile, step, upd, sameDir, disk, env, after, h1]
  · rintro ⟨⟨i, h1, -, h3, -⟩, -⟩
    have e1 : i = 4 := by
      have : some i = some 4 := h1.symm.trans rfl
      exact Option.some.inj this
    subst e1
    exact absurd (h3.symm.trans (rfl : _ = (3 : Int))) (by decide)

/-- **Killed, then a power failure (F118).** A regress which is killed after renaming the restored file and before its directory is synchronised, and a second one: it finds the file
as it should be and deletes the increment, without synchronising the directory. After a power failure the file may be the one of the failed backup again, without the increment. -/
theorem killed_then_failure : ∃ (t s : St Int Nat Bool) (pre : List (Op Int Nat Bool)), Reach ⟨true, true, true⟩ env true oldFile newFile after ∧
    pre <+: regressOps ⟨true, true, true⟩ env (metaOf env true oldFile) after 0 ∧ t = run ⟨true, true, true⟩ env after pre ∧
    Fail (run ⟨true, true, true⟩ env t (regressOps ⟨true, true, true⟩ env (metaOf env true oldFile) t 1)) s ∧ ¬ Restored ⟨true, true, true⟩ env true oldFile s 2 := by
  refine ⟨_, disk (some 1) none (fun i => if i = 2 then .diff else .reg) (fun i => if i = 1 then 7 else if i = 2 then -2 else 5) (fun i => if i = 1 then 2 else 1) 4,
    (regressOps ⟨true, true, true⟩ env (metaOf env true oldFile) after 0).take 6, after_reach true, List.take_prefix _ _, rfl,
    ⟨fun n => ?_, fun i => ?_, fun i => ?_, ?_, rfl, disk_durable⟩, ?_⟩
  · cases n with
    | mir => exact .inl rfl
    | inc => exact .inr rfl
    | tmp k =>
        by_cases hk : k = 0
        · subst hk; exact .inr rfl
        · simp [run, regressOps, restoreFp, looks, metaOf, fileAt, restoreRegOps, fsyncParent, fsyncWithDir, oldFile, step, upd, sameDir, disk, env, after, hk]
  · by_cases h1 : i = 3
    · subst h1; exact rfl
    · simp [run, regressOps, restoreFp, looks, metaOf, fileAt, restoreRegOps, fsyncParent, fsyncWithDir, oldFile, step, upd, sameDir, disk, env, after, h1]
  · by_cases h1 : i = 3
    · subst h1; exact .inr rfl
    · simp [run, regressOps, restoreFp, looks, metaOf, fileAt, restoreRegOps, fsyncParent, fsyncWithDir, oldFile, step, upd, sameDir, disk, env, after, h1]
  · funext i
    by_cases h1 : i = 3
    · subst h1; rfl
    · simp [run, regressOps, restoreFp, looks, metaOf, fileAt, restoreRegOps, fsyncParent, fsyncWithDir, oldFile, step, upd, sameDir, disk, env, after, h1]
  · rintro ⟨⟨i, h1, -, h3, -⟩, -⟩
    have e1 : i = 4 := by
      have : some i = some 4 := h1.symm.trans rfl
      exact Option.some.inj this
    subst e1
    exact absurd (h3.symm.trans (rfl : _ = (7 : Int))) (by decide)

end Verif.C78
