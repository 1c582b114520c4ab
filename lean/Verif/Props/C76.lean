import Verif.Model.Inode
import Verif.Props.C75
import Mathlib.Order.MinMax

/-!
C76: while a file is copied, nobody gets at it who may not in the end.

Specification: `may` below. The model: `Verif.Inode` (`attribSteps`, `states`).
-/

namespace Verif.C76
open Verif.Inode Verif.Quoting Verif.Attrs

/-! ### Specification: who may do what -/

/-- Whether the user `u` with the groups `gs` has the permission `bit` (4: read, 2: write, 1: execute), by POSIX: the owner, then those named, then the groups, then all
others. -/
def may (u : Nat) (gs : List Nat) (bit : Nat) (a : Attr) : Bool :=
  let has (p : Nat) : Bool := p / bit % 2 = 1
  if a.acl = [] then
    if u = a.uid then has (a.perms / 64 % 8) else if a.gid ∈ gs then has (a.perms / 8 % 8) else has (a.perms % 8)
  else
    let mask := (entryPerms .mask a.acl).getD 7
    if u = a.uid then has ((entryPerms .owner a.acl).getD 0)
    else match entryPerms (.user u) a.acl with
      | some p => has p && has mask
      | none =>
          let groups := a.acl.filter fun e => match e.who with
            | .owningGroup => decide (a.gid ∈ gs)
            | .group g => decide (∃ x ∈ gs, (x : Int) = g)
            | _ => false
          if groups = [] then has ((entryPerms .other a.acl).getD 0) else groups.any (fun e => has e.perms) && has mask

/-! ### The new file -/

theorem states_last (l : List (Node → Node)) : ∀ nd, (states l nd).getLast? = some (runSteps l nd) := by
  induction l with
  | nil => intro nd; rfl
  | cons f l ih =>
      intro nd
      have : states l (f nd) ≠ [] := by cases l <;> simp [states]
      rw [states, List.getLast?_cons, ih]
      rfl

theorem mem_states_append (l1 l2 : List (Node → Node)) : ∀ nd x, x ∈ states (l1 ++ l2) nd → x ∈ states l1 nd ∨ x ∈ states l2 (runSteps l1 nd) := by
  induction l1 with
  | nil => intro nd x h; exact Or.inr h
  | cons f l ih =>
      intro nd x h
      rw [List.cons_append, states] at h
      rcases List.mem_cons.mp h with rfl | h
      · exact Or.inl (by simp [states])
      · rcases ih _ _ h with h | h
        · exact Or.inl (by rw [states]; exact List.mem_cons_of_mem _ h)
        · exact Or.inr h

/-- **C76.** Of a new file which only its owner may use (the program's umask is 077), made in a directory which gives it no access control list, for a source without one, if no
extended attributes are written: at each moment, any other user than the one who runs the program and the owner of the source has either no permission at all or those of the end. -/
theorem private_partial (k : Kernel) (s : Sets) (src : Src) (nd : Node) (heas : s.eas = false) (hsym : src.kind.isSym = false) (hacl : src.acl = [])
    (hfresh : nd.attr.perms % 64 = 0) (hnoacl : nd.attr.acl = []) (hstrip : ∀ kd p, p % 64 = 0 → k.stripped kd p % 64 = 0)
    (x : Node) (hx : x ∈ states (attribSteps k s src) nd) (u : Nat) (hu1 : u ≠ nd.attr.uid) (hu2 : u ≠ src.uid) (gs : List Nat) (bit : Nat) :
    may u gs bit x.attr = false ∨ may u gs bit x.attr = may u gs bit (runSteps (attribSteps k s src) nd).attr := by
  have hzero : ∀ a : Attr, a.acl = [] → a.perms % 64 = 0 → u ≠ a.uid → may u gs bit a = false := by
    intro a h1 h2 h3
    have e1 : a.perms / 8 % 8 = 0 := by omega
    have e2 : a.perms % 8 = 0 := by omega
    simp [may, h1, h3, e1, e2]
  have hwa : ∀ y : Node, y.attr.acl = [] → (writeAcl k (listToAcl s.sys src.acl) (listToAcl s.sys src.dacl) y).attr.uid = y.attr.uid ∧
      (writeAcl k (listToAcl s.sys src.acl) (listToAcl s.sys src.dacl) y).attr.gid = y.attr.gid ∧
      (writeAcl k (listToAcl s.sys src.acl) (listToAcl s.sys src.dacl) y).attr.perms = y.attr.perms ∧
      (writeAcl k (listToAcl s.sys src.acl) (listToAcl s.sys src.dacl) y).attr.acl = y.attr.acl := by
    intro y hy
    rw [hacl]
    unfold writeAcl
    split
    · simp [listToAcl, setAcl, hy]
    · simp
  have hmay : ∀ a b : Attr, a.uid = b.uid → a.gid = b.gid → a.perms = b.perms → a.acl = [] → b.acl = [] → may u gs bit a = may u gs bit b := by
    intro a b h1 h2 h3 h4 h5
    simp [may, h1, h2, h3, h4, h5]
  -- the part from the first `chmod` on
  have tail : ∀ y : Node, y.attr.acl = [] → y.attr.perms % 64 = 0 → u ≠ y.attr.uid → ∀ x ∈ states ([chmod s.mask src.perms] ++
      (if s.acls then [writeAcl k (listToAcl s.sys src.acl) (listToAcl s.sys src.dacl)] else []) ++
      (if src.kind.isDev then [] else [setmtime src.mtime])) y, may u gs bit x.attr = false ∨ may u gs bit x.attr = may u gs bit (runSteps ([chmod s.mask src.perms] ++
      (if s.acls then [writeAcl k (listToAcl s.sys src.acl) (listToAcl s.sys src.dacl)] else []) ++
      (if src.kind.isDev then [] else [setmtime src.mtime])) y).attr := by
    intro y h1 h2 h3 x hx
    have hc : (chmod s.mask src.perms y).attr.acl = [] := by simp [chmod, chmodAcl, h1]
    obtain ⟨w1, w2, w3, w4⟩ := hwa _ hc
    cases hl : s.acls <;> cases hd : src.kind.isDev <;>
      simp only [hl, hd, Bool.false_eq_true, if_false, if_true, List.append_nil, List.nil_append, List.cons_append, states, List.mem_cons, List.not_mem_nil, or_false,
        runSteps, List.foldl_cons, List.foldl_nil] at hx ⊢ <;>
      rcases hx with rfl | hx <;> first
        | exact Or.inl (hzero _ h1 h2 h3)
        | (right
           (try rcases hx with rfl | rfl | rfl) <;> apply hmay <;> simp_all [setmtime])
  simp only [attribSteps, heas, hsym, Bool.false_eq_true, if_false, List.append_nil] at hx ⊢
  cases hc : s.chown with
  | false =>
      simp only [hc, Bool.false_eq_true, if_false, List.nil_append] at hx ⊢
      exact tail nd hnoacl hfresh hu1 x hx
  | true =>
      simp only [hc, if_true] at hx ⊢
      rw [List.singleton_append, states] at hx
      rcases List.mem_cons.mp hx with rfl | hx
      · exact Or.inl (hzero _ hnoacl hfresh hu1)
      · exact tail (chown k src.uid src.gid nd) hnoacl (hstrip _ _ hfresh) hu2 x hx

/-! ### Examples, and what goes wrong -/

open Verif.C75 (attr0 kernel0 sets0)

/-- a file of user 4 and group 5 which is nobody else's business -/
def secret : Src := ⟨.reg [115], 4, 5, 0o600, 9, ⟨[], []⟩, [], []⟩
/-- the new file: mode 600, of the user who runs the program -/
def new0 : Node := ⟨.reg [115], attr0⟩

/-- The hypotheses are met: with a source which the group may read, the group 5 may read it at the end and not before. -/
example : (states (attribSteps kernel0 { sets0 with eas := false } { secret with perms := 0o640 }) new0).map (fun x => may 9 [5] 4 x.attr) = [false, false, true, true, true] ∧
    new0.attr.perms % 64 = 0 ∧ new0.attr.acl = [] := by decide +kernel
example : ∀ (kd : Kind) (p : Nat), p % 64 = 0 → kernel0.stripped kd p % 64 = 0 := by
  intro _ p h; show p % 512 % 64 = 0; omega

/-- F111: if extended attributes are written, everyone may read and write the file for a while, whatever its permissions (and for ever if the program is stopped there). -/
theorem everyone : ∃ k s x, x ∈ states (attribSteps k s secret) new0 ∧ may 9 [] 4 x.attr = true ∧ may 9 [] 2 x.attr = true ∧
    may 9 [] 4 (runSteps (attribSteps k s secret) new0).attr = false ∧ may 9 [] 4 new0.attr = false :=
  ⟨kernel0, sets0, chmod 0o7777 (0o600 ||| 0o666) (chown kernel0 4 5 new0), by simp [attribSteps, sets0, secret, states, Kind.isSym], by decide +kernel⟩

/-- F112: the permissions of the mask of an access control list are the ones of the group, until the list is written. -/
theorem owning_group : ∃ (k : Kernel) (s : Sets) (src : Src) (x : Node), s.eas = false ∧ x ∈ states (attribSteps k s src) new0 ∧ may 9 [5] 4 x.attr = true ∧
    may 9 [5] 4 (runSteps (attribSteps k s src) new0).attr = false :=
  ⟨kernel0, { sets0 with eas := false },
    { secret with perms := 0o660, acl := [⟨.owner, 6⟩, ⟨.user (some 8) none, 6⟩, ⟨.owningGroup, 0⟩, ⟨.mask, 6⟩, ⟨.other, 0⟩] },
    chmod 0o7777 0o660 (chown kernel0 4 5 new0), rfl, by simp [attribSteps, sets0, secret, states, Kind.isSym, Kind.isDev], by decide +kernel⟩

/-- F113: when only the attributes of a file change, the new group has the old permissions for a while, although neither before nor after may it read the file. -/
theorem new_group : ∃ (k : Kernel) (s : Sets) (old x : Node), s.eas = false ∧ old.attr = { attr0 with uid := 4, gid := 6, perms := 0o640 } ∧
    x ∈ states (attribSteps k s secret) old ∧ may 9 [5] 4 x.attr = true ∧ may 9 [5] 4 old.attr = false ∧ may 9 [5] 4 (runSteps (attribSteps k s secret) old).attr = false :=
  ⟨kernel0, { sets0 with eas := false }, ⟨.reg [115], { attr0 with uid := 4, gid := 6, perms := 0o640 }⟩,
    chown kernel0 4 5 ⟨.reg [115], { attr0 with uid := 4, gid := 6, perms := 0o640 }⟩, rfl, rfl, by simp [attribSteps, sets0, secret, states, Kind.isSym, Kind.isDev], by decide +kernel⟩

end Verif.C76
