import Verif.Model.Inode
import Verif.Props.C53
import Mathlib.Order.MinMax

/-!
C75: a copy has the type, the data and the attributes of the source, and copying and renaming change nothing else.

Specification: `Like`, `After` below. The model: `Verif.Inode` (`copyWithAttribs`, `rename`).
-/

namespace Verif.C75
open Verif.Inode Verif.Quoting Verif.Attrs

/-! ### Specification -/

/-- what holds of every file system: the inodes in use are known, what has something below it is a directory, and a directory has one name only -/
structure Ok (fs : FS) : Prop where
  used : ∀ q n, fs.ent q = some n → n < fs.next
  parent : ∀ p x r, fs.ent (p ++ x :: r) ≠ none → ∃ n, fs.ent p = some n ∧ (fs.node n).kind = .dir
  dirs : ∀ p q n, fs.ent p = some n → fs.ent q = some n → (fs.node n).kind = .dir → p = q

/-- The file `nd` has the attributes of `src`, as far as the settings ask for them, the kind of file has them and the file system lets them be set. -/
structure Like (k : Kernel) (s : Sets) (src : Src) (nd : Node) : Prop where
  owner : s.chown = true → nd.attr.uid = src.uid ∧ nd.attr.gid = src.gid
  perms : src.kind.isSym = false → nd.attr.perms = src.perms &&& s.mask
  mtime : src.kind.isSym = false → src.kind.isDev = false → nd.attr.mtime = src.mtime
  xattrs : s.eas = true → ∀ n, k.settable n = true → k.removable n = true → nd.attr.xattrs.lookup n = src.ea.attrs.lookup n
  acl : s.acls = true → src.kind.isSym = false → k.aclOk (listToAcl s.sys src.acl) = true →
    nd.attr.acl = if extended (listToAcl s.sys src.acl) then listToAcl s.sys src.acl else []
  dacl : s.acls = true → nd.kind = .dir → src.kind.isSym = false → k.aclOk (listToAcl s.sys src.acl) = true → nd.attr.dacl = listToAcl s.sys src.dacl

/-- A file's access control list and its permissions agree (the kernel sees to it), for the source as it is written to the target. -/
def Agree (s : Sets) (src : Src) : Prop := listToAcl s.sys src.acl = [] ∨ aclBits (listToAcl s.sys src.acl) = (src.perms &&& s.mask) % 512

/-! ### Attributes -/

theorem setAcl_perms {acl a} (h : acl = [] ∨ aclBits acl = a.perms % 512) : (setAcl acl a).perms = a.perms := by
  unfold setAcl
  split
  · rfl
  · rcases h with h | h
    · contradiction
    · show a.perms / 512 * 512 + aclBits acl = a.perms
      rw [h]; omega

theorem kind_steps (k s src) (nd : Node) : (runSteps (attribSteps k s src) nd).kind = nd.kind := by
  have h : ∀ (l : List (Node → Node)) (nd : Node), (∀ f ∈ l, ∀ x, (f x).kind = x.kind) → (runSteps l nd).kind = nd.kind := by
    intro l
    induction l with
    | nil => intros; rfl
    | cons f l ih =>
        intro nd hl
        show (runSteps l (f nd)).kind = nd.kind
        rw [ih _ fun g hg => hl g (by simp [hg]), hl f (by simp)]
  apply h
  intro f hf x
  simp only [attribSteps, List.mem_append] at hf
  rcases hf with (hf | hf) | hf
  · split at hf <;> simp at hf
    subst hf; rfl
  · split at hf <;> simp at hf
    rcases hf with hf | hf
    · obtain ⟨_, rfl⟩ := hf; rfl
    · subst hf; rfl
  · split at hf
    · simp at hf
    · simp only [List.mem_append] at hf
      rcases hf with (hf | hf) | hf
      · simp at hf; subst hf; rfl
      · split at hf <;> simp at hf
        subst hf
        unfold writeAcl; split <;> rfl
      · split at hf <;> simp at hf
        subst hf; rfl

theorem setAcl_xattrs {acl a} : (setAcl acl a).xattrs = a.xattrs := by unfold setAcl; split <;> rfl
theorem setAcl_uid {acl a} : (setAcl acl a).uid = a.uid := by unfold setAcl; split <;> rfl
theorem setAcl_gid {acl a} : (setAcl acl a).gid = a.gid := by unfold setAcl; split <;> rfl
theorem setAcl_mtime {acl a} : (setAcl acl a).mtime = a.mtime := by unfold setAcl; split <;> rfl
theorem setAcl_acl {acl a} : (setAcl acl a).acl = if extended acl then acl else [] := by
  unfold setAcl; split
  · subst acl; rfl
  · rfl

/-- **C75 (attributes).** Whatever attributes the file has, afterwards it has those of the source. -/
theorem like (k : Kernel) (s : Sets) (src : Src) (nd : Node) (hea : (src.ea.attrs.map (·.1)).Nodup) (ha : Agree s src) :
    Like k s src (runSteps (attribSteps k s src) nd) := by
  have hw : ∀ (x : Node), (x.attr.perms = src.perms &&& s.mask) →
      (writeAcl k (listToAcl s.sys src.acl) (listToAcl s.sys src.dacl) x).attr.perms = src.perms &&& s.mask := by
    intro x hx
    unfold writeAcl
    split
    · show (setAcl _ _).perms = _
      rw [setAcl_perms (by rw [hx]; exact ha), hx]
    · exact hx
  have hx : ∀ xs n, k.settable n = true → k.removable n = true → (eaToFile k.removable k.settable src.ea xs).lookup n = src.ea.attrs.lookup n := by
    intro xs n h1 h2
    rw [Verif.C53.ea_written _ _ _ _ hea]
    simp only [h1, h2, if_true]
    cases src.ea.attrs.lookup n <;> rfl
  have hwx : ∀ x, (writeAcl k (listToAcl s.sys src.acl) (listToAcl s.sys src.dacl) x).attr.xattrs = x.attr.xattrs := by
    intro x; unfold writeAcl; split
    · exact setAcl_xattrs
    · rfl
  have hwu : ∀ x, (writeAcl k (listToAcl s.sys src.acl) (listToAcl s.sys src.dacl) x).attr.uid = x.attr.uid := by
    intro x; unfold writeAcl; split
    · exact setAcl_uid
    · rfl
  have hwg : ∀ x, (writeAcl k (listToAcl s.sys src.acl) (listToAcl s.sys src.dacl) x).attr.gid = x.attr.gid := by
    intro x; unfold writeAcl; split
    · exact setAcl_gid
    · rfl
  have hwa : ∀ x, k.aclOk (listToAcl s.sys src.acl) = true → (writeAcl k (listToAcl s.sys src.acl) (listToAcl s.sys src.dacl) x).attr.acl =
      if extended (listToAcl s.sys src.acl) then listToAcl s.sys src.acl else [] := by
    intro x h; rw [writeAcl, if_pos h]; exact setAcl_acl
  have hwd : ∀ x, k.aclOk (listToAcl s.sys src.acl) = true → x.kind = .dir → (writeAcl k (listToAcl s.sys src.acl) (listToAcl s.sys src.dacl) x).attr.dacl =
      listToAcl s.sys src.dacl := by
    intro x h hk; rw [writeAcl, if_pos h]; simp [hk, Kind.isDir]
  have hk := kind_steps k s src nd
  constructor
  · intro hc
    cases he : s.eas <;> cases hs : src.kind.isSym <;> cases hl : s.acls <;> cases hd : src.kind.isDev <;>
      simp [attribSteps, runSteps, hc, he, hs, hl, hd, chown, chmod, writeEa, setmtime, hwu, hwg]
  · intro hs
    cases hc : s.chown <;> cases he : s.eas <;> cases hl : s.acls <;> cases hd : src.kind.isDev <;>
      simp [attribSteps, runSteps, hc, he, hs, hl, hd, setmtime] <;> first
        | rfl
        | exact hw _ rfl
  · intro hs hd
    simp [attribSteps, runSteps, hs, hd, setmtime]
  · intro he n h1 h2
    cases hc : s.chown <;> cases hs : src.kind.isSym <;> cases hl : s.acls <;> cases hd : src.kind.isDev <;>
      simp [attribSteps, runSteps, hc, he, hs, hl, hd, chown, chmod, writeEa, setmtime, hwx, hx _ n h1 h2]
  · intro hl hs hok
    cases hc : s.chown <;> cases he : s.eas <;> cases hd : src.kind.isDev <;>
      simp [attribSteps, runSteps, hc, he, hs, hl, hd, setmtime, hwa _ hok]
  · intro hl hd hs hok
    rw [hk] at hd
    cases hc : s.chown <;> cases he : s.eas <;> cases hdv : src.kind.isDev <;>
      simp [attribSteps, runSteps, hc, he, hs, hl, hdv, setmtime] <;> (rw [hwd _ hok]; simp [chown, chmod, writeEa, hd])

/-! ### Changing permissions -/

theorem find_chmod (perms : Nat) (w : PWho) (mask : Bool) (acl : List PEntry) :
    (acl.map fun e => match e.who with
      | .owner => ({ e with perms := perms / 64 % 8 } : PEntry)
      | .mask => { e with perms := perms / 8 % 8 }
      | .owningGroup => if mask then e else { e with perms := perms / 8 % 8 }
      | .other => { e with perms := perms % 8 }
      | _ => e).find? (fun e => e.who = w) =
    (acl.find? fun e => e.who = w).map fun e => match w with
      | .owner => ({ e with perms := perms / 64 % 8 } : PEntry)
      | .mask => { e with perms := perms / 8 % 8 }
      | .owningGroup => if mask then e else { e with perms := perms / 8 % 8 }
      | .other => { e with perms := perms % 8 }
      | _ => e := by
  induction acl with
  | nil => rfl
  | cons e acl ih =>
      obtain ⟨who, p⟩ := e
      by_cases h : who = w
      · subst h
        cases who <;> simp
        cases mask <;> simp
      · rw [List.map_cons, List.find?_cons_of_neg (l := acl) (by simpa using h), List.find?_cons_of_neg]
        · exact ih
        · cases who <;> simp_all
          cases mask <;> simp_all

theorem entry_chmod (perms : Nat) (acl : List PEntry) (w : PWho) : entryPerms w (chmodAcl perms acl) = (entryPerms w acl).map fun p => match w with
    | .owner => perms / 64 % 8
    | .mask => perms / 8 % 8
    | .owningGroup => if acl.any (fun e => e.who = .mask) then p else perms / 8 % 8
    | .other => perms % 8
    | _ => p := by
  unfold entryPerms chmodAcl
  refine (congrArg (Option.map fun e => e.perms) (find_chmod perms w (acl.any fun e => e.who = .mask) acl)).trans ?_
  cases w <;> simp [Function.comp_def]
  split <;> rfl

/-- **C75 (permissions of a file with a list).** Changing the permissions changes the list such that it means them, and leaves alone the entries of users and groups and, if there
is a mask, of the owning group. -/
theorem chmod_list (mask perms : Nat) (nd : Node) (h1 : (entryPerms .owner nd.attr.acl).isSome) (h2 : (entryPerms .owningGroup nd.attr.acl).isSome)
    (h3 : (entryPerms .other nd.attr.acl).isSome) :
    aclBits (chmod mask perms nd).attr.acl = (chmod mask perms nd).attr.perms % 512 ∧
    (∀ i, entryPerms (.user i) (chmod mask perms nd).attr.acl = entryPerms (.user i) nd.attr.acl) ∧
    (∀ i, entryPerms (.group i) (chmod mask perms nd).attr.acl = entryPerms (.group i) nd.attr.acl) ∧
    ((entryPerms .mask nd.attr.acl).isSome → entryPerms .owningGroup (chmod mask perms nd).attr.acl = entryPerms .owningGroup nd.attr.acl) := by
  obtain ⟨a, ha⟩ := Option.isSome_iff_exists.mp h1
  obtain ⟨b, hb⟩ := Option.isSome_iff_exists.mp h2
  obtain ⟨c, hc⟩ := Option.isSome_iff_exists.mp h3
  have hm : (nd.attr.acl.any fun e => e.who = .mask) = (entryPerms .mask nd.attr.acl).isSome := by
    unfold entryPerms
    rw [Option.isSome_map, Bool.eq_iff_iff, List.find?_isSome, List.any_eq_true]
  simp only [chmod]
  refine ⟨?_, fun i => ?_, fun i => ?_, fun h => ?_⟩
  · unfold aclBits
    simp only [entry_chmod, ha, hb, hc, Option.map_some, Option.getD_some, hm]
    cases entryPerms .mask nd.attr.acl <;> simp <;> omega
  · rw [entry_chmod]; cases entryPerms (.user i) nd.attr.acl <;> rfl
  · rw [entry_chmod]; cases entryPerms (.group i) nd.attr.acl <;> rfl
  · rw [entry_chmod, hb, hm, h]; rfl

/-! ### Copying -/

/-- What became of the rest: all other names are as before, and all inodes which were there -/
structure After (fs fs' : FS) (p : Path) (n : Nat) : Prop where
  others : ∀ q, ¬ p <+: q → fs'.ent q = fs.ent q
  nodes : ∀ m, m < fs.next → m ≠ n → fs'.node m = fs.node m

theorem sameData_eq {a b} (h : sameData a b = true) : a = b := by
  cases a <;> cases b <;> simp_all [sameData]

theorem prefix_self_append (p : Path) (r) : p <+: p ++ r := ⟨r, rfl⟩

theorem create_ent (k fs p kd) : (FS.create k fs p kd).ent p = some fs.next := by simp [FS.create]

/-- **C75 (copy).** After a copy the name is there with the source's type and data (but for a device which can't be made, for which there is an empty file), other names and
inodes are as before; what was below is kept for a directory and otherwise gone; a regular file is a new one, without other names. -/
theorem copy_exact (k : Kernel) (fs : FS) (ok : Ok fs) (src : Src) (p : Path) :
    ∃ n, (copy k fs (some src) p).ent p = some n ∧
      (((copy k fs (some src) p).node n).kind = src.kind ∨ (k.mknodOk = false ∧ src.kind.isDev = true ∧ ((copy k fs (some src) p).node n).kind = .reg [])) ∧
      After fs (copy k fs (some src) p) p n ∧
      (fs.ent p = some n ∨ (n = fs.next ∧ ∀ q, fs.ent q ≠ some n)) ∧
      (src.kind.isReg = true → n = fs.next) ∧
      (∀ x r, (copy k fs (some src) p).ent (p ++ x :: r) = if src.kind.isDir && (fs.ent p).any (fun m => (fs.node m).kind.isDir) then fs.ent (p ++ x :: r) else none) := by
  have hmade : made k src.kind = src.kind ∨ (k.mknodOk = false ∧ src.kind.isDev = true ∧ made k src.kind = .reg []) := by
    cases hk : src.kind <;> simp [made, Kind.isDev]
  have hfree : ∀ q, fs.ent q ≠ some fs.next := fun q h => absurd (ok.used q _ h) (by omega)
  have hne : ∀ x r, p ++ x :: r ≠ p := by
    intro x r h
    have := congrArg List.length h
    simp at this
  cases he : fs.ent p with
  | none =>
      have hcopy : copy k fs (some src) p = fs.create k p (made k src.kind) := by simp [copy, he]
      rw [hcopy]
      refine ⟨fs.next, create_ent .., ?_, ⟨?_, ?_⟩, Or.inr ⟨rfl, hfree⟩, fun _ => rfl, ?_⟩
      · simpa [FS.create] using hmade
      · intro q hq
        have : q ≠ p := by rintro rfl; exact hq ⟨[], by simp⟩
        simp [FS.create, this]
      · intro m hm _
        have : m ≠ fs.next := by omega
        simp [FS.create, this]
      · intro x r
        simp only [FS.create, hne x r, if_false, Option.any_none, Bool.and_false]
        by_contra hh
        obtain ⟨n, hn, _⟩ := ok.parent p x r hh
        rw [he] at hn; cases hn
  | some n =>
      by_cases hd : (src.kind.isReg || !sameData src.kind (fs.node n).kind) = true
      · have hcopy : copy k fs (some src) p = (fs.delete p).create k p (made k src.kind) := by simp [copy, he, hd]
        have hdir : (src.kind.isDir && (fs.node n).kind.isDir) = false := by
          cases h1 : src.kind <;> cases h2 : (fs.node n).kind <;> simp_all [Kind.isDir, Kind.isReg, sameData]
        rw [hcopy]
        refine ⟨fs.next, create_ent .., ?_, ⟨?_, ?_⟩, Or.inr ⟨rfl, hfree⟩, fun _ => rfl, ?_⟩
        · simpa [FS.create, FS.delete] using hmade
        · intro q hq
          have : q ≠ p := by rintro rfl; exact hq ⟨[], by simp⟩
          simp [FS.create, FS.delete, this, hq]
        · intro m hm _
          have : m ≠ fs.next := by omega
          simp [FS.create, FS.delete, this]
        · intro x r
          simp [FS.create, FS.delete, hdir]
      · have hcopy : copy k fs (some src) p = fs := by
          simp only [copy, he]; rw [if_neg hd]
        simp only [Bool.or_eq_true, Bool.not_eq_true', not_or, Bool.not_eq_false, Bool.not_eq_true] at hd
        have hkind := sameData_eq hd.2
        rw [hcopy]
        refine ⟨n, he, Or.inl hkind.symm, ⟨fun _ _ => rfl, fun _ _ _ => rfl⟩, Or.inl rfl, fun h => ?_, ?_⟩
        · rw [hd.1] at h; cases h
        · intro x r
          rw [hkind]
          simp only [Option.any_some, Bool.and_self]
          cases hb : (fs.node n).kind.isDir with
          | true => simp
          | false =>
              simp only [Bool.false_eq_true, if_false]
              by_contra hh
              obtain ⟨m, hm, hmd⟩ := ok.parent p x r hh
              rw [he] at hm; cases hm
              rw [hmd] at hb; cases hb

/-- **C75 (copy of nothing).** If the source isn't there, then neither is the target, and all else is as before. -/
theorem copy_none (k : Kernel) (fs : FS) (ok : Ok fs) (p : Path) :
    (∀ q, p <+: q → (copy k fs none p).ent q = none) ∧ (∀ q, ¬ p <+: q → (copy k fs none p).ent q = fs.ent q) ∧ ∀ m, (copy k fs none p).node m = fs.node m := by
  cases he : fs.ent p with
  | some n => simp +contextual [copy, he, FS.delete]
  | none =>
      refine ⟨?_, ?_, ?_⟩ <;> simp only [copy, he, Option.isSome_none, Bool.false_eq_true, if_false, implies_true]
      rintro q ⟨r, rfl⟩
      cases r with
      | nil => simpa using he
      | cons x r =>
          by_contra hh
          obtain ⟨n, hn, _⟩ := ok.parent p x r hh
          rw [he] at hn; cases hn

/-- **C75.** Copying with attributes always works out (the system willing), and afterwards the name is there, with type and data of the source and all its attributes; no other
name and no other inode has changed; and a regular file isn't linked to any other. -/
theorem copied (k : Kernel) (s : Sets) (fs : FS) (ok : Ok fs) (src : Src) (p : Path) (hea : (src.ea.attrs.map (·.1)).Nodup) (ha : Agree s src) :
    ∃ fs' n, copyWithAttribs k s fs (some src) p = .ok fs' ∧ fs'.ent p = some n ∧
      ((fs'.node n).kind = src.kind ∨ (k.mknodOk = false ∧ src.kind.isDev = true ∧ (fs'.node n).kind = .reg [])) ∧
      Like k s src (fs'.node n) ∧ After fs fs' p n ∧
      (src.kind.isReg = true → ∀ q, q ≠ p → fs'.ent q ≠ some n) ∧
      (∀ x r, fs'.ent (p ++ x :: r) = if src.kind.isDir && (fs.ent p).any (fun m => (fs.node m).kind.isDir) then fs.ent (p ++ x :: r) else none) := by
  obtain ⟨n, he, hk, haf, hn, hreg, hb⟩ := copy_exact k fs ok src p
  generalize hfs1 : copy k fs (some src) p = fs1 at he hk haf hb
  have htype : (sameType src.kind (fs1.node n).kind || src.kind.isSpecial) = true := by
    rcases hk with hk | ⟨_, hd, _⟩
    · rw [hk]; cases src.kind <;> simp [sameType]
    · cases hx : src.kind <;> simp_all [Kind.isDev, Kind.isSpecial, Kind.isReg, Kind.isDir]
  have h1 : copyWithAttribs k s fs (some src) p = .ok (fs1.upd n (runSteps (attribSteps k s src))) := by
    simp only [copyWithAttribs, hfs1, copyAttribs, he]; rw [if_pos htype]
  refine ⟨_, n, h1, he, ?_, ?_, ⟨haf.others, ?_⟩, ?_, hb⟩
  · simpa [FS.upd, kind_steps] using hk
  · show Like k s src (if n = n then _ else _)
    rw [if_pos rfl]
    exact like k s src (fs1.node n) hea ha
  · intro m hm hne
    simpa [FS.upd, hne] using haf.nodes m hm hne
  · intro hr q hq hqn
    have hnn := hreg hr
    by_cases hpq : p <+: q
    · obtain ⟨r, rfl⟩ := hpq
      cases r with
      | nil => simp at hq
      | cons x r =>
          have := hb x r
          have hnd : src.kind.isDir = false := by cases hx : src.kind <;> simp_all [Kind.isReg, Kind.isDir]
          simp only [hnd, Bool.false_and, Bool.false_eq_true, if_false] at this
          have hqn' : fs1.ent (p ++ x :: r) = some n := hqn
          rw [this] at hqn'; cases hqn'
    · have h2 := haf.others q hpq
      have hqn' : fs1.ent q = some n := hqn
      rw [h2] at hqn'
      have := ok.used q _ hqn'
      omega

/-! ### Increments -/

/-- **C75 (increments).** An increment has the owner, the time and the permissions of the file it is made of; but only the plain permissions (no set-uid, set-gid or sticky bit)
if that is a directory and the increment isn't one. -/
theorem increment_attributes (k : Kernel) (s : Sets) (src : Src) (acl dacl : List PEntry) (outDir : Bool) (nd : Node) (hs : src.kind.isSym = false)
    (ha : acl = [] ∨ (aclBits acl = (src.perms &&& s.mask) % 512 ∧ s.mask % 512 = 511)) :
    let nd' := runSteps (incSteps k s src acl dacl outDir) nd
    (s.chown = true → nd'.attr.uid = src.uid ∧ nd'.attr.gid = src.gid) ∧
    nd'.attr.perms = (if src.kind.isDir && !outDir then src.perms &&& 0o777 else src.perms) &&& s.mask ∧
    (src.kind.isDev = false → nd'.attr.mtime = src.mtime) := by
  intro nd'
  have hwu : ∀ x, (writeAcl k acl dacl x).attr.uid = x.attr.uid := by
    intro x; unfold writeAcl; split
    · exact setAcl_uid
    · rfl
  have hwg : ∀ x, (writeAcl k acl dacl x).attr.gid = x.attr.gid := by
    intro x; unfold writeAcl; split
    · exact setAcl_gid
    · rfl
  have hm : ∀ p : Nat, (p &&& 0o777) = p % 512 := fun p => Nat.and_two_pow_sub_one_eq_mod p 9
  have hw : ∀ x : Node, x.attr.perms = (if src.kind.isDir && !outDir then src.perms &&& 0o777 else src.perms) &&& s.mask →
      (writeAcl k acl dacl x).attr.perms = (if src.kind.isDir && !outDir then src.perms &&& 0o777 else src.perms) &&& s.mask := by
    intro x hx
    unfold writeAcl
    split
    · show (setAcl _ _).perms = _
      rw [setAcl_perms ?_, hx]
      rcases ha with ha | ⟨ha, hmask⟩
      · exact Or.inl ha
      · right
        rw [ha, hx]
        split
        · rw [← hm, ← hm]
          apply Nat.eq_of_testBit_eq
          intro i
          simp only [Nat.testBit_and]
          cases Nat.testBit src.perms i <;> cases Nat.testBit s.mask i <;> cases Nat.testBit 511 i <;> rfl
        · rfl
    · exact hx
  refine ⟨?_, ?_, ?_⟩
  · intro hc
    cases he : s.eas <;> cases hl : s.acls <;> cases hd : src.kind.isDev <;>
      simp [nd', incSteps, runSteps, hc, he, hs, hl, hd, chown, chmod, writeEa, setmtime, hwu, hwg]
  · cases hc : s.chown <;> cases he : s.eas <;> cases hl : s.acls <;> cases hd : src.kind.isDev <;>
      simp only [nd', incSteps, runSteps, hc, he, hs, hl, hd, setmtime, Bool.false_eq_true, if_false, if_true, List.append_nil, List.nil_append, List.cons_append,
        List.foldl_cons, List.foldl_nil] <;> first
        | rfl
        | exact hw _ rfl
  · intro hd
    simp [nd', incSteps, runSteps, hs, hd, setmtime]

/-! ### Renaming -/

/-- **C75 (rename).** If renaming works out, then all that was at the old name and below is at the new one instead, nothing is at the old one any more, and all else is as before.
For files which can be told apart by their numbers, as they are on the same device, and which aren't such as can't be renamed. -/
theorem renamed (k : Kernel) (fs fs' : FS) (ok : Ok fs) (empty : Bool) (src dst : Path) (n : Nat) (hs : fs.ent src = some n) (h1 : ¬ src <+: dst) (h2 : ¬ dst <+: src)
    (hnum : ∀ m, fs.ent dst = some m → ((k.number n = k.number m ∧ k.number n ≠ 0) ↔ n = m)) (hx : k.exdev (fs.node n).kind = false)
    (hr : rename k fs empty src dst = .ok fs') :
    (∀ r, fs'.ent (dst ++ r) = fs.ent (src ++ r)) ∧ (∀ r, fs'.ent (src ++ r) = none) ∧
    (∀ q, ¬ src <+: q → ¬ dst <+: q → fs'.ent q = fs.ent q) ∧ ∀ m, fs'.node m = fs.node m := by
  have hmove : (∀ r, (fs.move src dst).ent (dst ++ r) = fs.ent (src ++ r)) ∧ (∀ r, (fs.move src dst).ent (src ++ r) = none) ∧
      (∀ q, ¬ src <+: q → ¬ dst <+: q → (fs.move src dst).ent q = fs.ent q) ∧ ∀ m, (fs.move src dst).node m = fs.node m := by
    refine ⟨?_, ?_, ?_, fun _ => rfl⟩
    · intro r; simp [FS.move]
    · intro r
      have : ¬ dst <+: src ++ r := by
        intro h
        rcases List.prefix_or_prefix_of_prefix h (prefix_self_append src r) with h | h
        · exact h2 h
        · exact h1 h
      simp [FS.move, this]
    · intro q a b; simp [FS.move, a, b]
  simp only [rename, hs] at hr
  split at hr
  · rename_i hany
    simp only [Except.ok.injEq] at hr
    subst hr
    cases hd : fs.ent dst with
    | none => rw [hd] at hany; simp at hany
    | some m =>
        rw [hd] at hany
        simp only [Option.any_some, decide_eq_true_eq] at hany
        have hnm := (hnum m hd).mp hany
        subst hnm
        have hnd : (fs.node n).kind ≠ .dir := by
          intro hk
          have := ok.dirs src dst n hs hd hk
          subst this
          exact h1 ⟨[], by simp⟩
        have hno : ∀ p x r, fs.ent p = some n → fs.ent (p ++ x :: r) = none := by
          intro p x r hp
          by_contra hh
          obtain ⟨m, hm, hmk⟩ := ok.parent p x r hh
          rw [hp] at hm; cases hm
          exact hnd hmk
        refine ⟨?_, ?_, ?_, fun _ => rfl⟩
        · intro r
          have : ¬ src <+: dst ++ r := by
            intro h
            rcases List.prefix_or_prefix_of_prefix h (prefix_self_append dst r) with h | h
            · exact h1 h
            · exact h2 h
          simp only [FS.delete, this, if_false]
          cases r with
          | nil => simp [hs, hd]
          | cons x r => rw [hno _ _ _ hs, hno _ _ _ hd]
        · intro r; simp [FS.delete]
        · intro q a _; simp [FS.delete, a]
  · rename_i hany
    simp only [hx, Bool.false_eq_true, if_false] at hr
    split at hr
    · rename_i f hf
      simp only [Except.ok.injEq] at hr
      subst hr
      unfold kernelRename at hf
      split at hf
      · cases hf; exact hmove
      · rename_i m hd
        have hne : n ≠ m := by
          intro h
          apply hany
          rw [hd]
          simpa using (hnum m hd).mpr h
        rw [if_neg hne] at hf
        split at hf
        · split at hf
          · cases hf; exact hmove
          · cases hf
        · split at hf
          · cases hf
          · cases hf; exact hmove
    · cases hr

/-- **C75 (rename works out)** if the new name is free, or neither file is a directory, or both are and the replaced one is empty. -/
theorem rename_works (k : Kernel) (fs : FS) (empty : Bool) (src dst : Path) (n : Nat) (hs : fs.ent src = some n) (hx : k.exdev (fs.node n).kind = false)
    (h : ∀ m, fs.ent dst = some m → (fs.node n).kind.isDir = (fs.node m).kind.isDir ∧ ((fs.node m).kind.isDir = true → empty = true)) :
    ∃ fs', rename k fs empty src dst = .ok fs' := by
  simp only [rename, hs, hx, Bool.false_eq_true, if_false]
  split
  · exact ⟨_, rfl⟩
  · cases hd : fs.ent dst with
    | none => simp [kernelRename, hd]
    | some m =>
        obtain ⟨a, b⟩ := h m hd
        cases hm : (fs.node m).kind.isDir with
        | true =>
            rw [hm] at a b
            simp only [kernelRename, hd, a, hm, b rfl]
            by_cases hnm : n = m <;> simp [hnm]
        | false =>
            rw [hm] at a
            simp only [kernelRename, hd, a, hm]
            by_cases hnm : n = m <;> simp [hnm]

/-- **C75 (rename of nothing).** Then the target is deleted. -/
theorem rename_absent (k : Kernel) (fs fs' : FS) (empty : Bool) (src dst : Path) (hs : fs.ent src = none) (hr : rename k fs empty src dst = .ok fs') :
    (∀ q, dst <+: q → fs'.ent q = none) ∧ (∀ q, ¬ dst <+: q → fs'.ent q = fs.ent q) ∧ ∀ m, fs'.node m = fs.node m := by
  simp only [rename, hs] at hr
  split at hr
  · simp only [Except.ok.injEq] at hr
    subst hr
    simp +contextual [FS.delete]
  · cases hr

/-- **C75 (rename, symbolic links and fifos which can't be renamed).** They are copied, with type and target, but see `fallback_loses`. -/
theorem fallback (k : Kernel) (fs : FS) (ok : Ok fs) (empty : Bool) (src dst : Path) (n : Nat) (hs : fs.ent src = some n) (h1 : ¬ src <+: dst) (h2 : ¬ dst <+: src)
    (hnum : ∀ m, fs.ent dst = some m → ¬ (k.number n = k.number m ∧ k.number n ≠ 0)) (hx : k.exdev (fs.node n).kind = true)
    (hk : (fs.node n).kind.isSym = true ∨ (fs.node n).kind.isFifo = true) :
    ∃ fs' m, rename k fs empty src dst = .ok fs' ∧ fs'.ent dst = some m ∧ (fs'.node m).kind = (fs.node n).kind ∧ (∀ r, fs'.ent (src ++ r) = none) ∧
      (∀ q, ¬ src <+: q → ¬ dst <+: q → fs'.ent q = fs.ent q) := by
  have hany : ¬ ((fs.ent dst).any (fun m => decide (k.number n = k.number m ∧ k.number n ≠ 0))) = true := by
    cases hd : fs.ent dst with
    | none => simp
    | some m => simpa using hnum m hd
  obtain ⟨m, hm, hkm, haf, -, -, -⟩ := copy_exact k fs ok (asSrc (fs.node n)) dst
  refine ⟨(copy k fs (some (asSrc (fs.node n))) dst).delete src, m, ?_, ?_, ?_, ?_, ?_⟩
  · simp only [rename, hs, hx, if_true]
    rw [if_neg hany, if_pos (by simpa using hk)]
  · simpa [FS.delete, h1] using hm
  · rcases hkm with h | ⟨_, hd, _⟩
    · exact h
    · exfalso
      replace hd : (fs.node n).kind.isDev = true := hd
      revert hd
      cases hkk : (fs.node n).kind <;> simp_all [Kind.isDev, Kind.isSym, Kind.isFifo]
  · intro r; simp [FS.delete]
  · intro q a b
    simpa [FS.delete, a] using haf.others q b

/-! ### A file system with two hard links, a symbolic link and a directory, and what goes wrong -/

def attr0 : Attr := ⟨0, 0, 0o600, 7, [], [], []⟩
def node0 : Nat → Node
  | 0 => ⟨.dir, attr0⟩
  | 1 => ⟨.reg [1, 2], attr0⟩
  | 2 => ⟨.sym [97], { attr0 with uid := 5 }⟩
  | _ => ⟨.fifo, attr0⟩
/-- `/`, `/a` and `/b` the same file, `/l` a symbolic link -/
def fs0 : FS := ⟨fun p => if p = [] then some 0 else if p = [[97]] then some 1 else if p = [[98]] then some 1 else if p = [[108]] then some 2 else none, node0, 3⟩
def sys0 : System := ⟨fun _ => none, fun _ => none, fun _ => none, fun _ => none⟩
def kernel0 : Kernel := ⟨fun n => n + 1, fun _ => 0, fun _ p => p % 512, fun _ _ => attr0, fun _ => true, fun _ => true, fun _ => true, true, fun _ => false⟩
def sets0 : Sets := ⟨true, true, true, 0o7777, sys0⟩
/-- a set-uid file with an extended attribute and an access control list -/
def src0 : Src := ⟨.reg [3], 4, 5, 0o4750, 9, ⟨[], [([120], [1])]⟩, [⟨.owner, 7⟩, ⟨.user (some 8) none, 4⟩, ⟨.owningGroup, 0⟩, ⟨.mask, 5⟩, ⟨.other, 0⟩], []⟩

theorem ok0 : Ok fs0 := by
  constructor
  · intro q n h
    simp only [fs0] at h ⊢
    split at h
    · cases h; decide
    · split at h
      · cases h; decide
      · split at h
        · cases h; decide
        · split at h <;> cases h
          decide
  · intro p x r h
    have hp : p = [] := by
      simp only [fs0] at h
      cases p with
      | nil => rfl
      | cons a p => exfalso; apply h; simp
    subst hp
    exact ⟨0, rfl, rfl⟩
  · intro p q n h1 h2 hk
    have hn : n = 0 := by
      simp only [fs0] at h1 hk
      split at h1
      · exact (Option.some.inj h1).symm
      · split at h1
        · cases h1; exact absurd hk (by decide)
        · split at h1
          · cases h1; exact absurd hk (by decide)
          · split at h1 <;> cases h1
            exact absurd hk (by decide)
    subst hn
    have : ∀ p, fs0.ent p = some 0 → p = [] := by
      intro p h
      simp only [fs0] at h
      split at h
      · assumption
      · split at h
        · cases h
        · split at h
          · cases h
          · split at h <;> cases h
    rw [this p h1, this q h2]

/-- the hypotheses of `copied` are met by it -/
example : Ok fs0 ∧ (src0.ea.attrs.map (·.1)).Nodup ∧ Agree sets0 src0 := ⟨ok0, by decide, Or.inr (by decide +kernel)⟩
/-- after copying to `/a`, it is a set-uid file of the other owner, and `/b` still is what it was -/
example : ∃ fs', copyWithAttribs kernel0 sets0 fs0 (some src0) [[97]] = .ok fs' ∧ fs'.ent [[97]] = some 3 ∧
    fs'.node 3 = ⟨.reg [3], ⟨4, 5, 0o4750, 9, [([120], [1])], [⟨.owner, 7⟩, ⟨.user 8, 4⟩, ⟨.owningGroup, 0⟩, ⟨.mask, 5⟩, ⟨.other, 0⟩], []⟩⟩ ∧
    fs'.ent [[98]] = some 1 ∧ (fs'.node 1).kind = .reg [1, 2] := ⟨_, rfl, by decide +kernel, by decide +kernel, by decide +kernel, by decide +kernel⟩
/-- renaming `/a` over `/b`, which is the same file, and `/l` over `/b` -/
example : ∃ fs', rename kernel0 fs0 false [[97]] [[98]] = .ok fs' ∧ fs'.ent [[97]] = none ∧ fs'.ent [[98]] = some 1 := ⟨_, rfl, by decide +kernel, by decide +kernel⟩
example : ∃ fs', rename kernel0 fs0 false [[108]] [[98]] = .ok fs' ∧ fs'.ent [[108]] = none ∧ fs'.ent [[98]] = some 2 ∧ fs'.ent [[97]] = some 1 :=
  ⟨_, rfl, by decide +kernel, by decide +kernel, by decide +kernel⟩

/-- a list with a mask, and one without -/
example : chmodAcl 0o751 [⟨.owner, 6⟩, ⟨.user 8, 4⟩, ⟨.owningGroup, 2⟩, ⟨.mask, 6⟩, ⟨.other, 0⟩] = [⟨.owner, 7⟩, ⟨.user 8, 4⟩, ⟨.owningGroup, 2⟩, ⟨.mask, 5⟩, ⟨.other, 1⟩] ∧
    aclBits (chmodAcl 0o751 [⟨.owner, 6⟩, ⟨.user 8, 4⟩, ⟨.owningGroup, 2⟩, ⟨.mask, 6⟩, ⟨.other, 0⟩]) = 0o751 := by decide +kernel

/-- F109: where symbolic links can't be renamed, the owner is lost. -/
theorem fallback_loses : ∃ k fs', rename k fs0 false [[108]] [[98]] = .ok fs' ∧ fs'.ent [[98]] = some 3 ∧ (fs0.node 2).attr.uid = 5 ∧ (fs'.node 3).attr.uid = 0 :=
  ⟨{ kernel0 with exdev := fun _ => true }, _, rfl, by decide +kernel, by decide +kernel, by decide +kernel⟩

/-- F110: only the numbers of the inodes are compared, not their devices. If the target is another file, with the same number on another device, the file which should replace it is
deleted, without an error. -/
theorem number_only : ∃ k fs', k.device 2 ≠ k.device 1 ∧ rename k fs0 false [[108]] [[98]] = .ok fs' ∧ fs'.ent [[108]] = none ∧ fs'.ent [[98]] = fs0.ent [[98]] :=
  ⟨{ kernel0 with number := fun n => if n = 2 then 2 else n + 1, device := fun n => n }, _, by decide, by
    have : ((fs0.ent [[98]]).any fun m => decide ((if (2 : Nat) = 2 then 2 else 2 + 1) = (if m = 2 then 2 else m + 1) ∧ (if (2 : Nat) = 2 then 2 else 2 + 1) ≠ 0)) = true := by decide +kernel
    rfl, by decide +kernel, by decide +kernel⟩

end Verif.C75
