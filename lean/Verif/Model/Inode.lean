import Verif.Model.Attrs
/-
Copying and renaming on a file system with inodes: `src/rdiff_backup/rpath.py` (RP) 741-849 `chmod`, `setmtime`, `chown`, 949-972 `delete`, 1105-1119 `write_from_fileobj`,
1137-1155 `makedev`, 1471-1517 `copy`, 1520-1547 `cmp`, 1550-1586 `copy_attribs`, 1589-1639 `copy_attribs_inc`, `copy_with_attribs`, 1642-1695 `rename`,
with the system calls which they use.

Left out: the times of the directories in which names are made or removed; errors of the system but those named below; carbon data, resource forks (both MacOS only), Windows' access control lists; compression (C36). The permissions of
symbolic links are left out (RP 1502-1508: they depend on the umask only on systems other than Linux).
-/
namespace Verif.Inode
open Verif.Quoting Verif.Attrs

abbrev Path := List Bytes

/-- the type of a file, with what makes up its data -/
inductive Kind where
  | reg (content : Bytes)
  | dir
  | sym (target : Bytes)
  | dev (char : Bool) (major minor : Nat)
  | fifo
  | sock
deriving DecidableEq, Repr

def Kind.isReg : Kind → Bool
  | .reg _ => true
  | _ => false
def Kind.isDir : Kind → Bool
  | .dir => true
  | _ => false
def Kind.isSym : Kind → Bool
  | .sym _ => true
  | _ => false
def Kind.isDev : Kind → Bool
  | .dev .. => true
  | _ => false
def Kind.isFifo : Kind → Bool
  | .fifo => true
  | _ => false

/-- what an inode has besides its data -/
structure Attr where
  uid : Nat
  gid : Nat
  perms : Nat
  mtime : Int
  xattrs : List (Bytes × Bytes)
  acl : List PEntry
  dacl : List PEntry
deriving DecidableEq

structure Node where
  kind : Kind
  attr : Attr
deriving DecidableEq

/-- The file system: directory entries, inodes, and the next inode which is free. Inodes are known by their place here; which number `lstat` shows, and on which
device they are, the kernel says. -/
structure FS where
  ent : Path → Option Nat
  node : Nat → Node
  next : Nat

/-- What the kernel and the file system do, as far as it isn't the same everywhere -/
structure Kernel where
  /-- `st_ino` -/
  number : Nat → Nat
  /-- `st_dev` -/
  device : Nat → Nat
  /-- the permissions after a `chown`, which may remove the set-uid and set-gid bits -/
  stripped : Kind → Nat → Nat
  /-- the attributes of a new file -/
  fresh : Path → Kind → Attr
  /-- which extended attributes can be removed and set -/
  removable : Bytes → Bool
  settable : Bytes → Bool
  /-- which access control lists can be applied to a file -/
  aclOk : List PEntry → Bool
  /-- devices can be made -/
  mknodOk : Bool
  /-- these files can't be renamed (`EXDEV`) -/
  exdev : Kind → Bool

/-- the settings used by `copy_attribs`, and the user and group database of the target -/
structure Sets where
  chown : Bool
  eas : Bool
  acls : Bool
  mask : Nat
  sys : System

/-- the source of a copy: RP `RORPath`; `uid` and `gid` after `map_owners.map_rpath_owner` (C29) -/
structure Src where
  kind : Kind
  uid : Nat
  gid : Nat
  perms : Nat
  mtime : Int
  ea : Ea
  acl : List Entry
  dacl : List Entry

/-! ### System calls -/

/-- the inode is changed, under all its names -/
def FS.upd (fs : FS) (n : Nat) (f : Node → Node) : FS := { fs with node := fun m => if m = n then f (fs.node m) else fs.node m }

/-- a new inode with the name `p` -/
def FS.create (k : Kernel) (fs : FS) (p : Path) (kind : Kind) : FS :=
  ⟨fun q => if q = p then some fs.next else fs.ent q, fun m => if m = fs.next then ⟨kind, k.fresh p kind⟩ else fs.node m, fs.next + 1⟩

/-- RP 949-972 `delete`: a directory with all that is in it, or one name. (If nothing is there, `os.unlink` raises an error.) -/
def FS.delete (fs : FS) (p : Path) : FS := { fs with ent := fun q => if p <+: q then none else fs.ent q }

/-- `chmod` of a file with an access control list changes the entries of the owner, of the mask (without a mask: of the owning group) and of all others. -/
def chmodAcl (perms : Nat) (acl : List PEntry) : List PEntry :=
  acl.map fun e => match e.who with
    | .owner => { e with perms := perms / 64 % 8 }
    | .mask => { e with perms := perms / 8 % 8 }
    | .owningGroup => if acl.any (fun e => e.who = .mask) then e else { e with perms := perms / 8 % 8 }
    | .other => { e with perms := perms % 8 }
    | _ => e

/-- RP 741-758 `chmod` -/
def chmod (mask perms : Nat) (nd : Node) : Node :=
  { nd with attr := { nd.attr with perms := perms &&& mask, acl := chmodAcl (perms &&& mask) nd.attr.acl } }

/-- RP 813-834 `chown` -/
def chown (k : Kernel) (uid gid : Nat) (nd : Node) : Node :=
  { nd with attr := { nd.attr with uid := uid, gid := gid, perms := k.stripped nd.kind nd.attr.perms } }

/-- RP 1252-1255 `write_ea` -/
def writeEa (k : Kernel) (ea : Ea) (nd : Node) : Node :=
  { nd with attr := { nd.attr with xattrs := eaToFile k.removable k.settable ea nd.attr.xattrs } }

/-- the permissions of an entry of an access control list -/
def entryPerms (w : PWho) (acl : List PEntry) : Option Nat := (acl.find? fun e => e.who = w).map (·.perms)

/-- The permissions which an access control list means: those of the owner, of the mask (without a mask: of the owning group) and of all others. -/
def aclBits (acl : List PEntry) : Nat :=
  (entryPerms .owner acl).getD 0 * 64 + ((entryPerms .mask acl).getD ((entryPerms .owningGroup acl).getD 0)) * 8 + (entryPerms .other acl).getD 0

/-- more than what permissions can express -/
def extended (acl : List PEntry) : Bool := acl.any fun e => e.who ≠ .owner && e.who ≠ .owningGroup && e.who ≠ .other

/-- the system call which sets the access control list: none removes it, another one also changes the permissions -/
def setAcl (acl : List PEntry) (a : Attr) : Attr :=
  if acl = [] then { a with acl := [] }
  else { a with acl := if extended acl then acl else [], perms := a.perms / 512 * 512 + aclBits acl }

/-- acl_posix.py 333-361 `set_rp_acl`, with the lists as they are for the target -/
def writeAcl (k : Kernel) (acl dacl : List PEntry) (nd : Node) : Node :=
  if k.aclOk acl then
    { nd with attr := { setAcl acl nd.attr with dacl := if nd.kind.isDir then dacl else nd.attr.dacl } }
  else nd

/-- RP 783-811 `setmtime` -/
def setmtime (t : Int) (nd : Node) : Node := { nd with attr := { nd.attr with mtime := t } }

/-! ### Copying -/

/-- RP 1550-1586 `copy_attribs`, one change after the other -/
def attribSteps (k : Kernel) (s : Sets) (src : Src) : List (Node → Node) :=
  (if s.chown then [chown k src.uid src.gid] else []) ++
  (if s.eas then (if src.kind.isSym then [] else [chmod s.mask (src.perms ||| 0o666)]) ++ [writeEa k src.ea] else []) ++
  (if src.kind.isSym then [] else
    [chmod s.mask src.perms] ++
    (if s.acls then [writeAcl k (listToAcl s.sys src.acl) (listToAcl s.sys src.dacl)] else []) ++
    (if src.kind.isDev then [] else [setmtime src.mtime]))

/-- RP 1589-1632 `copy_attribs_inc`: for increments; `outDir`: the increment is a directory. The list isn't mapped here. -/
def incSteps (k : Kernel) (s : Sets) (src : Src) (acl dacl : List PEntry) (outDir : Bool) : List (Node → Node) :=
  (if s.chown then [chown k src.uid src.gid] else []) ++
  (if s.eas then [writeEa k src.ea] else []) ++
  (if src.kind.isSym then [] else
    [chmod s.mask (if src.kind.isDir && !outDir then src.perms &&& 0o777 else src.perms)] ++
    (if s.acls then [writeAcl k acl dacl] else []) ++
    (if src.kind.isDev then [] else [setmtime src.mtime]))

/-- one change after the other -/
def runSteps (steps : List (Node → Node)) (nd : Node) : Node := steps.foldl (fun x f => f x) nd

/-- all that there is on the way -/
def states : List (Node → Node) → Node → List Node
  | [], nd => [nd]
  | f :: fs, nd => nd :: states fs (f nd)

inductive Err where
  | assertion
  | notFound
  | os
deriving DecidableEq, Repr

/-- RP 1520-1547 `cmp`, of files which aren't regular -/
def sameData : Kind → Kind → Bool
  | .dir, .dir => true
  | .sym a, .sym b => a = b
  | .dev c a b, .dev c' a' b' => c = c' && a = a' && b = b'
  | .fifo, .fifo => true
  | .sock, .sock => true
  | _, _ => false

/-- RP 1497-1517: what is made; RP 1137-1155 `makedev`: an empty file if devices can't be made -/
def made (k : Kernel) : Kind → Kind
  | .dev c a b => if k.mknodOk then .dev c a b else .reg []
  | x => x

/-- RP 1471-1517 `copy` -/
def copy (k : Kernel) (fs : FS) (src : Option Src) (p : Path) : FS :=
  match src with
  | none => if (fs.ent p).isSome then fs.delete p else fs
  | some s =>
      match fs.ent p with
      | none => fs.create k p (made k s.kind)
      | some n =>
          if s.kind.isReg || !sameData s.kind (fs.node n).kind then (fs.delete p).create k p (made k s.kind)
          else fs

/-- the same type, as told by `lstat` -/
def sameType : Kind → Kind → Bool
  | .reg _, .reg _ => true
  | .dir, .dir => true
  | .sym _, .sym _ => true
  | .dev .., .dev .. => true
  | .fifo, .fifo => true
  | .sock, .sock => true
  | _, _ => false

def Kind.isSpecial (k : Kind) : Bool := !k.isReg && !k.isDir

/-- RP 1550-1586 `copy_attribs` with its assertion -/
def copyAttribs (k : Kernel) (s : Sets) (fs : FS) (src : Src) (p : Path) : Except Err FS :=
  match fs.ent p with
  | none => .error .assertion
  | some n =>
      if sameType src.kind (fs.node n).kind || src.kind.isSpecial then .ok (fs.upd n (runSteps (attribSteps k s src)))
      else .error .assertion

/-- RP 1635-1639 `copy_with_attribs` -/
def copyWithAttribs (k : Kernel) (s : Sets) (fs : FS) (src : Option Src) (p : Path) : Except Err FS :=
  match src with
  | none => .ok (copy k fs none p)
  | some x => copyAttribs k s (copy k fs (some x) p) x p

/-! ### Renaming -/

/-- no name in the directory -/
def FS.EmptyDir (fs : FS) (p : Path) : Prop := ∀ x r, fs.ent (p ++ x :: r) = none

/-- what is at `src` (and below) is then at `dst` -/
def FS.move (fs : FS) (src dst : Path) : FS :=
  { fs with ent := fun q => if dst <+: q then fs.ent (src ++ q.drop dst.length) else if src <+: q then none else fs.ent q }

/-- the system call `rename`, of a name which is there: a directory can replace an empty one only, and other files only such; it does nothing if both are names of the
same file; `none`: an error -/
def kernelRename (fs : FS) (empty : Bool) (n : Nat) (src dst : Path) : Option FS :=
  match fs.ent dst with
  | none => some (fs.move src dst)
  | some m =>
      if n = m then some fs
      else if (fs.node n).kind.isDir then (if (fs.node m).kind.isDir && empty then some (fs.move src dst) else none)
      else if (fs.node m).kind.isDir then none else some (fs.move src dst)

/-- a file of the same system as the source of a copy without attributes -/
def asSrc (nd : Node) : Src := ⟨nd.kind, nd.attr.uid, nd.attr.gid, nd.attr.perms, nd.attr.mtime, ⟨[], []⟩, [], []⟩

/-- RP 1642-1695 `rename` (not the part for Windows); `empty`: whether `dst` is a directory without entries. A number 0 is one which isn't known. -/
def rename (k : Kernel) (fs : FS) (empty : Bool) (src dst : Path) : Except Err FS :=
  match fs.ent src with
  | none => if (fs.ent dst).isSome then .ok (fs.delete dst) else .error .notFound
  | some n =>
      if (fs.ent dst).any (fun m => decide (k.number n = k.number m ∧ k.number n ≠ 0)) then .ok (fs.delete src)
      else if k.exdev (fs.node n).kind then
        (if (fs.node n).kind.isSym || (fs.node n).kind.isFifo then
          .ok ((copy k fs (some (asSrc (fs.node n))) dst).delete src)
        else .error .os)
      else match kernelRename fs empty n src dst with
        | some fs' => .ok fs'
        | none => .error .os

end Verif.Inode
