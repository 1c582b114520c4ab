import Verif.Model.Attrs
/-
Which extended attributes and access control lists are kept by a backup (C53).
-/
namespace Verif.Attrs
open Verif Verif.Quoting Verif.FlatFile Verif.MetaRecord

/-- a path relative to the backed up directory -/
def PathIndex (index : List Bytes) : Prop := (∀ c ∈ index, c ≠ [] ∧ (47 : UInt8) ∉ c) ∧ index ≠ [[46]]

/-- the name of an attribute without special characters: printable, no blank, no `=`, no backslash -/
def PlainName (n : Bytes) : Prop := n ≠ [] ∧ ∀ c ∈ n, 33 ≤ c.toNat ∧ c.toNat ≤ 126 ∧ c ≠ 61 ∧ c ≠ 92

/-- extended attributes of a file: the names are different, and plain; the values are arbitrary -/
structure PlainEa (ea : Ea) : Prop where
  index : PathIndex ea.index
  names : ∀ a ∈ ea.attrs, PlainName a.1
  distinct : (ea.attrs.map (·.1)).Nodup

/-- a name which can be written as it is: one line which doesn't look like something else (for attributes with empty values) -/
structure LineName (n : Bytes) : Prop where
  nonempty : n ≠ []
  oneLine : (10 : UInt8) ∉ n
  noEq : (61 : UInt8) ∉ n
  first : ∀ c ∈ n.head?, AclQuote.isSpace c = false
  last : ∀ c ∈ n.getLast?, AclQuote.isSpace c = false
  notHeader : ¬ lit "# file: " <+: n

/-- user and group names: not empty, without `:`, `#` and newline, and not a number for Python -/
structure AclName (int : Bytes → Option Int) (n : Bytes) : Prop where
  nonempty : n ≠ []
  noColon : (58 : UInt8) ∉ n
  noHash : (35 : UInt8) ∉ n
  oneLine : (10 : UInt8) ∉ n
  noNumber : int n = none

/-- a qualifier: a name, or, where there is no name, a number -/
def Qualifier (int : Bytes → Option Int) (id : Option Int) (name : Option Bytes) : Prop :=
  (∃ n, name = some n ∧ AclName int n) ∨ (name = none ∧ id ≠ none)

/-- an entry as it is found on a file -/
def GoodEntry (int : Bytes → Option Int) (e : Entry) : Prop :=
  e.perms < 8 ∧
  match e.who with
  | .user id name => Qualifier int id name
  | .group id name => Qualifier int id name
  | _ => True

/-- the access control list of a file: it has no entries (where access control lists aren't supported), or at least the three basic ones -/
structure GoodAcl (int : Bytes → Option Int) (a : Acl) : Prop where
  index : PathIndex a.index
  entries : ∀ e ∈ a.entries, GoodEntry int e
  defaults : ∀ e ∈ a.defaults, GoodEntry int e
  three : (a.entries = [] ∧ a.defaults = []) ∨ 3 ≤ a.entries.length

/-- what is kept of a qualifier: the name, if there is one, else the number -/
def keptWho : Who → Who
  | .user id name => match name with
    | some n => .user none (some n)
    | none => .user id none
  | .group id name => match name with
    | some n => .group none (some n)
    | none => .group id none
  | w => w

/-- what is kept of an entry -/
def keptEntry (e : Entry) : Entry := ⟨keptWho e.who, e.perms⟩

/-- no more than the permissions which every file has -/
def Acl.Simple (a : Acl) : Prop := a.entries.length ≤ 3 ∧ a.defaults = []

/-- what is kept of an access control list -/
def keptAcl (a : Acl) : Acl :=
  if a.entries.length ≤ 3 ∧ a.defaults = [] then ⟨a.index, [], []⟩ else ⟨a.index, a.entries.map keptEntry, a.defaults.map keptEntry⟩

/-- the databases of a system fit together: the name of a user has his number -/
structure System.Consistent (int : Bytes → Option Int) (sys : System) : Prop where
  users : ∀ i n, sys.uname i = some n → sys.uid n = some i ∧ AclName int n
  groups : ∀ i n, sys.gname i = some n → sys.gid n = some i ∧ AclName int n

end Verif.Attrs
