/-
Plug-ins: `src/rdiffbackup/utils/plugins.py` 29-75, `src/rdiffbackup/actions_mgr.py` 30-44, `src/rdiffbackup/meta_mgr.py` 376-419.

Simplifications: importing a module is a function of its name which succeeds and has no other effect, and so are the name of its plug-in and its class
(`get_plugin_class`); the dictionaries kept between calls (actions_mgr.py 40, meta_mgr.py 387, 400) aren't modelled, as the modules don't change in a run.
-/
namespace Verif.Plugins

/-- what a module gives: `get_plugin_class().get_name()`, the class, and `is_main_meta()` of it -/
structure Plugin where
  name : String
  cls : Nat
  main : Bool
  deriving DecidableEq

/-- a key is set in a dictionary: at its place if it is there, else at the end -/
def put {K V : Type} [DecidableEq K] : List (K × V) → K → V → List (K × V)
  | [], k, v => [(k, v)]
  | (k', v') :: r, k, v => if k' = k then (k, v) :: r else (k', v') :: put r k v

/-- plugins.py 40-48: the modules found; `top`: the names of all top-level modules, `inner`: those which `_iter_namespace` (56-75) gives -/
def modules (load : String → Plugin) (pre : String) (top inner : List String) : List (String × Plugin) :=
  inner.foldl (fun d n => put d n (load n)) ((top.filter fun n => n.startsWith pre).foldl (fun d n => put d n (load n)) [])

/-- plugins.py 51-54: the classes by the names of the plug-ins -/
def discovered (load : String → Plugin) (pre : String) (top inner : List String) : List (String × Plugin) :=
  (modules load pre top inner).foldl (fun d m => put d m.2.name m.2) []

/-- meta_mgr.py 403-415; `none`: FatalError -/
def sift : List Plugin → Option Plugin × List Plugin → Option (Option Plugin × List Plugin)
  | [], st => some st
  | p :: r, (m, l) =>
    if p.main then
      match m with
      | none => sift r (some p, l)
      | some _ => none
    else sift r (m, l ++ [p])

/-- meta_mgr.py 396-419 `get_meta_list`; `none`: FatalError -/
def metaList (d : List (String × Plugin)) : Option (List Plugin) :=
  match sift (d.map (·.2)) (none, []) with
  | some (some m, l) => some (m :: l)
  | _ => none

end Verif.Plugins
