import Verif.Params.Lemmas4
/-
Model of `nn.Module`: /repo/python/src/nnabla/core/module.py.

A module object is an identity (`Nat`).  `MTree` is the tree one sees by following the
`submodules` dictionaries from a module; the same identity may occur at several places (a module
object attached twice).  Simplification: a module that contains itself (for which the recursive
methods of the code do not terminate) is not a finite tree and is not modelled.  What the calls
change, the `_parameter_scope` dictionary of each module object, is kept in a heap.
-/
namespace Verif.ModuleTree
open Verif.Params

/-- A module object and its `submodules` dictionary (module.py:239, 252-257). -/
inductive MTree where
  | node (id : Nat) (subs : List (Str × MTree))

/-- `_parameter_scope` of every module object (module.py:228-241). -/
abbrev PHeap := Nat → Dict

/-- Assigning one module's scope. -/
def hput (h : PHeap) (i : Nat) (d : Dict) : PHeap := fun j => if j = i then d else h j

/-- `insert_parent_name` (module.py:33-37): the loop `ret['@name/' + k] = v`. -/
def insertParentName (name : Str) (params : List (Str × Nat)) : List (Str × Nat) :=
  params.foldl (fun ret e => pset ret ('@' :: name ++ '/' :: e.1) e.2) []

/-- `ParamMemo.filter_and_update` (module.py:44-53).  `nn.Variable` hashes and compares by the
identity of the underlying variable (_variable.pyx `__hash__`, `__richcmp__`), which is the `Nat`. -/
def filterAndUpdate : List (Str × Nat) → List Nat → List (Str × Nat) × List Nat
  | [], memo => ([], memo)
  | (k, v) :: rest, memo =>
    if memo.contains v then filterAndUpdate rest memo
    else
      let r := filterAndUpdate rest (v :: memo)
      ((k, v) :: r.1, r.2)

/-- `params.update(new)` (module.py:305-312). -/
def pupdate (params new : List (Str × Nat)) : List (Str × Nat) :=
  new.foldl (fun ret e => pset ret e.1 e.2) params

mutual
/-- `Module.get_parameters(recursive, grad_only, memo)` (module.py:259-313); `keep v` is
`not grad_only or v.need_grad`.  Submodules first, then the module's own scope. -/
def getParams (recursive : Bool) (keep : Nat → Bool) (h : PHeap) :
    MTree → List Nat → List (Str × Nat) × List Nat
  | .node i subs, memo =>
    let r := if recursive then getSubs recursive keep h subs [] memo else ([], memo)
    let f := filterAndUpdate (getParameters keep (h i)) r.2
    (pupdate r.1 f.1, f.2)

/-- The loop over `self.submodules.items()` (module.py:303-307). -/
def getSubs (recursive : Bool) (keep : Nat → Bool) (h : PHeap) :
    List (Str × MTree) → List (Str × Nat) → List Nat → List (Str × Nat) × List Nat
  | [], params, memo => (params, memo)
  | (name, m) :: rest, params, memo =>
    let r := getParams recursive keep h m memo
    getSubs recursive keep h rest (pupdate params (insertParentName name r.1)) r.2
end

/-- `m.get_parameters(grad_only=...)` called by the user (`memo=None`, module.py:301-302). -/
def getParametersOf (keep : Nat → Bool) (h : PHeap) (t : MTree) : List (Str × Nat) :=
  (getParams true keep h t []).1

/-- `key.find('/')` and the two slices `key[:pos]`, `key[pos+1:]` (module.py:342-348);
`none` when there is no '/'. -/
def cut : Str → Option (Str × Str)
  | [] => none
  | c :: cs => if c = '/' then some ([], cs) else (cut cs).map (fun r => (c :: r.1, r.2))

mutual
/-- `Module.set_parameter(key, param, raise_if_missing)` (module.py:339-361). -/
def setParam (raise : Bool) : MTree → Str → Nat → PHeap → Except Err Unit × PHeap
  | .node i subs, key, v, h =>
    match key with
    | '@' :: rest =>
      match cut rest with
      | none => (.error .valueError, h)
      | some (name, subkey) =>
        if subkey = [] then (.error .valueError, h)
        else setSub raise subs name subkey v h
    | key =>
      let r := setParameter key v ((), h i)
      (r.1, hput h i r.2.2)

/-- `self.submodules[module_name]` lookup, descent, and the missing-child case (module.py:349-356). -/
def setSub (raise : Bool) : List (Str × MTree) → Str → Str → Nat → PHeap → Except Err Unit × PHeap
  | [], _, _, _, h => if raise then (.error .valueError, h) else (.ok (), h)
  | (n, m) :: rest, name, subkey, v, h =>
    if n = name then setParam raise m subkey v h else setSub raise rest name subkey v h
end

/-- `Module.set_parameters(params, raise_if_missing)` (module.py:363-365): stops at the first
exception, keeping what was already set. -/
def setParams (raise : Bool) (t : MTree) : List (Str × Nat) → PHeap → Except Err Unit × PHeap
  | [], h => (.ok (), h)
  | (k, v) :: rest, h =>
    match setParam raise t k v h with
    | (.ok _, h') => setParams raise t rest h'
    | (.error e, h') => (.error e, h')

/-- `Module.update_parameter()` (module.py:367-369). -/
def updateParameter (t : MTree) (h : PHeap) : Except Err Unit × PHeap :=
  setParams false t (getParametersOf (fun _ => true) h t) h

end Verif.ModuleTree
