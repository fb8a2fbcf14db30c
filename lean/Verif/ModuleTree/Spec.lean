import Verif.ModuleTree.Model
/-
Specification: what the modules of a tree are, where a parameter lives, how it is named.
-/
namespace Verif.ModuleTree
open Verif.Params

/-- The identity of the root module of a tree. -/
def MTree.id : MTree → Nat
  | .node i _ => i

/-- `Reach t ms m`: following the attribute names `ms` from `t` leads to the module `m`. -/
inductive Reach : MTree → List Str → MTree → Prop
  | here (t) : Reach t [] t
  | step {i subs n m ms m'} : (n, m) ∈ subs → Reach m ms m' → Reach (.node i subs) (n :: ms) m'

/-- The documented name of a parameter: '@'-prefixed attribute names of the modules on the way, then
the parameter's path in the scope of its module, '/'-separated. -/
def keyOf (ms : List Str) (p : List Str) : Str := join (ms.map ('@' :: ·) ++ p)

/-- Parameter `v` lives at path `p` of the scope of the module found at `ms`. -/
def Lives (h : PHeap) (t : MTree) (ms : List Str) (p : List Str) (v : Nat) : Prop :=
  ∃ m, Reach t ms m ∧ varAt (h m.id) p = some v

/-- Attribute names contain no '/' and are distinct per module (they are keys of a dict). -/
inductive WFTree : MTree → Prop
  | node {i subs} : (∀ e ∈ subs, '/' ∉ e.1) → (subs.map Prod.fst).Nodup →
      (∀ e ∈ subs, WFTree e.2) → WFTree (.node i subs)

/-- Parameter names of a module: a well-formed scope, in which no top-level name is empty or
starts with '@'. -/
def WFScope (d : Dict) : Prop :=
  WF d ∧ ∀ p v, varAt d p = some v → ∀ a rest, p = a :: rest → a ≠ [] ∧ a.head? ≠ some '@'

end Verif.ModuleTree
