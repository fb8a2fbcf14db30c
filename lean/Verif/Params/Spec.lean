import Verif.Params.Model
/-
Specification of the registry: a partial map from paths to variables.
-/
namespace Verif.Params

/-- The path a key denotes relative to the current scope: its '/'-separated components,
empty ones dropped except the last. -/
def path (key : Str) : List Str :=
  (split key).dropLast.filter (· ≠ []) ++ [(split key).getLast (split_ne_nil key)]

/-- What is stored at a path of a scope (the scope itself for the empty path). -/
def lookup : List Str → Dict → Option Node
  | [], d => some (.dict d)
  | k :: ks, d => match dget d k with
    | some (.dict s) => lookup ks s
    | some (.var v) => if ks = [] then some (.var v) else none
    | none => none

/-- The variable registered at a path. -/
def varAt (d : Dict) (p : List Str) : Option Nat :=
  match lookup p d with
  | some (.var v) => some v
  | _ => none

/-- The path leads through a variable, i.e. a strict, proper prefix of it is a parameter. -/
def Blocked (d : Dict) (p : List Str) : Prop :=
  ∃ q v, q <+: p ∧ q ≠ p ∧ varAt d q = some v

end Verif.Params

namespace Verif.Params

/-- All (path, variable) pairs of a scope, in dictionary order, depth first. -/
def entries : List (Str × Node) → List (List Str × Nat)
  | [] => []
  | (k, .var v) :: rest => ([k], v) :: entries rest
  | (k, .dict es) :: rest => (entries es).map (fun e => (k :: e.1, e.2)) ++ entries rest

end Verif.Params
