import Verif.Graph.Model
/-
What the graph properties mean, independently of the traversal code.
-/
namespace Verif.Graph

/-- `p` produces an input of `f` that is switched on. -/
def Feeds (G : Graph) (p f : FnId) : Prop :=
  ∃ v, (v, true) ∈ (G.fn f).inputs ∧ G.parent v = some p

/-- `f` depends on `g` (reflexive, transitive). -/
inductive Depends (G : Graph) : FnId → FnId → Prop
  | refl (f) : Depends G f f
  | step {f p g} : Feeds G p f → Depends G p g → Depends G f g

/-- The graph has no cycle: functions can be layered. -/
def Layered (G : Graph) (depth : FnId → Nat) : Prop :=
  ∀ p f, Feeds G p f → depth p < depth f

/-- `Chain G f n`: a chain of `n` functions, each feeding the next, ends at `f`. -/
inductive Chain (G : Graph) : FnId → Nat → Prop
  | one (f) : Chain G f 1
  | cons {p f n} : Feeds G p f → Chain G p n → Chain G f (n + 1)

/-- A variable requires a gradient: the user said so, or the user said nothing and it is computed
from a variable that requires one. -/
inductive NeedsGrad (G : Graph) : VarId → Prop
  | flag {v} : G.flag v = some true → NeedsGrad G v
  | prop {v p u} : G.flag v = none → G.parent v = some p → (u, true) ∈ (G.fn p).inputs →
      NeedsGrad G u → NeedsGrad G v

/-- A function must be set up again: one of its inputs was marked, or is produced by a function
that is set up again. -/
inductive NeedsSetup (G : Graph) (mark : FnId → VarId → Bool) : FnId → Prop
  | marked {f v} : (v, true) ∈ (G.fn f).inputs → mark f v = true → NeedsSetup G mark f
  | prop {f v p} : (v, true) ∈ (G.fn f).inputs → G.parent v = some p → v ∈ (G.fn p).outputs →
      NeedsSetup G mark p → NeedsSetup G mark f

/-- `x` occurs in `l` strictly before the occurrence(s) of `y`. -/
def Before {α : Type} (l : List α) (x y : α) : Prop :=
  ∀ a b, l = a ++ y :: b → x ∈ a

end Verif.Graph
