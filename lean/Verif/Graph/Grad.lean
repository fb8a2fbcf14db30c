import Mathlib.Algebra.BigOperators.Group.List.Basic
import Verif.Graph.Backward
/-
Model of the backward callback (accumulation flags, zeroing, clearing) and the specification of the
gradient (C25).  A gradient buffer holds an element of an arbitrary commutative additive monoid
(e.g. an array of reals); a function's kernel is an arbitrary map from the gradients of its outputs
to one contribution per input.
-/
namespace Verif.Graph
variable {α : Type}

/-- A gradient buffer: a SyncedArray with the lazy `zero()` flag (src/nbla/synced_array.cpp
`zeroing()`); an uninitialised or stale buffer is any `val`. -/
structure GArr (α : Type) where
  zeroing : Bool
  val : α

/-- Reading evaluates the lazy zero. -/
def GArr.read [Zero α] (a : GArr α) : α := if a.zeroing then 0 else a.val

/-- `NdArray::zero()`. -/
def GArr.zeroed (a : GArr α) : GArr α := { a with zeroing := true }

/-- Configuration of a backward pass. `vjp f i outs` is what the kernel of `f` (`backward_impl`)
adds to input `i` given the gradients `outs` of the outputs; `none` when the kernel does not touch
the buffer (no gradient defined). `junk` is what a buffer contains after `clear()`.
`initial` is `initial_variable_set_` (variable.cpp L424-426). Distinct variables are assumed to have
distinct gradient arrays. -/
structure GCfg (α : Type) where
  env : BEnv
  vjp : FnId → Nat → List α → Option α
  prohibitZero : FnId → Bool := fun _ => false
  clearBuffer : Bool := false
  clearInitial : Bool := false
  initial : List VarId := []
  junk : FnId → VarId → GArr α

/-- State of a BackwardCallback (`vseen_` with the grad part of its ClearFlag) and the gradient
buffers. -/
structure GSt (α : Type) where
  seen : List (VarId × Bool) := []
  grad : VarId → GArr α

/-- `query_input_flags` (variable.cpp L551-586): first-visit flags and clear flags of the inputs
(only the grad half of the flags; the data half is `inplace`-dependent and modelled elsewhere). -/
def queryInputs (prohibit : Bool) : List (VarId × Bool) → List VarId →
    List (VarId × Bool) × List Bool
  | seen, [] => (seen, [])
  | seen, v :: vs =>
    let first := decide (v ∉ seen.map Prod.fst)
    let seen1 := if first then (v, !prohibit) :: seen else seen
    let seen2 := seen1.map (fun x => if x.1 = v then (x.1, x.2 && !prohibit) else x)
    let r := queryInputs prohibit seen2 vs
    (r.1, first :: r.2)

/-- `get_accum` (variable.cpp L428-461) for one input `v` with its first-visit flag. `shared` is
true when the variable occurs at another position of the inputs. -/
def accumOf (G : Graph) (vg : VarId → Bool) (grad : VarId → GArr α) (ins : List VarId)
    (v : VarId) (first : Bool) : Bool :=
  if vg v = false then false
  else
    let shared := decide (1 < ins.count v)
    if (grad v).zeroing && !shared then false
    else if (G.parent v).isSome && first then false
    else true

/-- `query_outputs_flags` (variable.cpp L497-549), grad half: for every output the first-visit flag
and whether its gradient is cleared afterwards. -/
def queryOutputs (G : Graph) (cfg : GCfg α) : List (VarId × Bool) → List VarId →
    List (VarId × Bool) × List (VarId × Bool × Bool)
  | seen, [] => (seen, [])
  | seen, o :: os =>
    let first := decide (o ∉ seen.map Prod.fst)
    let flag := match seen.find? (fun x => x.1 == o) with
      | none => cfg.clearInitial
      | some x => x.2
    let flag := if G.persistent o then false else flag
    let seen1 := if first then (o, cfg.clearInitial) :: seen else seen
    let r := queryOutputs G cfg seen1 os
    (r.1, (o, first, cfg.clearBuffer && flag) :: r.2)

/-- `force_zero_grad_if_unseen` (variable.cpp L463-483). -/
def forceZero (cfg : GCfg α) (grad : VarId → GArr α) (os : List (VarId × Bool × Bool)) :
    VarId → GArr α :=
  os.foldl (fun g o => if o.1 ∈ cfg.initial then g
    else if o.2.1 then upd g o.1 (g o.1).zeroed else g) grad

/-- The zeroing of `Function::backward` (src/nbla/function.cpp L168-174). -/
def zeroStep (vg : VarId → Bool) (grad : VarId → GArr α) (l : List (VarId × Bool)) :
    VarId → GArr α :=
  l.foldl (fun g x => if vg x.1 && !x.2 then upd g x.1 (g x.1).zeroed else g) grad

/-- Contract of `backward_impl` for one input: accumulate onto the buffer or overwrite it. -/
def implStep [Zero α] [Add α] (vg : VarId → Bool) (c : Nat → Option α) (g : VarId → GArr α)
    (x : (VarId × Bool) × Nat) : VarId → GArr α :=
  if vg x.1.1 then
    match c x.2 with
    | none => g
    | some d => upd g x.1.1 ⟨false, if x.1.2 then (g x.1.1).read + d else d⟩
  else g

/-- `clear_outputs` (variable.cpp L485-495), grad half. -/
def clearOutputs (cfg : GCfg α) (f : FnId) (grad : VarId → GArr α)
    (os : List (VarId × Bool × Bool)) : VarId → GArr α :=
  os.foldl (fun g o => if o.2.2 then upd g o.1 (cfg.junk f o.1) else g) grad

/-- `BackwardCallback::operator()` (variable.cpp L612-668). -/
def backCall [Zero α] [Add α] (G : Graph) (cfg : GCfg α) (f : FnId) (s : GSt α) : GSt α :=
  let ins := (G.fn f).inputs.map Prod.fst
  let q := queryInputs (G.fn f).prohibitClearInputs s.seen ins
  let l := (ins.zip q.2).map (fun x => (x.1, accumOf G cfg.env.vg s.grad ins x.1 x.2))
  let o := queryOutputs G cfg q.1 (G.fn f).outputs
  let g1 := forceZero cfg s.grad o.2
  let outs := (G.fn f).outputs.map (fun o => (g1 o).read)
  let g2 := if cfg.prohibitZero f then g1 else zeroStep cfg.env.vg g1 l
  let g3 := l.zipIdx.foldl (implStep cfg.env.vg (fun i => cfg.vjp f i outs)) g2
  { seen := o.1, grad := clearOutputs cfg f g3 o.2 }

/-- The gradient buffers of the outputs of the root function while backward runs
(`CgVariable::backward`, variable.cpp L975-1005): the passed `grad` (or the current gradient) for the
root, zeros for its siblings. -/
def initGrads (G : Graph) (root : VarId) (p0 : FnId) (g : Option (GArr α)) (z : GArr α)
    (grad : VarId → GArr α) : VarId → GArr α :=
  fun v => if v ∈ (G.fn p0).outputs then
      if v = root then (match g with | some a => a | none => grad v) else z.zeroed
    else grad v

/-- `CgVariable::backward` (variable.cpp L959-1018): returns the executed functions and the
gradient buffers afterwards; `none` when the variable has no parent. The gradient arrays of the
outputs of the root function are put back at scope exit (pointers: the array of the root itself is
used during the pass when no `grad` is passed). -/
def cgBackward [Zero α] [Add α] (G : Graph) (cfg : GCfg α) (fuel : Nat) (root : VarId)
    (g : Option (GArr α)) (clearInit : Bool) (z : GArr α) (grad : VarId → GArr α) :
    Option (List FnId × (VarId → GArr α)) :=
  match G.parent root with
  | none => none
  | some p0 =>
    let cfg := { cfg with initial := (G.fn p0).outputs, clearInitial := g.isSome && clearInit }
    let r := visitBackward G cfg.env (backCall G cfg) fuel p0
      { seen := [], grad := initGrads G root p0 g z grad }
    some (r.order, fun v =>
      if v ∈ (G.fn p0).outputs then (if v = root ∧ g.isNone then r.ext.grad v else grad v)
      else r.ext.grad v)

/-! ### Specification -/

/-- Total contribution of `f` to the gradient of `v`: the sum over the positions at which `v` is an
input of `f`. -/
def contrib [AddCommMonoid α] (G : Graph) (vjp : FnId → Nat → List α → Option α)
    (D : VarId → α) (v : VarId) (f : FnId) : α :=
  (((G.fn f).inputs.map Prod.fst).zipIdx.map
    (fun x => if x.1 = v then (vjp f x.2 ((G.fn f).outputs.map D)).getD 0 else 0)).sum

/-- `D` is the gradient: the given one at the root, zero at its siblings, at every other computed
variable the sum of the contributions of the functions consuming it, at leaves the previous content
of the buffer plus that sum. -/
structure IsGradient [AddCommMonoid α] (G : Graph) (vjp : FnId → Nat → List α → Option α)
    (E : List FnId) (root : VarId) (p0 : FnId) (g : α) (init D : VarId → α) : Prop where
  at_root : D root = g
  at_sibling : ∀ o, o ∈ (G.fn p0).outputs → o ≠ root → D o = 0
  inner : ∀ v p, G.parent v = some p → p ≠ p0 → D v = (E.map (contrib G vjp D v)).sum
  leaf : ∀ v, G.parent v = none → D v = init v + (E.map (contrib G vjp D v)).sum

end Verif.Graph
