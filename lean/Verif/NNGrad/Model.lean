import Mathlib.Algebra.BigOperators.Group.Finset.Basic
import Verif.Graph.Grad
/-
Model of `nn.grad` (python/src/nnabla/grad.py): building the gradient graph of a list of outputs
with respect to a list of inputs.

A variable of the forward graph is a CgVariable (`VarId`); python compares and hashes `Variable`s by
the address of the *underlying* nbla::Variable (python/src/nnabla/_variable.pyx L284-296), which is
`buf` here: unlinked variables (every parameter returned by `get_parameter_or_create`) are different
CgVariables with the same `buf`.  A variable of the gradient graph is represented by its value, an
element of a commutative additive monoid.
-/
namespace Verif.NNGrad
open Verif.Graph

variable {α : Type}

/-- The forward graph as seen by python when `nn.grad` runs. `refs` is
`Variable.function_references` (src/nbla/computation_graph/variable.cpp L1017-1025), `vrank`/`frank`
the ranks, `vng` `Variable.need_grad`, `fng` `Function.need_grad`, `isEnd` whether the type is
`GradEndFunction` (grad.py L26-50), `vjp f i gs` the `i`-th result of the registered backward function
of `f` on the gradients `gs` of its outputs (`none`: Python `None`), `one v` an array of ones of the
shape of `v` (`GradEndFunction.forward_impl`). -/
structure Env (α : Type) where
  G : Graph
  buf : VarId → Nat := id
  refs : VarId → List FnId
  vrank : VarId → Nat
  frank : FnId → Nat
  vng : VarId → Bool
  fng : FnId → Bool
  isEnd : FnId → Bool := fun _ => false
  vjp : FnId → Nat → List α → Option α
  one : VarId → α

/-- `f.inputs` -/
def Env.ins (E : Env α) (f : FnId) : List VarId := (E.G.fn f).inputs.map Prod.fst
/-- `f.outputs` -/
def Env.outs (E : Env α) (f : FnId) : List VarId := (E.G.fn f).outputs

/-- `grad_vars`: `{F_fwd: {VO_fwd: [VI_bwd]}}` (grad.py L249); an absent variable has no gradients. The
entry of the key `None` (inputs without parent) is never read and left out. -/
abbrev GV (α : Type) := FnId → Option (Nat → List α)

/-- Step 1 of `_connect_on_gradient_graph` (grad.py L68-80) for one output: a constant 0 for a
`floating` variable, the variable itself, or `sum(v)`. -/
def gradIn [Zero α] [Add α] : List α → α
  | [] => 0
  | [a] => a
  | l => l.sum

/-- Step 4 of `_connect_on_gradient_graph` (grad.py L115-124) for one input. -/
def putGrad (E : Env α) (gv : GV α) (x : VarId × Option α) : GV α :=
  match x.2 with
  | none => gv
  | some d =>
    match E.G.parent x.1 with
    | none => gv
    | some p =>
      let m := (gv p).getD (fun _ => [])
      upd gv p (some (fun b => if b = E.buf x.1 then m b ++ [d] else m b))

/-- `_connect_on_gradient_graph` (grad.py L67-125). `none`: `grad_vars.pop(f)` raises KeyError. Every
function is assumed to be in the registry of backward functions (L84-86). -/
def connect [Zero α] [Add α] (E : Env α) (gv : GV α) (f : FnId) : Option (GV α × List (Option α)) :=
  match gv f with
  | none => none
  | some m =>
    let gins := (E.outs f).map (fun o => gradIn (m (E.buf o)))
    let gouts := (E.ins f).zipIdx.map (fun x => E.vjp f x.2 gins)
    some (((E.ins f).zip gouts).foldl (putGrad E) (upd gv f none), gouts)

/-- `inp2id = {x: i for i, x in enumerate(inputs)}` (grad.py L134): the last index wins. -/
def lastIdx (E : Env α) (inputs : List VarId) (v : VarId) : Option Nat :=
  (inputs.zipIdx.filter (fun x => E.buf x.1 == E.buf v)).getLast?.map Prod.snd

/-- Loop body of the dfs of `_get_corresponding_vars_on_graph` (grad.py L142-151); `rec` is the
recursive call, the state is (open, ret). -/
def corrStep (E : Env α) (inputs : List VarId)
    (rec : VarId → List Nat × List (Option VarId) → List Nat × List (Option VarId)) (node : VarId)
    (s : List Nat × List (Option VarId)) (v : VarId) : List Nat × List (Option VarId) :=
  if E.buf node ∈ s.1 then s
  else
    let ret := match lastIdx E inputs v with
      | some i => s.2.set i (some v)
      | none => s.2
    let s1 := rec v (s.1, ret)
    (E.buf v :: s1.1, s1.2)

/-- The dfs (grad.py L138-151). -/
def corrDfs (E : Env α) (inputs : List VarId) : Nat → VarId →
    List Nat × List (Option VarId) → List Nat × List (Option VarId)
  | 0, _, s => s
  | n + 1, node, s =>
    if E.buf node ∈ s.1 then s
    else
      match E.G.parent node with
      | none => s
      | some p => (E.ins p).foldl (corrStep E inputs (corrDfs E inputs n) node) s

/-- `_get_corresponding_vars_on_graph` (grad.py L127-156). -/
def corrVars (E : Env α) (fuel : Nat) (inputs outputs : List VarId) : List (Option VarId) :=
  (outputs.foldl (fun s o => corrDfs E inputs fuel o s) ([], inputs.map (fun _ => none))).2

/-- Loop body of the dfs of `_get_children` (grad.py L168-175). -/
def childStep (E : Env α) (rec : VarId → List Nat → List Nat) (ch : List Nat) (f : FnId) :
    List Nat :=
  if E.isEnd f then ch
  else (E.outs f).foldl (fun ch o => if E.buf o ∈ ch then ch else E.buf o :: rec o ch) ch

/-- The dfs (grad.py L164-175). -/
def childDfs (E : Env α) : Nat → VarId → List Nat → List Nat
  | 0, _, ch => ch
  | n + 1, node, ch =>
    if E.buf node ∈ ch then ch
    else (E.refs node).foldl (childStep E (childDfs E n)) ch

/-- `_get_children` (grad.py L158-182). -/
def children (E : Env α) (fuel : Nat) (wrt : List (Option VarId)) : List Nat :=
  wrt.foldl (fun ch w => match w with | none => ch | some w => childDfs E fuel w ch) []

/-- The local variables of `Grad.__call__`: the open set of `(-rank, id, function)` (`rank` stored
positively), the ids, `grad_vars` and `grads`. -/
structure St (α : Type) where
  opn : List (Nat × Nat × FnId) := []
  ids : List FnId := []
  gv : GV α := fun _ => none
  grads : List (Option α) := []

/-- `open.add((-rank, get_id(func), func))` (grad.py L239-246, L269, L313). -/
def push (s : St α) (rank : Nat) (f : FnId) : St α :=
  let ids := if f ∈ s.ids then s.ids else s.ids ++ [f]
  let e := (rank, ids.idxOf f, f)
  { s with ids := ids, opn := if e ∈ s.opn then s.opn else s.opn ++ [e] }

/-- Order of the tuples: larger rank first, then smaller id. -/
def better (a b : Nat × Nat × FnId) : Bool :=
  decide (b.1 < a.1) || (decide (a.1 = b.1) && decide (a.2.1 < b.2.1))

/-- `sorted(open).pop(0)` (grad.py L284-285). -/
def best : List (Nat × Nat × FnId) → Option (Nat × Nat × FnId)
  | [] => none
  | e :: l => match best l with
    | none => some e
    | some e' => if better e' e then some e' else some e

/-- One iteration of the loop over the outputs (grad.py L252-273). `out` is the variable the pass starts
from: the output itself, or `o * go` when a `grad_outputs` element is given (the Mul function is
then part of the graph). `none`: the output has no parent, and `f.need_grad` (L288) raises
AttributeError on `None`. -/
def initStep (E : Env α) (s : Option (St α)) (out : VarId) : Option (St α) :=
  match s, E.G.parent out with
  | some s, some p =>
    let s1 := push s (E.vrank out) p
    some { s1 with gv := upd s1.gv p (some (fun b => if b = E.buf out then [E.one out] else [])) }
  | _, _ => none

/-- `wrt_inputs.index(inp)` (grad.py L296-298); a fresh `nn.Variable()` (L280) equals nothing. -/
def wrtIdx (E : Env α) (wrt : List (Option VarId)) (v : VarId) : Option Nat :=
  wrt.findIdx? (fun w => match w with | none => false | some w => E.buf w == E.buf v)

/-- "Check grads w.r.t. inputs" (grad.py L294-304). -/
def accGrad [Add α] (E : Env α) (wrt : List (Option VarId)) (grads : List (Option α))
    (x : VarId × Option α) : List (Option α) :=
  match wrtIdx E wrt x.1, x.2 with
  | some i, some d =>
    if E.vng x.1 then
      grads.set i (some (match grads[i]? with
        | some (some a) => a + d
        | _ => d))
    else grads
  | _, _ => grads

/-- "Propagate down" (grad.py L306-313). -/
def pushDown (E : Env α) (ch : List Nat) (s : St α) (x : VarId × Option α) : St α :=
  if E.buf x.1 ∈ ch ∧ E.vng x.1 = true ∧ x.2.isSome = true then
    match E.G.parent x.1 with
    | none => s
    | some p => push s (E.frank p) p
  else s

/-- The while loop (grad.py L283-313). `none`: an exception. The fuel bounds the iterations. -/
def loop [Zero α] [Add α] (E : Env α) (wrt : List (Option VarId)) (ch : List Nat) :
    Nat → St α → Option (St α)
  | 0, s => some s
  | n + 1, s =>
    match best s.opn with
    | none => some s
    | some e =>
      let s1 : St α := { s with opn := s.opn.erase e }
      let f := e.2.2
      if E.fng f = false then loop E wrt ch n s1
      else
        match connect E s1.gv f with
        | none => none
        | some (gv, gouts) =>
          let gs := (E.ins f).zip gouts
          let s2 : St α := { s1 with gv := gv, grads := gs.foldl (accGrad E wrt) s1.grads }
          loop E wrt ch n (gs.foldl (pushDown E ch) s2)

/-- `Grad.__call__` (grad.py L184-320). Each element of `outs` is an output `o` with the variable the
pass starts from (see `initStep`). A result `none` is `F.constant(0, wrt_inputs[i].shape)`
(L315-319). The argument checks (L194-234) and `persistent` are left out. -/
def grad [Zero α] [Add α] (E : Env α) (fuel : Nat) (outs : List (VarId × VarId))
    (inputs : List VarId) : Option (List (Option α)) :=
  match (outs.map Prod.snd).foldl (initStep E) (some {}) with
  | none => none
  | some s =>
    let wrt := corrVars E fuel inputs (outs.map Prod.fst)
    let ch := children E fuel wrt
    (loop E wrt ch fuel { s with grads := wrt.map (fun _ => none) }).map St.grads

/-! ### Specification -/

/-- A function on which some start variable depends. -/
inductive Up (E : Env α) (starts : List VarId) : FnId → Prop
  | root {o p} : o ∈ starts → E.G.parent o = some p → Up E starts p
  | step {f v p} : Up E starts f → v ∈ E.ins f → E.G.parent v = some p → Up E starts p

/-- `v` is used (as an input of some function) in the computation of a variable of `starts`. -/
def Used (E : Env α) (starts : List VarId) (v : VarId) : Prop :=
  ∃ f, Up E starts f ∧ v ∈ E.ins f

/-- `D` is the sensitivity of the sum of the start variables: at every variable the ones of the starts
that are this variable plus, for every function of the computation and every position at which the
function takes the variable, the vector-Jacobian product of the function (`contrib`). -/
def IsSens [AddCommMonoid α] (E : Env α) (starts : List VarId) (F : Finset FnId) (D : VarId → α) :
    Prop :=
  (∀ f, f ∈ F ↔ Up E starts f) ∧
  ∀ v, D v = ((starts.filter (fun o => o == v)).map E.one).sum + ∑ f ∈ F, contrib E.G E.vjp D v f

end Verif.NNGrad
