import Verif.Graph.ClearProps
import Verif.Graph.Backward
/-
C86: recomputation of cleared data during backward.
Model of the `as_recomputation` paths of src/nbla/computation_graph/variable.cpp (ForwardCallback
L137-405, visit_function_recursive L671-778, need_recompute_input / need_recompute_output L780-851,
the recomputation part of visit_function_backward L872-910) and of Function::setup_recompute /
recompute (src/nbla/function.cpp L176-200).
-/
namespace Verif.Recompute
open Verif.Graph
variable {α : Type}

/-- What the recomputation reads besides the graph: the kernels (`recompute_impl` is the forward
kernel; for random functions it restores the generator state saved by `setup_recompute`, so it is
the same function of its inputs), `need_setup_recompute(o)`, the ranks and `need_grad` states left
by forward, what backward clears after a function (`clear_buffer`; any choice), and what a kernel
finds in a cleared array. -/
structure RCfg (α : Type) where
  run : FnId → List α → List α
  needSetup : FnId → Nat → Bool := fun _ _ => false
  rank : VarId → Nat
  ng : FnId → Bool
  vg : VarId → Bool
  clr : FnId → VarId → Bool := fun _ _ => false
  junk : α

/-- State of a backward pass with recomputation. `data v = none` models
`data()->array()->clear_called()`; `cb` is the one ForwardCallback object of the pass; `ready f` is
`called_setup_recompute_` of `f`; `raised` an exception on its way out. Ghost: `visits` the
functions recomputed, `bad` those among them that read a cleared array, `reads` for every call of
the backward callback all the data at that moment. -/
structure RSt (α : Type) where
  cb : FSt Unit := { mem := fun _ => () }
  data : VarId → Option α
  ready : FnId → Bool
  closed : List FnId := []
  raised : Bool := false
  visits : List FnId := []
  bad : List FnId := []
  reads : List (FnId × (VarId → Option α)) := []

/-- With `as_recomputation_` the clause of get_clear_flags about recompute flags is skipped
(variable.cpp L250-256): the flags are computed as if no variable had it. -/
def noRec (G : Graph) : Graph := { G with recompute := fun _ => false }

/-- Options of the callback object (variable.cpp L873-876). -/
def recCfg : FCfg Unit :=
  { clearBuffer := false, clearNoNeedGrad := true, arr := id, run := fun _ _ => [],
    junk := fun _ _ => () }

/-- The kernel of `f` on the data: writes its outputs. -/
def writeOut (data : VarId → Option α) (l : List (VarId × α)) : VarId → Option α :=
  l.foldl (fun d x => upd d x.1 (some x.2)) data

/-- `clear_inputs` (L272-281). -/
def clearIn (data : VarId → Option α) (l : List (VarId × Bool)) : VarId → Option α :=
  l.foldl (fun d x => if x.2 then upd d x.1 none else d) data

/-- `Function::recompute` checks that `setup_recompute` was called (function.cpp L182-191). -/
def notReady (G : Graph) (c : RCfg α) (f : FnId) (s : RSt α) : Bool :=
  (List.range (G.fn f).outputs.length).any (c.needSetup f) && !s.ready f

/-- `ForwardCallback::operator()` with `as_recomputation_` (variable.cpp L323-404, function.cpp
L182-200). Fallback functions are not modelled. -/
def recCall (G : Graph) (c : RCfg α) (f : FnId) (s : RSt α) : RSt α :=
  if s.raised then s
  else if notReady G c f s then { s with raised := true }
  else
    let ins := (G.fn f).inputs.map (fun v => s.data v.1)
    let outs := c.run f (ins.map (fun x => x.getD c.junk))
    let d := writeOut s.data ((G.fn f).outputs.zip outs)
    let r := getClearFlags (noRec G) recCfg c.rank (c.ng f) f s.cb
    { s with cb := r.1
             data := clearIn d (((G.fn f).inputs.map Prod.fst).zip r.2)
             ready := upd s.ready f false
             visits := s.visits ++ [f]
             bad := if ins.any (fun x => x.isNone) then s.bad ++ [f] else s.bad }

/-- One input in `visit_function_recursive` with `as_recomputation` (variable.cpp L689-734): the
parent is visited only if it is not closed and the data has been cleared. -/
def recInput (G : Graph) (rec : FnId → RSt α → RSt α) (s : RSt α) (vi : VarId × Bool) : RSt α :=
  if s.raised then s
  else if vi.2 = false then s
  else match G.parent vi.1 with
    | none => s
    | some p =>
      if p ∈ s.closed then s
      else if (s.data vi.1).isNone then rec p s
      else s

/-- `visit_function_recursive` with `as_recomputation = true` (variable.cpp L671-753). -/
def visitR (G : Graph) (c : RCfg α) : Nat → FnId → RSt α → RSt α
  | 0, _, s => s
  | n + 1, f, s =>
    recCall G c f ((G.fn f).inputs.foldl (recInput G (visitR G c n))
      { s with closed := f :: s.closed })

/-- The loop of need_recompute_input (variable.cpp L801-817): does some needed gradient of `f` use
the data of input `i`? -/
def wantsIn (G : Graph) (c : RCfg α) (f : FnId) (i : Nat) : Bool :=
  ((G.fn f).inputs.map Prod.fst).zipIdx.any (fun x => c.vg x.1 && (G.fn f).gradDepIn x.2 i)

/-- The loop of need_recompute_output (variable.cpp L836-848). -/
def wantsOut (G : Graph) (c : RCfg α) (f : FnId) (o : Nat) : Bool :=
  ((G.fn f).inputs.map Prod.fst).zipIdx.any (fun x => c.vg x.1 && (G.fn f).gradDepOut x.2 o)

/-- Recompute an output (variable.cpp L823-851, L891-899). -/
def recOut (G : Graph) (c : RCfg α) (fuel : Nat) (f : FnId) (s : RSt α) (x : VarId × Nat) : RSt α :=
  if s.raised then s
  else if G.recompute x.1 && (s.data x.1).isNone && wantsOut G c f x.2 then visitR G c fuel f s
  else s

/-- Recompute an input (variable.cpp L783-821, L901-909). -/
def recIn (G : Graph) (c : RCfg α) (fuel : Nat) (f : FnId) (s : RSt α) (x : VarId × Nat) : RSt α :=
  if s.raised then s
  else match G.parent x.1 with
    | none => s
    | some p =>
      if G.recompute x.1 && (s.data x.1).isNone && wantsIn G c f x.2 then visitR G c fuel p s
      else s

/-- One iteration of the loop of `visit_function_backward` (variable.cpp L887-911) as a backward
callback: recompute outputs, recompute inputs, then the backward of `f`, which sees all the data
(`reads`), and the clearing done by the backward callback. Gradients are not part of this model. -/
def backStep (G : Graph) (c : RCfg α) (fuel : Nat) (f : FnId) (s : RSt α) : RSt α :=
  if s.raised then s
  else
    let s1 := (G.fn f).outputs.zipIdx.foldl (recOut G c fuel f) { s with closed := [] }
    let s2 := ((G.fn f).inputs.map Prod.fst).zipIdx.foldl (recIn G c fuel f) s1
    if s2.raised then s2
    else
      { s2 with reads := s2.reads ++ [(f, s2.data)]
                data := fun v => if v ∈ (G.fn f).outputs ∧ c.clr f v = true then none else s2.data v }

/-- `called_setup_recompute_` after forward: `setup_recompute` is called by the forward callback iff
some output has the recompute flag and needs it (variable.cpp L334-360). -/
def readyAfter (G : Graph) (c : RCfg α) (f : FnId) : Bool :=
  (G.fn f).outputs.zipIdx.any (fun x => G.recompute x.1 && c.needSetup f x.2)

end Verif.Recompute
