/-
Model of nnabla.experimental.graph_converters: FunctionModifier.__call__ and GraphConverter.convert
(python/src/nnabla/experimental/graph_converters/graph_converter.py) and the modifiers built on it.
-/
import Mathlib.Data.List.Basic
import Mathlib.Analysis.SpecialFunctions.Pow.Real

namespace Verif.GraphConv

/-- A variable of the graph that is converted: without parent (an input or a parameter), or output `k` of function `f`. -/
inductive Var where
  | leaf (n : Nat)
  | out (f k : Nat)
  deriving DecidableEq

/-- A function object: what it computes (type and arguments), its inputs, its number of outputs. -/
structure Node (Fn : Type) where
  fn : Fn
  args : List Var
  nout : Nat

/-- The live functions, and `function_references` of every output (_variable.pyx:594-605): the
consumers in the arbitrary order of an unordered_map (src/nbla/computation_graph/variable.cpp:1017-1030). -/
structure Graph (Fn : Type) where
  node : Nat → Node Fn
  refs : Nat → Nat → List Nat

/-- A variable of the converted graph: an original leaf (or its unlinked copy, which shares the data),
a new parameter holding a value, an original inner variable, an unlinked copy of an original inner
variable, or output `k` of a newly created function. -/
inductive Term (Fn V : Type) where
  | leaf (n : Nat)
  | const (v : V)
  | orig (f k : Nat)
  | cut (f k : Nat)
  | app (fn : Fn) (args : List (Term Fn V)) (k : Nat)

/-- graph_converter.py:61-70 `_copy_inputs`. -/
def copyVar {Fn V : Type} : Var → Term Fn V
  | .leaf n => .leaf n
  | .out f k => .cut f k

/-- The original variable itself. -/
def origVar {Fn V : Type} : Var → Term Fn V
  | .leaf n => .leaf n
  | .out f k => .orig f k

/-- graph_converter.py:32 `_map_func_inputs`; `none`: the key is absent. -/
abbrev Table (Fn V : Type) := Nat → Option (List (Option (Term Fn V)))

variable {Fn V S : Type}

/-- True for a variable without parent. -/
def Var.isLeaf : Var → Bool
  | .leaf _ => true
  | .out _ _ => false

/-- graph_converter.py:73-85: the inputs looked up for `f`; `none` is an exception (no inputs, or a
missing input is passed on). -/
def inputsOf (G : Graph Fn) (m : Table Fn V) (f : Nat) : Option (List (Term Fn V)) :=
  match (G.node f).args with
  | [] => none
  | a :: as =>
    let l := if a.isLeaf && (m f).isNone then (a :: as).map (fun v => some (copyVar v)) else (m f).getD []
    let l := if as.isEmpty then l else List.zipWith (fun v o => some (o.getD (origVar v))) (a :: as) l
    if l.length = (a :: as).length then l.mapM id else none

/-- graph_converter.py:103-108, one consumer `h` of output `k` of `f`. -/
def wireOne (G : Graph Fn) (f k : Nat) (t : Term Fn V) (m : Table Fn V) (h : Nat) : Table Fn V := fun g =>
  if g = h then
    let cur := (m h).getD []
    let cur := if cur.length = 0 then (G.node h).args.map (fun _ => none) else cur
    some (List.zipWith (fun a o => if a = Var.out f k then some t else o) (G.node h).args cur)
  else m g

/-- graph_converter.py:98-108, from output `k` on.  The `return` in line 101-102 leaves the loop over
the outputs at the first output without consumers. -/
def wire (G : Graph Fn) (f : Nat) : Nat → List (Term Fn V) → Table Fn V → Table Fn V
  | _, [], m => m
  | k, t :: ts, m =>
    if k < (G.node f).nout then
      if (G.refs f k).isEmpty then m
      else wire G f (k + 1) ts ((G.refs f k).foldl (wireOne G f k t) m)
    else m

/-- A subclass's `modify`: state and result; `none` is an exception, a result `none` is `return None`. -/
abbrev Modify (Fn V S : Type) := S → Nat → List (Term Fn V) → Option (S × Option (Term Fn V))

/-- graph_converter.py:72-108 `__call__`; the third component is `self.outputs`. -/
def call (G : Graph Fn) (mod : Modify Fn V S) (st : Table Fn V × S × List (Term Fn V)) (f : Nat) :
    Option (Table Fn V × S × List (Term Fn V)) := do
  let inputs ← inputsOf G st.1 f
  let (s, o) ← mod st.2.1 f inputs
  let outputs := match o with
    | some t => [t]
    | none => (List.range (G.node f).nout).map (fun k => Term.app (G.node f).fn inputs k)
  return (wire G f 0 outputs st.1, s, outputs)

/-- graph_converter.py:214-229 `convert`, one modifier: visit the functions in order, the last one is
the sink; the result are the inputs of the new sink. -/
def pass (G : Graph Fn) (mod : Modify Fn V S) (s : S) (order : List Nat) : Option (S × List (Term Fn V)) := do
  let st ← order.foldlM (call G mod) ((fun _ => none), s, [])
  match st.2.2 with
  | .app _ args _ :: _ => return (st.2.1, args)
  | _ => none

/-! ### Values -/

mutual
/-- The value of a variable of the converted graph after a forward: `sem` is what the functions
compute, `env` the data of the leaves, `ov` the data of the original inner variables. -/
def eval [Inhabited V] (sem : Fn → List V → List V) (env : Nat → V) (ov : Nat → Nat → V) : Term Fn V → V
  | .leaf n => env n
  | .const v => v
  | .orig f k => ov f k
  | .cut f k => ov f k
  | .app fn args k => (sem fn (evalAll sem env ov args)).getD k default
/-- The same for a list. -/
def evalAll [Inhabited V] (sem : Fn → List V → List V) (env : Nat → V) (ov : Nat → Nat → V) : List (Term Fn V) → List V
  | [] => []
  | t :: ts => eval sem env ov t :: evalAll sem env ov ts
end

/-! ### Modifiers -/

/-- `FunctionModifier.modify` itself (returns None), NoGradModifier (calls the same function on the
same data, no_grad.py:49-61). -/
def sameMod : Modify Fn V Unit := fun s _ _ => some (s, none)

/-- identity.py:45-69 IdentityModifier with `inputs = d` (no copy).  `none` when the replaced function has several
outputs (a tuple is not accepted, graph_converter.py:89-90). -/
def identityMod (G : Graph Fn) (d : Nat → Option Nat) : Modify Fn V Unit := fun s f inputs =>
  match inputs with
  | .leaf _ :: rest => match (G.node f).args with
    | .leaf n :: _ => match d n with
      | some r => if (G.node f).nout = 1 then some (s, some (.app (G.node f).fn (.leaf r :: rest) 0)) else none
      | none => some (s, none)
    | _ => some (s, none)
  | [] => none
  | _ => some (s, none)

/-- remove_function.py:49-60 RemoveFunctionModifier (without the special case for a variable named 'x'). -/
def removeMod (G : Graph Fn) (rm : Fn → Bool) : Modify Fn V Unit := fun s f inputs =>
  if rm (G.node f).fn then
    match G.refs f 0, inputs with
    | _ :: _, t :: _ => some (s, some t)
    | _, _ => none
  else some (s, none)

/-- batch_norm_batchstat.py:48-67: functions of the given types are called again with changed arguments. -/
def retypeMod (G : Graph Fn) (chg : Fn → Option Fn) : Modify Fn V Unit := fun s f inputs =>
  match chg (G.node f).fn with
  | some fn' => some (s, some (.app fn' inputs 0))
  | none => some (s, none)

end Verif.GraphConv
