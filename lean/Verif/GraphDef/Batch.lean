import Verif.GraphDef.Model

/-!
# Variable batch sizes

Models `python/src/nnabla/core/variable_batch_size.py` (what `as_proto(variable_batch_size=True)`,
the default of `save`, does to shapes and function arguments) and the shape handling of
`ProtoNetwork.__call__` / `ProtoFunction.graph_call` (graph_def.py:580-602, 2379-2413).

Simplifications: a function keeps its type, inputs, outputs and the two arguments in question,
`base_axis` and `shape`; functions are given in forward order. `update_actual_shape_of_reshape`
(graph_def.py:446-467), which resolves an inferred dimension beforehand, is not modelled: `Reshape`
arguments contain no inferred dimension other than the leading `-1`. The random and constant
functions have no inputs, hence are skipped (lines 41-48) and never reach line 85.
`none` is a failed `assert`.
-/

namespace Verif.GraphDef.Batch

/-- function as seen by variable_batch_size.py -/
structure BFn where
  type : String
  inputs : List String
  outputs : List String
  /-- `pf.args['base_axis']`, if there is one -/
  baseAxis : Option Nat := none
  /-- `pf.args['shape']`, if there is one -/
  shapeArg : Option (List Int) := none
  deriving DecidableEq, Repr

/-- the network: `variables` (names), their shapes, functions in forward order, `batch_size` -/
structure BNet where
  vars : List String
  shape : String → List Int
  fns : List BFn
  batchSize : Option Int := none

/-- variable_batch_size.py:28-34: `np.prod(shape[:base_axis])` of the first input which is a
variable -/
def firstBatch (N : BNet) (f : BFn) : Option Int :=
  match f.baseAxis with
  | none => none
  | some a =>
    if a = 0 then none
    else (f.inputs.find? N.vars.contains).map fun v => ((N.shape v).take a).prod

/-- variable_batch_size.py:20, 26-34: the last function decides. -/
def expectBatch (N : BNet) : Option Int :=
  N.fns.foldl (fun e f => (firstBatch N f).orElse fun _ => e) none

/-- The local variables of the second loop. -/
structure VState where
  shape : String → List Int
  resolved : List String
  special : List String

/-- `(np.prod(shape[:base_axis]),) + shape[base_axis:]` -/
def flatten (a : Nat) (s : List Int) : List Int := (s.take a).prod :: s.drop a

/-- variable_batch_size.py:52-57 -/
def flattenInput (vars : List String) (a : Nat) (st : VState) (v : String) : VState :=
  if vars.contains v && !st.resolved.contains v && !st.special.contains v then
    { st with shape := upd st.shape v (flatten a (st.shape v)), resolved := st.resolved ++ [v] }
  else st

/-- variable_batch_size.py:58-62: outputs are not added to `resolved`. -/
def flattenOutput (a : Nat) (st : VState) (v : String) : VState :=
  if !st.resolved.contains v then { st with shape := upd st.shape v (flatten a (st.shape v)) }
  else st

/-- variable_batch_size.py:50-63 -/
def flattenFn (vars : List String) (st : VState) (f : BFn) : VState × BFn :=
  match f.baseAxis with
  | none => (st, f)
  | some a =>
    if a = 1 then (st, f)
    else
      (f.outputs.foldl (flattenOutput a) (f.inputs.foldl (flattenInput vars a) st),
        if f.outputs.isEmpty then f else { f with baseAxis := some 1 })

/-- variable_batch_size.py:65-82: `Reshape` and `Broadcast`. -/
def freeArg (B : Int) (st : VState) (f : BFn) : Option BFn :=
  match f.shapeArg with
  | none => some f
  | some arg =>
    if f.type = "Reshape" then
      if arg.head? = some B then some { f with shapeArg := some (-1 :: arg.tail) } else none
    else if f.type = "Broadcast" then
      let inLen := 1 + ((st.shape (f.inputs.headD "")).drop 1).length
      if inLen < arg.length then
        let diff := arg.length - inLen
        if (arg.take (diff + 1)).prod = B then
          some { f with shapeArg := some (-1 :: arg.drop (diff + 1)) }
        else none
      else if arg.head? = some B then some { f with shapeArg := some (-1 :: arg.tail) } else none
    else some f

/-- variable_batch_size.py:38-87: the second loop; processed functions in order. -/
def secondLoop (vars : List String) (B : Int) : VState → List BFn → Option (VState × List BFn)
  | st, [] => some (st, [])
  | st, f :: fs =>
    if (f.inputs.any fun v => vars.contains v && !st.special.contains v) then
      let r := flattenFn vars st f
      (freeArg B r.1 r.2).bind fun f' =>
        (secondLoop vars B r.1 fs).map fun q => (q.1, f' :: q.2)
    else
      (secondLoop vars B { st with special := st.special ++ f.outputs } fs).map
        fun q => (q.1, f :: q.2)

/-- variable_batch_size.py:89-92: leading batch dimension becomes `-1`. -/
def freeVar (B : Int) (special : List String) (v : String) (s : List Int) : List Int :=
  if !special.contains v && s.head? = some B then -1 :: s.tail else s

/-- variable_batch_size.py:19-94 `variable_batch_size(network)`. -/
def variableBatchSize (N : BNet) : Option BNet :=
  match expectBatch N with
  | none => some N
  | some B =>
    (secondLoop N.vars B ⟨N.shape, [], []⟩ N.fns).map fun q =>
      { N with
        shape := fun v => if N.vars.contains v then freeVar B q.1.special v (q.1.shape v)
          else q.1.shape v
        fns := q.2
        batchSize := some B }

/-! ## Calling -/

/-- what a network remembers between calls: the placeholder instances of its inputs
(`pv.variable_instance`, here their shapes) and the function arguments -/
structure CallState where
  inst : String → Option (List Int)
  args : List (Option (List Int))

/-- a freshly loaded network -/
def freshCall (N : BNet) : CallState := ⟨fun _ => none, N.fns.map BFn.shapeArg⟩

/-- graph_def.py:583-584: `tuple(d if d >= 1 else batch_size for d in pv.shape)` -/
def placeholder (b : Int) (s : List Int) : List Int := s.map fun d => if 1 ≤ d then d else b

/-- graph_def.py:2399-2403: `pf.args` is shared with the clone, so the substitution is permanent. -/
def resolveArg (b : Int) : Option (List Int) → Option (List Int)
  | some (d :: rest) => if d = -1 then some (b :: rest) else some (d :: rest)
  | a => a

/-- graph_def.py:511-609 `network(batch_size=b)` without arguments: the shapes of the placeholders and
of the function arguments used by the new graph. An existing instance is kept (lines 593-594). -/
def callNet (N : BNet) (inputs : List String) (b : Int) (s : CallState) : CallState :=
  { inst := fun v => if inputs.contains v then
        (match s.inst v with | some i => some i | none => some (placeholder b (N.shape v)))
      else s.inst v
    args := s.args.map (resolveArg b) }

/-- graph_def.py:579-580: `batch_size` argument or the stored one -/
def effectiveBatch (N : BNet) (arg : Option Int) : Int := arg.getD (N.batchSize.getD 0)

end Verif.GraphDef.Batch
