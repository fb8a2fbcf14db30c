/-!
# Proto networks: loading, exporting, traversing, calling

Models `python/src/nnabla/core/graph_def.py`: `ProtoNetwork.from_proto`,
`ProtoNetwork.as_proto` (the structural part), `execute_on_proto`,
`forward_sequence` and `__call__`.

Simplifications.
* A protobuf `Network` message keeps: for every variable its name and whether its
  type is `Parameter` or `Buffer`, for every function its name, type-independent
  list of input names and output names.  Shapes and batch sizes are modelled in
  `Verif.GraphDef.Batch`.
* The dictionaries `variables` / `parameters` / `functions` are a list of keys (the
  order) with a lookup function; the objects of variables and parameters share the
  lookup function `node`, i.e. no name is declared as both.
* Loop control (`repeat_info`) is absent: `expand_loop_control` has run, or there is
  none.
-/

namespace Verif.GraphDef

/-- nnabla.proto `Function`: `name`, `input`, `output`. -/
structure PFn where
  name : String
  inputs : List String
  outputs : List String
  deriving DecidableEq, Repr

/-- nnabla.proto `Variable`: `name` and `type == 'Parameter'`. -/
structure PVar where
  name : String
  isParam : Bool
  deriving DecidableEq, Repr

/-- nnabla.proto `Network` (structure only). -/
structure Proto where
  variables : List PVar
  functions : List PFn

/-- graph_def.py:1917-1930 `ProtoVariable`: the fields which the traversal uses. -/
structure Node where
  parent : Option String := none
  required : List String := []
  stop : Bool := false

/-- graph_def.py:380-392 `ProtoNetwork`. -/
structure Net where
  /-- keys of `self.variables`, in order -/
  varKeys : List String
  /-- keys of `self.parameters`, in order -/
  paramKeys : List String
  /-- the `ProtoVariable` behind a key -/
  node : String → Node
  /-- keys of `self.functions`, in order -/
  fnKeys : List String
  /-- the `ProtoFunction` behind a key -/
  fn : String → PFn

/-- dictionary update -/
def upd {α : Type} (f : String → α) (k : String) (a : α) : String → α :=
  fun x => if x = k then a else f x

/-- `k in self.variables` or `k in self.parameters` (graph_def.py:937, 941). -/
def Net.declares (N : Net) (k : String) : Bool := N.varKeys.contains k || N.paramKeys.contains k

/-- insertion into the key order of an `OrderedDict`: an existing key keeps its place -/
def addKey (ks : List String) (k : String) : List String := if k ∈ ks then ks else ks ++ [k]

/-- graph_def.py:921-930: the loop over `proto.variable`. -/
def declareVar (N : Net) (v : PVar) : Net :=
  if v.isParam then { N with paramKeys := addKey N.paramKeys v.name, node := upd N.node v.name {} }
  else { N with varKeys := addKey N.varKeys v.name, node := upd N.node v.name {} }

/-- graph_def.py:936-939: one name of `f.input`; `none` is the `KeyError`. -/
def wireInput (f : String) (N : Net) (n : String) : Option Net :=
  if N.declares n then
    some { N with node := upd N.node n { N.node n with required := (N.node n).required ++ [f] } }
  else none

/-- graph_def.py:940-943: one name of `f.output`; `none` is the `KeyError`. -/
def wireOutput (f : String) (N : Net) (n : String) : Option Net :=
  if N.declares n then
    some { N with node := upd N.node n { N.node n with parent := some f } }
  else none

/-- graph_def.py:931-943: one function of `proto.function`. -/
def wireFn (N : Net) (f : PFn) : Option Net :=
  let N1 : Net := { N with fnKeys := addKey N.fnKeys f.name, fn := upd N.fn f.name f }
  (f.inputs.foldlM (wireInput f.name) N1).bind fun N2 => f.outputs.foldlM (wireOutput f.name) N2

/-- graph_def.py:380-392: the new network. -/
def emptyNet : Net :=
  { varKeys := [], paramKeys := [], node := fun _ => {}, fnKeys := [], fn := fun n => ⟨n, [], []⟩ }

/-- graph_def.py:914-949 `ProtoNetwork.from_proto`; `none` is a `KeyError` for an
undeclared variable. -/
def fromProto (p : Proto) : Option Net :=
  p.functions.foldlM wireFn (p.variables.foldl declareVar emptyNet)

/-- graph_def.py:945-946 (also 440-441): `inputs`. -/
def Net.inputs (N : Net) : List String :=
  N.varKeys.filter fun k => (N.node k).parent.isNone && !(N.node k).required.isEmpty

/-- graph_def.py:947-948 (also 442-443): `outputs`. -/
def Net.outputs (N : Net) : List String :=
  N.varKeys.filter fun k => (N.node k).required.isEmpty && (N.node k).parent.isSome

/-- graph_def.py:498-507 `as_proto`: variables, then parameters, then functions. -/
def Net.asProto (N : Net) : Proto :=
  { variables := N.varKeys.map (fun k => ⟨k, false⟩) ++ N.paramKeys.map (fun k => ⟨k, true⟩)
    functions := N.fnKeys.map N.fn }

/-! ## Traversal -/

/-- The local variables of `execute_on_proto` (graph_def.py:808-817) together with the
`stop` flags and the calls of `execute` made so far. The top of `stack` is its head. -/
structure TState where
  stack : List String
  evaluated : List String
  stop : String → Bool
  executed : List String

/-- One turn of the loop either goes on, has finished, or fails the assertion. -/
inductive Res
  | running (s : TState)
  | finished (s : TState)
  | assertion

/-- graph_def.py:808-817: `evaluated` starts with the network inputs, the stack with the
producers of the network outputs. -/
def Net.start (N : Net) : TState :=
  { stack := (N.outputs.filterMap fun o => (N.node o).parent).reverse
    evaluated := N.inputs
    stop := fun k => (N.node k).stop
    executed := [] }

/-- graph_def.py:836-837 (`unresolved`). -/
def Net.unresolved (N : Net) (s : TState) (f : PFn) : List String :=
  f.inputs.filter fun v => (N.node v).parent.isSome && !s.evaluated.contains v

/-- graph_def.py:828-835 and 840: the `stop` flag of a function; `False` without inputs. -/
def stopOf (s : TState) (f : PFn) : Bool := f.inputs.any s.stop

/-- graph_def.py:834-835: `pv.stop |= stop` for the outputs. -/
def stopAfter (s : TState) (f : PFn) : String → Bool :=
  fun v => s.stop v || (f.outputs.contains v && stopOf s f)

/-- graph_def.py:819-864: one turn of `while True`. -/
def Net.step (N : Net) (s : TState) : Res :=
  match s.stack with
  | [] => .finished s
  | name :: rest =>
    if !N.fnKeys.contains name then .running { s with stack := rest }
    else
      let f := N.fn name
      let stop' := stopAfter s f
      if (N.unresolved s f).isEmpty then
        let noNeed := f.outputs.all fun v => s.evaluated.contains v
        let need := f.outputs.all fun v => !s.evaluated.contains v
        if !(noNeed || need) then .assertion
        else if !noNeed then
          .running { stack := rest, stop := stop'
                     evaluated := s.evaluated ++ f.outputs
                     executed := if !stopOf s f then s.executed ++ [name] else s.executed }
        else .running { s with stack := rest, stop := stop' }
      else
        .running { s with
          stop := stop'
          stack := ((N.unresolved s f).filterMap fun v => (N.node v).parent).reverse ++
            (name :: rest) }

/-- At most `n` turns of the loop. -/
def Net.run (N : Net) : Nat → TState → Res
  | 0, s => .running s
  | n + 1, s =>
    match N.step s with
    | .running s' => N.run n s'
    | r => r

/-- graph_def.py:866-884 `forward_sequence`: the traversal ends and has visited `fs`. -/
def Net.ForwardSequence (N : Net) (fs : List String) : Prop :=
  ∃ n s, N.run n N.start = .finished s ∧ s.executed = fs

/-! ## Calling -/

/-- write the outputs of a function (graph_def.py:2411-2413; `zip` ends with the shorter) -/
def writeOuts {V : Type} (env : String → V) : List String → List V → (String → V)
  | o :: os, x :: xs => writeOuts (upd env o x) os xs
  | _, _ => env

/-- graph_def.py:2379-2413 `graph_call`: apply the function to the instances of its inputs.
`sem name` is what the function called `name` computes. -/
def graphCall {V : Type} (sem : String → List V → List V) (N : Net) (env : String → V)
    (name : String) : String → V :=
  writeOuts env (N.fn name).outputs (sem name ((N.fn name).inputs.map env))

/-- graph_def.py:511-609 `__call__`: from the values `env` of the network inputs and of the
parameters, the values of all variables after visiting `fs`. -/
def callOn {V : Type} (sem : String → List V → List V) (N : Net) (env : String → V)
    (fs : List String) : String → V :=
  fs.foldl (graphCall sem N) env

end Verif.GraphDef
