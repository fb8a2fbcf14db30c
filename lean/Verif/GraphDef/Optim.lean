import Verif.GraphDef.Model

/-!
# Rewriting proto networks: `graph_optimizer.py`

Models `python/src/nnabla/core/graph_optimizer.py`: `remove_function` (used by `IdentityRemover`)
and `rename_variable`.

Simplifications: `need_grad`, `renamed` (a log of the renamings) and log messages are dropped.
`none` stands for a Python exception (`KeyError`, `ValueError`, `UnboundLocalError`).
-/

namespace Verif.GraphDef

/-- A network with the stored port lists `self.inputs`, `self.outputs`
(graph_def.py:945-948: computed when the network is loaded, not recomputed by the rewriting). -/
structure PNet where
  net : Net
  ins : List String
  outs : List String

/-- a freshly loaded network with its ports -/
def Net.withPorts (N : Net) : PNet := ⟨N, N.inputs, N.outputs⟩

/-- `index = l.index(old); l[index] = new`; `none` is the `ValueError` of `index`. -/
def replaceFirst (old new : String) : List String → Option (List String)
  | [] => none
  | x :: xs => if x = old then some (new :: xs) else (replaceFirst old new xs).map (x :: ·)

/-- graph_optimizer.py:42-45 and 65-68: in the inputs of function `r`, `old` becomes `new`.
The function is looked up by key: `none` is the `KeyError`. -/
def reInput (old new : String) (N : Net) (r : String) : Option Net :=
  if r ∈ N.fnKeys then
    (replaceFirst old new (N.fn r).inputs).map fun ins =>
      { N with fn := upd N.fn r { N.fn r with inputs := ins } }
  else none

/-- graph_optimizer.py:60-63: in the outputs of the producer, `old` becomes `new`. -/
def reOutput (old new : String) (N : Net) (g : String) : Option Net :=
  if g ∈ N.fnKeys then
    (replaceFirst old new (N.fn g).outputs).map fun outs =>
      { N with fn := upd N.fn g { N.fn g with outputs := outs } }
  else none

/-- graph_optimizer.py:48-50: `outputs[outputs.index(o)] = i` if it is listed. -/
def reOuts (o i : String) (outs : List String) : List String :=
  (replaceFirst o i outs).getD outs

/-- graph_optimizer.py:40-57: the output `o` is used by other functions: they now read `i`, and the
variable object of `o` takes the place of `i`. -/
def removeUpper (P : PNet) (name i o : String) : Option PNet :=
  let N := P.net
  let parent := (N.node i).parent
  let others := (N.node i).required.filter (· ≠ name)
  ((N.node o).required.foldlM (reInput o i) N).map fun N1 =>
    { net := { N1 with
        node := upd N1.node i { N.node o with parent := parent
                                              required := (N.node o).required ++ others }
        varKeys := (addKey N1.varKeys i).erase o
        fnKeys := N1.fnKeys.erase name }
      ins := P.ins
      outs := reOuts o i P.outs }

/-- graph_optimizer.py:58-73: the output `o` is used by nobody: the producer of `i` now writes `o`
and the other readers of `i` read `o`. `required` is a Python `filter` object: the loop in lines
65-68 exhausts it, so that `pv.required += required` in line 70 adds nothing. -/
def removeLower (P : PNet) (name i o : String) : Option PNet :=
  let N := P.net
  let parent := (N.node i).parent
  let others := (N.node i).required.filter (· ≠ name)
  let afterProducer : Option Net := match parent with
    | some g => reOutput i o N g
    | none => some N
  afterProducer.bind fun N1 => (others.foldlM (reInput i o) N1).bind fun N2 =>
    if i ∈ N2.varKeys then
      some { net := { N2 with
               node := upd N2.node o { N.node o with parent := parent }
               varKeys := N2.varKeys.erase i
               fnKeys := N2.fnKeys.erase name }
             ins := P.ins
             outs := P.outs }
    else none

/-- graph_optimizer.py:22-76 `remove_function(pf, renamed)`: only the first input and the first
output are looked at. -/
def removeFunction (P : PNet) (name : String) : Option PNet :=
  match (P.net.fn name).inputs, (P.net.fn name).outputs with
  | i :: _, o :: _ =>
    if !(P.net.node o).required.isEmpty then removeUpper P name i o else removeLower P name i o
  | _, _ => none

/-- graph_optimizer.py:88-98: one entry `old -> new` of `rename_variable` (with `old = new` the
entry is deleted in line 92 and missed in line 93). -/
def renameOne (N : Net) (old new : String) : Option Net :=
  if old ∈ N.varKeys ∧ old ≠ new then
    match (N.node old).parent with
    | none => none
    | some g => reOutput old new
        { N with varKeys := (addKey N.varKeys new).erase old
                 node := upd N.node new (N.node old) } g
  else none

/-- graph_optimizer.py:79-100 `rename_variable(proto_network, renames)`. -/
def renameVariable (P : PNet) (renames : List (String × String)) : Option PNet :=
  (renames.foldlM (fun N r => renameOne N r.1 r.2) P.net).map fun N =>
    { net := N, ins := P.ins, outs := P.outs.map fun n => (renames.lookup n).getD n }

/-- What the network asks for when it is called (graph_def.py:572-578, 604-605, 811-817): every
stored input must be declared, every stored output must be a variable; otherwise `KeyError`. -/
def PNet.portsOK (P : PNet) : Bool :=
  P.ins.all P.net.declares && P.outs.all P.net.varKeys.contains

end Verif.GraphDef
