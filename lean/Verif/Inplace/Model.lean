import Mathlib.Data.List.Count
import Mathlib.Tactic.Linarith
/-
In-place functions and the check that protects the data they overwrite. Models
/repo/src/nbla/computation_graph/function.cpp:62-106 (check_data_inplace, verify_during_forward), their two callers
(/repo/src/nbla/computation_graph/variable.cpp:772 during forward, computation_graph.cpp:92 when a function is connected)
and the aliasing of output arrays by in-place functions. Simplifications: a function has at most one in-place input (true of
every function of the library); arrays are identified by numbers and hold abstract values; leaf variables have different
arrays; buffer clearing is modelled in Verif.Graph.Clear.
-/
namespace Verif.Inplace

/-- Function::INPLACE_NOT_MODIFY and Function::INPLACE (/repo/include/nbla/function.hpp:95-99). -/
inductive Level
  | notModify
  | modify
deriving DecidableEq, Repr

/-- A function of the graph: inputs, outputs (variable numbers), its in-place input with level and output
(inplace_data, inplace_data_with), grad_depends_output_data, grad_depends_input_data, and what forward computes. -/
structure Fn (Val : Type) where
  ins : List Nat
  outs : List Nat
  inplace : Option (Level × Nat × Nat)
  gradDepOut : Nat → Nat → Bool
  gradDepIn : Nat → Nat → Bool
  sem : List Val → List Val

variable {Val : Type}

/-- allow_modify_data of every variable, array of every variable, contents of every array. -/
structure St (Val : Type) where
  allow : Nat → Bool
  arr : Nat → Nat
  mem : Nat → Val

/-- Point update. -/
def upd {α : Type} (f : Nat → α) (a : Nat) (b : α) : Nat → α := fun x => if x = a then b else f x

/-- The loop over outputs in check_data_inplace (function.cpp:66-74): outputs the gradient of input `i` depends on become
unmodifiable. -/
def protectOutputs (f : Fn Val) (needGrad : Nat → Bool) (i v : Nat) (allow : Nat → Bool) : Nat → Bool :=
  if needGrad v then (f.outs.zipIdx).foldl (fun a p => if f.gradDepOut i p.2 then upd a p.1 false else a) allow else allow

/-- check_data_inplace (function.cpp:62-95) for input `i`, variable `v`. -/
def checkInput (f : Fn Val) (refs : Nat → Nat) (needGrad : Nat → Bool) (i v : Nat) (allow : Nat → Bool) : Except String (Nat → Bool) :=
  let allow := protectOutputs f needGrad i v allow
  match f.inplace with
  | some (.modify, j, _) =>
    if j = i then
      if ¬ allow v then .error "Modifying data is prohibited by the parent function"
      else if ¬ refs v < 2 then .error "In-placing at a branching variable is prohibited."
      else .ok allow
    else .ok allow
  | some (.notModify, j, o) =>
    if j = i then
      if 1 < refs v ∨ needGrad v = true then .ok (upd allow (f.outs.getD o 0) false) else .ok allow
    else .ok allow
  | none => .ok allow

/-- The loop over the inputs in verify_during_forward. -/
def checkInputs (f : Fn Val) (refs : Nat → Nat) (needGrad : Nat → Bool) : List (Nat × Nat) → (Nat → Bool) → Except String (Nat → Bool)
  | [], allow => .ok allow
  | (v, i) :: rest, allow =>
    match checkInput f refs needGrad i v allow with
    | .error e => .error e
    | .ok allow => checkInputs f refs needGrad rest allow

/-- verify_during_forward (function.cpp:97-106). -/
def verify (f : Fn Val) (refs : Nat → Nat) (needGrad : Nat → Bool) (allow : Nat → Bool) : Except String (Nat → Bool) :=
  checkInputs f refs needGrad f.ins.zipIdx (f.outs.foldl (fun a v => upd a v true) allow)

/-- The output of an in-place function takes the array of its input (e.g. reshape.cpp:68-73, unlink.cpp:27-30). -/
def shareArr (f : Fn Val) (arr : Nat → Nat) : Nat → Nat :=
  match f.inplace with
  | some (_, i, o) => upd arr (f.outs.getD o 0) (arr (f.ins.getD i 0))
  | none => arr

/-- Forward of one function writes its outputs to their arrays. -/
def writeOuts (arr : Nat → Nat) : List Nat → List Val → (Nat → Val) → Nat → Val
  | v :: vs, x :: xs, mem => writeOuts arr vs xs (upd mem (arr v) x)
  | _, _, mem => mem

/-- One function during forward (variable.cpp:763-780): verify, then execute. Also returns the input values it read. -/
def step (refs : Nat → Nat) (needGrad : Nat → Bool) (f : Fn Val) (s : St Val) : Except String (St Val × List Val) :=
  match verify f refs needGrad s.allow with
  | .error e => .error e
  | .ok allow =>
    let arr := shareArr f s.arr
    let reads := f.ins.map fun v => s.mem (s.arr v)
    .ok (⟨allow, arr, writeOuts arr f.outs (f.sem reads) s.mem⟩, reads)

/-- forward(): the functions in execution order; returns the final state and what each function read. -/
def run (refs : Nat → Nat) (needGrad : Nat → Bool) : List (Fn Val) → St Val → Except String (St Val × List (List Val))
  | [], s => .ok (s, [])
  | f :: fs, s =>
    match step refs needGrad f s with
    | .error e => .error e
    | .ok (s, r) =>
      match run refs needGrad fs s with
      | .error e => .error e
      | .ok (s, rs) => .ok (s, r :: rs)

/-- Input slots of the functions that hold variable `v`: insert_function_reference counts every one of them
(computation_graph.cpp:26-35, variable.cpp:1030-1040). -/
def slots (fs : List (Fn Val)) (v : Nat) : Nat := (fs.map fun f => f.ins.count v).sum

/-- Auto-forward: every function is connected, checked and executed at once (computation_graph.cpp:60-118, execute = true),
when only the functions built so far are counted. -/
def dynRun (needGrad : Nat → Bool) : List (Fn Val) → List (Fn Val) → St Val → Except String (St Val × List (List Val))
  | _, [], s => .ok (s, [])
  | done, f :: fs, s =>
    match step (slots (done ++ [f])) needGrad f s with
    | .error e => .error e
    | .ok (s, r) =>
      match dynRun needGrad (done ++ [f]) fs s with
      | .error e => .error e
      | .ok (s, rs) => .ok (s, r :: rs)

/-- State before forward: every variable has its own array, nothing is protected. -/
def start (mem : Nat → Val) : St Val := ⟨fun _ => true, id, mem⟩

/-! ### Specification -/

/-- `E` gives every variable the value the graph defines, without any notion of memory. -/
def Values (prog : List (Fn Val)) (E : Nat → Val) : Prop := ∀ f ∈ prog, f.outs.map E = f.sem (f.ins.map E)

/-- Variables that no function computes. -/
def Leaf (prog : List (Fn Val)) (v : Nat) : Prop := ∀ f ∈ prog, v ∉ f.outs

/-- The functions form a graph in execution order: inputs are leaves or computed earlier, every variable is computed once,
in-place slots exist, and a function that does not modify its in-place input returns it unchanged. -/
structure WF (prog : List (Fn Val)) : Prop where
  order : ∀ (p q : List (Fn Val)) f, prog = p ++ f :: q → ∀ v ∈ f.ins, (∀ g ∈ f :: q, v ∉ g.outs)
  once : (prog.flatMap Fn.outs).Nodup
  slot : ∀ f ∈ prog, ∀ l i o, f.inplace = some (l, i, o) → i < f.ins.length ∧ o < f.outs.length
  keep : ∀ f ∈ prog, ∀ i o, f.inplace = some (.notModify, i, o) → ∀ x, (f.sem x)[o]? = x[i]?

/-- No view of a view: no function shares (without modifying) an array that its input already shares with another variable
by such a function. -/
def NoViewOfView (prog : List (Fn Val)) : Prop :=
  ∀ f ∈ prog, ∀ g ∈ prog, ∀ i o i' o' v, f.inplace = some (.notModify, i, o) → g.inplace = some (.notModify, i', o') →
    f.outs[o]? = some v → g.ins[i']? ≠ some v

/-- Outputs on which a needed gradient depends need gradients themselves (need_grad was not switched off by hand). -/
def GradFlows (prog : List (Fn Val)) (needGrad : Nat → Bool) : Prop :=
  ∀ f ∈ prog, ∀ (i o : Nat) v w, f.ins[i]? = some v → f.outs[o]? = some w → needGrad v = true → f.gradDepOut i o = true → needGrad w = true

end Verif.Inplace
