import Mathlib.Data.List.Basic
/-
The wrapper every operation runs in: models Function::setup, check_shapes, Function::forward and Function::backward
(/repo/src/nbla/function.cpp:26-172), with the fall-back of one implementation to another (Add2 to BcAdd2,
/repo/src/nbla/function/generic/add2.cpp:27-36). An implementation is a parameter: what its setup_impl does with its members and the
shapes of the outputs, whether it throws, succeeds or replaces itself by a fall-back. Simplifications: `mem` stands for the members set
by setup_impl (the implementations of forward and backward leave those alone); the fall-back of the implementation at level l is the one
at level l + 1 of a fixed list; NBLA_CHECK and exceptions of setup_impl abort the call and leave the state as it is at that moment.
-/
namespace Verif.Func

abbrev Shape := List Nat

/-- How setup_impl ends. -/
inductive Outcome
  | ok
  | throws
  | fallback
deriving DecidableEq, Repr

/-- An implementation: min_inputs(), min_outputs(), allowed_array_classes(), the members of a new instance, and setup_impl: members and
shapes of inputs and outputs to new members, new shapes of the outputs, and outcome. -/
structure Impl (σ : Type) where
  minIn : Nat
  minOut : Nat
  classes : List String
  init : σ
  setup : σ → String → List Shape → List Shape → σ × List Shape × Outcome

/-- A function object without its fall-back (/repo/include/nbla/function.hpp:64-85): ctx_.array_class, members, in_shapes, out_shapes,
called_setup_. -/
structure Obj (σ : Type) where
  cls : String
  mem : σ
  inShapes : List Shape
  outShapes : List Shape
  calledSetup : Bool
deriving DecidableEq, Repr

/-- Calls of the implementations, with the members (after the call for setup_impl) and the shapes of inputs and outputs (after the call). -/
inductive Event (σ : Type)
  | setup (lvl : Nat) (out : Outcome) (mem : σ) (ins outs : List Shape)
  | forward (lvl : Nat) (mem : σ) (ins outs : List Shape)
  | backward (lvl : Nat) (mem : σ) (ins outs : List Shape)
deriving DecidableEq, Repr

/-- The function object followed by its fall_back_func_, if any, and so on; the shapes of all variables; the calls so far, last first. -/
structure World (σ : Type) where
  objs : List (Obj σ)
  shape : Nat → Shape
  log : List (Event σ)

variable {σ : Type}

/-- while ((i > 0) && (array_class != allowed_array_classes().at(--i))); (function.cpp:39-41): the final i. -/
def pick (classes : List String) (c : String) : Nat → Nat
  | 0 => 0
  | i + 1 => if classes[i]? ≠ some c then pick classes c i else i

/-- outputs[k]->reshape(...) for all outputs. -/
def reshapeAll (sh : Nat → Shape) : List Nat → List Shape → Nat → Shape
  | v :: vs, s :: ss => reshapeAll (fun u => if u = v then s else sh u) vs ss
  | _, _ => sh

/-- Function::Function (function.cpp:22) and the members of the implementation. -/
def fresh (i : Impl σ) (cls : String) : Obj σ := ⟨cls, i.init, [], [], false⟩

/-- Function::setup (function.cpp:26-74). The result: objects, shapes, events (last first), error. -/
def setup (lvl : Nat) : List (Impl σ) → List (Obj σ) → (Nat → Shape) → List Nat → List Nat → List (Obj σ) × (Nat → Shape) × List (Event σ) × Option String
  | _ :: is, o :: o' :: os, sh, ins, outs =>
    let r := setup (lvl + 1) is (o' :: os) sh ins outs
    ({ o with calledSetup := true } :: r.1, r.2)
  | i :: is, [o], sh, ins, outs =>
    match i.classes[pick i.classes o.cls i.classes.length]? with
    | none => ([{ o with calledSetup := true }], sh, [], some "out of range")
    | some c =>
      if ¬ i.minIn ≤ ins.length then ([{ o with calledSetup := true, cls := c }], sh, [], some "needs more inputs")
      else if ¬ i.minOut ≤ outs.length then ([{ o with calledSetup := true, cls := c }], sh, [], some "needs more outputs")
      else
        let r := i.setup o.mem c (ins.map sh) (outs.map sh)
        let sh' := reshapeAll sh outs r.2.1
        let ev := Event.setup lvl r.2.2 r.1 (ins.map sh') (outs.map sh')
        match r.2.2 with
        | .throws => ([{ o with calledSetup := true, cls := c, mem := r.1 }], sh', [ev], some "setup_impl")
        | .ok => ([⟨c, r.1, ins.map sh', outs.map sh', true⟩], sh', [ev], none)
        | .fallback =>
          match is.head? with
          | none => ([{ o with calledSetup := true, cls := c, mem := r.1 }], sh', [ev], some "no fall-back")
          | some i' =>
            let r' := setup (lvl + 1) is [fresh i' c] sh' ins outs
            ({ o with calledSetup := true, cls := c, mem := r.1 } :: r'.1, r'.2.1, r'.2.2.1 ++ [ev], r'.2.2.2)
  | _, os, sh, _, _ => (os, sh, [], some "no object")

/-- check_shapes (function.cpp:76-109): an error, or whether the setup can be kept. -/
def checkShapes (o : Obj σ) (sh : Nat → Shape) (ins outs : List Nat) : Except String Bool :=
  if ins.length ≠ o.inShapes.length then .error "Num of inputs has been changed"
  else if outs.length ≠ o.outShapes.length then .error "Num of outputs has been changed"
  else if o.inShapes ≠ ins.map sh then .ok false
  else if o.outShapes ≠ outs.map sh then .error "Inconsistent shape in output"
  else .ok true

/-- Function::forward (function.cpp:111-128) and the shape check and the call of backward_impl of Function::backward (130-172), which are the
same code: `ev` builds the event. -/
def invoke (ev : Nat → σ → List Shape → List Shape → Event σ) (lvl : Nat) :
    List (Impl σ) → List (Obj σ) → (Nat → Shape) → List Nat → List Nat → List (Obj σ) × (Nat → Shape) × List (Event σ) × Option String
  | _ :: is, o :: o' :: os, sh, ins, outs =>
    let r := invoke ev (lvl + 1) is (o' :: os) sh ins outs
    (o :: r.1, r.2)
  | i :: is, [o], sh, ins, outs =>
    match checkShapes o sh ins outs with
    | .error e => ([o], sh, [], some e)
    | .ok true => ([o], sh, [ev lvl o.mem (ins.map sh) (outs.map sh)], none)
    | .ok false =>
      let r := setup lvl (i :: is) [o] sh ins outs
      match r.2.2.2 with
      | some e => (r.1, r.2.1, r.2.2.1, some e)
      | none => (r.1, r.2.1, ev lvl ((r.1.headD o).mem) (ins.map r.2.1) (outs.map r.2.1) :: r.2.2.1, none)
  | _, os, sh, _, _ => (os, sh, [], some "no object")

/-- What happens to a function object: its three methods, with any variables, and reshapes of variables by anybody. -/
inductive Call
  | setup (ins outs : List Nat)
  | forward (ins outs : List Nat)
  | backward (ins outs : List Nat)
  | reshape (v : Nat) (s : Shape)
deriving Repr

def step (is : List (Impl σ)) (w : World σ) : Call → World σ
  | .setup ins outs => let r := setup 0 is w.objs w.shape ins outs; ⟨r.1, r.2.1, r.2.2.1 ++ w.log⟩
  | .forward ins outs => let r := invoke .forward 0 is w.objs w.shape ins outs; ⟨r.1, r.2.1, r.2.2.1 ++ w.log⟩
  | .backward ins outs => let r := invoke .backward 0 is w.objs w.shape ins outs; ⟨r.1, r.2.1, r.2.2.1 ++ w.log⟩
  | .reshape v s => { w with shape := fun u => if u = v then s else w.shape u }

/-- A new function object and any history of calls. -/
def run (is : List (Impl σ)) (i : Impl σ) (cls : String) (shape : Nat → Shape) (h : List Call) : World σ :=
  h.foldl (step (i :: is)) ⟨[fresh i cls], shape, []⟩

/-! ### Gradients: the zeroing in Function::backward (function.cpp:160-168) -/

/-- The zeroing loop: `g` is the gradient buffer of every variable, `zero` a buffer of zeros. -/
def zeroGrads {G : Type} (zero : G) (prohibit : Bool) (pd accum : List Bool) (ins : List Nat) (g : Nat → G) : Nat → G :=
  if prohibit then g
  else (List.range ins.length).foldl (fun g k => if pd.getD k false && !accum.getD k false then (fun u => if u = ins.getD k 0 then zero else g u) else g) g

end Verif.Func
