/-
Model of the CPU tensor normalization: src/nbla/function/generic/tensor_normalization.cpp (cpp) and the adapter of
include/nbla/function/tensor_normalization.hpp (hpp), on top of the models of Transpose (Fn/Transpose) and of batch
normalization (BatchNorm/Model).

Simplifications: exact reals; sizes do not overflow; `Variable`s created by the function (bn_x, bn_y, ...) start as zeros
(the adapter overwrites all of their elements); `axes` are natural numbers, since the callers refine them first.
-/
import Verif.BatchNorm.Props
import Verif.Fn.Props

namespace Verif.Norm
open Verif.Fn Verif.Elem Verif.BatchNorm Verif.ND

/-- cpp:32-35: `bn_param_shape_`. -/
def paramShape (sh : Shape) (axes : List Nat) : Shape :=
  axes.foldl (fun s a => s.set a (sh.getD a 0)) (List.replicate sh.length 1)

/-- hpp:41-59: `tn2bn_transpose_axes_`: the other axes in order, then the sorted `axes`. -/
def adapterAxes (ndim : Nat) (axes : List Nat) : List Nat :=
  let inner := axes.mergeSort
  (List.range ndim).filter (fun i => decide (i ∉ inner)) ++ inner

/-- hpp:81-91: `bn2tn_transpose_axes_`: argsort, by sorting the pairs (axis, position). -/
def invAxes (p : List Nat) : List Nat :=
  (p.zipIdx.mergeSort (fun a b => decide (a.1 < b.1 ∨ (a.1 = b.1 ∧ a.2 ≤ b.2)))).map (·.2)

/-- hpp:61-64: `transposed_shape_`. -/
def transposedShape (p : List Nat) (s : Shape) : Shape := p.map (s.getD · 0)

/-- hpp:66-78: `bn_shape`; `nOuter` is the number of outer axes. -/
def bnShape (nOuter : Nat) (tsh : Shape) : Shape :=
  let r := tsh.take nOuter ++ [prod (tsh.drop nOuter)]
  if r.length = 1 then [1, r.getD 0 0] else r

/-- What setup fixes: the transposition of the adapter, if there is one, and the arguments of batch normalization. -/
structure Plan where
  adapter : Option (List Nat)
  args : Args
  psh : Shape

/-- The sizes that BatchNormalization::setup_impl computes (batch_normalization.cpp:63-72), decay_rate 0 (cpp:85-93). -/
def argsOf (eps : ℝ) (axis : Nat) (s : Shape) : Except String Args :=
  match sliceSetup axis s with
  | .error e => .error e
  | .ok (n0, n1, n2) => .ok ⟨eps, 0, n0, n1, n2⟩

/-- cpp:26-98 setup_impl: the adapter is used unless there is exactly one axis. -/
def setup (sh : Shape) (axes : List Nat) (eps : ℝ) : Except String Plan :=
  let psh := paramShape sh axes
  if axes.length ≠ 1 then
    let p := adapterAxes sh.length axes
    let bnAxis := sh.length - axes.length
    match argsOf eps (if bnAxis = 0 then 1 else bnAxis) (bnShape bnAxis (transposedShape p sh)) with
    | .error e => .error e
    | .ok a => .ok ⟨some p, a, psh⟩
  else
    match argsOf eps (axes.getD 0 0) sh with
    | .error e => .error e
    | .ok a => .ok ⟨none, a, psh⟩

/-- hpp:98-102 `tn2bn`: transpose into a new array (the reshape keeps the elements). -/
def tn2bn (p : List Nat) (s : Shape) (x : Mem ℝ) : Mem ℝ := trForward (trState p s) x zeros

/-- hpp:110-114 `bn2tn`. -/
def bn2tn (p : List Nat) (s : Shape) (x y : Mem ℝ) : Mem ℝ :=
  trForward (trState (invAxes p) (transposedShape p s)) x y

/-- hpp:104-108 `tn2bn_backward`. -/
def tn2bnBackward (p : List Nat) (s : Shape) (accum : Bool) (dy dx : Mem ℝ) : Mem ℝ :=
  callBackward (trBackward (trState p s)) accum dy dx

/-- hpp:116-122 `bn2tn_backward`, into the gradient of a new array. -/
def bn2tnBackward (p : List Nat) (s : Shape) (dy : Mem ℝ) : Mem ℝ :=
  callBackward (trBackward (trState (invAxes p) (transposedShape p s))) false dy zeros

/-- The arrays forward writes: y, and the statistics in the layout of the outputs (`m`, `v`, only meaningful with three
outputs) and in the buffers of the batch normalization (`bm`, `bv`). -/
structure TN where
  y : Mem ℝ
  m : Mem ℝ
  v : Mem ℝ
  bm : Mem ℝ
  bv : Mem ℝ

/-- cpp:147-223 forward_impl. -/
noncomputable def forward (pl : Plan) (sh : Shape) (x : Mem ℝ) (beta gamma : Option (Mem ℝ)) (o : TN) : TN :=
  match pl.adapter with
  | some p =>
    let r := forwardBatch pl.args (tn2bn p sh x) (beta.map (tn2bn p pl.psh)) (gamma.map (tn2bn p pl.psh)) true
      ⟨zeros, zeros, zeros, zeros, zeros⟩
    ⟨bn2tn p sh r.y o.y, bn2tn p pl.psh r.m o.m, bn2tn p pl.psh r.v o.v, r.m, r.v⟩
  | none =>
    let r := forwardBatch pl.args x beta gamma true ⟨o.y, o.m, o.v, zeros, zeros⟩
    ⟨r.y, r.m, r.v, r.m, r.v⟩

/-- The three gradient buffers. -/
structure Grads where
  dx : Mem ℝ
  db : Mem ℝ
  dg : Mem ℝ

/-- cpp:225-381 backward_impl with all of `propagate_down` set. `stat`: three outputs, so that the statistics are read back
from the outputs (cpp:300-304) and their gradients `dm`, `dv` are used. The gradient buffers of bn_x, bn_beta, bn_gamma
are new. -/
noncomputable def backward (pl : Plan) (sh : Shape) (x : Mem ℝ) (gamma : Option (Mem ℝ)) (o : TN) (stat : Bool)
    (dy dm dv : Mem ℝ) (ax ab ag : Bool) (g : Grads) : Grads :=
  match pl.adapter with
  | some p =>
    let bx := tn2bn p sh x
    let bgamma := gamma.map (tn2bn p pl.psh)
    let bm := if stat then tn2bn p pl.psh o.m else o.bm
    let bv := if stat then tn2bn p pl.psh o.v else o.bv
    let bdy := bn2tnBackward p sh dy
    let bdm := if stat then some (bn2tnBackward p pl.psh dm) else none
    let bdv := if stat then some (bn2tnBackward p pl.psh dv) else none
    { dx := tn2bnBackward p sh ax (backwardX pl.args bx bgamma bm bv bdy bdm bdv false zeros) g.dx
      db := tn2bnBackward p pl.psh ab (backwardBeta pl.args bdy false zeros) g.db
      dg := tn2bnBackward p pl.psh ag (backwardGamma pl.args bx bm bv bdy false zeros) g.dg }
  | none =>
    let bm := if stat then o.m else o.bm
    let bv := if stat then o.v else o.bv
    let bdm := if stat then some dm else none
    let bdv := if stat then some dv else none
    { dx := backwardX pl.args x gamma bm bv dy bdm bdv ax g.dx
      db := backwardBeta pl.args dy ab g.db
      dg := backwardGamma pl.args x bm bv dy ag g.dg }

end Verif.Norm
