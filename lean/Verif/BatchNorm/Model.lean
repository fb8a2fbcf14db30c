/-
Model of the CPU batch normalization: src/nbla/function/generic/batch_normalization.cpp.

Simplifications: exact reals; the array has sizes n0, n1, n2 before, on and after the axis
(`sliceSetup` in Elem/Softmax is the computation of these sizes, cpp:63-72, the same code); `int`
indices do not overflow.  The buffers are functions from offsets (`Mem`).
-/
import Verif.Elem.Softmax

namespace Verif.BatchNorm
open Verif.Fn Verif.Elem Real

/-- The arguments of the function; absent inputs are the null pointers of cpp:166-171. -/
structure Args where
  eps : ℝ
  decay : ℝ
  n0 : Nat
  n1 : Nat
  n2 : Nat

/-- cpp:193-195: the offset of element `i02` of channel `i1`. -/
def pos (a : Args) (i1 i02 : Nat) : Nat :=
  let i0 := i02 / a.n2
  let i2 := i02 % a.n2
  i0 * (a.n1 * a.n2) + i1 * a.n2 + i2

/-- cpp:69 `size02_`. -/
def Args.n02 (a : Args) : Nat := a.n0 * a.n2

/-- cpp:217: `gamma ? gamma[i1] : 1`. -/
def scaleOf (g : Option (Mem ℝ)) (i1 : Nat) : ℝ := match g with
  | none => 1
  | some g => g i1

/-- cpp:218: `beta ? beta[i1] : 0`. -/
def biasOf (b : Option (Mem ℝ)) (i1 : Nat) : ℝ := match b with
  | none => 0
  | some b => b i1

/-- The arrays that forward writes: y, batch mean, batch variance, running mean, running variance. -/
structure Out where
  y : Mem ℝ
  m : Mem ℝ
  v : Mem ℝ
  rm : Mem ℝ
  rv : Mem ℝ

/-- cpp:186-221: one channel of `forward_impl_batch`. -/
noncomputable def fwdChannel (a : Args) (x : Mem ℝ) (beta gamma : Option (Mem ℝ)) (upd : Bool) (o : Out) (i1 : Nat) : Out :=
  let st := (List.range a.n02).foldl (fun (s : ℝ × ℝ) j => (s.1 + x (pos a i1 j), s.2 + x (pos a i1 j) * x (pos a i1 j))) (0, 0)
  let m := st.1 / a.n02
  let v := st.2 / a.n02 - m * m
  { m := put o.m i1 m
    v := put o.v i1 v
    rm := if upd then put o.rm i1 (a.decay * o.rm i1 + (1 - a.decay) * m) else o.rm
    rv := if upd then put o.rv i1 (a.decay * o.rv i1 + (1 - a.decay) * v * a.n02 / ((a.n02 : ℝ) - 1)) else o.rv
    y := forPut a.n02 (pos a i1) (fun j _ => (x (pos a i1 j) - m) * scaleOf gamma i1 / √(v + a.eps) + biasOf beta i1) o.y }

/-- cpp:155-223 `forward_impl_batch`; `upd` is false in `recompute_impl` (cpp:141-153). -/
noncomputable def forwardBatch (a : Args) (x : Mem ℝ) (beta gamma : Option (Mem ℝ)) (upd : Bool) (o : Out) : Out :=
  (List.range a.n1).foldl (fwdChannel a x beta gamma upd) o

/-- cpp:225-265 `forward_impl_global`. -/
noncomputable def forwardGlobal (a : Args) (x : Mem ℝ) (beta gamma : Option (Mem ℝ)) (rm rv y : Mem ℝ) : Mem ℝ :=
  (List.range a.n1).foldl (fun y i1 => forPut a.n02 (pos a i1)
    (fun j _ => (x (pos a i1 j) - rm i1) * scaleOf gamma i1 / √(rv i1 + a.eps) + biasOf beta i1) y) y

/-- cpp:313-352: one channel of the gradient of x; `dm`, `dv` are given if the statistics are outputs. -/
noncomputable def bwdChannel (a : Args) (x : Mem ℝ) (gamma : Option (Mem ℝ)) (m v dy : Mem ℝ) (dm dv : Option (Mem ℝ))
    (accum : Bool) (dx : Mem ℝ) (i1 : Nat) : Mem ℝ :=
  let st := (List.range a.n02).foldl (fun (s : ℝ × ℝ × ℝ) j =>
    let dxh := dy (pos a i1 j) * scaleOf gamma i1
    let cx := x (pos a i1 j) - m i1
    (s.1 + dxh * cx, s.2.1 + dxh, s.2.2 + cx)) (0, 0, 0)
  let dvar := st.1 * (-0.5) * (v i1 + a.eps) ^ (-1.5 : ℝ) + biasOf dv i1
  let dmean := st.2.1 * (-1 / √(v i1 + a.eps)) + dvar * (-2) * st.2.2 / a.n02 + biasOf dm i1
  forPut a.n02 (pos a i1) (fun j d =>
    let grad := dy (pos a i1 j) * scaleOf gamma i1 / √(v i1 + a.eps) + dvar * 2 * (x (pos a i1 j) - m i1) / a.n02 + dmean / a.n02
    if accum then d + grad else grad) dx

/-- cpp:299-353: the gradient of x in training mode. -/
noncomputable def backwardX (a : Args) (x : Mem ℝ) (gamma : Option (Mem ℝ)) (m v dy : Mem ℝ) (dm dv : Option (Mem ℝ))
    (accum : Bool) (dx : Mem ℝ) : Mem ℝ :=
  (List.range a.n1).foldl (bwdChannel a x gamma m v dy dm dv accum) dx

/-- cpp:355-383, the part for beta. -/
def backwardBeta (a : Args) (dy : Mem ℝ) (accum : Bool) (db : Mem ℝ) : Mem ℝ :=
  forPut a.n1 (fun i1 => i1) (fun i1 d =>
    (List.range a.n02).foldl (fun s j => s + dy (pos a i1 j)) (if accum then d else 0)) db

/-- cpp:355-383, the part for gamma. -/
noncomputable def backwardGamma (a : Args) (x m v dy : Mem ℝ) (accum : Bool) (dg : Mem ℝ) : Mem ℝ :=
  forPut a.n1 (fun i1 => i1) (fun i1 d =>
    (List.range a.n02).foldl (fun s j => s + dy (pos a i1 j) * (x (pos a i1 j) - m i1) / √(v i1 + a.eps)) (if accum then d else 0)) dg

/-- cpp:416-440: the gradient of x in test mode: Mul2, PowScalar(-0.5) and AddScalar(eps), broadcast over the channel,
then Identity or Add2. -/
noncomputable def backwardXGlobal (a : Args) (gamma : Option (Mem ℝ)) (rv dy : Mem ℝ) (accum : Bool) (dx : Mem ℝ) : Mem ℝ :=
  (List.range a.n1).foldl (fun dx i1 => forPut a.n02 (pos a i1) (fun j d =>
    let g := dy (pos a i1 j) * (match gamma with
      | none => (rv i1 + a.eps) ^ (-0.5 : ℝ)
      | some g => g i1 * (rv i1 + a.eps) ^ (-0.5 : ℝ))
    if accum then d + g else g) dx) dx

/-- cpp:446-460: Sum over the other axes, then Identity or Add2. -/
def backwardBetaGlobal (a : Args) (dy : Mem ℝ) (accum : Bool) (db : Mem ℝ) : Mem ℝ :=
  forPut a.n1 (fun i1 => i1) (fun i1 d =>
    let s := (List.range a.n02).foldl (fun s j => s + dy (pos a i1 j)) 0
    if accum then d + s else s) db

/-- cpp:462-485. -/
noncomputable def backwardGammaGlobal (a : Args) (x rm rv dy : Mem ℝ) (accum : Bool) (dg : Mem ℝ) : Mem ℝ :=
  forPut a.n1 (fun i1 => i1) (fun i1 d =>
    let s := (List.range a.n02).foldl (fun s j => s + dy (pos a i1 j) * ((x (pos a i1 j) - rm i1) * (rv i1 + a.eps) ^ (-0.5 : ℝ))) 0
    if accum then d + s else s) dg

end Verif.BatchNorm
