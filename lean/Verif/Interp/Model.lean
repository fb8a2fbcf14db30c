import Mathlib.Data.Real.Basic
import Mathlib.Algebra.Order.Floor.Semiring
import Mathlib.Algebra.Order.Floor.Ring
import Mathlib.Data.Real.Archimedean
import Verif.Act.Doubled
/-
Interpolate: model of /repo/src/nbla/function/generic/interpolate.cpp and of `interpolate` in
/repo/python/src/nnabla/functions.py. Simplifications: numbers are real numbers (the code computes positions in float and
`static_cast<int>` truncates; positions are never negative, so truncation is the floor); sizes are natural numbers.
A kernel is the list of its writes (offset, value) in execution order.
-/
namespace Verif.Interp
open Verif.ND Verif.Fn Verif.Act

/-- What can go wrong: the two error codes of the NBLA_CHECKs, the Python ValueError, and an access outside of an array,
which the code performs without any check. -/
inductive Err
  | notImplemented | value | undefinedBehaviour
  deriving DecidableEq, Repr

/-- The arguments of the function (functions.yaml:5278-5309). -/
structure Cfg where
  outputSize : List Nat
  mode : String
  alignCorners : Bool
  halfPixel : Bool
  halfPixelForNN : Bool
  channelLast : Bool

/-- compute_scale (interpolate.cpp:25-29). -/
noncomputable def computeScale (isize osize : Nat) (align : Bool) : ℝ :=
  if osize ≤ 1 then 0 else if align then ((isize : ℝ) - 1) / ((osize : ℝ) - 1) else (isize : ℝ) / osize

/-- compute_scale_for_nn (interpolate.cpp:31-35). -/
noncomputable def computeScaleNN (isize osize : Nat) (align hpnn : Bool) : ℝ :=
  if hpnn then (isize : ℝ) / osize else computeScale isize osize align

/-- get_src_index (interpolate.cpp:37-40). -/
noncomputable def srcIndex (scale : ℝ) (d : Nat) (half : Bool) : ℝ :=
  if half then max 0 (scale * ((d : ℝ) + 1 / 2) - 1 / 2) else scale * d

/-- get_src_index_for_nn (interpolate.cpp:42-46). -/
noncomputable def srcIndexNN (scale : ℝ) (d : Nat) (half hpnn : Bool) : ℝ :=
  if hpnn then scale * ((d : ℝ) + 1 / 2) else srcIndex scale d half

/-- The local variables of one axis: x1, x2 and the two weights. -/
structure Cor where
  x1 : Nat
  x2 : Nat
  l0 : ℝ
  l1 : ℝ

/-- fx, x1, x2, lx1, lx0 of the forward kernels (interpolate.cpp:52-56, 69-73, 76-80, 102-106, 109-113, 116-120). -/
noncomputable def cor (s : ℝ) (i o : Nat) (half : Bool) : Cor :=
  let f := srcIndex s o half
  let x1 := ⌊f⌋₊
  { x1 := x1, x2 := min (x1 + 1) (i - 1), l0 := 1 - (f - x1), l1 := f - x1 }

/-- The same in the backward kernels (interpolate.cpp:142-146, 159-163, 166-170, 189-193, 196-200, 203-207). -/
noncomputable def corB (s : ℝ) (i o : Nat) (half : Bool) : Cor :=
  let f := srcIndex s o half
  let x1 := ⌊f⌋₊
  { x1 := x1, x2 := if x1 < i - 1 then x1 + 1 else x1, l0 := 1 - (f - x1), l1 := f - x1 }

/-- linear_interpolate_1d (interpolate.cpp:48-62). -/
noncomputable def lin1 (src : Mem ℝ) (iw ow : Nat) (sx : ℝ) (half : Bool) : List (Nat × ℝ) :=
  (List.range ow).flatMap fun ox =>
    let c := cor sx iw ox half
    [(ox, c.l0 * src c.x1 + c.l1 * src c.x2)]

/-- linear_interpolate_2d (interpolate.cpp:64-91). -/
noncomputable def lin2 (src : Mem ℝ) (iw ih ow oh : Nat) (sx sy : ℝ) (half : Bool) : List (Nat × ℝ) :=
  (List.range oh).flatMap fun oy => (List.range ow).flatMap fun ox =>
    let d := cor sy ih oy half
    let c := cor sx iw ox half
    let val0 := c.l0 * src (d.x1 * iw + c.x1)
    let val1 := c.l1 * src (d.x1 * iw + c.x2)
    let val2 := c.l0 * src (d.x2 * iw + c.x1)
    let val3 := c.l1 * src (d.x2 * iw + c.x2)
    [(oy * ow + ox, d.l0 * (val0 + val1) + d.l1 * (val2 + val3))]

/-- linear_interpolate_3d (interpolate.cpp:93-135). -/
noncomputable def lin3 (src : Mem ℝ) (iw ih id ow oh od : Nat) (sx sy sz : ℝ) (half : Bool) : List (Nat × ℝ) :=
  (List.range od).flatMap fun oz => (List.range oh).flatMap fun oy => (List.range ow).flatMap fun ox =>
    let e := cor sz id oz half
    let d := cor sy ih oy half
    let c := cor sx iw ox half
    let val0 := c.l0 * src (e.x1 * ih * iw + d.x1 * iw + c.x1)
    let val1 := c.l1 * src (e.x1 * ih * iw + d.x1 * iw + c.x2)
    let val2 := c.l0 * src (e.x1 * ih * iw + d.x2 * iw + c.x1)
    let val3 := c.l1 * src (e.x1 * ih * iw + d.x2 * iw + c.x2)
    let val4 := c.l0 * src (e.x2 * ih * iw + d.x1 * iw + c.x1)
    let val5 := c.l1 * src (e.x2 * ih * iw + d.x1 * iw + c.x2)
    let val6 := c.l0 * src (e.x2 * ih * iw + d.x2 * iw + c.x1)
    let val7 := c.l1 * src (e.x2 * ih * iw + d.x2 * iw + c.x2)
    let val8 := d.l0 * (val0 + val1) + d.l1 * (val2 + val3)
    let val9 := d.l0 * (val4 + val5) + d.l1 * (val6 + val7)
    [(oz * oh * ow + oy * ow + ox, e.l0 * val8 + e.l1 * val9)]

/-- linear_interpolate_1d_backward (interpolate.cpp:137-151): the values added. -/
noncomputable def lin1B (src : Mem ℝ) (iw ow : Nat) (sx : ℝ) (half : Bool) : List (Nat × ℝ) :=
  (List.range ow).flatMap fun ox =>
    let c := corB sx iw ox half
    let g := src ox
    [(c.x1, c.l0 * g), (c.x2, c.l1 * g)]

/-- linear_interpolate_2d_backward (interpolate.cpp:153-180). -/
noncomputable def lin2B (src : Mem ℝ) (iw ih ow oh : Nat) (sx sy : ℝ) (half : Bool) : List (Nat × ℝ) :=
  (List.range oh).flatMap fun oy => (List.range ow).flatMap fun ox =>
    let d := corB sy ih oy half
    let c := corB sx iw ox half
    let g := src (oy * ow + ox)
    [(d.x1 * iw + c.x1, d.l0 * c.l0 * g), (d.x1 * iw + c.x2, d.l0 * c.l1 * g),
     (d.x2 * iw + c.x1, d.l1 * c.l0 * g), (d.x2 * iw + c.x2, d.l1 * c.l1 * g)]

/-- linear_interpolate_3d_backward (interpolate.cpp:182-223). -/
noncomputable def lin3B (src : Mem ℝ) (iw ih id ow oh od : Nat) (sx sy sz : ℝ) (half : Bool) : List (Nat × ℝ) :=
  (List.range od).flatMap fun oz => (List.range oh).flatMap fun oy => (List.range ow).flatMap fun ox =>
    let e := corB sz id oz half
    let d := corB sy ih oy half
    let c := corB sx iw ox half
    let g := src (oz * oh * ow + oy * ow + ox)
    [(e.x1 * ih * iw + d.x1 * iw + c.x1, e.l0 * d.l0 * c.l0 * g),
     (e.x1 * ih * iw + d.x1 * iw + c.x2, e.l0 * d.l0 * c.l1 * g),
     (e.x1 * ih * iw + d.x2 * iw + c.x1, e.l0 * d.l1 * c.l0 * g),
     (e.x1 * ih * iw + d.x2 * iw + c.x2, e.l0 * d.l1 * c.l1 * g),
     (e.x2 * ih * iw + d.x1 * iw + c.x1, e.l1 * d.l0 * c.l0 * g),
     (e.x2 * ih * iw + d.x1 * iw + c.x2, e.l1 * d.l0 * c.l1 * g),
     (e.x2 * ih * iw + d.x2 * iw + c.x1, e.l1 * d.l1 * c.l0 * g),
     (e.x2 * ih * iw + d.x2 * iw + c.x2, e.l1 * d.l1 * c.l1 * g)]

/-- fx and ix of the nearest kernels (interpolate.cpp:230-231, 242-243, 245-247, 260-261, …). -/
noncomputable def near (s : ℝ) (i o : Nat) (half hpnn : Bool) : Nat := min ⌊srcIndexNN s o half hpnn⌋₊ (i - 1)

/-- nearest_interpolate_1d (interpolate.cpp:225-234). -/
noncomputable def nn1 (src : Mem ℝ) (iw ow : Nat) (sx : ℝ) (half hpnn : Bool) : List (Nat × ℝ) :=
  (List.range ow).flatMap fun ox => [(ox, src (near sx iw ox half hpnn))]

/-- nearest_interpolate_2d (interpolate.cpp:236-251). -/
noncomputable def nn2 (src : Mem ℝ) (iw ih ow oh : Nat) (sx sy : ℝ) (half hpnn : Bool) : List (Nat × ℝ) :=
  (List.range oh).flatMap fun oy => (List.range ow).flatMap fun ox =>
    let iy := near sy ih oy half hpnn
    let ix := near sx iw ox half hpnn
    [(oy * ow + ox, src (iy * iw + ix))]

/-- nearest_interpolate_3d (interpolate.cpp:253-274). -/
noncomputable def nn3 (src : Mem ℝ) (iw ih id ow oh od : Nat) (sx sy sz : ℝ) (half hpnn : Bool) : List (Nat × ℝ) :=
  (List.range od).flatMap fun oz => (List.range oh).flatMap fun oy => (List.range ow).flatMap fun ox =>
    let iz := near sz id oz half hpnn
    let iy := near sy ih oy half hpnn
    let ix := near sx iw ox half hpnn
    [(oz * oh * ow + oy * ow + ox, src (iz * ih * iw + iy * iw + ix))]

/-- nearest_interpolate_1d_backward (interpolate.cpp:276-286). -/
noncomputable def nn1B (src : Mem ℝ) (iw ow : Nat) (sx : ℝ) (half hpnn : Bool) : List (Nat × ℝ) :=
  (List.range ow).flatMap fun ox => [(near sx iw ox half hpnn, src ox)]

/-- nearest_interpolate_2d_backward (interpolate.cpp:288-304). -/
noncomputable def nn2B (src : Mem ℝ) (iw ih ow oh : Nat) (sx sy : ℝ) (half hpnn : Bool) : List (Nat × ℝ) :=
  (List.range oh).flatMap fun oy => (List.range ow).flatMap fun ox =>
    let iy := near sy ih oy half hpnn
    let ix := near sx iw ox half hpnn
    [(iy * iw + ix, src (oy * ow + ox))]

/-- nearest_interpolate_3d_backward (interpolate.cpp:306-328). -/
noncomputable def nn3B (src : Mem ℝ) (iw ih id ow oh od : Nat) (sx sy sz : ℝ) (half hpnn : Bool) : List (Nat × ℝ) :=
  (List.range od).flatMap fun oz => (List.range oh).flatMap fun oy => (List.range ow).flatMap fun ox =>
    let iz := near sz id oz half hpnn
    let iy := near sy ih oy half hpnn
    let ix := near sx iw ox half hpnn
    [(iz * ih * iw + iy * iw + ix, src (oz * oh * ow + oy * ow + ox))]

/-- Interpolate::setup_impl (interpolate.cpp:330-350): the output shape. `out_shape.size() - output_size_.size()` is unsigned:
when it would be negative the loop writes outside of the vector. -/
def setup (c : Cfg) (sh : Shape) : Except Err Shape :=
  if ¬ (1 ≤ c.outputSize.length ∧ c.outputSize.length ≤ 3) then .error .notImplemented
  else if ¬ (c.mode = "linear" ∨ c.mode = "nearest") then .error .notImplemented
  else if ¬ (c.alignCorners = false ∨ c.halfPixel = false) then .error .value
  else
    let k := if c.channelLast then c.outputSize.length + 1 else c.outputSize.length
    if sh.length < k then .error .undefinedBehaviour
    else .ok ((List.range c.outputSize.length).foldl
      (fun s d => s.set (d + (sh.length - k)) (c.outputSize.getD d 0)) sh)

/-- The loop over n with `src_ptr = src + n * src_inner_size` and `dst_ptr = dst + n * dst_inner_size`
(interpolate.cpp:374-378 and its eleven copies). -/
noncomputable def outerLoop (N a b : Nat) (kernel : Mem ℝ → List (Nat × ℝ)) (src : Mem ℝ) : List (Nat × ℝ) :=
  (List.range N).flatMap fun n => (kernel fun k => src (n * a + k)).map fun p => (n * b + p.1, p.2)

/-- shape()[ndim - k]. -/
def dimFromEnd (sh : Shape) (k : Nat) : Nat := sh.getD (sh.length - k) 0

/-- Interpolate::forward_impl (interpolate.cpp:352-472): the kernel it runs on (x, y). -/
noncomputable def forward (c : Cfg) (xsh ysh : Shape) : Except Err (Mem ℝ → Mem ℝ → Mem ℝ) :=
  if c.channelLast then .error .notImplemented
  else
    let iw := dimFromEnd xsh 1
    let ih := dimFromEnd xsh 2
    let id := dimFromEnd xsh 3
    let ow := dimFromEnd ysh 1
    let oh := dimFromEnd ysh 2
    let od := dimFromEnd ysh 3
    .ok fun x y =>
      if c.outputSize.length = 1 then
        if c.mode = "linear" then
          puts (outerLoop (size xsh / iw) iw ow
            (fun s => lin1 s iw ow (computeScale iw ow c.alignCorners) c.halfPixel) x) y
        else if c.mode = "nearest" then
          puts (outerLoop (size xsh / iw) iw ow
            (fun s => nn1 s iw ow (computeScaleNN iw ow c.alignCorners c.halfPixelForNN) c.halfPixel c.halfPixelForNN) x) y
        else y
      else if c.outputSize.length = 2 then
        if c.mode = "linear" then
          puts (outerLoop (size xsh / (iw * ih)) (iw * ih) (ow * oh)
            (fun s => lin2 s iw ih ow oh (computeScale iw ow c.alignCorners) (computeScale ih oh c.alignCorners)
              c.halfPixel) x) y
        else if c.mode = "nearest" then
          puts (outerLoop (size xsh / (iw * ih)) (iw * ih) (ow * oh)
            (fun s => nn2 s iw ih ow oh (computeScaleNN iw ow c.alignCorners c.halfPixelForNN)
              (computeScaleNN ih oh c.alignCorners c.halfPixelForNN) c.halfPixel c.halfPixelForNN) x) y
        else y
      else if c.outputSize.length = 3 then
        if c.mode = "linear" then
          puts (outerLoop (size xsh / (id * iw * ih)) (iw * ih * id) (ow * oh * od)
            (fun s => lin3 s iw ih id ow oh od (computeScale iw ow c.alignCorners) (computeScale ih oh c.alignCorners)
              (computeScale id od c.alignCorners) c.halfPixel) x) y
        else if c.mode = "nearest" then
          puts (outerLoop (size xsh / (id * iw * ih)) (iw * ih * id) (ow * oh * od)
            (fun s => nn3 s iw ih id ow oh od (computeScaleNN iw ow c.alignCorners c.halfPixelForNN)
              (computeScaleNN ih oh c.alignCorners c.halfPixelForNN) (computeScaleNN id od c.alignCorners c.halfPixelForNN)
              c.halfPixel c.halfPixelForNN) x) y
        else y
      else y

/-- A loop of `dst[p] += v`. -/
noncomputable def adds (l : List (Nat × ℝ)) (m : Mem ℝ) : Mem ℝ := l.foldl (fun m p => put m p.1 (m p.1 + p.2)) m

/-- Interpolate::backward_impl (interpolate.cpp:474-600): the kernel it runs on (g_y, g_x); it never looks at `accum`
(Function::backward clears g_x before when the gradient is not accumulated). -/
noncomputable def backward (c : Cfg) (xsh ysh : Shape) : Except Err (Bool → Mem ℝ → Mem ℝ → Mem ℝ) :=
  if c.channelLast then .error .notImplemented
  else
    let iw := dimFromEnd xsh 1
    let ih := dimFromEnd xsh 2
    let id := dimFromEnd xsh 3
    let ow := dimFromEnd ysh 1
    let oh := dimFromEnd ysh 2
    let od := dimFromEnd ysh 3
    .ok fun _ gy gx =>
      if c.outputSize.length = 1 then
        if c.mode = "linear" then
          adds (outerLoop (size xsh / iw) ow iw
            (fun s => lin1B s iw ow (computeScale iw ow c.alignCorners) c.halfPixel) gy) gx
        else if c.mode = "nearest" then
          adds (outerLoop (size xsh / iw) ow iw
            (fun s => nn1B s iw ow (computeScaleNN iw ow c.alignCorners c.halfPixelForNN) c.halfPixel c.halfPixelForNN) gy) gx
        else gx
      else if c.outputSize.length = 2 then
        if c.mode = "linear" then
          adds (outerLoop (size xsh / (iw * ih)) (ow * oh) (iw * ih)
            (fun s => lin2B s iw ih ow oh (computeScale iw ow c.alignCorners) (computeScale ih oh c.alignCorners)
              c.halfPixel) gy) gx
        else if c.mode = "nearest" then
          adds (outerLoop (size xsh / (iw * ih)) (ow * oh) (iw * ih)
            (fun s => nn2B s iw ih ow oh (computeScaleNN iw ow c.alignCorners c.halfPixelForNN)
              (computeScaleNN ih oh c.alignCorners c.halfPixelForNN) c.halfPixel c.halfPixelForNN) gy) gx
        else gx
      else if c.outputSize.length = 3 then
        if c.mode = "linear" then
          adds (outerLoop (size xsh / (iw * ih * id)) (ow * oh * od) (iw * ih * id)
            (fun s => lin3B s iw ih id ow oh od (computeScale iw ow c.alignCorners) (computeScale ih oh c.alignCorners)
              (computeScale id od c.alignCorners) c.halfPixel) gy) gx
        else if c.mode = "nearest" then
          adds (outerLoop (size xsh / (iw * ih * id)) (ow * oh * od) (iw * ih * id)
            (fun s => nn3B s iw ih id ow oh od (computeScaleNN iw ow c.alignCorners c.halfPixelForNN)
              (computeScaleNN ih oh c.alignCorners c.halfPixelForNN) (computeScaleNN id od c.alignCorners c.halfPixelForNN)
              c.halfPixel c.halfPixelForNN) gy) gx
        else gx
      else gx

/-- Python's `l[-k:]`; for k = 0 it is the whole list. -/
def lastK (l : List Nat) (k : Nat) : List Nat := if k = 0 then l else l.drop (l.length - k)

/-- The output_size that F.interpolate passes on (functions.py:877-884). A scale is a rational number; the product and the
floor are exact here (Python computes them in floating point). -/
def pyOutputSize (sh : Shape) (scale : Option (List ℚ)) (outputSize : Option (List Nat)) (channelLast : Bool) :
    Except Err (List Int) :=
  match scale, outputSize with
  | none, none => .error .value
  | _, some o => .ok (o.map Int.ofNat)
  | some s, none =>
    let inputSize := if channelLast then (lastK sh (s.length + 1)).dropLast else lastK sh s.length
    .ok ((inputSize.zip s).map fun p => ⌊p.2 * (p.1 : ℚ)⌋)

end Verif.Interp
