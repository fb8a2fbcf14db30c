import Verif.Interp.Model
import Verif.Elem.BatchMatmul
/-
WarpByGrid (/repo/src/nbla/function/generic/warp_by_grid.cpp) and AffineGrid (/repo/src/nbla/function/generic/affine_grid.cpp).
Simplifications: the element type is the real numbers (no rounding, no overflow of the conversions to int); the loops
`for b, c, h, w` are written as the list of multi-indices in row-major order, and the counter `oidx++` as the row-major position;
the strides are those of contiguous arrays, so ndi::nd2flat is `ravel`.
-/
namespace Verif.Warp
open Verif.ND Verif.Fn Verif.Act Verif.Elem Verif.Interp

/-- warp_by_grid::PADDING_MODE. -/
inductive Pad
  | zero
  | repeat'
  | reflect
  deriving DecidableEq

/-- The arguments of WarpByGrid. -/
structure Cfg where
  mode : String
  padding : String
  ac : Bool
  channelLast : Bool

/-- static_cast<int>(x). -/
noncomputable def trunc (x : ℝ) : ℤ := if 0 ≤ x then ⌊x⌋ else ⌈x⌉

/-- std::round: halves away from zero. -/
noncomputable def round (x : ℝ) : ℤ := if 0 ≤ x then ⌊x + 1 / 2⌋ else ⌈x - 1 / 2⌉

/-- unnormalize_grid_with (warp_by_grid.cpp:26-35). -/
noncomputable def unnormalize (ac : Bool) (x : ℝ) (S : Nat) : ℝ :=
  if ac then (x + 1) * (S - 1) / 2 else ((x + 1) * S - 1) / 2

open Classical in
/-- get_src_findex_with_repeat_pad (warp_by_grid.cpp:42-51). -/
noncomputable def repeatPad (s : ℝ) (S : Nat) : ℝ := if s < 0 then 0 else if s > (S : ℝ) - 1 then (S : ℝ) - 1 else s

open Classical in
/-- reflect (warp_by_grid.cpp:53-78). -/
noncomputable def reflect (s : ℝ) (L U : ℤ) : ℝ :=
  let len := U - L
  if s < L then
    let d := L - s
    let n := trunc (d / len)
    let r := d - n * len
    if n % 2 = 0 then L + r else U - r
  else if s > U then
    let d := s - U
    let n := trunc (d / len)
    let r := d - n * len
    if n % 2 = 0 then U - r else L + r
  else s

/-- get_src_findex_with_reflect_pad (warp_by_grid.cpp:80-91). -/
noncomputable def reflectPad (ac : Bool) (s : ℝ) (S : Nat) : ℝ :=
  if ac then reflect s 0 ((S : ℤ) - 1)
  else repeatPad (reflect (2 * s) (-1) (2 * (S : ℤ) - 1) * (1 / 2)) S

/-- The lambda get_src_findex_with_pad (warp_by_grid.cpp:211-222) with get_src_findex_with_zero_pad (:37-40). -/
noncomputable def findex (p : Pad) (ac : Bool) (s : ℝ) (S : Nat) : ℝ :=
  match p with
  | .zero => s
  | .reflect => reflectPad ac s S
  | .repeat' => repeatPad s S

open Classical in
/-- get_grad_coef_with_repeat_pad (warp_by_grid.cpp:98-107). -/
noncomputable def repeatCoef (s : ℝ) (S : Nat) : ℝ := if s < 0 then 0 else if s > (S : ℝ) - 1 then 0 else 1

open Classical in
/-- reflect_coef (warp_by_grid.cpp:109-133). -/
noncomputable def reflectCoef (s : ℝ) (L U : ℤ) : ℝ :=
  let len := U - L
  if s < L then
    let d := L - s
    let n := trunc (d / len)
    if n % 2 = 0 then -1 else 1
  else if s > U then
    let d := s - U
    let n := trunc (d / len)
    if n % 2 = 0 then -1 else 1
  else 1

/-- get_grad_coef_with_reflect_pad (warp_by_grid.cpp:135-147). -/
noncomputable def reflectPadCoef (ac : Bool) (s : ℝ) (S : Nat) : ℝ :=
  if ac then reflectCoef s 0 ((S : ℤ) - 1)
  else reflectCoef (2 * s) (-1) (2 * (S : ℤ) - 1) * repeatCoef (reflect (2 * s) (-1) (2 * (S : ℤ) - 1) * (1 / 2)) S

/-- The padding part of the lambda get_grad_coef_with_pad (warp_by_grid.cpp:749-758). -/
noncomputable def padCoef (p : Pad) (ac : Bool) (s : ℝ) (S : Nat) : ℝ :=
  match p with
  | .zero => 1
  | .reflect => reflectPadCoef ac s S
  | .repeat' => repeatCoef s S

/-- get_grad_coef_with_pad (warp_by_grid.cpp:748-760). -/
noncomputable def gradCoef (p : Pad) (ac : Bool) (s : ℝ) (S : Nat) : ℝ :=
  if ac then padCoef p ac s S * (S - 1) / 2 else padCoef p ac s S * S / 2

/-- The position in the source image that a grid value stands for. -/
noncomputable def src (p : Pad) (ac : Bool) (g : ℝ) (S : Nat) : ℝ := findex p ac (unnormalize ac g S) S

/-! ### Two dimensions. Shapes: input [B, C, Hi, Wi], grid [B, Ho, Wo, L], output [B, C, Ho, Wo] -/

/-- The extents of one call. -/
structure Dim2 where
  (B C Hi Wi Ho Wo L : Nat)

def Dim2.ish (n : Dim2) : Shape := [n.B, n.C, n.Hi, n.Wi]
def Dim2.gsh (n : Dim2) : Shape := [n.B, n.Ho, n.Wo, n.L]
def Dim2.osh (n : Dim2) : Shape := [n.B, n.C, n.Ho, n.Wo]

/-- get_pixel_value_2d (warp_by_grid.cpp:149-158). -/
def pixel2 (n : Dim2) (x : Mem ℝ) (b c : Nat) (h w : ℤ) : ℝ :=
  if (h ≥ 0 ∧ h < n.Hi) ∧ (w ≥ 0 ∧ w < n.Wi) then x (ravel n.ish [b, c, h.toNat, w.toNat]) else 0

/-- backward_data_2d (warp_by_grid.cpp:172-180): the addition it makes, if any. -/
def back2 (n : Dim2) (ograd p q : ℝ) (b c : Nat) (h w : ℤ) : List (Nat × ℝ) :=
  if (h ≥ 0 ∧ h < n.Hi) ∧ (w ≥ 0 ∧ w < n.Wi) then [(ravel n.ish [b, c, h.toNat, w.toNat], ograd * p * q)] else []

/-- gidx (warp_by_grid.cpp:229). -/
def gidx2 (n : Dim2) (o : List Nat) : Nat := ravel n.gsh [o.getD 0 0, o.getD 2 0, o.getD 3 0, 0]

/-- The body of the loops of warp_linear_forward_2d (warp_by_grid.cpp:229-256). -/
noncomputable def linear2 (p : Pad) (ac : Bool) (n : Dim2) (x grid : Mem ℝ) (o : List Nat) : ℝ :=
  let b := o.getD 0 0
  let c := o.getD 1 0
  let g := gidx2 n o
  let xf := src p ac (grid (g + 0)) n.Wi
  let yf := src p ac (grid (g + 1)) n.Hi
  let xi0 := ⌊xf⌋
  let yi0 := ⌊yf⌋
  let xi1 := xi0 + 1
  let yi1 := yi0 + 1
  let px0 := xf - xi0
  let py0 := yf - yi0
  let px1 := 1 - px0
  let py1 := 1 - py0
  (pixel2 n x b c yi0 xi0 * py1 * px1) + (pixel2 n x b c yi0 xi1 * py1 * px0) +
    (pixel2 n x b c yi1 xi0 * py0 * px1) + (pixel2 n x b c yi1 xi1 * py0 * px0)

/-- The body of the loops of warp_nearest_forward_2d (warp_by_grid.cpp:383-394). -/
noncomputable def nearest2 (p : Pad) (ac : Bool) (n : Dim2) (x grid : Mem ℝ) (o : List Nat) : ℝ :=
  let g := gidx2 n o
  let xf := src p ac (grid (g + 0)) n.Wi
  let yf := src p ac (grid (g + 1)) n.Hi
  pixel2 n x (o.getD 0 0) (o.getD 1 0) (round yf) (round xf)

/-- The body of the loops of warp_linear_backward_data_2d (warp_by_grid.cpp:496-520). -/
noncomputable def linearData2 (p : Pad) (ac : Bool) (n : Dim2) (grid dy : Mem ℝ) (o : List Nat) : List (Nat × ℝ) :=
  let b := o.getD 0 0
  let c := o.getD 1 0
  let g := gidx2 n o
  let xf := src p ac (grid (g + 0)) n.Wi
  let yf := src p ac (grid (g + 1)) n.Hi
  let xi0 := ⌊xf⌋
  let yi0 := ⌊yf⌋
  let xi1 := xi0 + 1
  let yi1 := yi0 + 1
  let px0 := xf - xi0
  let py0 := yf - yi0
  let px1 := 1 - px0
  let py1 := 1 - py0
  let grad := dy (ravel n.osh o)
  back2 n grad py1 px1 b c yi0 xi0 ++ back2 n grad py1 px0 b c yi0 xi1 ++
    back2 n grad py0 px1 b c yi1 xi0 ++ back2 n grad py0 px0 b c yi1 xi1

/-- The body of the loops of warp_nearest_backward_data_2d (warp_by_grid.cpp:559-570). -/
noncomputable def nearestData2 (p : Pad) (ac : Bool) (n : Dim2) (grid dy : Mem ℝ) (o : List Nat) : List (Nat × ℝ) :=
  let g := gidx2 n o
  let xf := src p ac (grid (g + 0)) n.Wi
  let yf := src p ac (grid (g + 1)) n.Hi
  back2 n (dy (ravel n.osh o)) 1 1 (o.getD 0 0) (o.getD 1 0) (round yf) (round xf)

/-- The body of the loops of warp_linear_backward_grid_2d (warp_by_grid.cpp:768-803). -/
noncomputable def linearGrid2 (p : Pad) (ac : Bool) (n : Dim2) (x grid dy : Mem ℝ) (o : List Nat) : List (Nat × ℝ) :=
  let b := o.getD 0 0
  let c := o.getD 1 0
  let g := gidx2 n o
  let xf0 := unnormalize ac (grid (g + 0)) n.Wi
  let yf0 := unnormalize ac (grid (g + 1)) n.Hi
  let xf := findex p ac xf0 n.Wi
  let yf := findex p ac yf0 n.Hi
  let xi0 := ⌊xf⌋
  let yi0 := ⌊yf⌋
  let xi1 := xi0 + 1
  let yi1 := yi0 + 1
  let px0 := xf - xi0
  let py0 := yf - yi0
  let px1 := 1 - px0
  let py1 := 1 - py0
  let v00 := pixel2 n x b c yi0 xi0
  let v01 := pixel2 n x b c yi0 xi1
  let v10 := pixel2 n x b c yi1 xi0
  let v11 := pixel2 n x b c yi1 xi1
  let grad := dy (ravel n.osh o)
  let gradx := grad * ((v01 - v00) * py1 + (v11 - v10) * py0)
  let grady := grad * ((v10 - v00) * px1 + (v11 - v01) * px0)
  [(g + 0, gradx * gradCoef p ac xf0 n.Wi), (g + 1, grady * gradCoef p ac yf0 n.Hi)]

/-! ### Three dimensions. Shapes: input [B, C, Di, Hi, Wi], grid [B, Do, Ho, Wo, L], output [B, C, Do, Ho, Wo] -/

structure Dim3 where
  (B C Di Hi Wi Do Ho Wo L : Nat)

def Dim3.ish (n : Dim3) : Shape := [n.B, n.C, n.Di, n.Hi, n.Wi]
def Dim3.gsh (n : Dim3) : Shape := [n.B, n.Do, n.Ho, n.Wo, n.L]
def Dim3.osh (n : Dim3) : Shape := [n.B, n.C, n.Do, n.Ho, n.Wo]

/-- get_pixel_value_3d (warp_by_grid.cpp:160-170). -/
def pixel3 (n : Dim3) (x : Mem ℝ) (b c : Nat) (d h w : ℤ) : ℝ :=
  if (d ≥ 0 ∧ d < n.Di) ∧ (h ≥ 0 ∧ h < n.Hi) ∧ (w ≥ 0 ∧ w < n.Wi) then x (ravel n.ish [b, c, d.toNat, h.toNat, w.toNat]) else 0

/-- backward_data_3d (warp_by_grid.cpp:182-191). -/
def back3 (n : Dim3) (ograd p q r : ℝ) (b c : Nat) (d h w : ℤ) : List (Nat × ℝ) :=
  if (d ≥ 0 ∧ d < n.Di) ∧ (h ≥ 0 ∧ h < n.Hi) ∧ (w ≥ 0 ∧ w < n.Wi) then
    [(ravel n.ish [b, c, d.toNat, h.toNat, w.toNat], ograd * p * q * r)] else []

/-- gidx (warp_by_grid.cpp:298). -/
def gidx3 (n : Dim3) (o : List Nat) : Nat := ravel n.gsh [o.getD 0 0, o.getD 2 0, o.getD 3 0, o.getD 4 0, 0]

/-- The body of the loops of warp_linear_forward_3d (warp_by_grid.cpp:298-343). -/
noncomputable def linear3 (p : Pad) (ac : Bool) (n : Dim3) (x grid : Mem ℝ) (o : List Nat) : ℝ :=
  let b := o.getD 0 0
  let c := o.getD 1 0
  let g := gidx3 n o
  let xf := src p ac (grid (g + 0)) n.Wi
  let yf := src p ac (grid (g + 1)) n.Hi
  let zf := src p ac (grid (g + 2)) n.Di
  let xi0 := ⌊xf⌋
  let yi0 := ⌊yf⌋
  let zi0 := ⌊zf⌋
  let xi1 := xi0 + 1
  let yi1 := yi0 + 1
  let zi1 := zi0 + 1
  let px0 := xf - xi0
  let py0 := yf - yi0
  let pz0 := zf - zi0
  let px1 := 1 - px0
  let py1 := 1 - py0
  let pz1 := 1 - pz0
  pixel3 n x b c zi0 yi0 xi0 * pz1 * py1 * px1 + pixel3 n x b c zi0 yi0 xi1 * pz1 * py1 * px0 +
    pixel3 n x b c zi0 yi1 xi0 * pz1 * py0 * px1 + pixel3 n x b c zi0 yi1 xi1 * pz1 * py0 * px0 +
    pixel3 n x b c zi1 yi0 xi0 * pz0 * py1 * px1 + pixel3 n x b c zi1 yi0 xi1 * pz0 * py1 * px0 +
    pixel3 n x b c zi1 yi1 xi0 * pz0 * py0 * px1 + pixel3 n x b c zi1 yi1 xi1 * pz0 * py0 * px0

/-- The body of the loops of warp_nearest_forward_3d (warp_by_grid.cpp:436-452). -/
noncomputable def nearest3 (p : Pad) (ac : Bool) (n : Dim3) (x grid : Mem ℝ) (o : List Nat) : ℝ :=
  let g := gidx3 n o
  let xf := src p ac (grid (g + 0)) n.Wi
  let yf := src p ac (grid (g + 1)) n.Hi
  let zf := src p ac (grid (g + 2)) n.Di
  pixel3 n x (o.getD 0 0) (o.getD 1 0) (round zf) (round yf) (round xf)

/-- The body of the loops of warp_linear_backward_data_3d (warp_by_grid.cpp:612-651). -/
noncomputable def linearData3 (p : Pad) (ac : Bool) (n : Dim3) (grid dy : Mem ℝ) (o : List Nat) : List (Nat × ℝ) :=
  let b := o.getD 0 0
  let c := o.getD 1 0
  let g := gidx3 n o
  let xf := src p ac (grid (g + 0)) n.Wi
  let yf := src p ac (grid (g + 1)) n.Hi
  let zf := src p ac (grid (g + 2)) n.Di
  let xi0 := ⌊xf⌋
  let yi0 := ⌊yf⌋
  let zi0 := ⌊zf⌋
  let xi1 := xi0 + 1
  let yi1 := yi0 + 1
  let zi1 := zi0 + 1
  let px0 := xf - xi0
  let py0 := yf - yi0
  let pz0 := zf - zi0
  let px1 := 1 - px0
  let py1 := 1 - py0
  let pz1 := 1 - pz0
  let grad := dy (ravel n.osh o)
  back3 n grad pz1 py1 px1 b c zi0 yi0 xi0 ++ back3 n grad pz1 py1 px0 b c zi0 yi0 xi1 ++
    back3 n grad pz1 py0 px1 b c zi0 yi1 xi0 ++ back3 n grad pz1 py0 px0 b c zi0 yi1 xi1 ++
    back3 n grad pz0 py1 px1 b c zi1 yi0 xi0 ++ back3 n grad pz0 py1 px0 b c zi1 yi0 xi1 ++
    back3 n grad pz0 py0 px1 b c zi1 yi1 xi0 ++ back3 n grad pz0 py0 px0 b c zi1 yi1 xi1

/-- The body of the loops of warp_nearest_backward_data_3d (warp_by_grid.cpp:694-709). -/
noncomputable def nearestData3 (p : Pad) (ac : Bool) (n : Dim3) (grid dy : Mem ℝ) (o : List Nat) : List (Nat × ℝ) :=
  let g := gidx3 n o
  let xf := src p ac (grid (g + 0)) n.Wi
  let yf := src p ac (grid (g + 1)) n.Hi
  let zf := src p ac (grid (g + 2)) n.Di
  back3 n (dy (ravel n.osh o)) 1 1 1 (o.getD 0 0) (o.getD 1 0) (round zf) (round yf) (round xf)

/-- The body of the loops of warp_linear_backward_grid_3d (warp_by_grid.cpp:860-921). -/
noncomputable def linearGrid3 (p : Pad) (ac : Bool) (n : Dim3) (x grid dy : Mem ℝ) (o : List Nat) : List (Nat × ℝ) :=
  let b := o.getD 0 0
  let c := o.getD 1 0
  let g := gidx3 n o
  let xf0 := unnormalize ac (grid (g + 0)) n.Wi
  let yf0 := unnormalize ac (grid (g + 1)) n.Hi
  let zf0 := unnormalize ac (grid (g + 2)) n.Di
  let xf := findex p ac xf0 n.Wi
  let yf := findex p ac yf0 n.Hi
  let zf := findex p ac zf0 n.Di
  let xi0 := ⌊xf⌋
  let yi0 := ⌊yf⌋
  let zi0 := ⌊zf⌋
  let xi1 := xi0 + 1
  let yi1 := yi0 + 1
  let zi1 := zi0 + 1
  let px0 := xf - xi0
  let py0 := yf - yi0
  let pz0 := zf - zi0
  let px1 := 1 - px0
  let py1 := 1 - py0
  let pz1 := 1 - pz0
  let v000 := pixel3 n x b c zi0 yi0 xi0
  let v001 := pixel3 n x b c zi0 yi0 xi1
  let v010 := pixel3 n x b c zi0 yi1 xi0
  let v011 := pixel3 n x b c zi0 yi1 xi1
  let v100 := pixel3 n x b c zi1 yi0 xi0
  let v101 := pixel3 n x b c zi1 yi0 xi1
  let v110 := pixel3 n x b c zi1 yi1 xi0
  let v111 := pixel3 n x b c zi1 yi1 xi1
  let grad := dy (ravel n.osh o)
  let gradx := grad * ((v001 - v000) * pz1 * py1 + (v011 - v010) * pz1 * py0 + (v101 - v100) * pz0 * py1 + (v111 - v110) * pz0 * py0)
  let grady := grad * ((v010 - v000) * pz1 * px1 + (v011 - v001) * pz1 * px0 + (v110 - v100) * pz0 * px1 + (v111 - v101) * pz0 * px0)
  let gradz := grad * ((v100 - v000) * py1 * px1 + (v101 - v001) * py1 * px0 + (v110 - v010) * py0 * px1 + (v111 - v011) * py0 * px0)
  [(g + 0, gradx * gradCoef p ac xf0 n.Wi), (g + 1, grady * gradCoef p ac yf0 n.Hi), (g + 2, gradz * gradCoef p ac zf0 n.Di)]

/-! ### The function -/

/-- What setup_impl finds out: padding mode, whether the mode is linear, and which kernels run (by the number of axes of the grid). -/
inductive Kern
  | two (n : Dim2)
  | three (n : Dim3)
  | none            -- neither 4 nor 5 axes: no kernel runs

structure Setup where
  pad : Pad
  lin : Bool
  kern : Kern
  osh : Shape

def padOf (s : String) : Option Pad :=
  if s = "zero" then some .zero else if s = "repeat" then some .repeat' else if s = "reflect" then some .reflect else none

/-- WarpByGrid::setup_impl (warp_by_grid.cpp:929-975). The forward and backward kernels raise for channel_last
(warp_by_grid.cpp:980-981, 1092-1093), so that this model refuses it in setup. -/
def setup (k : Cfg) (ish gsh : Shape) : Except String Setup :=
  let nd := gsh.length
  if k.mode ≠ "linear" ∧ k.mode ≠ "nearest" then .error "mode is not implemented"
  else if ish.getD 0 0 ≠ gsh.getD 0 0 then .error "Input and grid batch size differs"
  else if ¬ (gsh.getD (nd - 1) 0 = 2 ∨ gsh.getD (nd - 1) 0 = 3) then .error "Last dimension of the grid must be in {2, 3}"
  else
    match padOf k.padding with
    | none => .error "padding mode is not implemented"
    | some p =>
      if k.channelLast then .error "channel_last is not supported"
      else
        let B := ish.getD 0 0
        let C := ish.getD 1 0
        let lin := decide (k.mode = "linear")
        if nd = 4 then
          .ok ⟨p, lin, .two ⟨B, C, ish.getD 2 0, ish.getD 3 0, gsh.getD 1 0, gsh.getD 2 0, gsh.getD 3 0⟩,
            [B, C, gsh.getD 1 0, gsh.getD 2 0]⟩
        else if nd = 5 then
          .ok ⟨p, lin, .three ⟨B, C, ish.getD 2 0, ish.getD 3 0, ish.getD 4 0, gsh.getD 1 0, gsh.getD 2 0, gsh.getD 3 0, gsh.getD 4 0⟩,
            [B, C, gsh.getD 1 0, gsh.getD 2 0, gsh.getD 3 0]⟩
        else .ok ⟨p, lin, .none, []⟩

/-- WarpByGrid::forward_impl (warp_by_grid.cpp:977-1085). -/
noncomputable def forward (ac : Bool) (s : Setup) (x grid y : Mem ℝ) : Mem ℝ :=
  match s.kern with
  | .two n => puts ((indices n.osh).map fun o => (ravel n.osh o, if s.lin then linear2 s.pad ac n x grid o else nearest2 s.pad ac n x grid o)) y
  | .three n => puts ((indices n.osh).map fun o => (ravel n.osh o, if s.lin then linear3 s.pad ac n x grid o else nearest3 s.pad ac n x grid o)) y
  | .none => y

/-- The part of backward_impl for the data (warp_by_grid.cpp:1117-1228); it never looks at `accum`. -/
noncomputable def backwardData (ac : Bool) (s : Setup) (grid : Mem ℝ) (_accum : Bool) (dy dx : Mem ℝ) : Mem ℝ :=
  match s.kern with
  | .two n => adds ((indices n.osh).flatMap fun o => if s.lin then linearData2 s.pad ac n grid dy o else nearestData2 s.pad ac n grid dy o) dx
  | .three n => adds ((indices n.osh).flatMap fun o => if s.lin then linearData3 s.pad ac n grid dy o else nearestData3 s.pad ac n grid dy o) dx
  | .none => dx

/-- The part for the grid (warp_by_grid.cpp:1230-1312); `none` is the error "not supported in the nearest mode". -/
noncomputable def backwardGrid (ac : Bool) (s : Setup) (x grid : Mem ℝ) : Option (Bool → Mem ℝ → Mem ℝ → Mem ℝ) :=
  match s.kern with
  | .two n => if s.lin then some fun _ dy dg => adds ((indices n.osh).flatMap fun o => linearGrid2 s.pad ac n x grid dy o) dg else none
  | .three n => if s.lin then some fun _ dy dg => adds ((indices n.osh).flatMap fun o => linearGrid3 s.pad ac n x grid dy o) dg else none
  | .none => some fun _ _ dg => dg

end Verif.Warp
