import Verif.Elem.ConvFormula
import Verif.Elem.ConvSetup
import Verif.Fn.Pad
import Verif.Index.Props
import Mathlib.Analysis.SpecialFunctions.Trigonometric.Basic
/-
Short-time Fourier transform and its inverse: models /repo/src/nbla/function/generic/{stft,istft}.cpp and
/repo/include/nbla/function/utils/stft_istft.hpp on top of the models of Pad (Verif.Fn), Convolution and Deconvolution
(Verif.Elem) and Slice (Verif.Index). Simplifications: real arithmetic, no rounding; window_size, stride and fft_size are natural
numbers; the product of the coefficient matrix [F,1,N] with the window [1,1,N] (mul2_, broadcasting is C81) and the sum of the two
deconvolutions (add2_) are written as loops over the elements; as_istft_backward = false; `g` is the arbitrary content of buffers
before they are written.
-/
namespace Verif.Stft
open Verif.Fn Verif.ND Verif.Elem

/-- The accepted values of window_type (stft.cpp:35-39). -/
inductive WType | hanning | hamming | rectangular
deriving DecidableEq, Repr

/-- The arguments of stft / istft. -/
structure Cfg where
  ws : Nat
  stride : Nat
  fft : Nat
  wt : WType
  center : Bool
  mode : PadMode
deriving DecidableEq, Repr

/-- Sample i of the window (stft_istft.hpp:32-48). -/
noncomputable def winVal (wt : WType) (ws i : Nat) : ℝ :=
  match wt with
  | .hanning => 0.5 - 0.5 * Real.cos (2 * Real.pi * i / ws)
  | .hamming => 0.54 - 0.46 * Real.cos (2 * Real.pi * i / ws)
  | .rectangular => 1

/-- create_window (stft_istft.hpp:22-49): zero fill, then the window at left_pad. -/
noncomputable def createWindow (c : Cfg) : Mem ℝ :=
  forPut c.ws (fun i => (c.fft - c.ws) / 2 + i) (fun i _ => winVal c.wt c.ws i) (fun _ => 0)

/-- fft_size_ / 2 + 1, the number of frequency bins. -/
def Cfg.bins (c : Cfg) : Nat := c.fft / 2 + 1

/-- `mul2_->forward({&coefficients, &window_}, {&conv})` (stft.cpp:130-131, istft.cpp:188-189). -/
noncomputable def mulWindow (c : Cfg) (d : Mem ℝ) (g : Mem ℝ) : Mem ℝ :=
  forMat c.bins c.fft (at_ 0 c.fft) (fun w t _ => d (w * c.fft + t) * createWindow c t) g

/-- The DFT coefficients (stft.cpp:114-123). -/
noncomputable def dftR (c : Cfg) (g : Mem ℝ) : Mem ℝ :=
  forMat c.bins c.fft (at_ 0 c.fft) (fun w t _ => Real.cos (2 * Real.pi * w * t / c.fft)) g
noncomputable def dftI (c : Cfg) (g : Mem ℝ) : Mem ℝ :=
  forMat c.bins c.fft (at_ 0 c.fft) (fun w t _ => -Real.sin (2 * Real.pi * w * t / c.fft)) g

/-- alpha (istft.cpp:169). -/
noncomputable def alpha (c : Cfg) (w : Nat) : ℝ := (if w = 0 ∨ w = c.fft / 2 then 1 else 2) / c.fft

/-- The inverse DFT coefficients (istft.cpp:164-177). -/
noncomputable def idftCos (c : Cfg) (g : Mem ℝ) : Mem ℝ :=
  forMat c.bins c.fft (at_ 0 c.fft) (fun w t _ => alpha c w * Real.cos (2 * Real.pi * w * t / c.fft)) g
noncomputable def idftSin (c : Cfg) (g : Mem ℝ) : Mem ℝ :=
  forMat c.bins c.fft (at_ 0 c.fft) (fun w t _ => alpha c w * -Real.sin (2 * Real.pi * w * t / c.fft)) g

/-- STFT::setup_impl (stft.cpp:32-81) for x of shape [B, L]: the padding, the convolution and the shape of both outputs. -/
def stftSetup (c : Cfg) (B L : Nat) : Except String (PadState × Conv × Shape) :=
  if ¬ c.fft ≥ c.ws then .error "FFT size has to be at least as large as window size."
  else match padSetup [((c.fft / 2 : Nat) : Int), ((c.fft / 2 : Nat) : Int)] [B, L] with
    | .error e => .error e
    | .ok p =>
      match convSetup 1 [0] [c.stride] [1] 1
          (if c.center then [p.oshape.getD 0 0, 1, p.oshape.getD 1 0] else [B, 1, L]) [c.bins, 1, c.fft] none with
      | .error e => .error e
      | .ok (cv, out) => .ok (p, cv, out)

/-- STFT::forward_impl (stft.cpp:154-207): (y_r, y_i). -/
noncomputable def stftForward (c : Cfg) (s : PadState × Conv × Shape) (x g : Mem ℝ) : Mem ℝ × Mem ℝ :=
  let x' := if c.center then padForward c.mode s.1 0 x g else x
  (s.2.1.forward x' (mulWindow c (dftR c g) g) none g g, s.2.1.forward x' (mulWindow c (dftI c g) g) none g g)

/-- ISTFT::calculate_inv_window (istft.cpp:141-159): the loop `for (i = 0; i < size - fft_size_ + 1; i += stride_)` runs
⌈(size - fft + 1) / stride⌉ times. -/
noncomputable def invWindow (c : Cfg) (size : Nat) : Mem ℝ :=
  (List.range ((size + 1 - c.fft + (c.stride - 1)) / c.stride)).foldl
    (fun m f => forPut c.fft (fun j => f * c.stride + j) (fun j old => old + createWindow c j * createWindow c j) m) (fun _ => 0)

/-- The members set by ISTFT::setup_impl. -/
structure IState where
  B : Nat
  size : Nat
  cv : Conv
  slice : List (Index.Ax × Int)
  out : Shape

open Classical in
/-- ISTFT::setup_impl (istft.cpp:36-118) with as_stft_backward_ = false, for inputs of shape `ys`. -/
noncomputable def istftSetup (c : Cfg) (ys : Shape) : Except String IState :=
  if ¬ c.fft ≥ c.ws then .error "FFT size has to be at least as large as window size."
  else if c.stride = 0 then .error "division by zero"
  else if ¬ c.fft % c.stride = 0 then .error "FFT size needs to be a multiple of stride."
  else match deconvSetup 1 [0] [c.stride] [1] [0] 1 ys [c.bins, 1, c.fft] none with
    | .error e => .error e
    | .ok (cv, os) =>
      let B := ys.getD 0 0
      let size := os.getD 2 0
      match Index.setup [B, size] [⟨0, B, 1⟩, ⟨(c.fft / 2 : Nat), -((c.fft / 2 : Nat) : Int), 1⟩] with
      | .error e => .error e
      | .ok sl =>
        if ¬ c.mode = .constant then .error "`pad_mode` should be \"constant\" for the normal use of ISTFT"
        else if ∃ i, (if c.center then c.fft / 2 else 0) ≤ i ∧ i < (if c.center then size - c.fft / 2 else size) ∧
            ¬ invWindow c size i ≥ 1e-11 then .error "NOLA(Nonzero Overlap Add) condition is not met."
        else .ok ⟨B, size, cv, sl, if c.center then sl.map fun p => p.2.toNat else [B, size]⟩

/-- ISTFT::apply_inv_window_forward (istft.cpp:200-226). -/
noncomputable def applyInv (c : Cfg) (s : IState) (x y : Mem ℝ) : Mem ℝ :=
  (List.range s.B).foldl (fun m b =>
    if c.center then
      forPut (s.size - c.fft / 2 - c.fft / 2) (fun i => b * s.size + (c.fft / 2 + i))
        (fun i _ => x (b * s.size + (c.fft / 2 + i)) / invWindow c s.size (c.fft / 2 + i)) m
    else forPut s.size (fun i => b * s.size + i) (fun i _ => x (b * s.size + i) / invWindow c s.size i) m) y

/-- ISTFT::forward_impl (istft.cpp:268-322) with as_stft_backward_ = false. -/
noncomputable def istftForward (c : Cfg) (s : IState) (yr yi g : Mem ℝ) : Mem ℝ :=
  let xc := s.cv.deForward yr (mulWindow c (idftCos c g) g) none g g
  let xs := s.cv.deForward yi (mulWindow c (idftSin c g) g) none g g
  let sum := forPut (s.B * s.size) (fun i => i) (fun i _ => xc i + xs i) g
  if c.center then
    let a := applyInv c s sum sum
    fun k => Index.forward (fun i => a i.toNat) (fun i => g i.toNat) (Index.slicePairs [s.B, s.size] s.slice) k
  else applyInv c s sum g

end Verif.Stft
