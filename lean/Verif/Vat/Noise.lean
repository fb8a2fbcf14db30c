import Mathlib.Analysis.Real.Sqrt
import Mathlib.Algebra.BigOperators.Intervals
import Mathlib.Algebra.BigOperators.Field
import Mathlib.Algebra.Order.BigOperators.Group.Finset
/-
VATNoise (/repo/src/nbla/function/generic/vat_noise.cpp). Properties C221 and C222.
Real numbers instead of float; a buffer is a function from flat indices.
-/
namespace Verif.Vat

open Finset

/-- refine_axis (/repo/include/nbla/utils/axis_utils.hpp:23-30). -/
def refineAxis (axis : Int) (nd : Nat) : Option Nat :=
  if axis < nd ∧ axis ≥ -(nd : Int) then some (if axis < 0 then axis + nd else axis).toNat else none

/-- strides()[base_axis_ - 1] (vat_noise.cpp:53): the product of the dimensions after base_axis - 1. An access at -1 is an error here;
the program does not check it. -/
def rowLen (shape : List Nat) (b : Nat) : Option Nat :=
  match b with
  | 0 => none
  | b + 1 => some (shape.drop (b + 1)).prod

/-- The sum of squares of a row (vat_noise.cpp:59-62); 1e-8 is the constant of the program. -/
noncomputable def sumLoop (x : Nat → ℝ) (off : Nat) : Nat → ℝ
  | 0 => 1 / 100000000
  | k + 1 => sumLoop x off k + x (off + k) * x (off + k)

/-- The row is written (vat_noise.cpp:64-66). -/
noncomputable def writeRow (x : Nat → ℝ) (scale : ℝ) (off : Nat) (y : Nat → ℝ) : Nat → Nat → ℝ
  | 0 => y
  | k + 1 => Function.update (writeRow x scale off y k) (off + k) (scale * x (off + k))

/-- The loop over the rows (vat_noise.cpp:56-67). -/
noncomputable def rows (x : Nat → ℝ) (eps : ℝ) (m : Nat) (y : Nat → ℝ) : Nat → Nat → ℝ
  | 0 => y
  | i + 1 => writeRow x (eps / Real.sqrt (sumLoop x (i * m) m)) (i * m) (rows x eps m y i) m

/-- setup_impl and forward_impl (vat_noise.cpp:29-68) for inputs of equal shapes; a division by zero is an error. -/
noncomputable def forward (shape : List Nat) (axis : Int) (eps : ℝ) (x y : Nat → ℝ) : Except String (Nat → ℝ) :=
  match refineAxis axis shape.length with
  | none => .error "axis out of range"
  | some b =>
    match rowLen shape b with
    | none => .error "read outside of the strides"
    | some 0 => .error "division by zero"
    | some (m + 1) => .ok (rows x eps (m + 1) y (shape.prod / (m + 1)))

/-- The buffers of the two inputs. -/
structure Bufs where
  xData : Nat → ℝ
  xGrad : Nat → ℝ
  wData : Nat → ℝ
  wGrad : Nat → ℝ

/-- The loop of backward_impl (vat_noise.cpp:75-80); propagate_down and accum are not looked at. -/
noncomputable def backLoop (eps : ℝ) (dy : Nat → ℝ) (w : Nat → ℝ) : Nat → Nat → ℝ
  | 0 => w
  | i + 1 => Function.update (backLoop eps dy w i) i (dy i * eps)

/-- backward_impl (vat_noise.cpp:70-81): cast with write_only to the data of w. -/
noncomputable def backwardImpl (size : Nat) (eps : ℝ) (dy : Nat → ℝ) (s : Bufs) : Bufs :=
  { s with wData := backLoop eps dy s.wData size }

/-- Function::backward (/repo/src/nbla/function.cpp:165-173): the gradients to be written and not accumulated are set to zero before
backward_impl; `pd` is propagate_down. -/
noncomputable def backward (size : Nat) (eps : ℝ) (pd0 pd1 acc0 acc1 : Bool) (dy : Nat → ℝ) (s : Bufs) : Bufs :=
  backwardImpl size eps dy { s with
    xGrad := if pd0 && !acc0 then (fun i => if i < size then 0 else s.xGrad i) else s.xGrad
    wGrad := if pd1 && !acc1 then (fun i => if i < size then 0 else s.wGrad i) else s.wGrad }

theorem sumLoop_eq (x : Nat → ℝ) (off k : Nat) : sumLoop x off k = (∑ j ∈ range k, x (off + j) ^ 2) + 1 / 100000000 := by
  induction k with
  | zero => simp [sumLoop]
  | succ k ih => rw [sumLoop, ih, sum_range_succ]; ring

theorem writeRow_apply (x : Nat → ℝ) (s : ℝ) (off : Nat) (y : Nat → ℝ) (k p : Nat) :
    writeRow x s off y k p = if off ≤ p ∧ p < off + k then s * x p else y p := by
  induction k with
  | zero => rw [writeRow, if_neg (by omega)]
  | succ k ih =>
    rw [writeRow]
    by_cases h : p = off + k
    · subst h; rw [Function.update_self, if_pos (by omega)]
    · rw [Function.update_of_ne h, ih]
      by_cases h2 : off ≤ p ∧ p < off + k
      · rw [if_pos h2, if_pos (by omega)]
      · rw [if_neg h2, if_neg (by omega)]

theorem rows_apply (x : Nat → ℝ) (eps : ℝ) (m : Nat) (y : Nat → ℝ) (n : Nat) :
    (∀ i < n, ∀ k < m, rows x eps m y n (i * m + k) = eps / Real.sqrt (sumLoop x (i * m) m) * x (i * m + k)) ∧
      ∀ p, n * m ≤ p → rows x eps m y n p = y p := by
  induction n with
  | zero => exact ⟨fun i hi => absurd hi (by omega), fun p _ => rfl⟩
  | succ n ih =>
    obtain ⟨h1, h2⟩ := ih
    constructor
    · intro i hi k hk
      rw [rows, writeRow_apply]
      by_cases h : i = n
      · subst h; rw [if_pos (by omega)]
      · have hlt : i + 1 ≤ n := by omega
        have := Nat.mul_le_mul_right m hlt
        rw [Nat.add_mul, Nat.one_mul] at this
        rw [if_neg (by omega)]
        exact h1 i (by omega) k hk
    · intro p hp
      rw [Nat.add_mul, Nat.one_mul] at hp
      rw [rows, writeRow_apply, if_neg (by omega)]
      exact h2 p (by omega)

/-- The specification (functions.yaml, VATNoise): every sample of `m` consecutive elements is scaled to l2 norm eps, up to c = 1e-8. -/
def IsNoise (eps : ℝ) (m n : Nat) (x y : Nat → ℝ) : Prop :=
  ∀ i < n, ∀ k < m, y (i * m + k) = eps * x (i * m + k) / Real.sqrt ((∑ j ∈ range m, x (i * m + j) ^ 2) + 1 / 100000000)

/-- refine_axis for the two ways to write axis b. -/
theorem refineAxis_eq (nd b : Nat) (hb : b < nd) (axis : Int) (ha : axis = b ∨ axis = (b : Int) - nd) :
    refineAxis axis nd = some b := by
  unfold refineAxis
  rw [if_pos (by omega)]
  rcases ha with rfl | rfl
  · rw [if_neg (by omega)]; simp
  · rw [if_pos (by omega)]; congr 1; omega

/-- C221 (forward). For every shape without an empty dimension and every base axis b with 1 ≤ b < ndim, written from the front or from the back: every
sample (the dimensions from b on) is scaled as documented and nothing is written behind the array. -/
theorem C221_forward_partial (shape : List Nat) (b : Nat) (axis : Int) (eps : ℝ) (x y : Nat → ℝ) (hb : 1 ≤ b) (hb2 : b < shape.length)
    (ha : axis = b ∨ axis = (b : Int) - shape.length) (hpos : ∀ d ∈ shape, 0 < d) :
    ∃ y', forward shape axis eps x y = .ok y' ∧ IsNoise eps (shape.drop b).prod (shape.take b).prod x y' ∧
      ∀ p, shape.prod ≤ p → y' p = y p := by
  have hm : 0 < (shape.drop b).prod := List.prod_pos (fun d hd => hpos d (List.mem_of_mem_drop hd))
  have hprod : (shape.take b).prod * (shape.drop b).prod = shape.prod := List.prod_take_mul_prod_drop shape b
  obtain ⟨b, rfl⟩ : ∃ c, b = c + 1 := ⟨b - 1, by omega⟩
  obtain ⟨m, hm'⟩ : ∃ c, (shape.drop (b + 1)).prod = c + 1 := ⟨_, (Nat.succ_pred_eq_of_pos hm).symm⟩
  have hn : shape.prod / (m + 1) = (shape.take (b + 1)).prod := by
    rw [← hprod, hm', Nat.mul_div_cancel _ (by omega)]
  refine ⟨rows x eps (m + 1) y (shape.prod / (m + 1)), ?_, ?_, ?_⟩
  · unfold forward
    rw [refineAxis_eq _ _ hb2 axis ha]
    simp only [rowLen, hm']
  · rw [hn, hm']
    intro i hi k hk
    rw [(rows_apply x eps (m + 1) y _).1 i hi k hk, sumLoop_eq]
    ring
  · intro p hp
    refine (rows_apply x eps (m + 1) y _).2 p ?_
    rw [hn, ← hm', hprod]; exact hp

/-- C221 (norm). The l2 norm of every sample of the noise is below |eps| unless eps = 0, and it is eps times |x| / sqrt(|x|² + c). -/
theorem C221_norm (eps : ℝ) (m n : Nat) (x y : Nat → ℝ) (h : IsNoise eps m n x y) (i : Nat) (hi : i < n) :
    (∑ k ∈ range m, y (i * m + k) ^ 2) =
        eps ^ 2 * (∑ k ∈ range m, x (i * m + k) ^ 2) / ((∑ k ∈ range m, x (i * m + k) ^ 2) + 1 / 100000000) ∧
      (∑ k ∈ range m, y (i * m + k) ^ 2) ≤ eps ^ 2 ∧
      (eps ≠ 0 → (∑ k ∈ range m, y (i * m + k) ^ 2) < eps ^ 2) := by
  set S := ∑ k ∈ range m, x (i * m + k) ^ 2 with hS
  have hS0 : 0 ≤ S := sum_nonneg fun k _ => sq_nonneg _
  have hc : 0 < S + 1 / 100000000 := by positivity
  have heq : (∑ k ∈ range m, y (i * m + k) ^ 2) = eps ^ 2 * S / (S + 1 / 100000000) := by
    rw [hS, mul_sum, sum_div]
    refine sum_congr rfl fun k hk => ?_
    rw [h i hi k (mem_range.1 hk), div_pow, Real.sq_sqrt (by rw [← hS]; exact hc.le), mul_pow]
  refine ⟨heq, ?_, fun he => ?_⟩
  · rw [heq, div_le_iff₀ hc]
    nlinarith [sq_nonneg eps]
  · rw [heq, div_lt_iff₀ hc]
    have : 0 < eps ^ 2 := by positivity
    nlinarith

example (x y : Nat → ℝ) : ∃ y', forward [2, 3, 4] (-2) 1 x y = .ok y' ∧ IsNoise 1 12 2 x y' ∧ ∀ p, 24 ≤ p → y' p = y p :=
  C221_forward_partial [2, 3, 4] 1 (-2) 1 x y (by decide) (by decide) (Or.inr (by decide)) (by decide)

/-- What is false: base axis 0 (one sample) passes the checks, and strides()[-1] is read; an empty sample divides by zero. -/
theorem C221_base_axis_zero (d : Nat) (shape : List Nat) (eps : ℝ) (x y : Nat → ℝ) :
    forward (d :: shape) 0 eps x y = .error "read outside of the strides" ∧
      forward (d :: shape) (-((d :: shape).length : Int)) eps x y = .error "read outside of the strides" := by
  constructor <;> unfold forward
  · rw [refineAxis_eq _ 0 (by simp) 0 (Or.inl rfl)]; rfl
  · rw [refineAxis_eq _ 0 (by simp) _ (Or.inr (by simp))]; rfl

example (x y : Nat → ℝ) : forward [2, 0] 1 1 x y = .error "division by zero" := by
  unfold forward
  rw [refineAxis_eq _ 1 (by simp) 1 (Or.inl rfl)]
  simp [rowLen]

/-- C222. After backward, w holds eps times the gradient of the output, for every element, whatever it held before and whatever flags are
given; the data of x is as before; a gradient that is to be written is 0, one that is to be accumulated or not propagated to is as
before: the contribution of this function is 0. -/
theorem C222_backward (size : Nat) (eps : ℝ) (pd0 pd1 acc0 acc1 : Bool) (dy : Nat → ℝ) (s : Bufs) :
    let s' := backward size eps pd0 pd1 acc0 acc1 dy s
    (∀ i < size, s'.wData i = eps * dy i) ∧ (∀ i, size ≤ i → s'.wData i = s.wData i) ∧ s'.xData = s.xData ∧
      (∀ i < size, s'.xGrad i = if pd0 = true ∧ acc0 = false then 0 else s.xGrad i) ∧
      (∀ i < size, s'.wGrad i = if pd1 = true ∧ acc1 = false then 0 else s.wGrad i) := by
  intro s'
  have key : ∀ n p, backLoop eps dy s.wData n p = if p < n then dy p * eps else s.wData p := by
    intro n
    induction n with
    | zero => intro p; simp [backLoop]
    | succ n ih =>
      intro p
      rw [backLoop]
      by_cases h : p = n
      · subst h; rw [Function.update_self, if_pos (by omega)]
      · rw [Function.update_of_ne h, ih]
        by_cases h2 : p < n
        · rw [if_pos h2, if_pos (by omega)]
        · rw [if_neg h2, if_neg (by omega)]
  refine ⟨fun i hi => ?_, fun i hi => ?_, rfl, fun i hi => ?_, fun i hi => ?_⟩
  · change backLoop eps dy s.wData size i = _
    rw [key, if_pos hi, mul_comm]
  · change backLoop eps dy s.wData size i = _
    rw [key, if_neg (by omega)]
  · change (if pd0 && !acc0 then (fun i => if i < size then 0 else s.xGrad i) else s.xGrad) i = _
    cases pd0 <;> cases acc0 <;> simp [hi]
  · change (if pd1 && !acc1 then (fun i => if i < size then 0 else s.wGrad i) else s.wGrad) i = _
    cases pd1 <;> cases acc1 <;> simp [hi]

example : let s' := backward 2 2 true false false false (fun _ => 3) ⟨fun _ => 0, fun _ => 7, fun _ => 1, fun _ => 5⟩
    s'.wData 1 = 6 ∧ s'.xGrad 1 = 0 ∧ s'.wGrad 1 = 5 := by
  intro s'
  obtain ⟨h1, _, _, h4, h5⟩ := C222_backward 2 2 true false false false (fun _ => 3) ⟨fun _ => 0, fun _ => 7, fun _ => 1, fun _ => 5⟩
  refine ⟨?_, ?_, ?_⟩
  · rw [h1 1 (by decide)]; norm_num
  · rw [h4 1 (by decide)]; simp
  · rw [h5 1 (by decide)]; simp

end Verif.Vat
