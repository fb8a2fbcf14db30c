import Mathlib.Data.Real.Basic
import Mathlib.Algebra.BigOperators.Intervals
import Mathlib.Algebra.BigOperators.Field
import Mathlib.Algebra.Order.BigOperators.Group.Finset
import Mathlib.Tactic.Linarith
import Mathlib.Tactic.Ring
import Mathlib.Tactic.FieldSimp
import Mathlib.Tactic.NormNum
/-
BinaryWeightAffine (/repo/src/nbla/function/generic/binary_weight_affine.cpp): the binarized weights. Property C230.
Exact reals; a weight matrix is a function of (row, column) with w_row rows.
-/
namespace Verif.BinWeight

open Finset

/-- Sign (/repo/include/nbla/function/sign.hpp:48-50); `z` is quantize_zero_to. -/
noncomputable def sign (z x : ℝ) : ℝ := if x > 0 then 1 else if x < 0 then -1 else z

/-- Sum over axis 1 of a matrix with `n` columns (binary_weight_affine.cpp:97-98). -/
def sumAxis1 (n : Nat) (m : Nat → Nat → ℝ) (r : Nat) : ℝ := ∑ c ∈ range n, m r c

/-- alpha in inputs[3] (binary_weight_affine.cpp:88-102): transpose, absolute values, sum over axis 1, times 1 / w_row. -/
noncomputable def alpha (rows : Nat) (w : Nat → Nat → ℝ) : Nat → ℝ :=
  let t : Nat → Nat → ℝ := fun i j => w j i
  let a : Nat → Nat → ℝ := fun i j => |t i j|
  fun j => sumAxis1 rows a j * (1 / rows)

/-- The binary weights in inputs[2] (binary_weight_affine.cpp:105-106). -/
noncomputable def binary (z : ℝ) (w : Nat → Nat → ℝ) : Nat → Nat → ℝ := fun i j => sign z (w i j)

/-- scaled_weights_ (binary_weight_affine.cpp:108-111): alpha of shape (1, w_col) is broadcast over the rows. -/
noncomputable def scaled (z : ℝ) (rows : Nat) (w : Nat → Nat → ℝ) : Nat → Nat → ℝ := fun i j => binary z w i j * alpha rows w j

/-- The gradient of the weights (binary_weight_affine.cpp:141-146; sign.hpp:50; function.cpp:165-171): `gs` is the gradient of the affine function
with respect to the scaled weights. -/
def gradW (pd accum : Bool) (gs old : Nat → Nat → ℝ) : Nat → Nat → ℝ :=
  fun i j => if pd then (if accum then old i j + gs i j else gs i j) else old i j

/-- The squared distance of column j of w to a times b. -/
def dist (rows : Nat) (w : Nat → Nat → ℝ) (j : Nat) (b : Nat → ℝ) : ℝ := ∑ i ∈ range rows, (w i j - b i) ^ 2

theorem mul_sign (z x : ℝ) : x * sign z x = |x| := by
  unfold sign
  split
  · next h => rw [mul_one, abs_of_pos h]
  · split
    · next h => rw [abs_of_neg h]; ring
    · next h1 h2 =>
      have : x = 0 := le_antisymm (not_lt.1 h1) (not_lt.1 h2)
      rw [this]; simp

theorem sign_sq_le (z x : ℝ) (hz : z ^ 2 ≤ 1) : sign z x ^ 2 ≤ 1 := by
  unfold sign
  split
  · norm_num
  · split
    · norm_num
    · exact hz

/-- C230 (scale). The scale of output j is the mean of the absolute values of its weights, the weights used are +scale or -scale by
the sign of the weight, and scale times quantize_zero_to for weights that are 0. -/
theorem C230_values (z : ℝ) (rows : Nat) (w : Nat → Nat → ℝ) (j : Nat) :
    alpha rows w j = (∑ i ∈ range rows, |w i j|) / rows ∧
      (∀ i, (0 < w i j → scaled z rows w i j = (∑ i ∈ range rows, |w i j|) / rows) ∧
        (w i j < 0 → scaled z rows w i j = -((∑ i ∈ range rows, |w i j|) / rows)) ∧
        (w i j = 0 → scaled z rows w i j = z * ((∑ i ∈ range rows, |w i j|) / rows))) := by
  have ha : alpha rows w j = (∑ i ∈ range rows, |w i j|) / rows := by
    unfold alpha sumAxis1
    rw [mul_one_div]
  refine ⟨ha, fun i => ⟨fun h => ?_, fun h => ?_, fun h => ?_⟩⟩
  · unfold scaled binary sign; rw [if_pos h, ha, one_mul]
  · unfold scaled binary sign; rw [if_neg (by linarith), if_pos h, ha, neg_one_mul]
  · unfold scaled binary sign; rw [if_neg (by linarith), if_neg (by linarith), ha]

/-- C230 (optimality). No approximation of the weights of an output by a scale a and signs b i ∈ {1, -1} is better than the one used, if quantize_zero_to is in
[-1, 1] (the default is 1). -/
theorem C230_optimal_partial (z : ℝ) (hz : z ^ 2 ≤ 1) (rows : Nat) (hr : 0 < rows) (w : Nat → Nat → ℝ) (j : Nat) (a : ℝ) (b : Nat → ℝ)
    (hb : ∀ i < rows, b i = 1 ∨ b i = -1) :
    dist rows w j (fun i => scaled z rows w i j) ≤ dist rows w j (fun i => a * b i) := by
  have hn : (0 : ℝ) < rows := by exact_mod_cast hr
  set S := ∑ i ∈ range rows, |w i j| with hS
  set Q := ∑ i ∈ range rows, w i j ^ 2 with hQ
  have hα : alpha rows w j = S / rows := (C230_values z rows w j).1
  have h1 : dist rows w j (fun i => scaled z rows w i j) ≤ Q - S ^ 2 / rows := by
    have : dist rows w j (fun i => scaled z rows w i j) ≤ ∑ i ∈ range rows, (w i j ^ 2 - 2 * (S / rows) * |w i j| + (S / rows) ^ 2) := by
      refine sum_le_sum fun i _ => ?_
      simp only [scaled, binary]
      rw [hα]
      have e1 := mul_sign z (w i j)
      have e2 := sign_sq_le z (w i j) hz
      have e3 : 0 ≤ (S / rows) ^ 2 := sq_nonneg _
      have e4 : (w i j - sign z (w i j) * (S / rows)) ^ 2 =
          w i j ^ 2 - 2 * (S / rows) * (w i j * sign z (w i j)) + sign z (w i j) ^ 2 * (S / rows) ^ 2 := by ring
      rw [e4, e1]
      nlinarith
    refine this.trans (le_of_eq ?_)
    rw [sum_add_distrib, sum_sub_distrib, ← mul_sum, sum_const, card_range, nsmul_eq_mul, ← hS, ← hQ]
    field_simp
    ring
  have h2 : Q - S ^ 2 / rows ≤ dist rows w j (fun i => a * b i) := by
    have e1 : dist rows w j (fun i => a * b i) ≥ ∑ i ∈ range rows, (w i j ^ 2 - 2 * |a| * |w i j| + a ^ 2) := by
      refine sum_le_sum fun i hi => ?_
      have hb2 : b i ^ 2 = 1 := by rcases hb i (mem_range.1 hi) with h | h <;> rw [h] <;> norm_num
      have hb3 : |b i| = 1 := by rcases hb i (mem_range.1 hi) with h | h <;> rw [h] <;> norm_num
      have e : w i j * (a * b i) ≤ |a| * |w i j| := by
        refine (le_abs_self _).trans (le_of_eq ?_)
        rw [abs_mul, abs_mul, hb3]; ring
      have e4 : (w i j - a * b i) ^ 2 = w i j ^ 2 - 2 * (w i j * (a * b i)) + a ^ 2 * b i ^ 2 := by ring
      simp only
      rw [e4, hb2]
      linarith
    refine le_trans ?_ e1
    rw [sum_add_distrib, sum_sub_distrib, ← mul_sum, sum_const, card_range, nsmul_eq_mul, ← hS, ← hQ]
    have e5 : 0 ≤ rows * (|a| - S / rows) ^ 2 := mul_nonneg hn.le (sq_nonneg _)
    have e6 : rows * (|a| - S / rows) ^ 2 = rows * a ^ 2 - 2 * |a| * S + S ^ 2 / rows := by
      rw [← sq_abs a]
      field_simp
      ring
    rw [e6] at e5
    linarith
  exact h1.trans h2

/-- The gradient is passed straight through, once, and only if asked for. -/
theorem C230_gradient (accum : Bool) (gs old : Nat → Nat → ℝ) (i j : Nat) :
    gradW true accum gs old i j = (if accum then old i j else 0) + gs i j ∧ gradW false accum gs old i j = old i j := by
  cases accum <;> simp [gradW]

/-- A case: weights 3, -1, 0 of one output: scale 4/3. -/
example : alpha 3 (fun i _ => if i = 0 then 3 else if i = 1 then -1 else 0) 0 = 4 / 3 := by
  rw [(C230_values 1 3 _ 0).1]
  norm_num [sum_range_succ]
example : dist 3 (fun i _ => if i = 0 then 3 else if i = 1 then -1 else 0) 0
    (fun i => scaled 1 3 (fun i _ => if i = 0 then 3 else if i = 1 then -1 else 0) i 0) ≤
    dist 3 (fun i _ => if i = 0 then 3 else if i = 1 then -1 else 0) 0 (fun _ => 2 * (1 : ℝ)) :=
  C230_optimal_partial 1 (by norm_num) 3 (by norm_num) _ 0 2 (fun _ => 1) (fun _ _ => Or.inl rfl)

/-- What is false: the documentation gives the scale 1 / |w_j|; for the single weight 2 it would be 1/2, the program uses 2. -/
theorem C230_documented_scale_false : alpha 1 (fun _ _ => 2) 0 = 2 ∧ (1 : ℝ) / ∑ _i ∈ range 1, |(2 : ℝ)| = 1 / 2 := by
  constructor
  · rw [(C230_values 1 1 _ 0).1]; norm_num
  · norm_num

/-- What is false: quantize_zero_to outside of [-1, 1] is accepted; with 2, the weights 1, 0 are approximated worse than by 1/2, 1/2. -/
theorem C230_zero_refuted : dist 2 (fun i _ => if i = 0 then 1 else 0) 0 (fun _ => (1 / 2 : ℝ) * 1) <
    dist 2 (fun i _ => if i = 0 then 1 else 0) 0 (fun i => scaled 2 2 (fun i _ => if i = 0 then 1 else 0) i 0) := by
  have hα : alpha 2 (fun i _ => if i = 0 then (1 : ℝ) else 0) 0 = 1 / 2 := by
    rw [(C230_values 1 2 _ 0).1]; norm_num [sum_range_succ]
  unfold dist scaled binary sign
  rw [hα]
  norm_num [sum_range_succ]

end Verif.BinWeight
