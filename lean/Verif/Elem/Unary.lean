import Mathlib.Analysis.SpecialFunctions.ExpDeriv
import Mathlib.Analysis.SpecialFunctions.Log.Deriv
import Mathlib.Analysis.SpecialFunctions.Pow.Deriv
import Mathlib.Analysis.SpecialFunctions.Sqrt
import Mathlib.Analysis.SpecialFunctions.Arsinh
import Mathlib.Analysis.SpecialFunctions.Arcosh
import Mathlib.Analysis.SpecialFunctions.Artanh
import Mathlib.Analysis.SpecialFunctions.Trigonometric.DerivHyp
import Mathlib.Analysis.SpecialFunctions.Trigonometric.ArctanDeriv
import Mathlib.Analysis.SpecialFunctions.Trigonometric.InverseDeriv
import Mathlib.Analysis.SpecialFunctions.Trigonometric.Sinc
import Mathlib.Analysis.Calculus.Deriv.Abs
import Mathlib.MeasureTheory.Integral.IntervalIntegral.FundThmCalculus
/-
The elementwise functions of one input with a declared gradient formula (NBLA_DEFINE_TRANSFORM_UNARY and the
three hand-written rectifiers), over the real numbers.
Simplification: exact reals in place of float/half/double; std::pow on negative bases with integer exponents is
Mathlib's real power; std::erf is its defining integral.
-/
namespace Verif.Elem
open Real

/-- The functions; parameters are those of the C++ classes. -/
inductive Unary
  | abs | exp | log | sigmoid | tanh | elu (a : ℝ) | softPlus (a : ℝ) | gelu | swish | mish | logSigmoid
  | softSign | tanhShrink | sinc | powScalar (a : ℝ) | rDivScalar (a : ℝ) | rPowScalar (a : ℝ) | rSubScalar (a : ℝ)
  | mulScalar (a : ℝ) | addScalar (a : ℝ) | maximumScalar (a : ℝ) | minimumScalar (a : ℝ) | hardSigmoid | hardTanh
  | relu6 | sin | cos | tan | sinh | cosh | asin | acos | atan | asinh | acosh | atanh | erf
  | relu | leakyRelu (α : ℝ) | selu (scale α : ℝ)

/-- The error function, std::erf. -/
noncomputable def erfFn (x : ℝ) : ℝ := 2 / √π * ∫ t in (0 : ℝ)..x, Real.exp (-(t * t))

open Classical in
/-- The OP argument of each NBLA_DEFINE_TRANSFORM_UNARY, the forward_impl of the rectifiers. -/
noncomputable def Unary.forward : Unary → ℝ → ℝ
  | abs, x => |x|                                                           -- abs.hpp:42
  | exp, x => Real.exp x                                                    -- exp.hpp:30
  | log, x => Real.log x                                                    -- log.hpp:30
  | sigmoid, x => 1 / (1 + Real.exp (-x))                                   -- sigmoid.hpp:42
  | tanh, x => Real.tanh x                                                  -- tanh.hpp:42
  | elu a, x => if x ≥ 0 then x else a * (Real.exp x - 1)                   -- elu.hpp:54
  | softPlus a, x => if x > 0 then x + Real.log (Real.exp (-x * a) + 1) / a
      else Real.log (Real.exp (x * a) + 1) / a                              -- softplus.hpp:41-42
  | gelu, x => x / 2 * (1 + Real.tanh (√(2 / π) * (x + 0.044715 * x ^ 3)))  -- gelu.hpp:43-44
  | swish, x => x / (1 + Real.exp (-x))                                     -- swish.hpp:49
  | mish, x => x * Real.tanh (Real.log (Real.exp x + 1))                    -- mish.hpp:38
  | logSigmoid, x => if x > 0 then -Real.log (Real.exp (-x) + 1)
      else x - Real.log (Real.exp x + 1)                                    -- log_sigmoid.hpp:45-46
  | softSign, x => x / (1 + |x|)                                            -- softsign.hpp:44
  | tanhShrink, x => x - Real.tanh x                                        -- tanh_shrink.hpp:44
  | sinc, x => if x = 0 then 1 else Real.sin x / x                          -- sinc.hpp:45
  | powScalar a, x => if a = 0.5 then √x else x ^ a                         -- pow_scalar.hpp:45-46
  | rDivScalar a, x => a / x                                                -- r_div_scalar.hpp:43
  | rPowScalar a, x => a ^ x                                                -- r_pow_scalar.hpp:43
  | rSubScalar a, x => a - x                                                -- r_sub_scalar.hpp:41
  | mulScalar a, x => x * a                                                 -- mul_scalar.hpp:43
  | addScalar a, x => x + a                                                 -- add_scalar.hpp:43
  | maximumScalar a, x => if x > a then x else a                            -- maximum_scalar.hpp:43
  | minimumScalar a, x => if x < a then x else a                            -- minimum_scalar.hpp:43
  | hardSigmoid, x => if x > 2.5 then 1 else if x < -2.5 then 0 else 0.2 * x + 0.5  -- hard_sigmoid.hpp:47
  | hardTanh, x => if x > 1 then 1 else if x < -1 then -1 else x            -- hard_tanh.hpp:46
  | relu6, x => min (max x 0) 6                                             -- relu6.hpp:44
  | sin, x => Real.sin x                                                    -- sin.hpp:40
  | cos, x => Real.cos x                                                    -- cos.hpp:40
  | tan, x => Real.tan x                                                    -- tan.hpp:40
  | sinh, x => Real.sinh x                                                  -- sinh.hpp:40
  | cosh, x => Real.cosh x                                                  -- cosh.hpp:40
  | asin, x => Real.arcsin x                                                -- asin.hpp:40
  | acos, x => Real.arccos x                                                -- acos.hpp:40
  | atan, x => Real.arctan x                                                -- atan.hpp:40
  | asinh, x => Real.arsinh x                                               -- asinh.hpp:40
  | acosh, x => Real.arcosh x                                               -- acosh.hpp:40
  | atanh, x => Real.artanh x                                               -- atanh.hpp:40
  | erf, x => erfFn x                                                       -- erf.hpp:45
  | relu, x => max 0 x                                                      -- relu.cpp:38-40
  | leakyRelu α, x => if x > 0 then x else α * x                            -- leaky_relu.cpp:42-48
  | selu s α, x => if x > 0 then s * x else α * s * (Real.exp x - 1)        -- selu.cpp:40-43

open Classical in
/-- The GOP argument (gradient formula), the backward_impl of the rectifiers. -/
noncomputable def Unary.grad : Unary → (dy x y : ℝ) → ℝ
  | abs, dy, x, _ => if x < 0 then -dy else dy                              -- abs.hpp:42
  | exp, dy, _, y => y * dy                                                 -- exp.hpp:30
  | log, dy, x, _ => dy / x                                                 -- log.hpp:30
  | sigmoid, dy, _, y => dy * y * (1 - y)                                   -- sigmoid.hpp:43
  | tanh, dy, _, y => dy * (1 - y * y)                                      -- tanh.hpp:42
  | elu a, dy, x, _ => if x ≥ 0 then dy else dy * a * Real.exp x            -- elu.hpp:55
  | softPlus a, dy, x, _ => dy / (1 + Real.exp (-a * x))                    -- softplus.hpp:43
  | gelu, dy, x, _ => dy * (0.5 * (1 + Real.tanh (√(2 / π) * (x + 0.044715 * x ^ 3))) +
      0.5 * x * (1 - Real.tanh (√(2 / π) * (x + 0.044715 * x ^ 3)) ^ 2) * √(2 / π) * (1 + 0.134145 * x ^ 2))  -- gelu.hpp:45-51
  | swish, dy, x, y => dy * (y + 1 / (1 + Real.exp (-x)) * (1 - y))         -- swish.hpp:50-51
  | mish, dy, x, _ => dy * Real.exp x * (4 * (x + 1) + 4 * Real.exp (2 * x) + Real.exp (3 * x) +
      Real.exp x * (4 * x + 6)) / (2 * Real.exp x + Real.exp (2 * x) + 2) ^ 2  -- mish.hpp:39-42
  | logSigmoid, dy, x, _ => dy / (Real.exp x + 1)                           -- log_sigmoid.hpp:47
  | softSign, dy, x, _ => dy / (1 + |x|) ^ 2                                -- softsign.hpp:45
  | tanhShrink, dy, x, _ => dy * Real.tanh x ^ 2                            -- tanh_shrink.hpp:45
  | sinc, dy, x, _ => if x = 0 then 0 else dy * (Real.cos x - Real.sin x / x) / x  -- sinc.hpp:46-48
  | powScalar a, dy, x, _ => dy * a * x ^ (a - 1)                           -- pow_scalar.hpp:47
  | rDivScalar a, dy, x, _ => dy * (-a / (x * x))                           -- r_div_scalar.hpp:43
  | rPowScalar a, dy, x, _ => dy * a ^ x * Real.log a                       -- r_pow_scalar.hpp:44
  | rSubScalar _, dy, _, _ => -dy                                           -- r_sub_scalar.hpp:41
  | mulScalar a, dy, _, _ => dy * a                                         -- mul_scalar.hpp:43
  | addScalar _, dy, _, _ => dy                                             -- add_scalar.hpp:43
  | maximumScalar a, dy, x, _ => if x > a then dy else 0                    -- maximum_scalar.hpp:44
  | minimumScalar a, dy, x, _ => if x < a then dy else 0                    -- minimum_scalar.hpp:44
  | hardSigmoid, dy, x, _ => if x ≤ 2.5 ∧ -2.5 ≤ x then dy * 0.2 else 0     -- hard_sigmoid.hpp:48
  | hardTanh, dy, x, _ => if -1 ≤ x ∧ x ≤ 1 then dy else 0                  -- hard_tanh.hpp:47
  | relu6, dy, x, _ => if 0 < x ∧ x < 6 then dy else 0                      -- relu6.hpp:45
  | sin, dy, x, _ => dy * Real.cos x                                        -- sin.hpp:40
  | cos, dy, x, _ => -dy * Real.sin x                                       -- cos.hpp:40
  | tan, dy, x, _ => dy / Real.cos x ^ 2                                    -- tan.hpp:40
  | sinh, dy, x, _ => dy * Real.cosh x                                      -- sinh.hpp:40
  | cosh, dy, x, _ => dy * Real.sinh x                                      -- cosh.hpp:40
  | asin, dy, x, _ => dy / √(1 - x * x)                                     -- asin.hpp:40
  | acos, dy, x, _ => -dy / √(1 - x * x)                                    -- acos.hpp:40
  | atan, dy, x, _ => dy / (1 + x * x)                                      -- atan.hpp:40
  | asinh, dy, x, _ => dy / √(x * x + 1)                                    -- asinh.hpp:40
  | acosh, dy, x, _ => dy / √(x * x - 1)                                    -- acosh.hpp:40
  | atanh, dy, x, _ => dy / (1 - x * x)                                     -- atanh.hpp:40
  | erf, dy, x, _ => 2 / √π * Real.exp (-(x * x)) * dy                      -- erf.hpp:46
  | relu, dy, _, y => if y > 0 then dy else 0                               -- relu.cpp:42-50
  | leakyRelu α, dy, x, y => if (if α ≥ 0 then y else x) > 0 then dy else α * dy  -- leaky_relu.cpp:50-84
  | selu s α, dy, x, _ => if x > 0 then s * dy else α * s * Real.exp x * dy  -- selu.cpp:56-71

open Classical in
/-- `grad_depends_output_data(0, 0)`: the DEP_Y argument of each macro (same lines as above; relu.hpp:64,
leaky_relu.hpp:72-74, selu.hpp:107). -/
noncomputable def Unary.depY : Unary → Bool
  | exp | sigmoid | tanh | gelu | swish | relu => true
  | leakyRelu α => decide (α ≥ 0)
  | _ => false

open Classical in
/-- `grad_depends_input_data(0, 0)`: the DEP_X argument (relu.hpp:75-77, leaky_relu.hpp:85-87, selu.hpp:118). -/
noncomputable def Unary.depX : Unary → Bool
  | exp | sigmoid | tanh | relu | rSubScalar _ | mulScalar _ | addScalar _ => false
  | leakyRelu α => decide (α < 0)
  | _ => true

/-! ### Specification -/

/-- Where the mathematical function is defined and has a finite slope on both sides (for valid parameters). -/
def Unary.domain : Unary → Set ℝ
  | log => {x | 0 < x}
  | softPlus a => {_x | a ≠ 0}
  | powScalar a => {x | 0 < x ∨ ((∃ n : ℤ, a = n) ∧ (x ≠ 0 ∨ 1 ≤ a))}
  | rDivScalar _ => {x | x ≠ 0}
  | rPowScalar a => {_x | 0 < a}
  | tan => {x | Real.cos x ≠ 0}
  | asin | acos | atanh => {x | -1 < x ∧ x < 1}
  | acosh => {x | 1 < x}
  | _ => Set.univ

/-- The points where left and right slope may differ. -/
def Unary.kinks : Unary → Set ℝ
  | abs | elu _ | relu | leakyRelu _ | selu _ _ => {0}
  | maximumScalar a | minimumScalar a => {a}
  | hardSigmoid => {-2.5, 2.5}
  | hardTanh => {-1, 1}
  | relu6 => {0, 6}
  | _ => ∅

/-! ### Tools -/

theorem of_gt {f g : ℝ → ℝ} {a d x : ℝ} (h : HasDerivAt g d x) (hx : a < x) (e : ∀ t, a < t → f t = g t) : HasDerivAt f d x :=
  h.congr_of_eventuallyEq (Filter.eventuallyEq_of_mem (lt_mem_nhds hx) fun t ht => e t ht)

theorem of_lt {f g : ℝ → ℝ} {a d x : ℝ} (h : HasDerivAt g d x) (hx : x < a) (e : ∀ t, t < a → f t = g t) : HasDerivAt f d x :=
  h.congr_of_eventuallyEq (Filter.eventuallyEq_of_mem (gt_mem_nhds hx) fun t ht => e t ht)

theorem of_mid {f g : ℝ → ℝ} {a b d x : ℝ} (h : HasDerivAt g d x) (h1 : a < x) (h2 : x < b) (e : ∀ t, a < t → t < b → f t = g t) :
    HasDerivAt f d x :=
  h.congr_of_eventuallyEq (Filter.eventuallyEq_of_mem (Ioo_mem_nhds h1 h2) fun t ht => e t ht.1 ht.2)

/-- A left or a right slope. -/
def OneSided (f : ℝ → ℝ) (d x : ℝ) : Prop := HasDerivWithinAt f d (Set.Iic x) x ∨ HasDerivWithinAt f d (Set.Ici x) x

theorem left_of {f g : ℝ → ℝ} {d x a : ℝ} (h : HasDerivAt g d x) (ha : a < x) (e : ∀ t, a < t → t ≤ x → f t = g t) : OneSided f d x := by
  left
  refine h.hasDerivWithinAt.congr_of_eventuallyEq ?_ (e x ha le_rfl)
  filter_upwards [self_mem_nhdsWithin, mem_nhdsWithin_of_mem_nhds (lt_mem_nhds ha)] with t h1 h2
  exact e t h2 h1

theorem right_of {f g : ℝ → ℝ} {d x a : ℝ} (h : HasDerivAt g d x) (ha : x < a) (e : ∀ t, t < a → x ≤ t → f t = g t) : OneSided f d x := by
  right
  refine h.hasDerivWithinAt.congr_of_eventuallyEq ?_ (e x ha le_rfl)
  filter_upwards [self_mem_nhdsWithin, mem_nhdsWithin_of_mem_nhds (gt_mem_nhds ha)] with t h1 h2
  exact e t h2 h1

theorem hasDerivAt_tanh (x : ℝ) : HasDerivAt Real.tanh (1 - Real.tanh x ^ 2) x := by
  have h : Real.tanh = fun x => Real.sinh x / Real.cosh x := by funext x; exact Real.tanh_eq_sinh_div_cosh x
  rw [h]
  have := (Real.hasDerivAt_sinh x).div (Real.hasDerivAt_cosh x) (Real.cosh_pos x).ne'
  refine this.congr_deriv ?_
  have := (Real.cosh_pos x).ne'
  field_simp

theorem erf_deriv (x : ℝ) : HasDerivAt erfFn (2 / √π * Real.exp (-(x * x))) x := by
  unfold erfFn
  have hc : Continuous fun t : ℝ => Real.exp (-(t * t)) := by fun_prop
  exact (intervalIntegral.integral_hasDerivAt_right (hc.intervalIntegrable _ _) (hc.stronglyMeasurableAtFilter _ _)
    hc.continuousAt).const_mul _

theorem artanh_deriv (x : ℝ) (h : -1 < x ∧ x < 1) : HasDerivAt Real.artanh (1 / (1 - x * x)) x := by
  have h1 : (1 + x) ≠ 0 := by linarith [h.1]
  have h2 : (1 - x) ≠ 0 := by linarith [h.2]
  have e : ∀ t, -1 < t → t < 1 → Real.artanh t = 1 / 2 * Real.log ((1 + t) / (1 - t)) := fun t ht1 ht2 =>
    Real.artanh_eq_half_log ⟨ht1.le, ht2.le⟩
  refine of_mid (g := fun t => 1 / 2 * Real.log ((1 + t) / (1 - t))) ?_ h.1 h.2 e
  have := ((((hasDerivAt_id x).const_add 1).div ((hasDerivAt_id x).const_sub 1) h2).log (div_ne_zero h1 h2)).const_mul (1 / 2)
  refine this.congr_deriv ?_
  have h3 : 1 - x * x ≠ 0 := by
    have : 1 - x * x = (1 + x) * (1 - x) := by ring
    rw [this]; exact mul_ne_zero h1 h2
  simp only [id_eq, Pi.div_apply]
  have h4 : 1 - x * x = (1 + x) * (1 - x) := by ring
  rw [h4]
  field_simp
  ring

theorem sinc_deriv_zero : HasDerivAt (fun x : ℝ => if x = 0 then 1 else Real.sin x / x) 0 0 := by
  rw [hasDerivAt_iff_isLittleO_nhds_zero]
  have hb : (fun h : ℝ => (if 0 + h = 0 then 1 else Real.sin (0 + h) / (0 + h)) - (if (0 : ℝ) = 0 then 1 else Real.sin 0 / 0) - h • (0 : ℝ))
      =O[nhds 0] fun h : ℝ => h ^ 2 := by
    refine Asymptotics.IsBigO.of_bound 1 ?_
    have hm : Set.Ioo (-1 : ℝ) 1 ∈ nhds (0 : ℝ) := Ioo_mem_nhds (by norm_num) (by norm_num)
    filter_upwards [hm] with h hh
    simp only [zero_add, if_true, smul_zero, sub_zero, one_mul, Real.norm_eq_abs]
    by_cases h0 : h = 0
    · subst h0; simp
    · rw [if_neg h0]
      have key : |Real.sin h - (h - h ^ 3 / 6)| ≤ |h| ^ 5 / 100 := Real.sin_bound (abs_le.mpr ⟨hh.1.le, hh.2.le⟩)
      have habs : |h| ≤ 1 := abs_le.mpr ⟨hh.1.le, hh.2.le⟩
      have hpos : 0 < |h| := abs_pos.mpr h0
      have e : Real.sin h / h - 1 = (Real.sin h - (h - h ^ 3 / 6)) / h - h ^ 2 / 6 := by field_simp; ring
      rw [e]
      have h1 : |(Real.sin h - (h - h ^ 3 / 6)) / h| ≤ |h| ^ 4 / 100 := by
        rw [abs_div, div_le_iff₀ hpos]
        calc _ ≤ _ := key
          _ = _ := by ring
      have h2 : |h| ^ 4 ≤ |h| ^ 2 := pow_le_pow_of_le_one hpos.le habs (by norm_num)
      have h3 : |h ^ 2 / 6| = |h| ^ 2 / 6 := by rw [abs_div, abs_pow]; norm_num
      have h4 : |h ^ 2| = |h| ^ 2 := abs_pow h 2
      have := abs_sub (G := ℝ) ((Real.sin h - (h - h ^ 3 / 6)) / h) (h ^ 2 / 6)
      rw [h3] at this
      rw [h4]
      nlinarith [sq_nonneg |h|]
  refine hb.trans_isLittleO ?_
  simpa using (Asymptotics.isLittleO_pow_id (𝕜 := ℝ) (n := 2) (by norm_num))

theorem leaky_sign (α x : ℝ) : (if α ≥ 0 then (Unary.leakyRelu α).forward x else x) > 0 ↔ x > 0 := by
  simp only [Unary.forward]
  by_cases hx : x > 0
  · rw [if_pos hx, ite_self]
  · rw [if_neg hx]
    constructor
    · intro h
      split at h
      · nlinarith
      · exact h
    · intro h; exact absurd h hx

/-- The derivative the formula claims, in the form the proofs use. -/
theorem smooth_deriv (f : Unary) (x : ℝ) (hx : x ∈ f.domain) (hk : x ∉ f.kinks) : HasDerivAt f.forward (f.grad 1 x (f.forward x)) x := by
  cases f with
  | abs =>
    have hk : x ≠ 0 := hk
    simp only [Unary.grad]
    rcases lt_or_gt_of_ne hk with h | h
    · rw [if_pos h]; exact hasDerivAt_abs_neg h
    · rw [if_neg (by linarith)]; exact hasDerivAt_abs_pos h
  | exp => simp only [Unary.grad, Unary.forward, mul_one]; exact Real.hasDerivAt_exp x
  | log => simp only [Unary.grad, one_div]; exact Real.hasDerivAt_log (ne_of_gt hx)
  | sigmoid =>
    simp only [Unary.grad, Unary.forward]
    have hp : 1 + Real.exp (-x) ≠ 0 := by positivity
    have := (hasDerivAt_const x (1 : ℝ)).div (((hasDerivAt_neg x).exp).const_add 1) hp
    refine this.congr_deriv ?_
    field_simp; ring
  | tanh => simp only [Unary.grad, Unary.forward, one_mul]; rw [← sq]; exact hasDerivAt_tanh x
  | elu a =>
    have hk : x ≠ 0 := hk
    simp only [Unary.grad]
    rcases lt_or_gt_of_ne hk with h | h
    · rw [if_neg (by linarith)]
      refine of_lt (g := fun x => a * (Real.exp x - 1)) ?_ h ?_
      · refine (((Real.hasDerivAt_exp x).sub_const 1).const_mul a).congr_deriv ?_; ring
      · intro t ht; simp only [Unary.forward]; rw [if_neg (by linarith)]
    · rw [if_pos h.le]
      refine of_gt (g := fun x => x) (hasDerivAt_id x) h ?_
      intro t ht; simp only [Unary.forward]; rw [if_pos ht.le]
  | softPlus a =>
    have ha : a ≠ 0 := hx
    have e : (Unary.softPlus a).forward = fun x => Real.log (Real.exp (x * a) + 1) / a := by
      funext t
      simp only [Unary.forward]
      split
      · have h1 : Real.exp (t * a) + 1 = Real.exp (t * a) * (Real.exp (-t * a) + 1) := by
          rw [mul_add, ← Real.exp_add]; simp; ring
        rw [h1, Real.log_mul (by positivity) (by positivity), Real.log_exp]
        field_simp
      · rfl
    rw [e]
    simp only [Unary.grad]
    have hp : Real.exp (x * a) + 1 ≠ 0 := by positivity
    have := (((((hasDerivAt_id x).mul_const a).exp).add_const 1).log hp).div_const a
    refine this.congr_deriv ?_
    have h2 : 1 + Real.exp (-a * x) ≠ 0 := by positivity
    have h3 : Real.exp (-a * x) = (Real.exp (x * a))⁻¹ := by rw [← Real.exp_neg]; ring_nf
    have h4 : Real.exp (x * a) ≠ 0 := by positivity
    simp only [id_eq]
    rw [h3]
    field_simp
  | gelu =>
    simp only [Unary.grad, Unary.forward]
    have h1 : HasDerivAt (fun x : ℝ => √(2 / π) * (x + 0.044715 * x ^ 3)) (√(2 / π) * (1 + 0.044715 * (3 * x ^ 2))) x := by
      refine HasDerivAt.const_mul _ ((hasDerivAt_id x).add (HasDerivAt.const_mul _ ?_))
      simpa using hasDerivAt_pow 3 x
    have h2 := (hasDerivAt_tanh (√(2 / π) * (x + 0.044715 * x ^ 3))).comp x h1
    have := ((hasDerivAt_id x).div_const 2).mul (h2.const_add 1)
    refine this.congr_deriv ?_
    simp only [id_eq, Function.comp]
    ring
  | swish =>
    simp only [Unary.grad, Unary.forward]
    have hp : 1 + Real.exp (-x) ≠ 0 := by positivity
    have := (hasDerivAt_id x).div (((hasDerivAt_neg x).exp).const_add 1) hp
    refine this.congr_deriv ?_
    simp only [id_eq]
    field_simp; ring
  | mish =>
    simp only [Unary.grad, Unary.forward]
    have hp : Real.exp x + 1 ≠ 0 := by positivity
    have h1 := (hasDerivAt_tanh (Real.log (Real.exp x + 1))).comp x (((Real.hasDerivAt_exp x).add_const 1).log hp)
    have := (hasDerivAt_id x).mul h1
    refine this.congr_deriv ?_
    simp only [id_eq, Function.comp]
    have ht : Real.tanh (Real.log (Real.exp x + 1)) = ((Real.exp x + 1) ^ 2 - 1) / ((Real.exp x + 1) ^ 2 + 1) := by
      have hp' : 0 < Real.exp x + 1 := by positivity
      rw [Real.tanh_eq_sinh_div_cosh, Real.sinh_eq, Real.cosh_eq, Real.exp_neg, Real.exp_log hp']
      field_simp
    have e2 : Real.exp (2 * x) = Real.exp x ^ 2 := by rw [← Real.exp_nat_mul]; norm_num
    have e3 : Real.exp (3 * x) = Real.exp x ^ 3 := by rw [← Real.exp_nat_mul]; norm_num
    rw [ht, e2, e3]
    generalize he : Real.exp x = u at *
    have hu : 0 < u := by rw [← he]; exact Real.exp_pos x
    have h5 : (u + 1) ^ 2 + 1 ≠ 0 := by positivity
    have h6 : 2 * u + u ^ 2 + 2 ≠ 0 := by positivity
    have h7 : 2 * u + u ^ 2 + 2 = (u + 1) ^ 2 + 1 := by ring
    rw [h7]
    field_simp
    ring
  | logSigmoid =>
    have e : Unary.logSigmoid.forward = fun x => x - Real.log (Real.exp x + 1) := by
      funext t
      simp only [Unary.forward]
      split
      · have h1 : Real.exp t + 1 = Real.exp t * (Real.exp (-t) + 1) := by
          rw [mul_add, ← Real.exp_add]; simp; ring
        rw [h1, Real.log_mul (by positivity) (by positivity), Real.log_exp]
        ring
      · rfl
    rw [e]
    simp only [Unary.grad]
    have hp : Real.exp x + 1 ≠ 0 := by positivity
    refine ((hasDerivAt_id x).sub (((Real.hasDerivAt_exp x).add_const 1).log hp)).congr_deriv ?_
    field_simp; ring
  | softSign =>
    simp only [Unary.grad]
    by_cases h0 : x = 0
    · subst h0
      simp only [abs_zero, add_zero, one_pow, div_one]
      rw [hasDerivAt_iff_tendsto_slope_zero]
      have hc : Continuous fun t : ℝ => 1 / (1 + |t|) := by
        refine continuous_const.div (by fun_prop) ?_
        intro t; positivity
      have ht : Filter.Tendsto (fun t : ℝ => 1 / (1 + |t|)) (nhdsWithin 0 {0}ᶜ) (nhds 1) := by
        have := hc.tendsto 0
        simp only [abs_zero, add_zero, div_one] at this
        exact this.mono_left nhdsWithin_le_nhds
      refine ht.congr' ?_
      filter_upwards [self_mem_nhdsWithin] with t ht
      have ht : t ≠ 0 := ht
      simp only [Unary.forward, zero_add, smul_eq_mul, zero_div, sub_zero]
      field_simp
    · rcases lt_or_gt_of_ne h0 with h | h
      · rw [abs_of_neg h]
        refine of_lt (g := fun x => x / (1 + -x)) ?_ h ?_
        · have hp : 1 + -x ≠ 0 := by linarith
          refine ((hasDerivAt_id x).div ((hasDerivAt_neg x).const_add 1) hp).congr_deriv ?_
          simp only [id_eq]
          field_simp; ring
        · intro t ht; simp only [Unary.forward]; rw [abs_of_neg ht]
      · rw [abs_of_pos h]
        refine of_gt (g := fun x => x / (1 + x)) ?_ h ?_
        · have hp : 1 + x ≠ 0 := by linarith
          refine ((hasDerivAt_id x).div ((hasDerivAt_id x).const_add 1) hp).congr_deriv ?_
          simp only [id_eq]
          field_simp; ring
        · intro t ht; simp only [Unary.forward]; rw [abs_of_pos ht]
  | tanhShrink =>
    simp only [Unary.grad, Unary.forward]
    refine ((hasDerivAt_id x).sub (hasDerivAt_tanh x)).congr_deriv ?_; ring
  | sinc =>
    simp only [Unary.grad]
    by_cases h0 : x = 0
    · subst h0; rw [if_pos rfl]
      refine sinc_deriv_zero.congr_of_eventuallyEq (Filter.Eventually.of_forall fun t => ?_)
      simp only [Unary.forward]
    · rw [if_neg h0]
      have h := (Real.hasDerivAt_sin x).div (hasDerivAt_id x) h0
      have h' : HasDerivAt (fun x => Real.sin x / x) (1 * (Real.cos x - Real.sin x / x) / x) x := by
        refine h.congr_deriv ?_
        simp only [id_eq]; field_simp
      refine h'.congr_of_eventuallyEq ?_
      filter_upwards [isOpen_ne.mem_nhds h0] with t ht
      have ht : t ≠ 0 := ht
      simp only [Unary.forward]; rw [if_neg ht]
  | powScalar a =>
    simp only [Unary.grad, one_mul]
    have e : HasDerivAt (fun x : ℝ => x ^ a) (a * x ^ (a - 1)) x := Real.hasDerivAt_rpow_const (by
      rcases hx with h | h
      · left; exact ne_of_gt h
      · exact h.2)
    by_cases ha : a = 0.5
    · have hx0 : 0 < x := by
        rcases hx with h | ⟨⟨n, hn⟩, _⟩
        · exact h
        · rw [hn] at ha
          have h2 : ((2 * n : ℤ) : ℝ) = (1 : ℤ) := by push_cast; rw [ha]; norm_num
          have := Int.cast_injective h2
          omega
      refine of_gt e hx0 ?_
      intro t ht
      simp only [Unary.forward]
      rw [if_pos ha, Real.sqrt_eq_rpow, ha]; norm_num
    · refine e.congr_of_eventuallyEq (Filter.Eventually.of_forall fun t => ?_)
      simp only [Unary.forward]; rw [if_neg ha]
  | rDivScalar a =>
    simp only [Unary.grad, Unary.forward]
    have hx : x ≠ 0 := hx
    refine ((hasDerivAt_const x a).div (hasDerivAt_id x) hx).congr_deriv ?_
    simp only [id_eq]; field_simp; ring
  | rPowScalar a =>
    simp only [Unary.grad, Unary.forward, one_mul]
    exact (Real.hasStrictDerivAt_const_rpow hx x).hasDerivAt
  | rSubScalar a => simp only [Unary.grad]; exact (hasDerivAt_id x).const_sub a
  | mulScalar a => simp only [Unary.grad]; exact (hasDerivAt_id x).mul_const a
  | addScalar a => simp only [Unary.grad]; exact (hasDerivAt_id x).add_const a
  | maximumScalar a =>
    have hk : x ≠ a := hk
    simp only [Unary.grad]
    rcases lt_or_gt_of_ne hk with h | h
    · rw [if_neg (by linarith)]
      refine of_lt (hasDerivAt_const x a) h ?_
      intro t ht; simp only [Unary.forward]; rw [if_neg (by linarith)]
    · rw [if_pos h]
      refine of_gt (hasDerivAt_id x) h ?_
      intro t ht; simp only [Unary.forward]; rw [if_pos ht]; rfl
  | minimumScalar a =>
    have hk : x ≠ a := hk
    simp only [Unary.grad]
    rcases lt_or_gt_of_ne hk with h | h
    · rw [if_pos h]
      refine of_lt (hasDerivAt_id x) h ?_
      intro t ht; simp only [Unary.forward]; rw [if_pos ht]; rfl
    · rw [if_neg (by linarith)]
      refine of_gt (hasDerivAt_const x a) h ?_
      intro t ht; simp only [Unary.forward]; rw [if_neg (by linarith)]
  | hardSigmoid =>
    have hk : ¬ (x = -2.5 ∨ x = 2.5) := hk
    have h1 : x ≠ -2.5 := fun h => hk (Or.inl h)
    have h2 : x ≠ 2.5 := fun h => hk (Or.inr h)
    simp only [Unary.grad]
    rcases lt_or_gt_of_ne h1 with h | h
    · rw [if_neg (by rintro ⟨_, h3⟩; linarith)]
      refine of_lt (hasDerivAt_const x 0) h ?_
      intro t ht; simp only [Unary.forward]; rw [if_neg (by linarith), if_pos ht]
    · rcases lt_or_gt_of_ne h2 with h' | h'
      · rw [if_pos ⟨h'.le, h.le⟩]
        refine of_mid (g := fun x => 0.2 * x + 0.5) ?_ h h' ?_
        · simpa using ((hasDerivAt_id x).const_mul 0.2).add_const 0.5
        · intro t h3 h4; simp only [Unary.forward]; rw [if_neg (by linarith), if_neg (by linarith)]
      · rw [if_neg (by rintro ⟨h3, _⟩; linarith)]
        refine of_gt (hasDerivAt_const x 1) h' ?_
        intro t ht; simp only [Unary.forward]; rw [if_pos ht]
  | hardTanh =>
    have hk : ¬ (x = -1 ∨ x = 1) := hk
    have h1 : x ≠ -1 := fun h => hk (Or.inl h)
    have h2 : x ≠ 1 := fun h => hk (Or.inr h)
    simp only [Unary.grad]
    rcases lt_or_gt_of_ne h1 with h | h
    · rw [if_neg (by rintro ⟨h3, _⟩; linarith)]
      refine of_lt (hasDerivAt_const x (-1)) h ?_
      intro t ht; simp only [Unary.forward]; rw [if_neg (by linarith), if_pos ht]
    · rcases lt_or_gt_of_ne h2 with h' | h'
      · rw [if_pos ⟨h.le, h'.le⟩]
        refine of_mid (g := fun x => x) (hasDerivAt_id x) h h' ?_
        intro t h3 h4; simp only [Unary.forward]; rw [if_neg (by linarith), if_neg (by linarith)]
      · rw [if_neg (by rintro ⟨_, h3⟩; linarith)]
        refine of_gt (hasDerivAt_const x 1) h' ?_
        intro t ht; simp only [Unary.forward]; rw [if_pos ht]
  | relu6 =>
    have hk : ¬ (x = 0 ∨ x = 6) := hk
    have h1 : x ≠ 0 := fun h => hk (Or.inl h)
    have h2 : x ≠ 6 := fun h => hk (Or.inr h)
    simp only [Unary.grad]
    rcases lt_or_gt_of_ne h1 with h | h
    · rw [if_neg (by rintro ⟨h3, _⟩; linarith)]
      refine of_lt (hasDerivAt_const x 0) h ?_
      intro t ht; simp only [Unary.forward]; rw [max_eq_right ht.le, min_eq_left (by norm_num)]
    · rcases lt_or_gt_of_ne h2 with h' | h'
      · rw [if_pos ⟨h, h'⟩]
        refine of_mid (g := fun x => x) (hasDerivAt_id x) h h' ?_
        intro t h3 h4; simp only [Unary.forward]; rw [max_eq_left h3.le, min_eq_left h4.le]
      · rw [if_neg (by rintro ⟨_, h3⟩; linarith)]
        refine of_gt (hasDerivAt_const x 6) h' ?_
        intro t ht; simp only [Unary.forward]; rw [max_eq_left (by linarith), min_eq_right ht.le]
  | sin => simp only [Unary.grad, Unary.forward, one_mul]; exact Real.hasDerivAt_sin x
  | cos => simp only [Unary.grad, Unary.forward, neg_one_mul]; exact Real.hasDerivAt_cos x
  | tan => simp only [Unary.grad, Unary.forward]; exact Real.hasDerivAt_tan hx
  | sinh => simp only [Unary.grad, Unary.forward, one_mul]; exact Real.hasDerivAt_sinh x
  | cosh => simp only [Unary.grad, Unary.forward, one_mul]; exact Real.hasDerivAt_cosh x
  | asin =>
    simp only [Unary.grad, Unary.forward]; rw [← sq]
    exact Real.hasDerivAt_arcsin (ne_of_gt hx.1) (ne_of_lt hx.2)
  | acos =>
    simp only [Unary.grad, Unary.forward]; rw [← sq, neg_div]
    exact Real.hasDerivAt_arccos (ne_of_gt hx.1) (ne_of_lt hx.2)
  | atan => simp only [Unary.grad, Unary.forward]; rw [← sq]; exact Real.hasDerivAt_arctan x
  | asinh =>
    simp only [Unary.grad, Unary.forward]; rw [← sq, add_comm, one_div]; exact Real.hasDerivAt_arsinh x
  | acosh =>
    simp only [Unary.grad, Unary.forward]; rw [← sq, one_div]; exact Real.hasDerivAt_arcosh hx
  | atanh => simp only [Unary.grad, Unary.forward]; exact artanh_deriv x hx
  | erf => simp only [Unary.grad, Unary.forward, mul_one]; exact erf_deriv x
  | relu =>
    have hk : x ≠ 0 := hk
    simp only [Unary.grad]
    rcases lt_or_gt_of_ne hk with h | h
    · rw [if_neg (by simp only [Unary.forward]; rw [max_eq_left h.le]; linarith)]
      refine of_lt (hasDerivAt_const x 0) h ?_
      intro t ht; simp only [Unary.forward]; rw [max_eq_left ht.le]
    · rw [if_pos (by simp only [Unary.forward]; rw [max_eq_right h.le]; exact h)]
      refine of_gt (g := fun x => x) (hasDerivAt_id x) h ?_
      intro t ht; simp only [Unary.forward]; rw [max_eq_right ht.le]
  | leakyRelu α =>
    have hk : x ≠ 0 := hk
    simp only [Unary.grad]
    rcases lt_or_gt_of_ne hk with h | h
    · rw [if_neg (fun hc => absurd ((leaky_sign α x).mp hc) (by linarith))]
      refine of_lt (g := fun x => α * x) (by simpa using (hasDerivAt_id x).const_mul α) h ?_
      intro t ht; simp only [Unary.forward]; rw [if_neg (by linarith)]
    · rw [if_pos ((leaky_sign α x).mpr h)]
      refine of_gt (g := fun x => x) (hasDerivAt_id x) h ?_
      intro t ht; simp only [Unary.forward]; rw [if_pos ht]
  | selu s α =>
    have hk : x ≠ 0 := hk
    simp only [Unary.grad]
    rcases lt_or_gt_of_ne hk with h | h
    · rw [if_neg (by linarith)]
      refine of_lt (g := fun x => α * s * (Real.exp x - 1)) ?_ h ?_
      · refine (((Real.hasDerivAt_exp x).sub_const 1).const_mul (α * s)).congr_deriv ?_; ring
      · intro t ht; simp only [Unary.forward]; rw [if_neg (by linarith)]
    · rw [if_pos h]
      refine of_gt (g := fun x => s * x) ?_ h ?_
      · simpa using (hasDerivAt_id x).const_mul s
      · intro t ht; simp only [Unary.forward]; rw [if_pos ht]

/-- **C82.** The gradient formula of every elementwise function of one input is the derivative of its forward
formula times the output gradient, at every point where the function is smooth. -/
theorem C82_unary (f : Unary) (x : ℝ) (hx : x ∈ f.domain) (hk : x ∉ f.kinks) :
    ∃ d, HasDerivAt f.forward d x ∧ ∀ dy, f.grad dy x (f.forward x) = dy * d := by
  refine ⟨_, smooth_deriv f x hx hk, ?_⟩
  intro dy
  cases f <;> simp only [Unary.grad] <;> (try split_ifs) <;> ring

/-- **C82.** At the remaining points the formula takes the left or the right slope. -/
theorem C82_kink (f : Unary) (x : ℝ) (hk : x ∈ f.kinks) :
    ∃ d, OneSided f.forward d x ∧ ∀ dy, f.grad dy x (f.forward x) = dy * d := by
  refine ⟨f.grad 1 x (f.forward x), ?_, ?_⟩
  · cases f with
    | abs =>
      have hk : x = 0 := hk
      subst hk
      simp only [Unary.grad, lt_irrefl, if_false]
      refine right_of (g := fun x => x) (hasDerivAt_id _) zero_lt_one ?_
      intro t _ ht; exact abs_of_nonneg ht
    | elu a =>
      have hk : x = 0 := hk
      subst hk
      simp only [Unary.grad, ge_iff_le, le_refl, if_true]
      refine right_of (g := fun x => x) (hasDerivAt_id _) zero_lt_one ?_
      intro t _ ht; simp only [Unary.forward]; rw [if_pos ht]
    | relu =>
      have hk : x = 0 := hk
      subst hk
      simp only [Unary.grad, Unary.forward, max_self, gt_iff_lt, lt_irrefl, if_false]
      refine left_of (hasDerivAt_const (0 : ℝ) (0 : ℝ)) neg_one_lt_zero ?_
      intro t _ ht; exact max_eq_left ht
    | leakyRelu α =>
      have hk : x = 0 := hk
      subst hk
      simp only [Unary.grad]
      rw [if_neg (fun hc => absurd ((leaky_sign α 0).mp hc) (lt_irrefl _))]
      refine left_of (g := fun x => α * x) (by simpa using (hasDerivAt_id (0 : ℝ)).const_mul α) neg_one_lt_zero ?_
      intro t _ ht; simp only [Unary.forward]; rw [if_neg (by linarith)]
    | selu s α =>
      have hk : x = 0 := hk
      subst hk
      simp only [Unary.grad, Unary.forward, gt_iff_lt, lt_irrefl, if_false, mul_one]
      refine left_of (g := fun x => α * s * (Real.exp x - 1)) (((Real.hasDerivAt_exp (0 : ℝ)).sub_const 1).const_mul (α * s)) neg_one_lt_zero ?_
      intro t _ ht; simp only [Unary.forward]; rw [if_neg (by linarith)]
    | maximumScalar a =>
      have hk : x = a := hk
      subst hk
      simp only [Unary.grad, Unary.forward, gt_iff_lt, lt_irrefl, if_false]
      refine left_of (hasDerivAt_const x x) (sub_one_lt x) ?_
      intro t _ ht; simp only [Unary.forward]; rw [if_neg (by linarith)]
    | minimumScalar a =>
      have hk : x = a := hk
      subst hk
      simp only [Unary.grad, Unary.forward, lt_irrefl, if_false]
      refine right_of (hasDerivAt_const x x) (lt_add_one x) ?_
      intro t _ ht; simp only [Unary.forward]; rw [if_neg (by linarith)]
    | hardSigmoid =>
      have hg : HasDerivAt (fun x : ℝ => 0.2 * x + 0.5) (1 * 0.2) x := by simpa using ((hasDerivAt_id x).const_mul 0.2).add_const 0.5
      have hk : x = -2.5 ∨ x = 2.5 := hk
      simp only [Unary.grad]
      rcases hk with rfl | rfl
      · rw [if_pos (by norm_num)]
        refine right_of hg (a := 0) (by norm_num) ?_
        intro t h1 h2; simp only [Unary.forward]; rw [if_neg (by linarith), if_neg (by linarith)]
      · rw [if_pos (by norm_num)]
        refine left_of hg (a := 0) (by norm_num) ?_
        intro t h1 h2; simp only [Unary.forward]; rw [if_neg (by linarith), if_neg (by linarith)]
    | hardTanh =>
      have hk : x = -1 ∨ x = 1 := hk
      simp only [Unary.grad]
      rcases hk with rfl | rfl
      · rw [if_pos (by norm_num)]
        refine right_of (g := fun x => x) (hasDerivAt_id _) (a := 0) (by norm_num) ?_
        intro t h1 h2; simp only [Unary.forward]; rw [if_neg (by linarith), if_neg (by linarith)]
      · rw [if_pos (by norm_num)]
        refine left_of (g := fun x => x) (hasDerivAt_id _) (a := 0) (by norm_num) ?_
        intro t h1 h2; simp only [Unary.forward]; rw [if_neg (by linarith), if_neg (by linarith)]
    | relu6 =>
      have hk : x = 0 ∨ x = 6 := hk
      simp only [Unary.grad]
      rcases hk with rfl | rfl
      · rw [if_neg (by norm_num)]
        refine left_of (hasDerivAt_const (0 : ℝ) (0 : ℝ)) neg_one_lt_zero ?_
        intro t _ h2; simp only [Unary.forward]; rw [max_eq_right h2, min_eq_left (by norm_num)]
      · rw [if_neg (by norm_num)]
        refine right_of (hasDerivAt_const (6 : ℝ) (6 : ℝ)) (a := 7) (by norm_num) ?_
        intro t _ h2; simp only [Unary.forward]; rw [max_eq_left (by linarith), min_eq_right h2]
    | _ => exact absurd hk (Set.notMem_empty x)
  · intro dy
    cases f <;> simp only [Unary.grad] <;> (try split_ifs) <;> ring

/-- **C82.** The gradient formula reads the output data, respectively the input data, only if the function says so: what
clearing of buffers after forward relies on. -/
theorem C82_dependence (f : Unary) (dy x x' y y' : ℝ) :
    (f.depY = false → f.grad dy x y = f.grad dy x y') ∧ (f.depX = false → f.grad dy x y = f.grad dy x' y) := by
  cases f <;> simp [Unary.depY, Unary.depX, Unary.grad]
  · constructor
    · intro h
      have h' : ¬ (0 ≤ ‹ℝ›) := by linarith
      simp only [h', if_false]
    · intro h; simp only [h, if_true]

example : (0.3 : ℝ) ∈ (Unary.powScalar 0.5).domain ∧ (0.3 : ℝ) ∉ (Unary.powScalar 0.5).kinks := ⟨Or.inl (by norm_num), Set.notMem_empty _⟩
example : (6 : ℝ) ∈ Unary.relu6.kinks := Or.inr rfl

end Verif.Elem
