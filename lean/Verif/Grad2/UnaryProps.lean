import Verif.Grad2.Unary
/-
C150: the gradient graphs of the elementwise functions compute the first derivative, and their own gradients the second.
-/
namespace Verif.Grad2
open Verif.Elem Real Filter Topology

/-! ### Specification -/

/-- Where the function is twice differentiable: the points of C82 except where only the slope has a kink, and where one of
the functions that the gradient graph uses is not defined (`x ** 0` with gradient `0 * x ** -1` at 0). -/
def dom2 : Unary → Set ℝ
  | .softSign => {x | x ≠ 0}
  | .sinc => {x | x ≠ 0}
  | .powScalar a => {x | 0 < x ∨ ((∃ n : ℤ, a = n) ∧ (x ≠ 0 ∨ 2 ≤ a))}
  | f => {x | x ∈ f.domain ∧ x ∉ f.kinks}

/-! ### Soundness of the differentiation of graphs -/

/-- The expression is differentiable by its own nodes at `x = t`: every function is used where it is smooth, and what is cut off
from differentiation is constant around `t`. -/
def G.Ok (F : Unary) (t dy : ℝ) : G → Prop
  | .x | .dy | .const _ => True
  | .y => t ∈ F.domain ∧ t ∉ F.kinks
  | .un f a => a.Ok F t dy ∧ a.eval F t dy ∈ f.domain ∧ a.eval F t dy ∉ f.kinks
  | .add a b | .sub a b | .mul a b => a.Ok F t dy ∧ b.Ok F t dy
  | .div a b => a.Ok F t dy ∧ b.Ok F t dy ∧ b.eval F t dy ≠ 0
  | .gt a c => (∀ᶠ s in 𝓝 t, (G.gt a c).eval F s dy = (G.gt a c).eval F t dy) ∧ ∀ d, (G.gt a c).eval F t d = (G.gt a c).eval F t dy
  | .ge a c => (∀ᶠ s in 𝓝 t, (G.ge a c).eval F s dy = (G.ge a c).eval F t dy) ∧ ∀ d, (G.ge a c).eval F t d = (G.ge a c).eval F t dy
  | .lt a c => (∀ᶠ s in 𝓝 t, (G.lt a c).eval F s dy = (G.lt a c).eval F t dy) ∧ ∀ d, (G.lt a c).eval F t d = (G.lt a c).eval F t dy
  | .le a c => (∀ᶠ s in 𝓝 t, (G.le a c).eval F s dy = (G.le a c).eval F t dy) ∧ ∀ d, (G.le a c).eval F t d = (G.le a c).eval F t dy
  | .ne a c => (∀ᶠ s in 𝓝 t, (G.ne a c).eval F s dy = (G.ne a c).eval F t dy) ∧ ∀ d, (G.ne a c).eval F t d = (G.ne a c).eval F t dy
  | .noGrad a => (∀ᶠ s in 𝓝 t, a.eval F s dy = a.eval F t dy) ∧ ∀ d, a.eval F t d = a.eval F t dy
  | .wh m a b => a.Ok F t dy ∧ b.Ok F t dy ∧ (∀ᶠ s in 𝓝 t, m.eval F s dy = m.eval F t dy) ∧ ∀ d, m.eval F t d = m.eval F t dy

theorem ind_pos {p : Prop} (h : p) : ind p = 1 := if_pos h
theorem ind_neg {p : Prop} (h : ¬ p) : ind p = 0 := if_neg h
theorem sel_pos {p : Prop} (h : p) {a b : ℝ} : sel p a b = a := if_pos h
theorem sel_neg {p : Prop} (h : ¬ p) {a b : ℝ} : sel p a b = b := if_neg h

theorem grad_lin (f : Unary) (g x y : ℝ) : f.grad g x y = g * f.grad 1 x y := by
  cases f <;> simp only [Unary.grad] <;> (try split_ifs) <;> ring

theorem rev_lin (F : Unary) (t dy : ℝ) (e : G) : ∀ g, e.rev F t dy g = (g * (e.rev F t dy 1).1, g * (e.rev F t dy 1).2) := by
  induction e with
  | x | dy | const | gt | ge | lt | le | ne | noGrad => intro g; simp [G.rev]
  | y => intro g; simp only [G.rev]; rw [grad_lin]; simp
  | un f a ih =>
    intro g
    simp only [G.rev]
    rw [ih, ih (f.grad 1 _ _), grad_lin]
    ext <;> simp [mul_assoc]
  | add a b iha ihb => intro g; simp only [G.rev]; rw [iha, ihb]; ext <;> simp <;> ring
  | sub a b iha ihb => intro g; simp only [G.rev]; rw [iha, ihb, ihb (-1)]; ext <;> simp <;> ring
  | mul a b iha ihb =>
    intro g; simp only [G.rev]
    rw [iha (g * _), ihb (g * _), iha (1 * _), ihb (1 * _)]; ext <;> simp <;> ring
  | div a b iha ihb =>
    intro g; simp only [G.rev]
    rw [iha (g / _), ihb (-g * _ / _), iha (1 / _), ihb (-1 * _ / _)]; ext <;> simp <;> ring
  | wh m a b _ iha ihb =>
    intro g; simp only [G.rev]
    by_cases h : m.eval F t dy ≠ 0
    · simp only [sel_pos h]; rw [iha g, ihb 0]; ext <;> simp [ihb 0]
    · simp only [sel_neg h]; rw [iha 0, ihb g]; ext <;> simp [iha 0]

theorem const_of_ev {f : ℝ → ℝ} {t : ℝ} (h : ∀ᶠ s in 𝓝 t, f s = f t) : HasDerivAt f 0 t :=
  (hasDerivAt_const t (f t)).congr_of_eventuallyEq h

theorem const_of_all {f : ℝ → ℝ} {t : ℝ} (h : ∀ s, f s = f t) : HasDerivAt f 0 t := const_of_ev (Eventually.of_forall h)

/-- Backward through an expression gives its derivatives. -/
theorem rev_sound (F : Unary) (t dy : ℝ) (e : G) (h : e.Ok F t dy) :
    HasDerivAt (fun s => e.eval F s dy) (e.rev F t dy 1).1 t ∧ HasDerivAt (fun d => e.eval F t d) (e.rev F t dy 1).2 dy := by
  induction e with
  | x => exact ⟨hasDerivAt_id t, hasDerivAt_const _ _⟩
  | dy => exact ⟨hasDerivAt_const _ _, hasDerivAt_id dy⟩
  | const c => exact ⟨hasDerivAt_const _ _, hasDerivAt_const _ _⟩
  | y => exact ⟨smooth_deriv F t h.1 h.2, hasDerivAt_const _ _⟩
  | gt a c => exact ⟨const_of_ev h.1, const_of_all h.2⟩
  | ge a c => exact ⟨const_of_ev h.1, const_of_all h.2⟩
  | lt a c => exact ⟨const_of_ev h.1, const_of_all h.2⟩
  | le a c => exact ⟨const_of_ev h.1, const_of_all h.2⟩
  | ne a c => exact ⟨const_of_ev h.1, const_of_all h.2⟩
  | noGrad a => exact ⟨const_of_ev h.1, const_of_all h.2⟩
  | un f a ih =>
    obtain ⟨i1, i2⟩ := ih h.1
    have hd := smooth_deriv f _ h.2.1 h.2.2
    simp only [G.rev]
    rw [rev_lin]
    exact ⟨hd.comp t i1, hd.comp dy i2⟩
  | add a b iha ihb => exact ⟨(iha h.1).1.add (ihb h.2).1, (iha h.1).2.add (ihb h.2).2⟩
  | sub a b iha ihb =>
    simp only [G.rev]
    rw [rev_lin F t dy b (-1)]
    exact ⟨((iha h.1).1.sub (ihb h.2).1).congr_deriv (by simp [sub_eq_add_neg]),
      ((iha h.1).2.sub (ihb h.2).2).congr_deriv (by simp [sub_eq_add_neg])⟩
  | mul a b iha ihb =>
    simp only [G.rev]
    rw [rev_lin F t dy a, rev_lin F t dy b]
    exact ⟨((iha h.1).1.mul (ihb h.2).1).congr_deriv (by simp; ring), ((iha h.1).2.mul (ihb h.2).2).congr_deriv (by simp; ring)⟩
  | div a b iha ihb =>
    simp only [G.rev]
    rw [rev_lin F t dy a, rev_lin F t dy b]
    have hb := h.2.2
    exact ⟨((iha h.1).1.div (ihb h.2.1).1 hb).congr_deriv (by simp; field_simp; ring),
      ((iha h.1).2.div (ihb h.2.1).2 hb).congr_deriv (by simp; field_simp; ring)⟩
  | wh m a b _ iha ihb =>
    obtain ⟨ha, hb, hm, hm2⟩ := h
    simp only [G.rev]
    by_cases c : m.eval F t dy ≠ 0
    · simp only [sel_pos c]
      rw [rev_lin F t dy b]
      refine ⟨((iha ha).1.congr_of_eventuallyEq ?_).congr_deriv (by simp), ((iha ha).2.congr_of_eventuallyEq ?_).congr_deriv (by simp)⟩
      · filter_upwards [hm] with s hs; simp only [G.eval]; rw [hs, sel_pos c]
      · filter_upwards with d; simp only [G.eval]; rw [hm2, sel_pos c]
    · simp only [sel_neg c]
      rw [rev_lin F t dy a]
      refine ⟨((ihb hb).1.congr_of_eventuallyEq ?_).congr_deriv (by simp), ((ihb hb).2.congr_of_eventuallyEq ?_).congr_deriv (by simp)⟩
      · filter_upwards [hm] with s hs; simp only [G.eval]; rw [hs, sel_neg c]
      · filter_upwards with d; simp only [G.eval]; rw [hm2, sel_neg c]

/-! ### The graphs compute the first derivative -/

theorem rpow2 (x : ℝ) : x ^ (2 : ℝ) = x ^ 2 := by exact_mod_cast Real.rpow_natCast x 2
theorem rpow3 (x : ℝ) : x ^ (3 : ℝ) = x ^ 3 := by exact_mod_cast Real.rpow_natCast x 3
theorem rpowm2 (x : ℝ) : x ^ (-2 : ℝ) = (x ^ 2)⁻¹ := by
  have := Real.rpow_intCast x (-2)
  push_cast at this
  rw [this, zpow_neg]; norm_cast
theorem rpowmh {x : ℝ} (h : 0 < x) : x ^ (-1 / 2 : ℝ) = (√x)⁻¹ := by
  rw [show (-1 / 2 : ℝ) = -(1 / 2) by norm_num, Real.rpow_neg h.le, Real.sqrt_eq_rpow]

/-- The value of the gradient graph is what the C++ backward computes. -/
theorem bw_eval (f : Unary) (e : G) (he : bw f = some e) (t dy : ℝ) (hx : t ∈ f.domain) (hk : t ∉ f.kinks) :
    e.eval f t dy = f.grad dy t (f.forward t) := by
  have n2 : ¬ ((2 : ℝ) = 0.5) := by norm_num
  have n3 : ¬ ((3 : ℝ) = 0.5) := by norm_num
  have nm2 : ¬ ((-2 : ℝ) = 0.5) := by norm_num
  have nmh : ¬ ((-1 / 2 : ℝ) = 0.5) := by norm_num
  cases f <;> simp only [bw, Option.some.injEq, reduceCtorEq] at he <;> subst he
  case abs =>
    simp only [G.eval, rsub, Unary.forward, Unary.grad]
    by_cases h : t ≥ 0
    · rw [ind_pos h, if_neg (by linarith)]; ring
    · rw [ind_neg h, if_pos (by linarith)]; ring
  case exp => simp only [G.eval, Unary.grad]; ring
  case log => simp only [G.eval, Unary.grad]
  case sigmoid => simp only [G.eval, rsub, Unary.forward, Unary.grad]
  case tanh => simp only [G.eval, rsub, powS, Unary.forward, Unary.grad, if_neg n2, rpow2]; ring
  case elu a =>
    have hk : t ≠ 0 := hk
    simp only [G.eval, rsub, smul, Unary.forward, Unary.grad]
    by_cases h : t > 0
    · rw [ind_pos h, if_pos h.le]; ring
    · rw [ind_neg h, if_neg (by rw [ge_iff_le, not_le]; exact lt_of_le_of_ne (not_lt.mp h) hk)]; ring
  case softPlus b => simp only [G.eval, smul, Unary.forward, Unary.grad]; rw [show -b * t = -(t * b) by ring]; ring
  case gelu =>
    simp only [G.eval, rsub, smul, sadd, powS, Unary.forward, Unary.grad, if_neg n2, if_neg n3, rpow2, rpow3]
    rw [show (t + t ^ 3 * 0.044715) * √(2 / π) = √(2 / π) * (t + 0.044715 * t ^ 3) by ring]
    ring
  case swish =>
    simp only [G.eval, rsub, sadd, Unary.forward, Unary.grad]
    have : (1 : ℝ) + Real.exp (-t) ≠ 0 := by positivity
    field_simp
    ring
  case logSigmoid =>
    simp only [G.eval, rsub, Unary.forward, Unary.grad]
    have h1 : (1 : ℝ) + Real.exp (-t) ≠ 0 := by positivity
    have h2 : Real.exp t + 1 ≠ 0 := by positivity
    have h3 : Real.exp (-t) * Real.exp t = 1 := by rw [← Real.exp_add]; simp
    field_simp
    linear_combination dy * h3
  case softSign =>
    simp only [G.eval, rdiv, sadd, powS, Unary.forward, Unary.grad, if_neg n2, rpow2]
    rw [add_comm |t| 1]; ring
  case tanhShrink => simp only [G.eval, rsub, powS, Unary.forward, Unary.grad, if_neg n2, rpow2]; ring
  case sinc =>
    simp only [G.eval, Unary.forward, Unary.grad]
    by_cases h : t = 0
    · rw [sel_neg (by rw [ind_neg (by simpa using h)]; simp), if_pos h]
    · rw [sel_pos (by rw [ind_pos h]; simp), if_neg h]
  case powScalar a =>
    simp only [G.eval, smul, powS, Unary.forward, Unary.grad]
    by_cases h : a - 1 = 0.5
    · rw [if_pos h, h, Real.sqrt_eq_rpow, show (1 / 2 : ℝ) = 0.5 by norm_num]
    · rw [if_neg h]
  case rDivScalar a =>
    simp only [G.eval, smul, neg, powS, Unary.forward, Unary.grad, if_neg n2, rpow2]; ring
  case rPowScalar a => simp only [G.eval, smul, rpowS, Unary.forward, Unary.grad]
  case rSubScalar a => simp only [G.eval, neg, Unary.forward, Unary.grad]; ring
  case mulScalar a => simp only [G.eval, smul, Unary.forward, Unary.grad]
  case addScalar a => simp only [G.eval, Unary.grad]
  case maximumScalar a =>
    simp only [G.eval, Unary.grad]
    by_cases h : t > a
    · rw [ind_pos h, if_pos h, mul_one]
    · rw [ind_neg h, if_neg h, mul_zero]
  case minimumScalar a =>
    simp only [G.eval, Unary.grad]
    by_cases h : t < a
    · rw [ind_pos h, if_pos h, mul_one]
    · rw [ind_neg h, if_neg h, mul_zero]
  case hardSigmoid =>
    have hk1 : t ≠ -2.5 := fun h => hk (Or.inl h)
    have hk2 : t ≠ 2.5 := fun h => hk (Or.inr h)
    simp only [G.eval, smul, Unary.forward, Unary.grad]
    by_cases h1 : t > -2.5
    · by_cases h2 : t < 2.5
      · rw [ind_pos h1, ind_pos h2, if_pos ⟨h2.le, h1.le⟩]; ring
      · rw [ind_neg h2, if_neg (fun x => h2 (lt_of_le_of_ne x.1 hk2))]; ring
    · rw [ind_neg h1, if_neg (fun x => h1 (lt_of_le_of_ne x.2 (Ne.symm hk1)))]; ring
  case hardTanh =>
    simp only [G.eval, Unary.grad, ge_iff_le]
    by_cases h1 : -1 ≤ t <;> by_cases h2 : t ≤ 1 <;> simp [ind, h1, h2]
  case relu6 =>
    simp only [G.eval, Unary.grad, gt_iff_lt]
    by_cases h1 : 0 < t <;> by_cases h2 : t < 6 <;> simp [ind, h1, h2]
  case sin => simp only [G.eval, Unary.forward, Unary.grad]
  case cos => simp only [G.eval, neg, Unary.forward, Unary.grad]; ring
  case tan => simp only [G.eval, powS, Unary.forward, Unary.grad, if_neg nm2, rpowm2]; ring
  case sinh => simp only [G.eval, Unary.forward, Unary.grad]
  case cosh => simp only [G.eval, Unary.forward, Unary.grad]
  case asin =>
    have hx : -1 < t ∧ t < 1 := hx
    have hp : 0 < 1 - t ^ 2 := by nlinarith [hx.1, hx.2]
    simp only [G.eval, powS, rsub, Unary.forward, Unary.grad, if_neg n2, if_neg nmh, rpow2, rpowmh hp]
    rw [show 1 - t * t = 1 - t ^ 2 by ring]; ring
  case acos =>
    have hx : -1 < t ∧ t < 1 := hx
    have hp : 0 < 1 - t ^ 2 := by nlinarith [hx.1, hx.2]
    simp only [G.eval, powS, rsub, neg, Unary.forward, Unary.grad, if_neg n2, if_neg nmh, rpow2, rpowmh hp]
    rw [show 1 - t * t = 1 - t ^ 2 by ring]; ring
  case atan => simp only [G.eval, powS, sadd, Unary.forward, Unary.grad, if_neg n2, rpow2]; rw [show t ^ 2 + 1 = 1 + t * t by ring]
  case asinh =>
    have hp : 0 < t ^ 2 + 1 := by positivity
    simp only [G.eval, powS, sadd, Unary.forward, Unary.grad, if_neg n2, if_neg nmh, rpow2, rpowmh hp]
    rw [show t * t + 1 = t ^ 2 + 1 by ring]; ring
  case acosh =>
    have hx : 1 < t := hx
    have hp : 0 < t ^ 2 + -1 := by nlinarith
    simp only [G.eval, powS, subS, Unary.forward, Unary.grad, if_neg n2, if_neg nmh, rpow2, rpowmh hp]
    rw [show t * t - 1 = t ^ 2 + -1 by ring]; ring
  case atanh => simp only [G.eval, powS, rsub, Unary.forward, Unary.grad, if_neg n2, rpow2]; rw [show 1 - t ^ 2 = 1 - t * t by ring]
  case erf =>
    simp only [G.eval, powS, smul, neg, Unary.forward, Unary.grad, if_neg n2, rpow2]
    rw [show t ^ 2 * -1 = -(t * t) by ring]; ring
  case relu =>
    simp only [G.eval, Unary.grad]
    by_cases h : Unary.relu.forward t > 0
    · rw [ind_pos h, if_pos h, mul_one]
    · rw [ind_neg h, if_neg h, mul_zero]
  case leakyRelu α =>
    simp only [G.eval, smul, rsub, Unary.forward, Unary.grad]
    by_cases h : α ≥ 0
    · simp only [if_pos h, G.eval, Unary.forward, ind]; split_ifs <;> ring
    · simp only [if_neg h, G.eval, ind]; split_ifs <;> ring
  case selu s α =>
    simp only [G.eval, smul, rsub, Unary.forward, Unary.grad]
    by_cases h : t > 0
    · rw [ind_pos h, if_pos h]; ring
    · rw [ind_neg h, if_neg h]; ring

/-! ### The graphs are differentiable by their nodes -/

theorem ev_gt {t c : ℝ} (h : t ≠ c) : ∀ᶠ s in 𝓝 t, (s > c ↔ t > c) := by
  rcases lt_or_gt_of_ne h with h | h
  · filter_upwards [eventually_lt_nhds h] with s hs; exact ⟨fun x => absurd x (not_lt.mpr hs.le), fun x => absurd x (not_lt.mpr h.le)⟩
  · filter_upwards [eventually_gt_nhds h] with s hs; exact ⟨fun _ => h, fun _ => hs⟩
theorem ev_lt {t c : ℝ} (h : t ≠ c) : ∀ᶠ s in 𝓝 t, (s < c ↔ t < c) := by
  rcases lt_or_gt_of_ne h with h | h
  · filter_upwards [eventually_lt_nhds h] with s hs; exact ⟨fun _ => h, fun _ => hs⟩
  · filter_upwards [eventually_gt_nhds h] with s hs; exact ⟨fun x => absurd x (not_lt.mpr hs.le), fun x => absurd x (not_lt.mpr h.le)⟩
theorem ev_ge {t c : ℝ} (h : t ≠ c) : ∀ᶠ s in 𝓝 t, (s ≥ c ↔ t ≥ c) := by
  filter_upwards [ev_lt h] with s hs; rw [ge_iff_le, ge_iff_le, ← not_lt, ← not_lt, hs]
theorem ev_le {t c : ℝ} (h : t ≠ c) : ∀ᶠ s in 𝓝 t, (s ≤ c ↔ t ≤ c) := by
  filter_upwards [ev_gt h] with s hs; rw [← not_lt, ← not_lt]; exact not_congr hs

theorem pow2_dom (x : ℝ) : x ∈ (Unary.powScalar 2).domain := Or.inr ⟨⟨2, by norm_num⟩, Or.inr (by norm_num)⟩
theorem pow3_dom (x : ℝ) : x ∈ (Unary.powScalar 3).domain := Or.inr ⟨⟨3, by norm_num⟩, Or.inr (by norm_num)⟩

theorem bw_ok (f : Unary) (e : G) (he : bw f = some e) (t dy : ℝ) (ht : t ∈ dom2 f) : e.Ok f t dy := by
  have n2 : ¬ ((2 : ℝ) = 0.5) := by norm_num
  have n3 : ¬ ((3 : ℝ) = 0.5) := by norm_num
  cases f <;> simp only [bw, Option.some.injEq, reduceCtorEq] at he <;> subst he
  case abs =>
    have h0 : t ≠ 0 := ht.2
    refine ⟨trivial, ?_, fun _ => rfl⟩
    filter_upwards [ev_ge h0] with s hs; simp only [G.eval, rsub, hs]
  case exp => exact ⟨trivial, ht⟩
  case log => exact ⟨trivial, trivial, ne_of_gt ht.1⟩
  case sigmoid => exact ⟨⟨trivial, ht⟩, ht, trivial, Set.notMem_empty _⟩
  case tanh => exact ⟨trivial, ⟨ht, pow2_dom _, Set.notMem_empty _⟩, trivial, Set.notMem_empty _⟩
  case elu a =>
    have h0 : t ≠ 0 := ht.2
    refine ⟨trivial, ⟨?_, fun _ => rfl⟩, ⟨⟨trivial, trivial, Set.notMem_empty _⟩, trivial, Set.notMem_empty _⟩, ?_, fun _ => rfl⟩
    · filter_upwards [ev_gt h0] with s hs; simp only [G.eval, hs]
    · filter_upwards [ev_gt h0] with s hs; simp only [G.eval, rsub, hs]
  case softPlus b => exact ⟨trivial, ⟨trivial, trivial, Set.notMem_empty _⟩, trivial, Set.notMem_empty _⟩
  case gelu =>
    have hv : (smul √(2 / π) (.add .x (smul 0.044715 (powS .x 3)))).Ok Unary.gelu t dy :=
      ⟨⟨trivial, ⟨trivial, pow3_dom _, Set.notMem_empty _⟩, trivial, Set.notMem_empty _⟩, trivial, Set.notMem_empty _⟩
    have hu : (G.un .tanh (smul √(2 / π) (.add .x (smul 0.044715 (powS .x 3))))).Ok Unary.gelu t dy := ⟨hv, trivial, Set.notMem_empty _⟩
    exact ⟨trivial, ⟨⟨hu, trivial, Set.notMem_empty _⟩, trivial, Set.notMem_empty _⟩,
      ⟨⟨⟨trivial, trivial, Set.notMem_empty _⟩, ⟨hu, pow2_dom _, Set.notMem_empty _⟩, trivial, Set.notMem_empty _⟩, trivial, Set.notMem_empty _⟩,
      ⟨⟨trivial, pow2_dom _, Set.notMem_empty _⟩, trivial, Set.notMem_empty _⟩, trivial, Set.notMem_empty _⟩
  case swish =>
    have hs : (G.un .sigmoid .x).Ok Unary.swish t dy := ⟨trivial, trivial, Set.notMem_empty _⟩
    exact ⟨⟨trivial, hs⟩, ⟨trivial, hs, trivial, Set.notMem_empty _⟩, trivial, Set.notMem_empty _⟩
  case logSigmoid => exact ⟨trivial, ⟨trivial, trivial, Set.notMem_empty _⟩, trivial, Set.notMem_empty _⟩
  case softSign =>
    have h0 : t ≠ 0 := ht
    refine ⟨trivial, ⟨⟨⟨trivial, trivial, h0⟩, trivial, Set.notMem_empty _⟩, pow2_dom _, Set.notMem_empty _⟩, ?_, Set.notMem_empty _⟩
    show (powS (sadd 1 (.un .abs .x)) 2).eval Unary.softSign t dy ≠ 0
    simp only [G.eval, powS, sadd, Unary.forward, if_neg n2, rpow2]
    positivity
  case tanhShrink => exact ⟨trivial, ⟨⟨⟨trivial, trivial, Set.notMem_empty _⟩, pow2_dom _, Set.notMem_empty _⟩, trivial, Set.notMem_empty _⟩, trivial, Set.notMem_empty _⟩
  case sinc =>
    have h0 : t ≠ 0 := ht
    refine ⟨⟨⟨trivial, ⟨trivial, trivial, Set.notMem_empty _⟩, ⟨trivial, trivial, Set.notMem_empty _⟩, trivial, h0⟩, trivial, h0⟩, trivial, ?_, fun _ => rfl⟩
    filter_upwards [eventually_ne_nhds h0] with s hs
    simp only [G.eval]
    rw [ind_pos hs, ind_pos h0]
  case powScalar a =>
    refine ⟨⟨trivial, trivial, Set.notMem_empty _⟩, trivial, ?_, Set.notMem_empty _⟩
    rcases ht with h | ⟨⟨n, hn⟩, h⟩
    · exact Or.inl h
    · exact Or.inr ⟨⟨n - 1, by rw [hn]; push_cast; ring⟩, h.imp id fun h => by linarith⟩
  case rDivScalar a =>
    have h0 : t ≠ 0 := ht.1
    refine ⟨⟨⟨trivial, trivial, Set.notMem_empty _⟩, trivial, Set.notMem_empty _⟩, ⟨trivial, pow2_dom _, Set.notMem_empty _⟩, ?_⟩
    simp only [G.eval, powS, Unary.forward, if_neg n2, rpow2]
    positivity
  case rPowScalar a => exact ⟨⟨trivial, trivial, ht.1, Set.notMem_empty _⟩, trivial, Set.notMem_empty _⟩
  case rSubScalar a => exact ⟨trivial, trivial, Set.notMem_empty _⟩
  case mulScalar a => exact ⟨trivial, trivial, Set.notMem_empty _⟩
  case addScalar a => trivial
  case maximumScalar a =>
    refine ⟨trivial, ?_, fun _ => rfl⟩
    filter_upwards [ev_gt (c := a) ht.2] with s hs; simp only [G.eval, hs]
  case minimumScalar a =>
    refine ⟨trivial, ?_, fun _ => rfl⟩
    filter_upwards [ev_lt (c := a) ht.2] with s hs; simp only [G.eval, hs]
  case hardSigmoid =>
    refine ⟨⟨trivial, trivial, Set.notMem_empty _⟩, ?_, fun _ => rfl⟩
    filter_upwards [ev_gt (c := -2.5) (fun h => ht.2 (Or.inl h)), ev_lt (c := 2.5) (fun h => ht.2 (Or.inr h))] with s h1 h2; simp only [G.eval, h1, h2]
  case hardTanh =>
    refine ⟨trivial, ?_, fun _ => rfl⟩
    filter_upwards [ev_ge (c := -1) (fun h => ht.2 (Or.inl h)), ev_le (c := 1) (fun h => ht.2 (Or.inr h))] with s h1 h2; simp only [G.eval, h1, h2]
  case relu6 =>
    refine ⟨trivial, ?_, fun _ => rfl⟩
    filter_upwards [ev_gt (c := 0) (fun h => ht.2 (Or.inl h)), ev_lt (c := 6) (fun h => ht.2 (Or.inr h))] with s h1 h2; simp only [G.eval, h1, h2]
  case sin => exact ⟨trivial, trivial, trivial, Set.notMem_empty _⟩
  case cos => exact ⟨⟨trivial, trivial, Set.notMem_empty _⟩, trivial, trivial, Set.notMem_empty _⟩
  case tan => exact ⟨trivial, ⟨trivial, trivial, Set.notMem_empty _⟩, Or.inr ⟨⟨-2, by norm_num⟩, Or.inl ht.1⟩, Set.notMem_empty _⟩
  case sinh => exact ⟨trivial, trivial, trivial, Set.notMem_empty _⟩
  case cosh => exact ⟨trivial, trivial, trivial, Set.notMem_empty _⟩
  case asin =>
    have hx : -1 < t ∧ t < 1 := ht.1
    have hp : 0 < 1 - t ^ 2 := by nlinarith [hx.1, hx.2]
    refine ⟨trivial, ⟨⟨trivial, pow2_dom _, Set.notMem_empty _⟩, trivial, Set.notMem_empty _⟩, Or.inl ?_, Set.notMem_empty _⟩
    simpa only [G.eval, powS, rsub, Unary.forward, if_neg n2, rpow2] using hp
  case acos =>
    have hx : -1 < t ∧ t < 1 := ht.1
    have hp : 0 < 1 - t ^ 2 := by nlinarith [hx.1, hx.2]
    refine ⟨⟨trivial, trivial, Set.notMem_empty _⟩, ⟨⟨trivial, pow2_dom _, Set.notMem_empty _⟩, trivial, Set.notMem_empty _⟩, Or.inl ?_, Set.notMem_empty _⟩
    simpa only [G.eval, powS, rsub, Unary.forward, if_neg n2, rpow2] using hp
  case atan =>
    refine ⟨trivial, ⟨⟨trivial, pow2_dom _, Set.notMem_empty _⟩, trivial, Set.notMem_empty _⟩, ?_⟩
    simp only [G.eval, powS, sadd, Unary.forward, if_neg n2, rpow2]
    positivity
  case asinh =>
    refine ⟨trivial, ⟨⟨trivial, pow2_dom _, Set.notMem_empty _⟩, trivial, Set.notMem_empty _⟩, Or.inl ?_, Set.notMem_empty _⟩
    simp only [G.eval, powS, sadd, Unary.forward, if_neg n2, rpow2]
    positivity
  case acosh =>
    have hx : 1 < t := ht.1
    have hp : 0 < t ^ 2 + -1 := by nlinarith
    refine ⟨trivial, ⟨⟨trivial, pow2_dom _, Set.notMem_empty _⟩, trivial, Set.notMem_empty _⟩, Or.inl ?_, Set.notMem_empty _⟩
    simpa only [G.eval, powS, subS, Unary.forward, if_neg n2, rpow2] using hp
  case atanh =>
    have hx : -1 < t ∧ t < 1 := ht.1
    have hp : 0 < 1 - t ^ 2 := by nlinarith [hx.1, hx.2]
    refine ⟨trivial, ⟨⟨trivial, pow2_dom _, Set.notMem_empty _⟩, trivial, Set.notMem_empty _⟩, ?_⟩
    simp only [G.eval, powS, rsub, Unary.forward, if_neg n2, rpow2]
    exact ne_of_gt hp
  case erf =>
    exact ⟨⟨⟨⟨⟨trivial, pow2_dom _, Set.notMem_empty _⟩, trivial, Set.notMem_empty _⟩, trivial, Set.notMem_empty _⟩, trivial, Set.notMem_empty _⟩, trivial⟩
  case relu =>
    have h0 : t ≠ 0 := ht.2
    refine ⟨trivial, ?_, fun _ => rfl⟩
    filter_upwards [ev_gt h0] with s hs
    have hm : ∀ u : ℝ, (max 0 u > 0) = (u > 0) := fun u => by simp
    simp only [G.eval, Unary.forward, hm, hs]
  case leakyRelu α =>
    have h0 : t ≠ 0 := ht.2
    have hl : ∀ s d, (if α ≥ 0 then G.y else G.x).eval (Unary.leakyRelu α) s d > 0 ↔ s > 0 := by
      intro s d
      rw [← leaky_sign α s]
      by_cases h : α ≥ 0
      · simp only [if_pos h, G.eval]
      · simp only [if_neg h, G.eval]
    refine ⟨trivial, ⟨?_, ?_⟩, ⟨?_, ?_⟩, trivial, Set.notMem_empty _⟩
    · filter_upwards [ev_gt h0] with s hs; simp only [G.eval, hl, hs]
    · intro d; simp only [G.eval, hl]
    · filter_upwards [ev_gt h0] with s hs; simp only [G.eval, rsub, hl, hs]
    · intro d; simp only [G.eval, rsub, hl]
  case selu s α =>
    have h0 : t ≠ 0 := ht.2
    refine ⟨⟨trivial, trivial, Set.notMem_empty _⟩, ⟨?_, fun _ => rfl⟩, ⟨⟨trivial, trivial, Set.notMem_empty _⟩, trivial, Set.notMem_empty _⟩, ?_, fun _ => rfl⟩
    · filter_upwards [ev_gt h0] with s hs; simp only [G.eval, hs]
    · filter_upwards [ev_gt h0] with s hs; simp only [G.eval, rsub, hs]

/-! ### Properties -/

theorem smooth_nhds (f : Unary) (t : ℝ) (ht : t ∈ dom2 f) : ∀ᶠ s in 𝓝 t, s ∈ f.domain ∧ s ∉ f.kinks := by
  have all : ∀ {p : ℝ → Prop}, (∀ s, p s) → ∀ᶠ s in 𝓝 t, p s := fun h => Eventually.of_forall h
  have pt : ∀ {c : ℝ}, t ≠ c → ∀ᶠ s in 𝓝 t, s ≠ c := fun h => eventually_ne_nhds h
  cases f
  case log => exact ((eventually_gt_nhds (show (0 : ℝ) < t from ht.1))).mono fun s h => ⟨h, Set.notMem_empty _⟩
  case softPlus a => exact all fun s => ⟨ht.1, Set.notMem_empty _⟩
  case powScalar a =>
    rcases ht with h | ⟨hn, h | h⟩
    · exact (eventually_gt_nhds h).mono fun s h => ⟨Or.inl h, Set.notMem_empty _⟩
    · exact (pt h).mono fun s h => ⟨Or.inr ⟨hn, Or.inl h⟩, Set.notMem_empty _⟩
    · exact all fun s => ⟨Or.inr ⟨hn, Or.inr (by linarith)⟩, Set.notMem_empty _⟩
  case rDivScalar a => exact (pt ht.1).mono fun s h => ⟨h, Set.notMem_empty _⟩
  case rPowScalar a => exact all fun s => ⟨ht.1, Set.notMem_empty _⟩
  case tan =>
    have : ∀ᶠ s in 𝓝 t, Real.cos s ≠ 0 := Real.continuous_cos.continuousAt.eventually_ne ht.1
    exact this.mono fun s h => ⟨h, Set.notMem_empty _⟩
  case asin =>
    have hx : -1 < t ∧ t < 1 := ht.1
    filter_upwards [eventually_gt_nhds hx.1, eventually_lt_nhds hx.2] with s h1 h2 using ⟨⟨h1, h2⟩, Set.notMem_empty _⟩
  case acos =>
    have hx : -1 < t ∧ t < 1 := ht.1
    filter_upwards [eventually_gt_nhds hx.1, eventually_lt_nhds hx.2] with s h1 h2 using ⟨⟨h1, h2⟩, Set.notMem_empty _⟩
  case atanh =>
    have hx : -1 < t ∧ t < 1 := ht.1
    filter_upwards [eventually_gt_nhds hx.1, eventually_lt_nhds hx.2] with s h1 h2 using ⟨⟨h1, h2⟩, Set.notMem_empty _⟩
  case acosh => exact ((eventually_gt_nhds (show (1 : ℝ) < t from ht.1))).mono fun s h => ⟨h, Set.notMem_empty _⟩
  case abs => exact (pt ht.2).mono fun s h => ⟨trivial, h⟩
  case elu a => exact (pt ht.2).mono fun s h => ⟨trivial, h⟩
  case relu => exact (pt ht.2).mono fun s h => ⟨trivial, h⟩
  case leakyRelu a => exact (pt ht.2).mono fun s h => ⟨trivial, h⟩
  case selu a b => exact (pt ht.2).mono fun s h => ⟨trivial, h⟩
  case maximumScalar a => exact (pt ht.2).mono fun s h => ⟨trivial, h⟩
  case minimumScalar a => exact (pt ht.2).mono fun s h => ⟨trivial, h⟩
  case hardSigmoid =>
    filter_upwards [pt (c := -2.5) (fun h => ht.2 (Or.inl h)), pt (c := 2.5) (fun h => ht.2 (Or.inr h))] with s h1 h2
    exact ⟨trivial, fun h => h.elim h1 h2⟩
  case hardTanh =>
    filter_upwards [pt (c := -1) (fun h => ht.2 (Or.inl h)), pt (c := 1) (fun h => ht.2 (Or.inr h))] with s h1 h2
    exact ⟨trivial, fun h => h.elim h1 h2⟩
  case relu6 =>
    filter_upwards [pt (c := 0) (fun h => ht.2 (Or.inl h)), pt (c := 6) (fun h => ht.2 (Or.inr h))] with s h1 h2
    exact ⟨trivial, fun h => h.elim h1 h2⟩
  all_goals exact all fun s => ⟨trivial, Set.notMem_empty _⟩

/-- Only `mish` has no gradient graph. -/
theorem C150_defined (f : Unary) : bw f = none ↔ f = .mish := by
  cases f <;> simp [bw]

/-- **C150 (first derivative).** The graph that `nn.grad` adds for an elementwise function evaluates to the incoming gradient times
the derivative of the function, at every smooth point. -/
theorem C150_first (f : Unary) (e : G) (he : bw f = some e) (t : ℝ) (hx : t ∈ f.domain) (hk : t ∉ f.kinks) :
    ∃ d, HasDerivAt f.forward d t ∧ ∀ dy, e.eval f t dy = dy * d := by
  obtain ⟨d, h1, h2⟩ := C82_unary f t hx hk
  exact ⟨d, h1, fun dy => by rw [bw_eval f e he t dy hx hk, h2]⟩

/-- **C150 (kinks).** At the kinks the graph takes the slope of one side. (It need not be the side that `Variable.backward` takes:
`C150_sides`.) -/
theorem C150_kink (f : Unary) (e : G) (he : bw f = some e) (t : ℝ) (hk : t ∈ f.kinks) :
    ∃ d, OneSided f.forward d t ∧ ∀ dy, e.eval f t dy = dy * d := by
  have use : (∀ dy, e.eval f t dy = f.grad dy t (f.forward t)) → ∃ d, OneSided f.forward d t ∧ ∀ dy, e.eval f t dy = dy * d := by
    intro h
    obtain ⟨d, h1, h2⟩ := C82_kink f t hk
    exact ⟨d, h1, fun dy => by rw [h, h2]⟩
  cases f <;> simp only [bw, Option.some.injEq, reduceCtorEq] at he <;> subst he
  case abs =>
    refine use fun dy => ?_
    have hk : t = 0 := hk
    subst hk
    simp only [G.eval, rsub, Unary.forward, Unary.grad]
    rw [ind_pos le_rfl, if_neg (lt_irrefl _)]; ring
  case elu a =>
    have hk : t = 0 := hk
    subst hk
    refine ⟨a * 1, ?_, fun dy => ?_⟩
    · refine left_of (g := fun x => a * (Real.exp x - 1)) ?_ neg_one_lt_zero ?_
      · simpa using ((Real.hasDerivAt_exp (0 : ℝ)).sub_const 1).const_mul a
      · intro s _ hs
        simp only [Unary.forward]
        by_cases h : s ≥ 0
        · have : s = 0 := le_antisymm hs h
          subst this; simp
        · rw [if_neg h]
    · simp only [G.eval, rsub, smul, Unary.forward]
      rw [ind_neg (lt_irrefl _)]; simp
  case maximumScalar a =>
    refine use fun dy => ?_
    have hk : t = a := hk
    subst hk
    simp only [G.eval, Unary.grad]
    rw [ind_neg (lt_irrefl _), if_neg (lt_irrefl _), mul_zero]
  case minimumScalar a =>
    refine use fun dy => ?_
    have hk : t = a := hk
    subst hk
    simp only [G.eval, Unary.grad]
    rw [ind_neg (lt_irrefl _), if_neg (lt_irrefl _), mul_zero]
  case hardSigmoid =>
    refine ⟨0, ?_, fun dy => ?_⟩
    · rcases hk with hk | hk
      · have hk : t = -2.5 := hk
        subst hk
        refine left_of (hasDerivAt_const (-2.5 : ℝ) (0 : ℝ)) (a := -3) (by norm_num) ?_
        intro s _ hs
        simp only [Unary.forward]
        rw [if_neg (by linarith)]
        by_cases h : s < -2.5
        · rw [if_pos h]
        · have : s = -2.5 := le_antisymm hs (not_lt.mp h)
          subst this; norm_num
      · have hk : t = 2.5 := hk
        subst hk
        refine right_of (hasDerivAt_const (2.5 : ℝ) (1 : ℝ)) (a := 3) (by norm_num) ?_
        intro s _ hs
        simp only [Unary.forward]
        by_cases h : s > 2.5
        · rw [if_pos h]
        · have : s = 2.5 := le_antisymm (not_lt.mp h) hs
          subst this; norm_num
    · simp only [G.eval, smul, Unary.forward]
      rcases hk with hk | hk
      · have hk : t = -2.5 := hk
        rw [ind_neg (by rw [hk]; exact lt_irrefl _)]; ring
      · have hk : t = 2.5 := hk
        rw [ind_neg (p := t < 2.5) (by rw [hk]; exact lt_irrefl _)]; ring
  case hardTanh =>
    refine use fun dy => ?_
    simp only [G.eval, Unary.grad, ge_iff_le]
    by_cases h1 : -1 ≤ t <;> by_cases h2 : t ≤ 1 <;> simp [ind, h1, h2]
  case relu6 =>
    refine use fun dy => ?_
    simp only [G.eval, Unary.grad, gt_iff_lt]
    by_cases h1 : 0 < t <;> by_cases h2 : t < 6 <;> simp [ind, h1, h2]
  case relu =>
    refine use fun dy => ?_
    simp only [G.eval, Unary.grad]
    by_cases h : Unary.relu.forward t > 0
    · rw [ind_pos h, if_pos h, mul_one]
    · rw [ind_neg h, if_neg h, mul_zero]
  case leakyRelu α =>
    refine use fun dy => ?_
    simp only [G.eval, smul, rsub, Unary.forward, Unary.grad]
    by_cases h : α ≥ 0
    · simp only [if_pos h, G.eval, Unary.forward, ind]; split_ifs <;> ring
    · simp only [if_neg h, G.eval, ind]; split_ifs <;> ring
  case selu s α =>
    refine use fun dy => ?_
    simp only [G.eval, smul, rsub, Unary.forward, Unary.grad]
    by_cases h : t > 0
    · rw [ind_pos h, if_pos h]; ring
    · rw [ind_neg h, if_neg h]; ring
  all_goals exact absurd hk (Set.notMem_empty _)

/-- **C150 (second derivative).** Running `backward` on that graph: the gradient that arrives at the input is the second derivative,
the one that arrives at the incoming gradient the first, at every point where the function is twice differentiable. -/
theorem C150_second_partial (f : Unary) (e : G) (he : bw f = some e) (t : ℝ) (ht : t ∈ dom2 f) :
    ∃ d2, HasDerivAt (deriv f.forward) d2 t ∧ ∀ dy g, e.rev f t dy g = (g * (dy * d2), g * deriv f.forward t) := by
  have hn := smooth_nhds f t ht
  have hev : ∀ dy, ∀ᶠ s in 𝓝 t, e.eval f s dy = dy * deriv f.forward s := by
    intro dy
    filter_upwards [hn] with s hs
    obtain ⟨d, h1, h2⟩ := C150_first f e he s hs.1 hs.2
    rw [h2, h1.deriv]
  have hr := fun dy => rev_sound f t dy e (bw_ok f e he t dy ht)
  have hd : HasDerivAt (deriv f.forward) (e.rev f t 1 1).1 t :=
    (hr 1).1.congr_of_eventuallyEq ((hev 1).mono fun s h => by show _ = e.eval f s 1; rw [h, one_mul])
  refine ⟨_, hd, fun dy g => ?_⟩
  have h1 : (e.rev f t dy 1).1 = dy * (e.rev f t 1 1).1 :=
    ((hr dy).1.congr_of_eventuallyEq ((hev dy).mono fun s h => h.symm)).unique (hd.const_mul dy)
  have h2 : (e.rev f t dy 1).2 = deriv f.forward t := by
    have hl : HasDerivAt (fun d => e.eval f t d) (deriv f.forward t) dy := by
      have : (fun d => e.eval f t d) = fun d => d * deriv f.forward t := by
        funext d; exact (hev d).self_of_nhds
      rw [this]
      simpa using (hasDerivAt_id dy).mul_const (deriv f.forward t)
    exact (hr dy).2.unique hl
  rw [rev_lin, h1, h2]

/-- **C150 (sides).** At a kink the graph and `Variable.backward` can take different sides: `elu` with alpha ≠ 1 at 0 and
`hard_sigmoid` at ±2.5. -/
theorem C150_sides : (∃ e, bw (.elu 2) = some e ∧ e.eval (.elu 2) 0 1 = 2 ∧ (Unary.elu 2).grad 1 0 ((Unary.elu 2).forward 0) = 1) ∧
    ∃ e, bw .hardSigmoid = some e ∧ e.eval .hardSigmoid 2.5 1 = 0 ∧ Unary.hardSigmoid.grad 1 2.5 (Unary.hardSigmoid.forward 2.5) = 0.2 := by
  refine ⟨⟨_, rfl, ?_, ?_⟩, _, rfl, ?_, ?_⟩
  · simp only [G.eval, rsub, smul, Unary.forward]
    rw [ind_neg (lt_irrefl _)]; simp
  · simp [Unary.grad]
  · simp only [G.eval, smul, Unary.forward]
    rw [ind_neg (p := (2.5 : ℝ) < 2.5) (lt_irrefl _)]; ring
  · simp only [Unary.grad]; rw [if_pos (by norm_num)]; norm_num

theorem sinc_deriv (s : ℝ) : deriv Unary.sinc.forward s = if s = 0 then 0 else (Real.cos s - Real.sin s / s) / s := by
  rw [(smooth_deriv .sinc s trivial (Set.notMem_empty _)).deriv]
  simp only [Unary.grad, one_mul]

/-- `sin x / x` is twice differentiable at 0. -/
theorem sinc_second : HasDerivAt (deriv Unary.sinc.forward) (-1 / 3) 0 := by
  rw [hasDerivAt_iff_tendsto_slope]
  have hb : ∀ x : ℝ, x ≠ 0 → |x| ≤ 1 → |slope (deriv Unary.sinc.forward) 0 x - (-1 / 3)| ≤ |x| := by
    intro x h0 h1
    have hc := Real.cos_bound h1
    have hs : |Real.sin x - (x - x ^ 3 / 6)| ≤ |x| ^ 4 * (5 / 96) := by
      refine (Real.sin_bound h1).trans ?_
      have h4 : 0 ≤ |x| ^ 4 := by positivity
      have : |x| ^ 5 ≤ |x| ^ 4 := by rw [pow_succ]; exact mul_le_of_le_one_right h4 h1
      linarith
    rw [slope_def_field, sinc_deriv, sinc_deriv, if_neg h0, if_pos rfl]
    have hx : 0 < |x| := abs_pos.mpr h0
    have e : ((Real.cos x - Real.sin x / x) / x - 0) / (x - 0) - (-1 / 3) =
        (x * (Real.cos x - (1 - x ^ 2 / 2)) - (Real.sin x - (x - x ^ 3 / 6))) / x ^ 3 := by
      field_simp
      ring
    rw [e, abs_div, div_le_iff₀ (by positivity)]
    have h2 : |x * (Real.cos x - (1 - x ^ 2 / 2))| ≤ 1 * (|x| ^ 4 * (5 / 96)) := by
      rw [abs_mul]; exact mul_le_mul h1 hc (abs_nonneg _) zero_le_one
    calc _ ≤ |x * (Real.cos x - (1 - x ^ 2 / 2))| + |Real.sin x - (x - x ^ 3 / 6)| := abs_sub _ _
      _ ≤ 1 * (|x| ^ 4 * (5 / 96)) + |x| ^ 4 * (5 / 96) := add_le_add h2 hs
      _ ≤ |x| * |x ^ 3| := by rw [abs_pow]; nlinarith [pow_pos hx 4]
  rw [tendsto_iff_dist_tendsto_zero]
  refine squeeze_zero' (Eventually.of_forall fun _ => dist_nonneg) (g := fun x => |x|) ?_ ?_
  · have h1 : ∀ᶠ x in 𝓝[≠] (0 : ℝ), |x| ≤ 1 := by
      refine nhdsWithin_le_nhds ?_
      filter_upwards [eventually_gt_nhds (show (-1 : ℝ) < 0 by norm_num), eventually_lt_nhds (show (0 : ℝ) < 1 by norm_num)] with x a b
      exact abs_le.mpr ⟨a.le, b.le⟩
    filter_upwards [h1, self_mem_nhdsWithin] with x a b
    rw [Real.dist_eq]; exact hb x b a
  · have : Tendsto (fun x : ℝ => |x|) (𝓝 0) (𝓝 |0|) := continuous_abs.continuousAt
    rw [abs_zero] at this
    exact this.mono_left nhdsWithin_le_nhds

/-- **C150 (refuted at 0 for sinc).** `sin x / x` has the second derivative -1/3 at 0, the gradient graph does not deliver it: the
branch of `F.where` that holds the formula gets the gradient 0. (On hardware the divisions by 0 in this branch even make it NaN.) -/
theorem C150_sinc_refuted : HasDerivAt (deriv Unary.sinc.forward) (-1 / 3) 0 ∧
    ∃ e, bw .sinc = some e ∧ (e.rev .sinc 0 1 1).1 ≠ 1 * (1 * (-1 / 3)) := by
  refine ⟨sinc_second, _, rfl, ?_⟩
  have hm : ¬ ((G.noGrad (.ne .x 0)).eval Unary.sinc 0 1 ≠ 0) := by
    simp only [G.eval]; rw [ind_neg (by simp)]; simp
  simp only [G.rev] at *
  rw [sel_neg hm]
  simp [Unary.grad, G.eval, Unary.forward]
  norm_num

example : (1 : ℝ) ∈ dom2 .softSign ∧ (0 : ℝ) ∈ dom2 (.powScalar 2) := ⟨one_ne_zero, Or.inr ⟨⟨2, by norm_num⟩, Or.inr le_rfl⟩⟩
example : (2 : ℝ) ∈ dom2 (.leakyRelu (-1)) := ⟨trivial, two_ne_zero⟩

end Verif.Grad2
