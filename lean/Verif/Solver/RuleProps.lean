import Verif.Solver.Rules
import Mathlib.Topology.Algebra.Order.LiminfLimsup
import Mathlib.Analysis.SpecificLimits.Basic
import Mathlib.Tactic.Linarith
import Mathlib.Tactic.Positivity
import Mathlib.Tactic.FieldSimp
import Mathlib.Tactic.NormNum
/-!
# C55, C56, C58-C62: gradient clipping and the update rules
-/

namespace Verif.Solver

open Real Filter Topology

/-! ## C55: clip_grad_by_norm -/

theorem sumSq_nonneg (l : List ℝ) : 0 ≤ sumSq l := by
  unfold sumSq
  apply List.sum_nonneg
  intro a ha
  obtain ⟨b, _, rfl⟩ := List.mem_map.1 ha
  exact mul_self_nonneg b

theorem sumSq_map_mul (c : ℝ) (l : List ℝ) : sumSq (l.map (fun a => c * a)) = c * c * sumSq l := by
  induction l with
  | nil => simp [sumSq]
  | cons a l ih =>
    simp only [sumSq, List.map_cons, List.sum_cons] at ih ⊢
    rw [ih]; ring

theorem clipGrad_length (c : ℝ) (g : List ℝ) : (clipGrad c g).length = g.length := by
  unfold clipGrad; simp only []; split <;> simp

/-- C55. After `clip_grad_by_norm(c)` the norm of the gradient is at most `|c|`. -/
theorem clip_norm_le (c : ℝ) (g : List ℝ) : √(sumSq (clipGrad c g)) ≤ |c| := by
  unfold clipGrad
  simp only []
  split
  · rename_i h
    have h1 : (g.map (fun a => c * a / √(sumSq g))) = g.map (fun a => (c / √(sumSq g)) * a) := by
      apply List.map_congr_left; intro a _; ring
    rw [h1, sumSq_map_mul]
    have hs : 0 < √(sumSq g) := Real.sqrt_pos.2 h.1
    have h2 : c / √(sumSq g) * (c / √(sumSq g)) * sumSq g = c * c := by
      have := Real.mul_self_sqrt h.1.le
      field_simp
      nlinarith [this]
    rw [h2, Real.sqrt_mul_self_eq_abs]
  · rename_i h
    rw [← Real.sqrt_mul_self_eq_abs]
    apply Real.sqrt_le_sqrt
    by_contra hc
    push_neg at hc
    exact h ⟨lt_of_le_of_lt (mul_self_nonneg c) hc, hc⟩

/-- C55. A gradient whose norm is at most `c` is not changed. -/
theorem clip_unchanged (c : ℝ) (g : List ℝ) (h : √(sumSq g) ≤ |c|) : clipGrad c g = g := by
  unfold clipGrad
  simp only []
  rw [if_neg]
  rintro ⟨_, h2⟩
  rw [← Real.sqrt_mul_self_eq_abs] at h
  have := (Real.sqrt_le_sqrt_iff (mul_self_nonneg c)).1 h
  linarith

/-- C55. For a positive norm, clipping keeps the direction: the gradient is multiplied by a factor
in (0, 1]. -/
theorem clip_direction (c : ℝ) (hc : 0 < c) (g : List ℝ) :
    ∃ k, 0 < k ∧ k ≤ 1 ∧ clipGrad c g = g.map (fun a => k * a) := by
  unfold clipGrad
  simp only []
  split
  · rename_i h
    have hs : 0 < √(sumSq g) := Real.sqrt_pos.2 h.1
    refine ⟨c / √(sumSq g), div_pos hc hs, ?_, ?_⟩
    · rw [div_le_one hs]
      apply Real.le_sqrt_of_sq_le
      nlinarith [h.2]
    · apply List.map_congr_left; intro a _; ring
  · exact ⟨1, one_pos, le_refl _, by simp⟩

/-- C55. Clipping twice is clipping once. -/
theorem clip_idempotent (c : ℝ) (g : List ℝ) : clipGrad c (clipGrad c g) = clipGrad c g :=
  clip_unchanged c _ (clip_norm_le c g)

/-- C55 fails for a negative norm (which is not rejected): the direction is reversed. -/
theorem clip_negative_reverses : clipGrad (-1) [2] = [-1] := by
  unfold clipGrad sumSq
  have h : √((2 : ℝ) * 2) = 2 := Real.sqrt_mul_self (by norm_num)
  norm_num [h]
  have h4 : √(4 : ℝ) = 2 := by rw [show (4 : ℝ) = 2 * 2 by norm_num]; exact h
  rw [h4]; norm_num

example : clipGrad 5 [6, 8] = [3, 4] := by
  unfold clipGrad sumSq
  have h : √((100 : ℝ)) = 10 := by
    rw [show (100 : ℝ) = 10 * 10 by norm_num]; exact Real.sqrt_mul_self (by norm_num)
  norm_num [h]

/-! ## C56: bounded learning rates -/

/-- C56. AdaBound: for every history, the effective step size of every update lies between the
documented bounds. -/
theorem adabound_within_bounds (alpha initAlpha b1 b2 eps finalLr gamma : ℝ) (t : ℕ) (ht : 1 ≤ t)
    (hf : 0 ≤ finalLr * (alpha / initAlpha)) (hg : 0 < gamma) (s : Adam) (g x : ℝ) :
    ∃ eta, (adabound alpha initAlpha b1 b2 eps finalLr gamma t s g x).2
        = x - eta * (adabound alpha initAlpha b1 b2 eps finalLr gamma t s g x).1.m ∧
      finalLr * (alpha / initAlpha) * (1 - 1 / (gamma * t + 1)) ≤ eta ∧
      eta ≤ finalLr * (alpha / initAlpha) * (1 + 1 / (gamma * t)) := by
  refine ⟨_, rfl, ?_, ?_⟩
  · unfold adaboundEta
    simp only []
    refine le_min ?_ (le_max_right _ _)
    apply mul_le_mul_of_nonneg_left _ hf
    have ht' : (0 : ℝ) < t := by exact_mod_cast ht
    have h1 : 0 < 1 / (gamma * t + 1) := by positivity
    have h2 : 0 < 1 / (gamma * t) := by positivity
    linarith
  · exact min_le_left _ _

/-- C56. AdaBound tends to SGD with learning rate `final_lr`: along any sequence of second moments
the step size converges to `final_lr * alpha / init_alpha`. -/
theorem adabound_tends_to_final_lr (alpha initAlpha b1 b2 eps finalLr gamma : ℝ)
    (hf : 0 ≤ finalLr * (alpha / initAlpha)) (hg : 0 < gamma) (v : ℕ → ℝ) :
    Tendsto (fun t => adaboundEta alpha initAlpha b1 b2 eps finalLr gamma t (v t)) atTop
      (𝓝 (finalLr * (alpha / initAlpha))) := by
  have hcast : Tendsto (fun t : ℕ => gamma * (t : ℝ)) atTop atTop :=
    tendsto_natCast_atTop_atTop.const_mul_atTop hg
  have hup : Tendsto (fun t : ℕ => finalLr * (alpha / initAlpha) * (1 + 1 / (gamma * (t : ℝ)))) atTop
      (𝓝 (finalLr * (alpha / initAlpha))) := by
    have : Tendsto (fun t : ℕ => (gamma * (t : ℝ))⁻¹) atTop (𝓝 0) := tendsto_inv_atTop_zero.comp hcast
    have h2 := (this.const_add 1).const_mul (finalLr * (alpha / initAlpha))
    simpa [one_div] using h2
  have hlo : Tendsto (fun t : ℕ => finalLr * (alpha / initAlpha) * (1 - 1 / (gamma * (t : ℝ) + 1)))
      atTop (𝓝 (finalLr * (alpha / initAlpha))) := by
    have h0 : Tendsto (fun t : ℕ => gamma * (t : ℝ) + 1) atTop atTop :=
      tendsto_atTop_add_const_right _ _ hcast
    have : Tendsto (fun t : ℕ => (gamma * (t : ℝ) + 1)⁻¹) atTop (𝓝 0) := tendsto_inv_atTop_zero.comp h0
    have h2 := (this.const_sub 1).const_mul (finalLr * (alpha / initAlpha))
    simpa [one_div] using h2
  refine tendsto_of_tendsto_of_tendsto_of_le_of_le' hlo hup ?_ ?_
  · filter_upwards [eventually_ge_atTop 1] with t ht
    have ht' : (0 : ℝ) < t := by exact_mod_cast ht
    unfold adaboundEta
    simp only []
    refine le_min ?_ (le_max_right _ _)
    apply mul_le_mul_of_nonneg_left _ hf
    have h1 : 0 < 1 / (gamma * t + 1) := by positivity
    have h2 : 0 < 1 / (gamma * t) := by positivity
    linarith
  · exact Eventually.of_forall (fun t => min_le_left _ _)

/-- The default hyper-parameters of AdaBound meet the hypotheses. -/
example : (0 : ℝ) ≤ 0.1 * (0.001 / 0.001) ∧ (0 : ℝ) < 0.001 := by norm_num

/-- C56, AMSBound, what holds: the lower bound. Missing: the documented upper bound
`final_lr (1 + 1 / (gamma t))`, refuted by `amsbound_not_bounded`. -/
theorem amsbound_lower_bound_partial (alpha initAlpha b1 b2 eps finalLr gamma : ℝ) (bias : Bool)
    (t : ℕ) (hf : 0 ≤ finalLr * (alpha / initAlpha)) (hg : 0 < gamma) (s : Ams) (g x : ℝ) :
    ∃ eta, (amsbound alpha initAlpha b1 b2 eps finalLr gamma bias t s g x).2
        = x - eta * (amsbound alpha initAlpha b1 b2 eps finalLr gamma bias t s g x).1.m ∧
      finalLr * (alpha / initAlpha) * (1 - 1 / (gamma * t + 1)) ≤ eta := by
  refine ⟨_, rfl, ?_⟩
  unfold amsboundEta
  simp only []
  refine le_min ?_ (le_max_right _ _)
  apply mul_le_mul_of_nonneg_left _ hf
  have ht' : (0 : ℝ) ≤ t := Nat.cast_nonneg t
  have h1 : 0 < 1 / (gamma * t + 1) := by positivity
  have h2 : 0 ≤ 1 / gamma * t := by positivity
  linarith

/-- C56 refuted for AMSBound: with the default hyper-parameters and a zero second moment (the
gradients so far were zero), at `t = 1000000` the step size exceeds the documented upper bound. -/
theorem amsbound_not_bounded :
    (0.1 : ℝ) * (0.001 / 0.001) * (1 + 1 / (0.001 * (1000000 : ℕ))) <
      amsboundEta 0.001 0.001 0.9 0.999 1e-8 0.1 0.001 false 1000000 0 := by
  unfold amsboundEta
  norm_num

/-- ... and it does not converge to `final_lr`. -/
theorem amsbound_not_tends_to_final_lr :
    ¬ Tendsto (fun t : ℕ => amsboundEta 0.001 0.001 0.9 0.999 1e-8 0.1 0.001 false t 0) atTop
      (𝓝 (0.1 * (0.001 / 0.001))) := by
  intro h
  have h1 := (h.eventually (gt_mem_nhds (show (0.1 : ℝ) * (0.001 / 0.001) < 1 by norm_num)))
  obtain ⟨N, hN⟩ := eventually_atTop.1 h1
  have h2 := hN (max N 1000) (le_max_left _ _)
  have hge : (1000 : ℝ) ≤ ((max N 1000 : ℕ) : ℝ) := by exact_mod_cast le_max_right N 1000
  unfold amsboundEta at h2
  simp only [Real.sqrt_zero, zero_add, Bool.false_eq_true, if_false, mul_one] at h2
  have h3 : (1 : ℝ) ≤ 0.1 * (0.001 / 0.001) * (1 + 1 / 0.001 * ((max N 1000 : ℕ) : ℝ)) := by
    have e1 : (0.1 : ℝ) * (0.001 / 0.001) = 0.1 := by norm_num
    have e2 : (1 : ℝ) / 0.001 = 1000 := by norm_num
    rw [e1, e2]; nlinarith
  have h4 : (1 : ℝ) ≤ max (0.001 / 1e-8)
      (0.1 * (0.001 / 0.001) * (1 - 1 / (0.001 * ((max N 1000 : ℕ) : ℝ) + 1))) :=
    le_max_of_le_left (by norm_num)
  exact absurd h2 (not_lt.2 (le_min h3 h4))

/-! ## Histories -/

/-- An invariant kept by every step holds after every history. -/
theorem trajectory_inv {σ : Type} (step : ℕ → σ → ℝ → ℝ → σ × ℝ) (P : σ → Prop)
    (hstep : ∀ t s g x, P s → P (step t s g x).1) (gs : List ℝ) (t : ℕ) (s : σ) (x : ℝ) (h : P s) :
    P (trajectory step gs t s x).1 := by
  induction gs generalizing t s x with
  | nil => exact h
  | cons g gs ih => exact ih _ _ _ (hstep _ _ _ _ h)

/-! ## C58: square roots and denominators -/

theorem next_nonneg {b1 b2 : ℝ} (h0 : 0 ≤ b2) (h1 : b2 ≤ 1) (s : Adam) (g : ℝ) (h : 0 ≤ s.v) :
    0 ≤ (s.next b1 b2 g).v := by
  unfold Adam.next
  simp only []
  have : 0 ≤ (1 - b2) * g * g := by
    rw [mul_assoc]; exact mul_nonneg (by linarith) (mul_self_nonneg g)
  have := mul_nonneg h0 h
  linarith

/-- C58. Adam: after any gradients the square root is taken of a non-negative number and the
denominator is positive. -/
theorem adam_denominator_pos (alpha b1 b2 eps : ℝ) (h0 : 0 ≤ b2) (h1 : b2 ≤ 1) (he : 0 < eps)
    (gs : List ℝ) (x : ℝ) :
    0 ≤ (trajectory (adam alpha b1 b2 eps) gs 0 ⟨0, 0⟩ x).1.v ∧
    0 < √(trajectory (adam alpha b1 b2 eps) gs 0 ⟨0, 0⟩ x).1.v + eps :=
  ⟨trajectory_inv _ (fun s => 0 ≤ s.v) (fun _ s g _ h => next_nonneg h0 h1 s g h) gs 0 _ x le_rfl,
   add_pos_of_nonneg_of_pos (Real.sqrt_nonneg _) he⟩

/-- C58. The bias correction of the Adam family is well defined and positive at every count
`t ≥ 1`. -/
theorem biasCorr_pos (b1 b2 : ℝ) (h1 : 0 ≤ b1) (h1' : b1 < 1) (h2 : 0 ≤ b2) (h2' : b2 < 1) (t : ℕ)
    (ht : 1 ≤ t) : 0 < 1 - b1 ^ t ∧ 0 < 1 - b2 ^ t ∧ 0 < biasCorr b1 b2 t := by
  have a : b1 ^ t < 1 := pow_lt_one₀ h1 h1' (by omega)
  have b : b2 ^ t < 1 := pow_lt_one₀ h2 h2' (by omega)
  exact ⟨by linarith, by linarith, div_pos (Real.sqrt_pos.2 (by linarith)) (by linarith)⟩

example : 0 < biasCorr (0.9 : ℝ) 0.999 1 :=
  (biasCorr_pos 0.9 0.999 (by norm_num) (by norm_num) (by norm_num) (by norm_num) 1 le_rfl).2.2

/-- C58. RMSpropGraves: for every history the radicand `n - g² + eps` is at least `eps` (the running
variance is never negative), so that no square root of a negative number is taken. -/
theorem graves_variance_nonneg (lr decay mu eps : ℝ) (h0 : 0 ≤ decay) (h1 : decay ≤ 1)
    (gs : List ℝ) (x : ℝ) :
    let s := (trajectory (fun _ => graves lr decay mu eps) gs 0 ⟨0, 0, 0⟩ x).1
    eps ≤ s.n - s.g * s.g + eps := by
  have := trajectory_inv (fun _ => graves lr decay mu eps) (fun s => s.g * s.g ≤ s.n) (by
    intro _ s g x h
    unfold graves
    simp only []
    have h2 : 0 ≤ decay * (1 - decay) * ((s.g - g) * (s.g - g)) :=
      mul_nonneg (mul_nonneg h0 (by linarith)) (mul_self_nonneg _)
    nlinarith [mul_le_mul_of_nonneg_left h h0]) gs 0 ⟨0, 0, 0⟩ x (by simp)
  simp only []
  linarith

/-- C58. Adadelta: both running averages stay non-negative; the radicand is non-negative and the
denominator positive. -/
theorem adadelta_radicand_nonneg (lr decay eps : ℝ) (h0 : 0 ≤ decay) (h1 : decay ≤ 1) (he : 0 < eps)
    (gs : List ℝ) (x : ℝ) :
    let s := (trajectory (fun _ => adadelta lr decay eps) gs 0 ⟨0, 0⟩ x).1
    0 ≤ s.eg ∧ 0 ≤ s.ed ∧ 0 < s.eg + eps ∧ 0 ≤ (s.ed + eps) / (s.eg + eps) := by
  have := trajectory_inv (fun _ => adadelta lr decay eps) (fun s => 0 ≤ s.eg ∧ 0 ≤ s.ed) (by
    intro _ s g x h
    unfold adadelta
    simp only []
    refine ⟨?_, ?_⟩
    · have := mul_nonneg h.1 h0
      have := mul_nonneg (mul_self_nonneg g) (show 0 ≤ 1 - decay by linarith)
      linarith
    · have := mul_nonneg h.2 h0
      have := mul_nonneg (mul_self_nonneg (√((s.ed + eps) /
        (s.eg * decay + g * g * (1 - decay) + eps)) * g)) (show 0 ≤ 1 - decay by linarith)
      linarith) gs 0 ⟨0, 0⟩ x ⟨le_rfl, le_rfl⟩
  simp only []
  refine ⟨this.1, this.2, by linarith [this.1], ?_⟩
  exact div_nonneg (by linarith [this.2]) (by linarith [this.1])

/-- C58. AMSGRAD: the maximum it divides by never decreases, and it bounds the running square. -/
theorem amsgrad_vhat_monotone (alpha b1 b2 eps : ℝ) (bias : Bool) (t : ℕ) (s : Ams) (g x : ℝ) :
    s.vh ≤ (amsgrad alpha b1 b2 eps bias t s g x).1.vh ∧
    (amsgrad alpha b1 b2 eps bias t s g x).1.v ≤ (amsgrad alpha b1 b2 eps bias t s g x).1.vh :=
  ⟨le_max_left _ _, le_max_right _ _⟩

/-- C58. Lars raises (the check "local learning rate should be positive or zero") only for a
negative weight decay rate. -/
theorem lars_never_raises (lr coef eps wd : ℝ) (hwd : 0 ≤ wd) (g d : List ℝ) :
    ∃ r, larsLr lr coef eps wd g d = .ok r := by
  unfold larsLr
  simp only []
  rw [if_neg]
  · exact ⟨_, rfl⟩
  · have := mul_nonneg hwd (Real.sqrt_nonneg (sumSq d))
    have := Real.sqrt_nonneg (sumSq g)
    linarith

/-! ## C59: bounded steps -/

/-- C59. Adagrad: no history and no gradient moves an element by more than `lr`. -/
theorem adagrad_step_le (lr eps : ℝ) (hlr : 0 ≤ lr) (he : 0 < eps) (gs : List ℝ) (x g y : ℝ) :
    let s := (trajectory (fun _ => adagrad lr eps) gs 0 (0 : ℝ) x).1
    |(adagrad lr eps s g y).2 - y| ≤ lr := by
  intro s
  have hs : 0 ≤ s := trajectory_inv (fun _ => adagrad lr eps) (fun v => 0 ≤ v) (by
    intro _ v g x h
    unfold adagrad
    simp only []
    linarith [mul_self_nonneg g]) gs 0 (0 : ℝ) x le_rfl
  unfold adagrad
  simp only []
  have hd : 0 < √(s + g * g) + eps := add_pos_of_nonneg_of_pos (Real.sqrt_nonneg _) he
  have hg : |g| ≤ √(s + g * g) := by
    rw [← Real.sqrt_mul_self_eq_abs]
    exact Real.sqrt_le_sqrt (by linarith)
  rw [show y - lr * g / (√(s + g * g) + eps) - y = -(lr * g / (√(s + g * g) + eps)) by ring,
    abs_neg, abs_div, abs_mul, abs_of_nonneg hlr, abs_of_pos hd, div_le_iff₀ hd]
  exact mul_le_mul_of_nonneg_left (by linarith) hlr

/-- C59. RMSprop: no history and no gradient moves an element by more than `lr / √(1 - decay)`. -/
theorem rmsprop_step_le (lr decay eps : ℝ) (hlr : 0 ≤ lr) (he : 0 < eps) (h0 : 0 ≤ decay)
    (h1 : decay < 1) (gs : List ℝ) (x g y : ℝ) :
    let s := (trajectory (fun _ => rmsprop lr decay eps) gs 0 (0 : ℝ) x).1
    |(rmsprop lr decay eps s g y).2 - y| ≤ lr / √(1 - decay) := by
  intro s
  have hs : 0 ≤ s := trajectory_inv (fun _ => rmsprop lr decay eps) (fun v => 0 ≤ v) (by
    intro _ v g x h
    unfold rmsprop
    simp only []
    have := mul_nonneg h h0
    have := mul_nonneg (mul_self_nonneg g) (show 0 ≤ 1 - decay by linarith)
    linarith) gs 0 (0 : ℝ) x le_rfl
  unfold rmsprop
  simp only []
  set r := √(s * decay + g * g * (1 - decay)) with hr
  have hd : 0 < r + eps := add_pos_of_nonneg_of_pos (Real.sqrt_nonneg _) he
  have hq : 0 < √(1 - decay) := Real.sqrt_pos.2 (by linarith)
  have hg : |g| * √(1 - decay) ≤ r := by
    rw [hr, ← Real.sqrt_mul_self_eq_abs, ← Real.sqrt_mul (mul_self_nonneg g)]
    exact Real.sqrt_le_sqrt (by linarith [mul_nonneg hs h0])
  rw [show y - lr / (r + eps) * g - y = -(lr / (r + eps) * g) by ring,
    abs_neg, abs_mul, abs_div, abs_of_nonneg hlr, abs_of_pos hd, div_mul_eq_mul_div,
    div_le_div_iff₀ hd hq, mul_assoc]
  exact mul_le_mul_of_nonneg_left (by linarith) hlr

/-- The running mean of the Adam family is dominated by the root of the running square. -/
theorem adam_mean_le {b1 b2 : ℝ} (h1 : 0 < b1) (hb : b1 * b1 < b2) (h2 : b2 < 1) (s : Adam) (g : ℝ)
    (h : s.m * s.m * ((1 - b2) * (1 - b1 * b1 / b2)) ≤ (1 - b1) * (1 - b1) * s.v) :
    (s.next b1 b2 g).m * (s.next b1 b2 g).m * ((1 - b2) * (1 - b1 * b1 / b2))
      ≤ (1 - b1) * (1 - b1) * (s.next b1 b2 g).v := by
  have hb2 : 0 < b2 := lt_trans (mul_pos h1 h1) hb
  have hγ : 0 < 1 - b1 * b1 / b2 := by rw [sub_pos, div_lt_one hb2]; exact hb
  unfold Adam.next
  simp only []
  -- (a + b)² (1 - γ) ≤ b² + a² (1 - γ) / γ, with a = b1 m, b = (1 - b1) g, γ = b1²/b2
  have key : (b1 * s.m + (1 - b1) * g) * (b1 * s.m + (1 - b1) * g) * (1 - b1 * b1 / b2)
      ≤ (1 - b1) * (1 - b1) * (g * g) + b2 * (s.m * s.m) * (1 - b1 * b1 / b2) := by
    have hsq : 0 ≤ (b1 / b2 * ((1 - b1) * g) - (1 - b1 * b1 / b2) * s.m) *
        (b1 / b2 * ((1 - b1) * g) - (1 - b1 * b1 / b2) * s.m) * b2 :=
      mul_nonneg (mul_self_nonneg _) hb2.le
    have e : (1 - b1) * (1 - b1) * (g * g) + b2 * (s.m * s.m) * (1 - b1 * b1 / b2)
        - (b1 * s.m + (1 - b1) * g) * (b1 * s.m + (1 - b1) * g) * (1 - b1 * b1 / b2)
        = (b1 / b2 * ((1 - b1) * g) - (1 - b1 * b1 / b2) * s.m) *
        (b1 / b2 * ((1 - b1) * g) - (1 - b1 * b1 / b2) * s.m) * b2 := by
      field_simp
      ring
    linarith
  have h3 : 0 < 1 - b2 := by linarith
  have k2 := mul_le_mul_of_nonneg_left key h3.le
  have k3 := mul_le_mul_of_nonneg_left h hb2.le
  nlinarith [k2, k3]

/-- C59. Adam: no history and no gradient moves an element by more than
`alpha_t (1 - β1) / √((1 - β2)(1 - β1²/β2))`, `alpha_t` being the bias corrected `alpha`. -/
theorem adam_step_le (alpha b1 b2 eps : ℝ) (ha : 0 ≤ alpha) (he : 0 < eps) (h1 : 0 < b1)
    (h1' : b1 < 1) (hb : b1 * b1 < b2) (h2 : b2 < 1) (gs : List ℝ) (x g y : ℝ) (t : ℕ)
    (ht : 1 ≤ t) :
    let s := (trajectory (adam alpha b1 b2 eps) gs 0 ⟨0, 0⟩ x).1
    |(adam alpha b1 b2 eps t s g y).2 - y| ≤
      alpha * biasCorr b1 b2 t * ((1 - b1) / √((1 - b2) * (1 - b1 * b1 / b2))) := by
  intro s
  have hb2 : 0 < b2 := lt_trans (mul_pos h1 h1) hb
  have hγ : 0 < 1 - b1 * b1 / b2 := by rw [sub_pos, div_lt_one hb2]; exact hb
  have hC : 0 < (1 - b2) * (1 - b1 * b1 / b2) := mul_pos (by linarith) hγ
  have hs : s.m * s.m * ((1 - b2) * (1 - b1 * b1 / b2)) ≤ (1 - b1) * (1 - b1) * s.v :=
    trajectory_inv (adam alpha b1 b2 eps)
      (fun s => s.m * s.m * ((1 - b2) * (1 - b1 * b1 / b2)) ≤ (1 - b1) * (1 - b1) * s.v)
      (fun _ s g _ h => adam_mean_le h1 hb h2 s g h) gs 0 ⟨0, 0⟩ x (by simp)
  have hn := adam_mean_le h1 hb h2 s g hs
  have hbc := (biasCorr_pos b1 b2 h1.le h1' hb2.le h2 t ht).2.2
  unfold adam
  simp only []
  set s' := s.next b1 b2 g
  have hd : 0 < √s'.v + eps := add_pos_of_nonneg_of_pos (Real.sqrt_nonneg _) he
  have hq : 0 < √((1 - b2) * (1 - b1 * b1 / b2)) := Real.sqrt_pos.2 hC
  have hm : |s'.m| * √((1 - b2) * (1 - b1 * b1 / b2)) ≤ (1 - b1) * √s'.v := by
    have e1 : |s'.m| * √((1 - b2) * (1 - b1 * b1 / b2))
        = √(s'.m * s'.m * ((1 - b2) * (1 - b1 * b1 / b2))) := by
      rw [Real.sqrt_mul (mul_self_nonneg _), Real.sqrt_mul_self_eq_abs]
    have e2 : (1 - b1) * √s'.v = √((1 - b1) * (1 - b1) * s'.v) := by
      rw [Real.sqrt_mul (mul_self_nonneg _), Real.sqrt_mul_self (by linarith)]
    rw [e1, e2]
    exact Real.sqrt_le_sqrt hn
  have hA : 0 ≤ alpha * biasCorr b1 b2 t := mul_nonneg ha hbc.le
  rw [show y - alpha * biasCorr b1 b2 t * s'.m / (√s'.v + eps) - y
      = -(alpha * biasCorr b1 b2 t * s'.m / (√s'.v + eps)) by ring, abs_neg, abs_div, abs_mul,
    abs_of_nonneg hA, abs_of_pos hd, mul_div_assoc]
  refine mul_le_mul_of_nonneg_left ?_ hA
  rw [div_le_div_iff₀ hd hq]
  have : 0 ≤ (1 - b1) * eps := mul_nonneg (by linarith) he.le
  linarith

/-- The default hyper-parameters of Adam meet the hypotheses. -/
example : (0 : ℝ) < 0.9 ∧ (0.9 : ℝ) * 0.9 < 0.999 ∧ (0.999 : ℝ) < 1 := by norm_num

theorem sgn_abs_le (v : ℝ) : |sgn v| ≤ 1 := by
  unfold sgn
  rcases lt_trichotomy v 0 with h | h | h
  · simp [h, not_lt.2 h.le]
  · simp [h]
  · simp [h, not_lt.2 h.le]

/-- C59. Lion without weight decay moves an element by at most `lr`, whatever the state. -/
theorem lion_step_le (lr b1 b2 m g y : ℝ) (hlr : 0 ≤ lr) : |(lion lr b1 b2 0 m g y).2 - y| ≤ lr := by
  unfold lion
  simp only [zero_mul, add_zero]
  rw [show y - lr * sgn (lerp g m b1) - y = -(lr * sgn (lerp g m b1)) by ring, abs_neg, abs_mul,
    abs_of_nonneg hlr]
  calc lr * |sgn (lerp g m b1)| ≤ lr * 1 := mul_le_mul_of_nonneg_left (sgn_abs_le _) hlr
    _ = lr := mul_one _

/-- C59. Adamax: no history and no gradient moves an element by more than
`alpha / (1 - β1ᵗ) * (1 - β1) / (1 - β1/β2)`. -/
theorem adamax_step_le (alpha b1 b2 eps : ℝ) (ha : 0 ≤ alpha) (he : 0 < eps) (h1 : 0 ≤ b1)
    (h1' : b1 < 1) (hb : b1 < b2) (gs : List ℝ) (x g y : ℝ) (t : ℕ) (ht : 1 ≤ t) :
    let s := (trajectory (adamax alpha b1 b2 eps) gs 0 ⟨0, 0⟩ x).1
    |(adamax alpha b1 b2 eps t s g y).2 - y| ≤
      alpha * (1 / (1 - b1 ^ t)) * ((1 - b1) / (1 - b1 / b2)) := by
  intro s
  have hb2 : 0 < b2 := lt_of_le_of_lt h1 hb
  have hγ : 0 < 1 - b1 / b2 := by rw [sub_pos, div_lt_one hb2]; exact hb
  have hstep : ∀ (t : ℕ) (s : Adamax) (g x : ℝ),
      |s.m| * (1 - b1 / b2) ≤ (1 - b1) * s.u ∧ 0 ≤ s.u →
      |(adamax alpha b1 b2 eps t s g x).1.m| * (1 - b1 / b2)
        ≤ (1 - b1) * (adamax alpha b1 b2 eps t s g x).1.u ∧
      0 ≤ (adamax alpha b1 b2 eps t s g x).1.u := by
    intro t s g x h
    unfold adamax
    simp only []
    refine ⟨?_, le_max_of_le_right (abs_nonneg g)⟩
    set u := max (b2 * s.u) |g|
    have hu1 : b2 * s.u ≤ u := le_max_left _ _
    have hu2 : |g| ≤ u := le_max_right _ _
    have hab : |b1 * s.m + (1 - b1) * g| ≤ b1 * |s.m| + (1 - b1) * |g| := by
      calc |b1 * s.m + (1 - b1) * g| ≤ |b1 * s.m| + |(1 - b1) * g| := abs_add_le _ _
        _ = b1 * |s.m| + (1 - b1) * |g| := by
          rw [abs_mul, abs_mul, abs_of_nonneg h1, abs_of_nonneg (show 0 ≤ 1 - b1 by linarith)]
    have k1 := mul_le_mul_of_nonneg_right hab hγ.le
    have k2 := mul_le_mul_of_nonneg_left h.1 h1
    have k3 : s.u ≤ u / b2 := by rw [le_div_iff₀ hb2]; linarith
    have k4 := mul_le_mul_of_nonneg_left k3 (mul_nonneg h1 (show 0 ≤ 1 - b1 by linarith))
    have k5 := mul_le_mul_of_nonneg_left hu2 (mul_nonneg (show 0 ≤ 1 - b1 by linarith) hγ.le)
    have e : b1 * (1 - b1) * (u / b2) = (1 - b1) * u * (b1 / b2) := by field_simp
    nlinarith [k1, k2, k4, k5]
  have hs := trajectory_inv (adamax alpha b1 b2 eps)
    (fun s => |s.m| * (1 - b1 / b2) ≤ (1 - b1) * s.u ∧ 0 ≤ s.u) hstep gs 0 ⟨0, 0⟩ x (by simp)
  have hn := hstep t s g y hs
  have hbt : 0 < 1 - b1 ^ t := by
    have := pow_lt_one₀ h1 h1' (show t ≠ 0 by omega); linarith
  have hA : 0 ≤ alpha * (1 / (1 - b1 ^ t)) := mul_nonneg ha (one_div_pos.2 hbt).le
  unfold adamax at hn ⊢
  simp only [] at hn ⊢
  set u := max (b2 * s.u) |g|
  set m := b1 * s.m + (1 - b1) * g
  have hd : 0 < u + eps := by linarith [hn.2]
  rw [show y - alpha * (1 / (1 - b1 ^ t)) * m / (u + eps) - y
      = -(alpha * (1 / (1 - b1 ^ t)) * m / (u + eps)) by ring, abs_neg, abs_div, abs_mul,
    abs_of_nonneg hA, abs_of_pos hd, mul_div_assoc]
  refine mul_le_mul_of_nonneg_left ?_ hA
  rw [div_le_div_iff₀ hd hγ]
  have : 0 ≤ (1 - b1) * eps := mul_nonneg (by linarith) he.le
  linarith [hn.1]

/-! ## C60: invariance under loss scaling -/

/-- Two runs in lock step. -/
theorem trajectory_rel {σ τ : Type} (f : ℕ → σ → ℝ → ℝ → σ × ℝ) (h : ℕ → τ → ℝ → ℝ → τ × ℝ)
    (c : ℝ) (r : σ → τ → Prop)
    (hstep : ∀ t s s' g x, r s s' → r (f t s g x).1 (h t s' (c * g) x).1 ∧
      (h t s' (c * g) x).2 = (f t s g x).2)
    (gs : List ℝ) (t : ℕ) (s : σ) (s' : τ) (x : ℝ) (hr : r s s') :
    (trajectory h (gs.map (fun g => c * g)) t s' x).2 = (trajectory f gs t s x).2 := by
  induction gs generalizing t s s' x with
  | nil => rfl
  | cons g gs ih =>
    simp only [trajectory, List.map_cons]
    obtain ⟨h1, h2⟩ := hstep (t + 1) s s' g x hr
    rw [h2]
    exact ih _ _ _ _ h1

theorem sqrt_scale (c v : ℝ) (hc : 0 < c) : √(c * c * v) = c * √v := by
  rw [Real.sqrt_mul (mul_self_nonneg c), Real.sqrt_mul_self hc.le]

/-- C60. Adam with `eps = 0`: multiplying every gradient by the same positive factor leaves every
parameter trajectory unchanged. -/
theorem adam_scale_invariant (alpha b1 b2 c : ℝ) (hc : 0 < c) (gs : List ℝ) (x : ℝ) :
    (trajectory (adam alpha b1 b2 0) (gs.map (fun g => c * g)) 0 ⟨0, 0⟩ x).2
      = (trajectory (adam alpha b1 b2 0) gs 0 ⟨0, 0⟩ x).2 := by
  refine trajectory_rel _ _ c (fun s s' : Adam => s'.m = c * s.m ∧ s'.v = c * c * s.v) ?_
    gs 0 _ _ x ⟨by simp, by simp⟩
  intro t s s' g x h
  have hm : (s'.next b1 b2 (c * g)).m = c * (s.next b1 b2 g).m := by
    unfold Adam.next; simp only [h.1]; ring
  have hv : (s'.next b1 b2 (c * g)).v = c * c * (s.next b1 b2 g).v := by
    unfold Adam.next; simp only [h.2]; ring
  refine ⟨⟨hm, hv⟩, ?_⟩
  unfold adam
  simp only [hm, hv, sqrt_scale c _ hc, add_zero]
  congr 1
  rw [show alpha * biasCorr b1 b2 t * (c * (s.next b1 b2 g).m)
    = c * (alpha * biasCorr b1 b2 t * (s.next b1 b2 g).m) by ring]
  exact mul_div_mul_left _ _ hc.ne'

/-- C60. AMSGRAD with `eps = 0`. -/
theorem amsgrad_scale_invariant (alpha b1 b2 c : ℝ) (bias : Bool) (hc : 0 < c) (gs : List ℝ) (x : ℝ) :
    (trajectory (amsgrad alpha b1 b2 0 bias) (gs.map (fun g => c * g)) 0 ⟨0, 0, 0⟩ x).2
      = (trajectory (amsgrad alpha b1 b2 0 bias) gs 0 ⟨0, 0, 0⟩ x).2 := by
  refine trajectory_rel _ _ c (fun s s' : Ams => s'.m = c * s.m ∧ s'.v = c * c * s.v ∧
    s'.vh = c * c * s.vh) ?_ gs 0 _ _ x ⟨by simp, by simp, by simp⟩
  intro t s s' g x h
  have hm : (s'.next b1 b2 (c * g)).m = c * (s.next b1 b2 g).m := by
    unfold Ams.next; simp only [h.1]; ring
  have hv : (s'.next b1 b2 (c * g)).v = c * c * (s.next b1 b2 g).v := by
    unfold Ams.next; simp only [h.2.1]; ring
  have hvh : (s'.next b1 b2 (c * g)).vh = c * c * (s.next b1 b2 g).vh := by
    have e1 : (s'.next b1 b2 (c * g)).vh = max s'.vh (s'.next b1 b2 (c * g)).v := rfl
    have e2 : (s.next b1 b2 g).vh = max s.vh (s.next b1 b2 g).v := rfl
    rw [e1, e2, hv, h.2.2, mul_max_of_nonneg _ _ (mul_self_nonneg c)]
  refine ⟨⟨hm, hv, hvh⟩, ?_⟩
  unfold amsgrad
  simp only [hm, hvh, sqrt_scale c _ hc, add_zero]
  congr 1
  rw [show alpha * (if bias = true then biasCorr b1 b2 t else 1) * (c * (s.next b1 b2 g).m)
    = c * (alpha * (if bias = true then biasCorr b1 b2 t else 1) * (s.next b1 b2 g).m) by ring]
  exact mul_div_mul_left _ _ hc.ne'

/-- C60. Adamax with `eps = 0`. -/
theorem adamax_scale_invariant (alpha b1 b2 c : ℝ) (hc : 0 < c) (gs : List ℝ) (x : ℝ) :
    (trajectory (adamax alpha b1 b2 0) (gs.map (fun g => c * g)) 0 ⟨0, 0⟩ x).2
      = (trajectory (adamax alpha b1 b2 0) gs 0 ⟨0, 0⟩ x).2 := by
  refine trajectory_rel _ _ c (fun s s' : Adamax => s'.m = c * s.m ∧ s'.u = c * s.u) ?_
    gs 0 _ _ x ⟨by simp, by simp⟩
  intro t s s' g x h
  have hu : max (b2 * s'.u) |c * g| = c * max (b2 * s.u) |g| := by
    rw [h.2, abs_mul, abs_of_pos hc, mul_max_of_nonneg _ _ hc.le]
    congr 1; ring
  refine ⟨⟨?_, hu⟩, ?_⟩
  · unfold adamax; simp only [h.1]; ring
  · unfold adamax
    simp only [h.1, hu, add_zero]
    congr 1
    rw [show alpha * (1 / (1 - b1 ^ t)) * (b1 * (c * s.m) + (1 - b1) * (c * g))
      = c * (alpha * (1 / (1 - b1 ^ t)) * (b1 * s.m + (1 - b1) * g)) by ring]
    exact mul_div_mul_left _ _ hc.ne'

/-- C60. Adagrad with `eps = 0`. -/
theorem adagrad_scale_invariant (lr c : ℝ) (hc : 0 < c) (gs : List ℝ) (x : ℝ) :
    (trajectory (fun _ => adagrad lr 0) (gs.map (fun g => c * g)) 0 (0 : ℝ) x).2
      = (trajectory (fun _ => adagrad lr 0) gs 0 (0 : ℝ) x).2 := by
  refine trajectory_rel _ _ c (fun s s' : ℝ => s' = c * c * s) ?_ gs 0 _ _ x (by simp)
  intro t s s' g x h
  have hv : s' + c * g * (c * g) = c * c * (s + g * g) := by rw [h]; ring
  refine ⟨hv, ?_⟩
  unfold adagrad
  simp only [hv, sqrt_scale c _ hc, add_zero]
  congr 1
  rw [show lr * (c * g) = c * (lr * g) by ring]
  exact mul_div_mul_left _ _ hc.ne'

/-- C60. RMSprop with `eps = 0`. -/
theorem rmsprop_scale_invariant (lr decay c : ℝ) (hc : 0 < c) (gs : List ℝ) (x : ℝ) :
    (trajectory (fun _ => rmsprop lr decay 0) (gs.map (fun g => c * g)) 0 (0 : ℝ) x).2
      = (trajectory (fun _ => rmsprop lr decay 0) gs 0 (0 : ℝ) x).2 := by
  refine trajectory_rel _ _ c (fun s s' : ℝ => s' = c * c * s) ?_ gs 0 _ _ x (by simp)
  intro t s s' g x h
  have hv : s' * decay + c * g * (c * g) * (1 - decay)
      = c * c * (s * decay + g * g * (1 - decay)) := by rw [h]; ring
  refine ⟨hv, ?_⟩
  unfold rmsprop
  simp only [hv, sqrt_scale c _ hc, add_zero]
  congr 1
  rw [div_mul_eq_mul_div, div_mul_eq_mul_div, show lr * (c * g) = c * (lr * g) by ring]
  exact mul_div_mul_left _ _ hc.ne'

theorem sgn_scale (c v : ℝ) (hc : 0 < c) : sgn (c * v) = sgn v := by
  unfold sgn
  have h1 : 0 < c * v ↔ 0 < v := by
    constructor
    · intro h; exact (mul_pos_iff_of_pos_left hc).1 h
    · intro h; exact mul_pos hc h
  have h2 : c * v < 0 ↔ v < 0 := by
    constructor
    · intro h
      by_contra hv
      exact absurd (mul_nonneg hc.le (not_lt.1 hv)) (not_le.2 h)
    · intro h; exact mul_neg_of_pos_of_neg hc h
  simp only [h1, h2]

/-- C60. Lion is scale invariant exactly (no `eps`), with or without weight decay. -/
theorem lion_scale_invariant (lr b1 b2 wd c : ℝ) (hc : 0 < c) (gs : List ℝ) (x : ℝ) :
    (trajectory (fun _ => lion lr b1 b2 wd) (gs.map (fun g => c * g)) 0 (0 : ℝ) x).2
      = (trajectory (fun _ => lion lr b1 b2 wd) gs 0 (0 : ℝ) x).2 := by
  refine trajectory_rel _ _ c (fun s s' : ℝ => s' = c * s) ?_ gs 0 _ _ x (by simp)
  intro t s s' g x h
  have hl : ∀ b, lerp (c * g) s' b = c * lerp g s b := by
    intro b; unfold lerp; rw [h]; ring
  refine ⟨hl b2, ?_⟩
  unfold lion
  simp only [hl b1, sgn_scale c _ hc]

/-! ## C61: relations between solvers -/

/-- C61. `momentum = 0` turns Momentum and Nesterov into Sgd, whatever the state. -/
theorem momentum_zero_is_sgd (lr v g x : ℝ) :
    (momentum lr 0 v g x).2 = sgd lr g x ∧ (nesterov lr 0 v g x).2 = sgd lr g x := by
  unfold momentum nesterov sgd
  constructor <;> simp <;> ring

/-- C61. Nesterov keeps the look-ahead point `y + momentum * v` of the textbook iteration
`v ← momentum v - lr g`, `y ← y + v`, for every history. -/
theorem nesterov_is_lookahead (lr mu : ℝ) (gs : List ℝ) (t : ℕ) (v x y : ℝ) (h : x = y + mu * v) :
    let textbook := trajectory (fun _ v g y => (mu * v - lr * g, y + (mu * v - lr * g))) gs t v y
    let code := trajectory (fun _ => nesterov lr mu) gs t v x
    code.1 = textbook.1 ∧ code.2 = textbook.2 + mu * textbook.1 := by
  induction gs generalizing t v x y with
  | nil => exact ⟨rfl, h⟩
  | cons g gs ih =>
    simp only [trajectory]
    apply ih
    unfold nesterov
    simp only [h]
    ring

/-- C61. AdamW without weight decay is Adam; SgdW without weight decay is Momentum. -/
theorem decoupled_zero_decay (alpha initAlpha b1 b2 eps : ℝ) (t : ℕ) (s : Adam)
    (lr initLr mu v g x : ℝ) :
    adamw alpha initAlpha b1 b2 eps 0 t s g x = adam alpha b1 b2 eps t s g x ∧
    sgdw lr initLr mu 0 v g x = momentum lr mu v g x := by
  unfold adamw adam sgdw momentum
  simp

/-- C61. Decoupled weight decay does not enter the moments: AdamW's state is Adam's and its value
is Adam's minus `alpha / init_alpha * rate * x`. -/
theorem adamw_decoupled (alpha initAlpha b1 b2 eps wd : ℝ) (t : ℕ) (s : Adam) (g x : ℝ) :
    (adamw alpha initAlpha b1 b2 eps wd t s g x).1 = (adam alpha b1 b2 eps t s g x).1 ∧
    (adamw alpha initAlpha b1 b2 eps wd t s g x).2
      = (adam alpha b1 b2 eps t s g x).2 - alpha / initAlpha * wd * x := ⟨rfl, rfl⟩

/-- C61. `weight_decay(r)` then `update()` in Sgd is one step of size `lr` on the gradient of the
loss plus `r/2 x²`; with `momentum = 0` and an unchanged learning rate, SgdW with rate `lr r` does
the same. -/
theorem sgd_weight_decay (lr r g x : ℝ) (hlr : lr ≠ 0) :
    sgd lr (g + r * x) x = x - lr * (g + r * x) ∧
    (sgdw lr lr 0 (lr * r) 0 g x).2 = sgd lr (g + r * x) x := by
  unfold sgdw sgd
  refine ⟨rfl, ?_⟩
  simp only []
  rw [div_self hlr]; ring

/-- C61. A zero learning rate freezes the parameters, for every history (AdamW and SgdW too: their
decay is scaled by the learning rate). -/
theorem zero_lr_freezes (b1 b2 eps initAlpha wd decay mu lr0 : ℝ) (t : ℕ) (s : Adam) (sd : Adadelta)
    (g x v : ℝ) :
    sgd 0 g x = x ∧ (adagrad 0 eps v g x).2 = x ∧ (rmsprop 0 decay eps v g x).2 = x ∧
    (adadelta 0 decay eps sd g x).2 = x ∧ (adam 0 b1 b2 eps t s g x).2 = x ∧
    (adamw 0 initAlpha b1 b2 eps wd t s g x).2 = x ∧ (lion 0 b1 b2 wd v g x).2 = x ∧
    (sgdw 0 lr0 0 wd v g x).2 = x := by
  unfold sgd adagrad rmsprop adadelta adam adamw lion sgdw
  simp

/-- Momentum alone is not frozen by a zero learning rate: the accumulated velocity goes on. -/
theorem zero_lr_momentum_moves : (momentum 0 (1 / 2) 1 0 0).2 = -(1 / 2) := by
  unfold momentum; norm_num

/-! ## C62: Lamb -/

theorem sumSq_zipWith_sub (k : ℝ) (w r : List ℝ) (h : w.length = r.length) :
    sumSq (List.zipWith (fun a b => a - b) (List.zipWith (fun w r => w - k * r) w r) w)
      = k * k * sumSq r := by
  induction w generalizing r with
  | nil =>
    cases r with
    | nil => simp [sumSq]
    | cons b r => simp at h
  | cons a w ih =>
    cases r with
    | nil => simp at h
    | cons b r =>
      simp only [List.length_cons, Nat.add_right_cancel_iff] at h
      have := ih r h
      simp only [sumSq, List.zipWith_cons_cons, List.map_cons, List.sum_cons] at this ⊢
      rw [this]; ring

/-- C62. Lamb: when the direction is not negligible (`‖r‖ > eps`), one update moves the array by
exactly `eta` times its norm clamped to `[gamma_l, gamma_u]`, whatever the scale of the gradient. -/
theorem lamb_step_norm (eta gl gu eps : ℝ) (he : 0 ≤ eta) (hgl : 0 ≤ gl) (hgu : gl ≤ gu)
    (heps : 0 ≤ eps) (r w : List ℝ) (hlen : w.length = r.length) (hr : eps < √(sumSq r)) :
    √(sumSq (List.zipWith (fun a b => a - b) (lambStep eta gl gu eps r w) w))
      = eta * min gu (max gl (√(sumSq w))) := by
  have hpos : 0 < √(sumSq r) := lt_of_le_of_lt heps hr
  unfold lambStep
  simp only [gt_iff_lt, hr, if_true]
  have hv : (if gu < (if √(sumSq w) < gl then gl else √(sumSq w)) then gu
      else (if √(sumSq w) < gl then gl else √(sumSq w))) = min gu (max gl (√(sumSq w))) := by
    by_cases h1 : √(sumSq w) < gl
    · simp only [h1, if_true]
      rw [max_eq_left h1.le, min_eq_right hgu, if_neg (not_lt.2 hgu)]
    · simp only [h1, if_false]
      rw [max_eq_right (not_lt.1 h1)]
      by_cases h2 : gu < √(sumSq w)
      · rw [if_pos h2, min_eq_left h2.le]
      · rw [if_neg h2, min_eq_right (not_lt.1 h2)]
  rw [hv]
  set v := min gu (max gl (√(sumSq w)))
  have hv0 : 0 ≤ v := le_min (hgl.trans hgu) (le_max_of_le_left hgl)
  rw [sumSq_zipWith_sub _ w r hlen]
  rw [Real.sqrt_mul (mul_self_nonneg _), Real.sqrt_mul_self (mul_nonneg he (div_nonneg hv0 hpos.le))]
  field_simp

example : (0 : ℝ) < √(sumSq [3, 4]) := by
  apply Real.sqrt_pos.2; unfold sumSq; norm_num

end Verif.Solver
