import Verif.LR.Model
/-
C16: learning-rate schedules.
-/
namespace Verif.LR

theorem frac_mem (maxIter iter : ℕ) (hm : 0 < maxIter) (h : iter ≤ maxIter) :
    0 ≤ (iter : ℝ) * 1.0 / maxIter ∧ (iter : ℝ) * 1.0 / maxIter ≤ 1 := by
  have hm' : (0 : ℝ) < maxIter := by exact_mod_cast hm
  have h' : (iter : ℝ) ≤ maxIter := by exact_mod_cast h
  constructor
  · positivity
  · rw [div_le_one hm']; norm_num; exact h

/-- Polynomial decay: starts at the initial rate, is zero at `max_iter`, never increases in between
and stays between the two. -/
theorem C16_polynomial (initLr : ℝ) (hl : 0 ≤ initLr) (maxIter : ℕ) (hm : 0 < maxIter) (power : ℝ)
    (hp : 0 < power) :
    polynomial initLr maxIter power 0 = initLr ∧
    polynomial initLr maxIter power maxIter = 0 ∧
    (∀ i j, i ≤ j → j ≤ maxIter →
      polynomial initLr maxIter power j ≤ polynomial initLr maxIter power i) ∧
    ∀ i ≤ maxIter, 0 ≤ polynomial initLr maxIter power i ∧ polynomial initLr maxIter power i ≤ initLr := by
  have hm' : (maxIter : ℝ) ≠ 0 := by exact_mod_cast hm.ne'
  have h0 : polynomial initLr maxIter power 0 = initLr := by
    simp only [polynomial]; norm_num
  have hend : polynomial initLr maxIter power maxIter = 0 := by
    simp only [polynomial]
    have : (1.0 : ℝ) - maxIter * 1.0 / maxIter = 0 := by field_simp; norm_num
    rw [this, Real.zero_rpow hp.ne', mul_zero]
  have hanti : ∀ i j, i ≤ j → j ≤ maxIter →
      polynomial initLr maxIter power j ≤ polynomial initLr maxIter power i := by
    intro i j hij hj
    have fj := frac_mem maxIter j hm hj
    have hmp : (0 : ℝ) < maxIter := by exact_mod_cast hm
    have hij' : (i : ℝ) ≤ j := by exact_mod_cast hij
    have hle : (i : ℝ) * 1.0 / maxIter ≤ j * 1.0 / maxIter := by gcongr
    simp only [polynomial]
    apply mul_le_mul_of_nonneg_left _ hl
    apply Real.rpow_le_rpow _ _ hp.le
    · have := fj.2; norm_num at *; linarith
    · linarith
  refine ⟨h0, hend, hanti, fun i hi => ⟨?_, ?_⟩⟩
  · have := hanti i maxIter hi (le_refl _); rw [hend] at this; exact this
  · have := hanti 0 i (Nat.zero_le _) hi; rw [h0] at this; exact this

theorem cosine_eq (l : ℝ) (m i : ℕ) :
    cosine l m i = l * ((Real.cos ((i : ℝ) / m * Real.pi) + 1) * (1 / 2)) := by
  have h1 : (1.0 : ℝ) = 1 := by norm_num
  have h2 : (0.5 : ℝ) = 1 / 2 := by norm_num
  unfold cosine
  rw [h1, h2, mul_one]

/-- Cosine decay: starts at the initial rate, half way it is half, zero at `max_iter`, never
increases in between. -/
theorem C16_cosine (initLr : ℝ) (hl : 0 ≤ initLr) (maxIter : ℕ) (hm : 0 < maxIter) :
    cosine initLr maxIter 0 = initLr ∧
    cosine initLr maxIter maxIter = 0 ∧
    (∀ h, 2 * h = maxIter → cosine initLr maxIter h = initLr / 2) ∧
    (∀ i j, i ≤ j → j ≤ maxIter → cosine initLr maxIter j ≤ cosine initLr maxIter i) ∧
    ∀ i, 0 ≤ cosine initLr maxIter i ∧ cosine initLr maxIter i ≤ initLr := by
  have hm' : (maxIter : ℝ) ≠ 0 := by exact_mod_cast hm.ne'
  have hmp : (0 : ℝ) < maxIter := by exact_mod_cast hm
  refine ⟨?_, ?_, ?_, ?_, ?_⟩
  · rw [cosine_eq, Nat.cast_zero, zero_div, zero_mul, Real.cos_zero]; ring
  · rw [cosine_eq, div_self hm', one_mul, Real.cos_pi]; ring
  · intro h hh
    have hne : (h : ℝ) ≠ 0 := by
      have : h ≠ 0 := by omega
      exact_mod_cast this
    have e : (maxIter : ℝ) = 2 * h := by exact_mod_cast hh.symm
    have : (h : ℝ) / maxIter * Real.pi = Real.pi / 2 := by
      rw [e]; field_simp
    rw [cosine_eq, this, Real.cos_pi_div_two]; ring
  · intro i j hij hj
    have hij' : (i : ℝ) ≤ j := by exact_mod_cast hij
    have hj' : (j : ℝ) ≤ maxIter := by exact_mod_cast hj
    have hle : (i : ℝ) / maxIter ≤ j / maxIter := by gcongr
    have hj1 : (j : ℝ) / maxIter ≤ 1 := by rw [div_le_one hmp]; exact hj'
    have hi0 : 0 ≤ (i : ℝ) / maxIter := by positivity
    have hpi := Real.pi_pos
    have hc : Real.cos ((j : ℝ) / maxIter * Real.pi) ≤ Real.cos ((i : ℝ) / maxIter * Real.pi) := by
      apply Real.cos_le_cos_of_nonneg_of_le_pi
      · exact mul_nonneg hi0 hpi.le
      · nlinarith
      · exact mul_le_mul_of_nonneg_right hle hpi.le
    rw [cosine_eq, cosine_eq]
    apply mul_le_mul_of_nonneg_left _ hl
    linarith
  · intro i
    rw [cosine_eq]
    have h1 := Real.neg_one_le_cos ((i : ℝ) / maxIter * Real.pi)
    have h2 := Real.cos_le_one ((i : ℝ) / maxIter * Real.pi)
    generalize Real.cos ((i : ℝ) / maxIter * Real.pi) = c at *
    constructor
    · apply mul_nonneg hl; linarith
    · nlinarith

/-- Exponential decay: the initial rate during the first interval; within an interval constant; from
one interval to the next multiplied by gamma. -/
theorem C16_exponential (initLr gamma : ℝ) (interval : ℕ) (hi : 0 < interval) :
    (∀ i < interval, exponential initLr gamma interval i = initLr) ∧
    (∀ q i, i < interval →
      exponential initLr gamma interval (q * interval + i) = exponential initLr gamma interval (q * interval)) ∧
    ∀ i, exponential initLr gamma interval (i + interval) = exponential initLr gamma interval i * gamma := by
  refine ⟨fun i h => ?_, fun q i h => ?_, fun i => ?_⟩
  · simp [exponential, Nat.div_eq_of_lt h]
  · have : (q * interval + i) / interval = q * interval / interval := by
      rw [Nat.mul_div_cancel _ hi, mul_comm, Nat.mul_add_div hi, Nat.div_eq_of_lt h, Nat.add_zero]
    simp [exponential, this]
  · simp [exponential, Nat.add_div_right _ hi, pow_succ, mul_assoc]

/-- Step decay: the initial rate times gamma to the number of steps already reached; so it is the
initial rate before every step, and equal at two iterations between which no step lies. -/
theorem C16_step (initLr gamma : ℝ) (steps : List ℕ) (iter : ℕ) :
    step initLr gamma steps iter = initLr * gamma ^ (steps.countP (fun s => decide (s ≤ iter))) := by
  unfold step
  induction steps generalizing initLr with
  | nil => simp [stepLoop]
  | cons s r ih =>
    rw [stepLoop, ih, List.countP_cons]
    by_cases h : s ≤ iter
    · simp [h, pow_succ]; ring
    · simp [h]

theorem C16_step_order (initLr gamma : ℝ) (s1 s2 : List ℕ) (h : s1.Perm s2) (iter : ℕ) :
    step initLr gamma s1 iter = step initLr gamma s2 iter := by
  rw [C16_step, C16_step, h.countP_eq]

/-- Linear warm-up: from `warmup_iter - 1` on it is the wrapped schedule; before, the fraction
`(iter+1)/warmup_iter` of it, so for a constant schedule it rises linearly from `lr/warmup_iter`;
it never exceeds a non-negative wrapped schedule. -/
theorem C16_warmup (s : Sched) (w : ℕ) :
    (∀ i, w ≤ i + 1 → warmup s w i = s i) ∧
    (∀ i < w, warmup s w i = s i * ((i + 1) / w)) ∧
    (∀ i, 0 ≤ s i → 0 ≤ warmup s w i ∧ warmup s w i ≤ s i) := by
  have key : ∀ i < w, warmup s w i = s i * ((i + 1) / w) := by
    intro i hi
    simp only [warmup, if_pos hi]; norm_num
  refine ⟨?_, key, ?_⟩
  · intro i hi
    by_cases h : i < w
    · have e : (w : ℝ) = i + 1 := by
        have : w = i + 1 := by omega
        rw [this]; push_cast; ring
      rw [key i h, e, div_self, mul_one]
      positivity
    · simp [warmup, h]
  · intro i hs
    by_cases h : i < w
    · rw [key i h]
      have hw : (0 : ℝ) < w := by exact_mod_cast (by omega : 0 < w)
      have hle : ((i : ℝ) + 1) / w ≤ 1 := by
        rw [div_le_one hw]; exact_mod_cast h
      have hge : 0 ≤ ((i : ℝ) + 1) / w := by positivity
      exact ⟨mul_nonneg hs hge, by nlinarith⟩
    · simp [warmup, h, hs]

example : polynomial 2 4 2 2 = 1 / 2 := by
  simp only [polynomial]
  rw [show (2 : ℝ) = ((2 : ℕ) : ℝ) by norm_num, Real.rpow_natCast]; norm_num
example : step 8 (1 / 2) [10, 20, 30] 25 = 2 := by rw [C16_step]; norm_num [List.countP_cons]
example : warmup (fun _ => 1) 4 1 = 1 / 2 := by rw [(C16_warmup _ 4).2.1 1 (by norm_num)]; norm_num

end Verif.LR
