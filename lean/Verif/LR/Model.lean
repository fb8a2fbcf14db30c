import Mathlib.Analysis.SpecialFunctions.Pow.Real
import Mathlib.Analysis.SpecialFunctions.Trigonometric.Basic
/-
Model of /repo/python/src/nnabla/utils/learning_rate_scheduler.py.
Simplification: Python floats are modelled by real numbers (no rounding); iterations are naturals.
-/
namespace Verif.LR

/-- A scheduler: iteration to learning rate (`get_learning_rate`, :30-40). -/
abbrev Sched := ℕ → ℝ

/-- PolynomialScheduler.get_learning_rate (:60-70). `**` on floats is `Real.rpow` (base ≥ 0 on the
range of iterations considered). -/
noncomputable def polynomial (initLr : ℝ) (maxIter : ℕ) (power : ℝ) : Sched := fun iter =>
  initLr * ((1.0 - iter * 1.0 / maxIter) ^ power)

/-- CosineScheduler.get_learning_rate (:88-98). -/
noncomputable def cosine (initLr : ℝ) (maxIter : ℕ) : Sched := fun iter =>
  initLr * ((Real.cos (iter * 1.0 / maxIter * Real.pi) + 1.0) * 0.5)

/-- ExponentialScheduler.get_learning_rate (:119-130). -/
noncomputable def exponential (initLr gamma : ℝ) (interval : ℕ) : Sched := fun iter =>
  initLr * gamma ^ (iter / interval)

/-- The loop of StepScheduler.get_learning_rate (:163-167). -/
noncomputable def stepLoop (gamma : ℝ) (iter : ℕ) : List ℕ → ℝ → ℝ
  | [], lr => lr
  | s :: r, lr => stepLoop gamma iter r (if iter ≥ s then lr * gamma else lr)

/-- StepScheduler.get_learning_rate (:153-167). -/
noncomputable def step (initLr gamma : ℝ) (steps : List ℕ) : Sched := fun iter =>
  stepLoop gamma iter steps initLr

/-- LinearWarmupScheduler.get_learning_rate (:189-202). -/
noncomputable def warmup (s : Sched) (warmupIter : ℕ) : Sched := fun iter =>
  let lr := s iter
  if iter < warmupIter then lr * ((iter + 1) * 1.0 / warmupIter) else lr

end Verif.LR
