import Verif.Solver.Update
import Mathlib.Analysis.SpecialFunctions.Pow.Real
import Mathlib.Analysis.SpecialFunctions.Sqrt
/-!
# The update rules of the solver classes, over the reals

Each solver's `update_impl` (src/nbla/solver/generic/*.cpp) is modelled on one element: from the
iteration count after the increment, the state of the element, its gradient and its value, the new
state and value. Floating point rounding is not modelled: arithmetic is real arithmetic, with Lean's
convention `x / 0 = 0` (the theorems show that no denominator is zero where it matters).
Lars and Lamb, which use norms over the whole array, are modelled on lists.
-/

namespace Verif.Solver

open Real

noncomputable section

/-! ## Element rules -/

/-- src/nbla/solver/generic/sgd.cpp L39-49. -/
def sgd (lr g x : ℝ) : ℝ := x - lr * g

/-- src/nbla/solver/generic/momentum.cpp L45-57: `v` then data. -/
def momentum (lr mu v g x : ℝ) : ℝ × ℝ :=
  let v' := mu * v + lr * g
  (v', x - v')

/-- src/nbla/solver/generic/nesterov.cpp L45-58. -/
def nesterov (lr mu v g x : ℝ) : ℝ × ℝ :=
  let v' := mu * v - lr * g
  (v', x + (-mu * v + (1 + mu) * v'))

/-- src/nbla/solver/generic/sgdw.cpp L48-62; `wd` is `weight_decay_rate_`. -/
def sgdw (lr initLr mu wd v g x : ℝ) : ℝ × ℝ :=
  let v' := mu * v + lr * g
  (v', x - v' - lr / initLr * wd * x)

/-- src/nbla/solver/generic/adagrad.cpp L45-58. -/
def adagrad (lr eps v g x : ℝ) : ℝ × ℝ :=
  let v' := v + g * g
  (v', x - lr * g / (√v' + eps))

/-- src/nbla/solver/generic/rmsprop.cpp L46-59. -/
def rmsprop (lr decay eps v g x : ℝ) : ℝ × ℝ :=
  let v' := v * decay + g * g * (1 - decay)
  (v', x - lr / (√v' + eps) * g)

/-- State of Adadelta: running squares of gradients and of steps. -/
structure Adadelta where
  eg : ℝ
  ed : ℝ

/-- src/nbla/solver/generic/adadelta.cpp L49-68. -/
def adadelta (lr decay eps : ℝ) (s : Adadelta) (g x : ℝ) : Adadelta × ℝ :=
  let eg := s.eg * decay + g * g * (1 - decay)
  let delta := √((s.ed + eps) / (eg + eps)) * g
  (⟨eg, s.ed * decay + delta * delta * (1 - decay)⟩, x - lr * delta)

/-- State of RMSpropGraves. -/
structure Graves where
  n : ℝ
  g : ℝ
  d : ℝ

/-- src/nbla/solver/generic/rmsprop_graves.cpp L53-73. -/
def graves (lr decay mu eps : ℝ) (s : Graves) (g x : ℝ) : Graves × ℝ :=
  let n := decay * s.n + (1 - decay) * g * g
  let gg := decay * s.g + (1 - decay) * g
  let d := mu * s.d - lr * g / √(n - gg * gg + eps)
  (⟨n, gg, d⟩, x + d)

/-- State of Adam, AdamW, AdaBound, Lamb: running mean and square. -/
structure Adam where
  m : ℝ
  v : ℝ

/-- The lines shared by the Adam family (e.g. adam.cpp L66-67). -/
def Adam.next (b1 b2 : ℝ) (s : Adam) (g : ℝ) : Adam :=
  ⟨b1 * s.m + (1 - b1) * g, b2 * s.v + (1 - b2) * g * g⟩

/-- `bias_correction`, e.g. adam.cpp L61-62. -/
def biasCorr (b1 b2 : ℝ) (t : ℕ) : ℝ := √(1 - b2 ^ t) / (1 - b1 ^ t)

/-- src/nbla/solver/generic/adam.cpp L50-71. -/
def adam (alpha b1 b2 eps : ℝ) (t : ℕ) (s : Adam) (g x : ℝ) : Adam × ℝ :=
  let s' := s.next b1 b2 g
  (s', x - alpha * biasCorr b1 b2 t * s'.m / (√s'.v + eps))

/-- src/nbla/solver/generic/adamw.cpp L52-75. -/
def adamw (alpha initAlpha b1 b2 eps wd : ℝ) (t : ℕ) (s : Adam) (g x : ℝ) : Adam × ℝ :=
  let s' := s.next b1 b2 g
  (s', x - alpha * biasCorr b1 b2 t * s'.m / (√s'.v + eps) - alpha / initAlpha * wd * x)

/-- The clipped step size of AdaBound, adabound.cpp L66-77: `eta`. -/
def adaboundEta (alpha initAlpha b1 b2 eps finalLr gamma : ℝ) (t : ℕ) (v : ℝ) : ℝ :=
  let flr := finalLr * (alpha / initAlpha)
  let lower := flr * (1 - 1 / (gamma * t + 1))
  let upper := flr * (1 + 1 / (gamma * t))
  min upper (max (alpha * biasCorr b1 b2 t / (√v + eps)) lower)

/-- src/nbla/solver/generic/adabound.cpp L51-80. -/
def adabound (alpha initAlpha b1 b2 eps finalLr gamma : ℝ) (t : ℕ) (s : Adam) (g x : ℝ) :
    Adam × ℝ :=
  let s' := s.next b1 b2 g
  (s', x - adaboundEta alpha initAlpha b1 b2 eps finalLr gamma t s'.v * s'.m)

/-- State of AMSGRAD and AMSBound. -/
structure Ams where
  m : ℝ
  v : ℝ
  vh : ℝ

def Ams.next (b1 b2 : ℝ) (s : Ams) (g : ℝ) : Ams :=
  let v := b2 * s.v + (1 - b2) * g * g
  ⟨b1 * s.m + (1 - b1) * g, v, max s.vh v⟩

/-- src/nbla/solver/generic/amsgrad.cpp L54-78. -/
def amsgrad (alpha b1 b2 eps : ℝ) (bias : Bool) (t : ℕ) (s : Ams) (g x : ℝ) : Ams × ℝ :=
  let s' := s.next b1 b2 g
  (s', x - alpha * (if bias then biasCorr b1 b2 t else 1) * s'.m / (√s'.vh + eps))

/-- The clipped step size of AMSBound, amsbound.cpp L74-86: note `1 / gamma_ * t` in the upper
bound, where AdaBound has `1 / (gamma_ * t)`. -/
def amsboundEta (alpha initAlpha b1 b2 eps finalLr gamma : ℝ) (bias : Bool) (t : ℕ) (vh : ℝ) : ℝ :=
  let flr := finalLr * (alpha / initAlpha)
  let lower := flr * (1 - 1 / (gamma * t + 1))
  let upper := flr * (1 + 1 / gamma * t)
  min upper (max (alpha * (if bias then biasCorr b1 b2 t else 1) / (√vh + eps)) lower)

/-- src/nbla/solver/generic/amsbound.cpp L57-89. -/
def amsbound (alpha initAlpha b1 b2 eps finalLr gamma : ℝ) (bias : Bool) (t : ℕ) (s : Ams)
    (g x : ℝ) : Ams × ℝ :=
  let s' := s.next b1 b2 g
  (s', x - amsboundEta alpha initAlpha b1 b2 eps finalLr gamma bias t s'.vh * s'.m)

/-- State of Adamax. -/
structure Adamax where
  m : ℝ
  u : ℝ

/-- src/nbla/solver/generic/adamax.cpp L50-70. -/
def adamax (alpha b1 b2 eps : ℝ) (t : ℕ) (s : Adamax) (g x : ℝ) : Adamax × ℝ :=
  let m := b1 * s.m + (1 - b1) * g
  let u := max (b2 * s.u) |g|
  (⟨m, u⟩, x - alpha * (1 / (1 - b1 ^ t)) * m / (u + eps))

/-- `sign` of lion.cpp L54. -/
def sgn (v : ℝ) : ℝ := (if 0 < v then 1 else 0) - (if v < 0 then 1 else 0)

/-- `lerp` of lion.cpp L55-57. -/
def lerp (x y t : ℝ) : ℝ := x + t * (y - x)

/-- src/nbla/solver/generic/lion.cpp L48-65; `wd` is `weight_decay_rate_`. -/
def lion (lr b1 b2 wd m g x : ℝ) : ℝ × ℝ :=
  (lerp g m b2, x - lr * (sgn (lerp g m b1) + wd * x))

/-- Sum of squares, as accumulated by the C++ code. -/
def sumSq (l : List ℝ) : ℝ := (l.map (fun a => a * a)).sum

/-- include/nbla/solver/clip_grad.hpp L25-41 `clip_grad_by_norm_cpu`. -/
def clipGrad (c : ℝ) (g : List ℝ) : List ℝ :=
  let sum := sumSq g
  if 0 < sum ∧ c * c < sum then g.map (fun a => c * a / √sum) else g

/-- The step of Lamb, lamb.cpp L88-108: the direction `r` and the weights `w`. -/
def lambStep (eta gl gu eps : ℝ) (r w : List ℝ) : List ℝ :=
  let gnorm := √(sumSq r)
  let v0 := √(sumSq w)
  let v1 := if v0 < gl then gl else v0
  let v2 := if v1 > gu then gu else v1
  let localLr := if gnorm > eps then v2 / gnorm else 1
  List.zipWith (fun w r => w - eta * localLr * r) w r

/-- The direction of Lamb, lamb.cpp L76-86, for one element. -/
def lambDir (b1 b2 eps wd : ℝ) (bias : Bool) (t : ℕ) (s : Adam) (w : ℝ) : ℝ :=
  (s.m / (if bias then 1 - b1 ^ t else 1)) / (√(s.v / (if bias then 1 - b2 ^ t else 1)) + eps)
    + wd * w

/-- The local learning rate of Lars, lars.cpp L58-71, or the error raised by its check. -/
def larsLr (lr coef eps wd : ℝ) (g d : List ℝ) : Except Err ℝ :=
  let gn := √(sumSq g)
  let dn := √(sumSq d)
  let x := gn + wd * dn
  if x < 0 then .error .check
  else
    let x' := if x < eps then x + eps else x
    .ok (if dn < eps then lr else lr * coef * dn / x')

/-! ## Histories of one element -/

/-- `update()` called once per gradient of the list, from count `t`. -/
def trajectory {σ : Type} (step : ℕ → σ → ℝ → ℝ → σ × ℝ) : List ℝ → ℕ → σ → ℝ → σ × ℝ
  | [], _, s, x => (s, x)
  | g :: gs, t, s, x => trajectory step gs (t + 1) (step (t + 1) s g x).1 (step (t + 1) s g x).2

end

end Verif.Solver
