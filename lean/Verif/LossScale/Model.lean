/-
Model of `nnabla.experimental.mixed_precision_training.DynamicLossScalingUpdater`
(python/src/nnabla/experimental/mixed_precision_training.py:62-143).

Numbers are reals.  What happens outside the class is a parameter (`Env`): the gradient of a batch at
the given parameters, the reduction over the workers, the test for inf/nan of the scaled gradient,
weight decay and the solver's update.  Overflow of half precision enters only through the test
`bad`, which may depend on anything.
-/
import Mathlib.Data.Real.Basic
import Mathlib.Algebra.Module.Basic
import Mathlib.Algebra.BigOperators.Group.Finset.Basic
import Mathlib.Algebra.Module.LinearMap.Defs
import Mathlib.Algebra.BigOperators.Intervals
import Mathlib.Tactic.Linarith
import Mathlib.Tactic.FieldSimp
import Mathlib.Tactic.Ring
import Mathlib.Algebra.Module.Pi

namespace Verif.LossScale

/-- The objects the updater is given. `G` is the space of gradients, `W` the parameters together with
the solver's states. -/
structure Env (W G : Type) [AddCommGroup G] [Module ℝ G] where
  /-- gradient of the unscaled loss for batch number `k` -/
  grad : W → Nat → G
  /-- `comm.all_reduce(grads, division=False)`: a sum over the workers; the identity without `comm` -/
  reduce : G →ₗ[ℝ] G
  /-- `solver.check_inf_or_nan_grad()` after the backward passes: parameters, first batch, scale -/
  bad : W → Nat → ℝ → Bool
  /-- `solver.weight_decay(wd)` if given, then `solver.update()` with the gradient -/
  step : W → G → W

/-- The constructor arguments (62-83). -/
structure Args where
  factor : ℝ
  N : Nat
  accum : Nat

/-- The updater's state, the parameters, the position of the data feeder and the gradient buffers. -/
structure St (W G : Type) where
  w : W
  grad : G
  fed : Nat
  scale : ℝ
  counter : Nat
  recur : Nat

variable {W G : Type} [AddCommGroup G] [Module ℝ G]

/-- 101-109, one pass of the loop: feed, forward, `backward(self.scale)` accumulates. -/
def feedOne (e : Env W G) (s : St W G) : St W G :=
  { s with grad := s.grad + s.scale • e.grad s.w s.fed, fed := s.fed + 1 }

/-- 98-114: `zero_grad`, the accumulation loop and `all_reduce`. -/
def collect (e : Env W G) (a : Args) (s : St W G) : St W G :=
  let t := (List.range a.accum).foldl (fun s _ => feedOne e s) { s with grad := 0 }
  { t with grad := e.reduce t.grad }

/-- 128-143: rescale, weight decay, update, and the interval counter. -/
noncomputable def finish (e : Env W G) (a : Args) (s : St W G) : St W G :=
  let g := (1 / s.scale) • s.grad
  let s := { s with grad := g, w := e.step s.w g }
  let s := if s.counter > a.N then { s with scale := s.scale * a.factor, counter := 0 } else s
  { s with counter := s.counter + 1 }

/-- 84-86: `_max_recursive_count`. -/
def maxRec : Nat := 100

/-- 88-143 `update`.  The recursion is bounded by `_max_recursive_count`; the fuel is
`maxRec + 1 - recur`, which is what is left of it (`update` uses it up exactly, see `tryUpdate_skip`). -/
noncomputable def tryUpdate (e : Env W G) (a : Args) : Nat → St W G → St W G
  | 0, s => s
  | n + 1, s =>
    let t := collect e a s
    if e.bad s.w s.fed s.scale then
      let t := { t with scale := t.scale / a.factor, counter := 0, recur := t.recur + 1 }
      if t.recur > maxRec then { t with recur := 0 } else tryUpdate e a n t
    else finish e a { t with recur := 0 }

/-- `update()` as the user calls it. -/
noncomputable def update (e : Env W G) (a : Args) (s : St W G) : St W G := tryUpdate e a (maxRec + 1 - s.recur) s

/-- `n` calls of `update()`. -/
noncomputable def updates (e : Env W G) (a : Args) : Nat → St W G → St W G
  | 0, s => s
  | n + 1, s => updates e a n (update e a s)

/-- The state after the constructor. -/
def start (w : W) (scale : ℝ) : St W G := ⟨w, 0, 0, scale, 0, 0⟩

end Verif.LossScale
