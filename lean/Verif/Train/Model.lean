/-
Model of /repo/python/src/nnabla/experimental/mixed_precision_training.py:
DynamicLossScalingUpdater.
Simplifications: floats are rationals; solver, loss, data feeder and communicator are represented by
the log of the calls made on them; whether gradients of the k-th attempt contain Inf/NaN is an
arbitrary stream of booleans (it is what the network and the data decide); Python's recursion limit
is not modelled (101 nested calls are within the default).
-/
namespace Verif.Train

/-- The calls `update` makes on its collaborators. -/
inductive Ev
  | zeroGrad
  | feed
  | forward
  | backward (scale : Rat)
  | allReduce
  | check (overflow : Bool)
  | scaleGrad (s : Rat)
  | weightDecay (d : Rat)
  | update
deriving DecidableEq, Repr

/-- Constructor arguments (mixed_precision_training.py:69-89). -/
structure Cfg where
  factor : Rat
  N : Nat
  accumGrad : Nat
  weightDecay : Option Rat
  /-- `self.comm and len(self.grads) != 0` (:122). -/
  comm : Bool
  maxRec : Nat := 100

/-- Mutable attributes (:79, :86-88), plus the log of calls and the number of attempts made. -/
structure St where
  scale : Rat
  counter : Nat := 0
  recCount : Nat := 0
  attempts : Nat := 0
  log : List Ev := []

/-- One forward/backward round (:111-119). -/
def round (scale : Rat) : List Ev := [.feed, .forward, .backward scale]

/-- `accum_grad` rounds (:110). -/
def rounds (scale : Rat) : Nat → List Ev
  | 0 => []
  | n + 1 => round scale ++ rounds scale n

/-- Everything before the check (:106-123). -/
def prefixEvs (c : Cfg) (scale : Rat) : List Ev :=
  [.zeroGrad] ++ rounds scale c.accumGrad ++ (if c.comm then [.allReduce] else [])

/-- The tail of a successful `update` (:137-153). -/
def finish (c : Cfg) (s : St) : St :=
  let s := { s with recCount := 0 }
  let s := { s with log := s.log ++ [Ev.scaleGrad (1 / s.scale)] }
  let s := match c.weightDecay with
    | some d => { s with log := s.log ++ [Ev.weightDecay d] }
    | none => s
  let s := { s with log := s.log ++ [Ev.update] }
  let s := if s.counter > c.N then { s with scale := s.scale * c.factor, counter := 0 } else s
  { s with counter := s.counter + 1 }

/-- DynamicLossScalingUpdater.update (:91-153). `ov k` says whether the gradients of attempt `k`
contain Inf or NaN. The recursion of the Python code is bounded by `_recursive_count`; `fuel` is its
bound and `update` starts it with the number of remaining recursive calls, so it never runs out
before the `return # skip` branch (theorem `updateF_fuel`). -/
def updateF (c : Cfg) (ov : Nat → Bool) : Nat → St → St
  | 0, s => s
  | fuel + 1, s =>
    let o := ov s.attempts
    let s := { s with
      log := s.log ++ prefixEvs c s.scale ++ [.check o],
      attempts := s.attempts + 1 }
    if o then
      let s := { s with scale := s.scale / c.factor, counter := 0, recCount := s.recCount + 1 }
      if s.recCount > c.maxRec then { s with recCount := 0 }
      else updateF c ov fuel s
    else finish c s

/-- `update()` (:91). -/
def update (c : Cfg) (ov : Nat → Bool) (s : St) : St := updateF c ov (c.maxRec + 1 - s.recCount) s

/-- `n` calls of `update()`. -/
def updates (c : Cfg) (ov : Nat → Bool) : Nat → St → St
  | 0, s => s
  | n + 1, s => updates c ov n (update c ov s)

/-- A new updater (:69-89). -/
def new (scale : Rat) : St := { scale := scale }

end Verif.Train
