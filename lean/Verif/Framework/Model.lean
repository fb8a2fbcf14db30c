import Mathlib.Algebra.BigOperators.Group.Finset.Basic
import Mathlib.Algebra.BigOperators.Intervals
import Mathlib.Data.List.Range
/-!
The training framework, python/src/nnabla/experimental/framework/{trainer,updater,evaluator,worker}.py.

Simplifications: every method of the worker and every callback is one atomic action on a state, which it may change in any way, and
may raise; the attributes max_epoch, iter_per_epoch, accum_grad, val_iter, comm and grads are not changed during training.
-/
namespace Verif.Framework

/-- The methods of Worker and the callbacks of Updater and Evaluator, with their arguments. The callbacks of a list are numbered. -/
inductive Ev
  | loadCheckpoint | prepare | saveAtStart | epochStart (e : Nat) | iterStart (i e : Nat) | iterEnd (i e : Nat) | epochEnd (e : Nat)
  | saveCheckpoint (e : Nat) | saveAtEnd | complete
  | zeroGrad (i e : Nat) | feed (i e ag : Nat) | forward (i e ag : Nat) | backward (i e ag : Nat) | allReduce (i e : Nat) | update (i e : Nat)
  | onForwardStart (k i e ag : Nat) | onForwardFinish (k i e ag : Nat) | onBackwardStart (k i e ag : Nat) | onBackwardFinish (k i e ag : Nat)
  | onReduceStart (k i e : Nat) | onReduceFinish (k i e : Nat) | onUpdateStart (k i e : Nat) | onUpdateFinish (k i e : Nat)
  | onEvalStart (k e : Nat) | evalFeed (e vi : Nat) | evalForward (e vi : Nat) | onEvalFinish (k e : Nat)
  deriving DecidableEq

/-- Attributes of Worker (worker.py:414-455), Updater (updater.py:61-103) and Evaluator (evaluator.py:44-56); callback lists by length. -/
structure Conf where
  maxEpoch : Nat
  iterPerEpoch : Nat
  accumGrad : Nat
  valIter : Nat
  /-- `self.comm` is truthy -/
  comm : Bool
  /-- `len(self.grads)` -/
  grads : Nat
  fwdStart : Nat
  fwdFinish : Nat
  bwdStart : Nat
  bwdFinish : Nat
  redStart : Nat
  redFinish : Nat
  updStart : Nat
  updFinish : Nat
  evStart : Nat
  evFinish : Nat

/-- The result of a program: the calls made, the state, and the exception if one was raised. -/
structure Res (W E : Type) where
  trace : List Ev
  state : W
  exc : Option E

/-- What user code does: the effect of each call, and the value that load_checkpoint has returned. -/
structure User (W E : Type) where
  call : Ev → W → W × Option E
  startEpoch : W → Nat

/-- A Python statement. -/
abbrev P (W E : Type) := W → Res W E

variable {W E : Type}

/-- A call. -/
def User.doEv (u : User W E) (v : Ev) : P W E := fun w => ⟨[v], (u.call v w).1, (u.call v w).2⟩

/-- Sequence of statements: an exception ends it. -/
def seq (p q : P W E) : P W E := fun w =>
  match (p w).exc with
  | some x => ⟨(p w).trace, (p w).state, some x⟩
  | none => ⟨(p w).trace ++ (q (p w).state).trace, (q (p w).state).state, (q (p w).state).exc⟩

/-- The empty statement. -/
def skip : P W E := fun w => ⟨[], w, none⟩

/-- `for x in xs: body(x)`. -/
def loop {α : Type} (xs : List α) (body : α → P W E) : P W E := xs.foldr (fun x p => seq (body x) p) skip

/-- `for callback in callbacks: callback(...)`. -/
def callbacks (u : User W E) (n : Nat) (f : Nat → Ev) : P W E := loop (List.range n) fun k => u.doEv (f k)

/-- Updater.update (updater.py:105-153). -/
def updaterUpdate (u : User W E) (c : Conf) (i e : Nat) : P W E :=
  seq (u.doEv (.zeroGrad i e)) <|
  seq (loop (List.range c.accumGrad) fun ag =>
    seq (u.doEv (.feed i e ag)) <|
    seq (callbacks u c.fwdStart fun k => .onForwardStart k i e ag) <|
    seq (u.doEv (.forward i e ag)) <|
    seq (callbacks u c.fwdFinish fun k => .onForwardFinish k i e ag) <|
    seq (callbacks u c.bwdStart fun k => .onBackwardStart k i e ag) <|
    seq (u.doEv (.backward i e ag)) <|
    callbacks u c.bwdFinish fun k => .onBackwardFinish k i e ag) <|
  seq (if c.comm && c.grads != 0 then
      seq (callbacks u c.redStart fun k => .onReduceStart k i e) <|
      seq (u.doEv (.allReduce i e)) <|
      callbacks u c.redFinish fun k => .onReduceFinish k i e
    else skip) <|
  seq (callbacks u c.updStart fun k => .onUpdateStart k i e) <|
  seq (u.doEv (.update i e)) <|
  callbacks u c.updFinish fun k => .onUpdateFinish k i e

/-- Evaluator.evaluate (evaluator.py:58-70). -/
def evaluate (u : User W E) (c : Conf) (e : Nat) : P W E :=
  seq (callbacks u c.evStart fun k => .onEvalStart k e) <|
  seq (loop (List.range c.valIter) fun vi => seq (u.doEv (.evalFeed e vi)) (u.doEv (.evalForward e vi))) <|
  callbacks u c.evFinish fun k => .onEvalFinish k e

/-- Trainer.train (trainer.py:45-82), with update_in_iteration, evaluate_at_epoch_start and evaluate_at_training_end of Worker
(worker.py:541-571). `self.start_epoch` is what load_checkpoint returned. -/
def train (u : User W E) (c : Conf) : P W E :=
  seq (u.doEv .loadCheckpoint) fun w =>
  (seq (u.doEv .prepare) <|
   seq (u.doEv .saveAtStart) <|
   seq (loop ((List.range c.maxEpoch).map (u.startEpoch w + ·)) fun e =>
     seq (u.doEv (.epochStart e)) <|
     seq (evaluate u c e) <|
     seq (loop (List.range c.iterPerEpoch) fun i =>
       seq (u.doEv (.iterStart i e)) <|
       seq (updaterUpdate u c i e) <|
       u.doEv (.iterEnd i e)) <|
     seq (u.doEv (.epochEnd e)) <|
     u.doEv (.saveCheckpoint e)) <|
   seq (evaluate u c c.maxEpoch) <|
   seq (u.doEv .saveAtEnd) <|
   u.doEv .complete) w

end Verif.Framework
