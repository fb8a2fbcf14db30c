import Verif.Framework.Model
import Mathlib.Algebra.Module.Defs
import Mathlib.Tactic.Ring
/-!
C153: the order of the calls, and what training computes. C154: crash and resume.
-/
namespace Verif.Framework

variable {W E : Type}

/-! ## Specification -/

/-- Executing a fixed list of calls until one raises. -/
def execList (u : User W E) : List Ev → W → Res W E
  | [], w => ⟨[], w, none⟩
  | v :: vs, w =>
    match u.call v w with
    | (w', some x) => ⟨[v], w', some x⟩
    | (w', none) => ⟨v :: (execList u vs w').trace, (execList u vs w').state, (execList u vs w').exc⟩

/-- The documented order of one update. -/
def updateOrder (c : Conf) (i e : Nat) : List Ev :=
  [.zeroGrad i e] ++
  (List.range c.accumGrad).flatMap (fun ag =>
    [.feed i e ag] ++ (List.range c.fwdStart).map (.onForwardStart · i e ag) ++ [.forward i e ag] ++ (List.range c.fwdFinish).map (.onForwardFinish · i e ag) ++
    (List.range c.bwdStart).map (.onBackwardStart · i e ag) ++ [.backward i e ag] ++ (List.range c.bwdFinish).map (.onBackwardFinish · i e ag)) ++
  (if c.comm = true ∧ c.grads ≠ 0 then
    (List.range c.redStart).map (.onReduceStart · i e) ++ [.allReduce i e] ++ (List.range c.redFinish).map (.onReduceFinish · i e) else []) ++
  (List.range c.updStart).map (.onUpdateStart · i e) ++ [.update i e] ++ (List.range c.updFinish).map (.onUpdateFinish · i e)

/-- The documented order of one evaluation. -/
def evalOrder (c : Conf) (e : Nat) : List Ev :=
  (List.range c.evStart).map (.onEvalStart · e) ++ (List.range c.valIter).flatMap (fun vi => [.evalFeed e vi, .evalForward e vi]) ++
  (List.range c.evFinish).map (.onEvalFinish · e)

/-- One epoch: evaluation, then all iterations, then the checkpoint. -/
def epochOrder (c : Conf) (e : Nat) : List Ev :=
  [.epochStart e] ++ evalOrder c e ++
  (List.range c.iterPerEpoch).flatMap (fun i => [.iterStart i e] ++ updateOrder c i e ++ [.iterEnd i e]) ++
  [.epochEnd e, .saveCheckpoint e]

/-- Training: `maxEpoch` epochs from the epoch that load_checkpoint returned. -/
def trainOrder (c : Conf) (start : Nat) : List Ev :=
  [.prepare, .saveAtStart] ++ (List.range c.maxEpoch).flatMap (fun k => epochOrder c (start + k)) ++
  evalOrder c c.maxEpoch ++ [.saveAtEnd, .complete]

/-! ## Refinement to the flat order -/

theorem seq_skip (p : P W E) : seq p skip = p := by
  funext w
  unfold seq skip
  cases h : (p w).exc <;> simp only []
  · rw [List.append_nil, ← h]
  · rw [← h]

theorem skip_seq (p : P W E) : seq skip p = p := by
  funext w; simp [seq, skip]

theorem exec_append (u : User W E) (a b : List Ev) : execList u (a ++ b) = seq (execList u a) (execList u b) := by
  induction a with
  | nil => funext w; simp [execList, seq]
  | cons v a ih =>
    funext w
    rw [List.cons_append]
    simp only [execList, seq]
    rcases h : u.call v w with ⟨w', _ | x⟩
    · simp only []
      rw [ih]
      simp only [seq]
      cases h2 : (execList u a w').exc <;> simp
    · simp only []

theorem exec_one (u : User W E) (v : Ev) : execList u [v] = u.doEv v := by
  funext w
  simp only [execList, User.doEv]
  rcases h : u.call v w with ⟨w', _ | x⟩ <;> simp

theorem loop_exec {α : Type} (u : User W E) (xs : List α) (f : α → List Ev) : loop xs (fun x => execList u (f x)) = execList u (xs.flatMap f) := by
  induction xs with
  | nil => funext w; simp [loop, skip, execList]
  | cons x xs ih =>
    rw [List.flatMap_cons, exec_append, ← ih]; rfl

theorem callbacks_exec (u : User W E) (n : Nat) (f : Nat → Ev) : callbacks u n f = execList u ((List.range n).map f) := by
  unfold callbacks
  simp only [← exec_one]
  rw [loop_exec]
  congr 1
  induction List.range n with
  | nil => rfl
  | cons a l ih => rw [List.flatMap_cons, ih]; rfl

theorem update_exec (u : User W E) (c : Conf) (i e : Nat) : updaterUpdate u c i e = execList u (updateOrder c i e) := by
  unfold updaterUpdate
  simp only [callbacks_exec, ← exec_one, ← exec_append, loop_exec]
  have : (if (c.comm && c.grads != 0) = true then execList u ((List.range c.redStart).map (fun k => Ev.onReduceStart k i e) ++ ([Ev.allReduce i e] ++ (List.range c.redFinish).map fun k => Ev.onReduceFinish k i e)) else skip)
      = execList u (if c.comm = true ∧ c.grads ≠ 0 then
        (List.range c.redStart).map (.onReduceStart · i e) ++ [.allReduce i e] ++ (List.range c.redFinish).map (.onReduceFinish · i e) else []) := by
    by_cases h : c.comm = true ∧ c.grads ≠ 0
    · rw [if_pos (by simp [h.1, h.2]), if_pos h, List.append_assoc]
    · rw [if_neg (by simpa using h), if_neg h]; rfl
  rw [this]
  simp only [← exec_append]
  unfold updateOrder
  simp only [List.append_assoc]

theorem evaluate_exec (u : User W E) (c : Conf) (e : Nat) : evaluate u c e = execList u (evalOrder c e) := by
  unfold evaluate
  simp only [callbacks_exec, ← exec_one, ← exec_append, loop_exec]
  unfold evalOrder
  simp only [List.append_assoc, List.singleton_append]

/-- **C153 (order).** train() makes exactly the documented calls in the documented order until one of them raises: the checkpoint is
loaded first, then maxEpoch epochs are run starting from the epoch it returned, each with its evaluation, its updates and its
checkpoint. -/
theorem C153_order (u : User W E) (c : Conf) (w : W) :
    train u c w = match u.call .loadCheckpoint w with
      | (w1, some x) => ⟨[.loadCheckpoint], w1, some x⟩
      | (w1, none) => execList u (.loadCheckpoint :: trainOrder c (u.startEpoch w1)) w := by
  unfold train
  simp only [evaluate_exec, update_exec, ← exec_one, ← exec_append, loop_exec, List.flatMap_map]
  simp only [seq]
  rcases h : u.call .loadCheckpoint w with ⟨w1, _ | x⟩
  · simp only [execList, h]
    unfold trainOrder epochOrder
    simp only [List.append_assoc, List.cons_append, List.nil_append]
  · simp [execList, h]

theorem exec_trace (u : User W E) (vs : List Ev) (w : W) :
    (execList u vs w).trace <+: vs ∧ ((execList u vs w).exc = none → (execList u vs w).trace = vs) := by
  induction vs generalizing w with
  | nil => simp [execList]
  | cons v vs ih =>
    simp only [execList]
    rcases h : u.call v w with ⟨w', _ | x⟩
    · simp only []
      obtain ⟨h1, h2⟩ := ih w'
      exact ⟨by simpa using h1, fun hx => by rw [h2 hx]⟩
    · simp

/-! ## What training computes -/

/-- The part of the state that matters for the parameters. -/
structure Core (B V : Type) where
  param : V
  grad : V
  batch : Option B
  pos : Nat

section semantics
variable {B V : Type} [AddCommMonoid V]

/-- The default methods of Worker on the core: zero_grad clears the gradients, the data feeder takes the next batch of the stream,
backward adds the gradient of the loss of the current batch (worker.py:605-699), all_reduce combines the gradients of the workers,
update applies the solver. All other calls leave the core alone. -/
def coreStep (data : Nat → B) (dloss : B → V → V) (reduce : V → V) (step : V → V → V) : Ev → Core B V → Core B V
  | .zeroGrad _ _, s => { s with grad := 0 }
  | .feed _ _ _, s => { s with batch := some (data s.pos), pos := s.pos + 1 }
  | .backward _ _ _, s => { s with grad := s.grad + (match s.batch with | some b => dloss b s.param | none => 0) }
  | .allReduce _ _, s => { s with grad := reduce s.grad }
  | .update _ _, s => { s with param := step s.param s.grad }
  | _, s => s

/-- The reference: `n` solver steps, the k-th with the (reduced) sum of the gradients of batches kA .. kA+A-1 at the current parameters. -/
def reference (data : Nat → B) (dloss : B → V → V) (reduce : V → V) (step : V → V → V) (A : Nat) : Nat → V → V
  | 0, p => p
  | n + 1, p =>
    let q := reference data dloss reduce step A n p
    step q (reduce (∑ j ∈ Finset.range A, dloss (data (n * A + j)) q))

theorem core_exec (u : User W E) (core : W → Core B V) (f : Ev → Core B V → Core B V)
    (hu : ∀ v w, core (u.call v w).1 = f v (core w)) (vs : List Ev) (w : W) (hx : (execList u vs w).exc = none) :
    core (execList u vs w).state = vs.foldl (fun s v => f v s) (core w) := by
  induction vs generalizing w with
  | nil => rfl
  | cons v vs ih =>
    simp only [execList] at hx ⊢
    have h1 := hu v w
    rcases h : u.call v w with ⟨w', _ | x⟩
    · rw [h] at hx h1
      simp only [] at hx ⊢
      rw [ih w' hx, List.foldl_cons, ← h1]
    · rw [h] at hx; simp at hx

variable (data : Nat → B) (dloss : B → V → V) (reduce : V → V) (step : V → V → V)

theorem fold_id (vs : List Ev) (s : Core B V) (h : ∀ v ∈ vs, ∀ s, coreStep data dloss reduce step v s = s) :
    vs.foldl (fun s v => coreStep data dloss reduce step v s) s = s := by
  induction vs generalizing s with
  | nil => rfl
  | cons v vs ih => rw [List.foldl_cons, h v (by simp), ih s fun v hv => h v (by simp [hv])]

theorem fold_update (c : Conf) (i e : Nat) (s : Core B V) :
    ∃ b, (updateOrder c i e).foldl (fun s v => coreStep data dloss reduce step v s) s =
      let g := ∑ j ∈ Finset.range c.accumGrad, dloss (data (s.pos + j)) s.param
      let r := if c.comm = true ∧ c.grads ≠ 0 then reduce g else g
      ⟨step s.param r, r, b, s.pos + c.accumGrad⟩ := by
  have hm : ∀ (n : Nat) (f : Nat → Ev) (s : Core B V), (∀ k s, coreStep data dloss reduce step (f k) s = s) →
      ((List.range n).map f).foldl (fun s v => coreStep data dloss reduce step v s) s = s := by
    intro n f s hf
    apply fold_id
    intro v hv s
    obtain ⟨k, -, rfl⟩ := List.mem_map.mp hv
    exact hf k s
  -- the accumulation loop
  have hacc : ∀ n, ∃ b, ((List.range n).flatMap (fun ag =>
      [Ev.feed i e ag] ++ (List.range c.fwdStart).map (.onForwardStart · i e ag) ++ [.forward i e ag] ++ (List.range c.fwdFinish).map (.onForwardFinish · i e ag) ++
      (List.range c.bwdStart).map (.onBackwardStart · i e ag) ++ [.backward i e ag] ++ (List.range c.bwdFinish).map (.onBackwardFinish · i e ag))).foldl
        (fun s v => coreStep data dloss reduce step v s) { s with grad := 0 } =
      ⟨s.param, ∑ j ∈ Finset.range n, dloss (data (s.pos + j)) s.param, b, s.pos + n⟩ := by
    intro n
    induction n with
    | zero => exact ⟨s.batch, by simp⟩
    | succ n ih =>
      obtain ⟨b, hb⟩ := ih
      refine ⟨some (data (s.pos + n)), ?_⟩
      rw [List.range_succ, List.flatMap_append, List.foldl_append, hb]
      simp only [List.flatMap_cons, List.flatMap_nil, List.append_nil, List.foldl_append, List.foldl_cons, List.foldl_nil]
      rw [hm _ _ _ (fun _ _ => rfl), hm _ _ _ (fun _ _ => rfl), hm _ _ _ (fun _ _ => rfl), hm _ _ _ (fun _ _ => rfl)]
      simp only [coreStep, Finset.sum_range_succ]
      rfl
  obtain ⟨b, hb⟩ := hacc c.accumGrad
  refine ⟨b, ?_⟩
  unfold updateOrder
  simp only [List.foldl_append, List.foldl_cons, List.foldl_nil]
  rw [show coreStep data dloss reduce step (.zeroGrad i e) s = { s with grad := 0 } from rfl, hb]
  by_cases hr : c.comm = true ∧ c.grads ≠ 0
  · rw [if_pos hr]
    simp only [List.foldl_append, List.foldl_cons, List.foldl_nil]
    rw [hm _ _ _ (fun _ _ => rfl), hm _ _ _ (fun _ _ => rfl), hm _ _ _ (fun _ _ => rfl), hm _ _ _ (fun _ _ => rfl)]
    simp only [coreStep, if_pos hr]
  · rw [if_neg hr]
    simp only [List.foldl_nil]
    rw [hm _ _ _ (fun _ _ => rfl), hm _ _ _ (fun _ _ => rfl)]
    simp only [coreStep, if_neg hr]

theorem fold_eval (c : Conf) (e : Nat) (s : Core B V) :
    (evalOrder c e).foldl (fun s v => coreStep data dloss reduce step v s) s = s := by
  apply fold_id
  intro v hv s
  simp only [evalOrder, List.mem_append, List.mem_map, List.mem_flatMap] at hv
  rcases hv with (⟨k, -, rfl⟩ | ⟨k, -, hk⟩) | ⟨k, -, rfl⟩
  · rfl
  · simp only [List.mem_cons, List.not_mem_nil, or_false] at hk
    rcases hk with rfl | rfl <;> rfl
  · rfl

/-- `n` iterations in a row. -/
theorem fold_iters (c : Conf) (red : V → V) (hred : red = if c.comm = true ∧ c.grads ≠ 0 then reduce else id) (p0 : V) (e : Nat) (n0 n : Nat) (s : Core B V)
    (hs : s.param = reference data dloss red step c.accumGrad n0 p0 ∧ s.pos = n0 * c.accumGrad) :
    let t := ((List.range n).flatMap (fun i => [Ev.iterStart i e] ++ updateOrder c i e ++ [.iterEnd i e])).foldl (fun s v => coreStep data dloss reduce step v s) s
    t.param = reference data dloss red step c.accumGrad (n0 + n) p0 ∧ t.pos = (n0 + n) * c.accumGrad := by
  induction n with
  | zero => simpa using hs
  | succ n ih =>
    simp only [List.range_succ, List.flatMap_append, List.foldl_append, List.flatMap_cons, List.flatMap_nil, List.append_nil, List.foldl_cons, List.foldl_nil] at ih ⊢
    obtain ⟨h1, h2⟩ := ih
    set t := ((List.range n).flatMap (fun i => [Ev.iterStart i e] ++ updateOrder c i e ++ [.iterEnd i e])).foldl (fun s v => coreStep data dloss reduce step v s) s
    rw [show coreStep data dloss reduce step (.iterStart n e) t = t from rfl]
    obtain ⟨b, hb⟩ := fold_update data dloss reduce step c n e t
    rw [hb]
    simp only [coreStep]
    refine ⟨?_, by rw [h2]; ring⟩
    rw [← Nat.add_assoc]
    show _ = step (reference data dloss red step c.accumGrad (n0 + n) p0) (red (∑ j ∈ Finset.range c.accumGrad,
      dloss (data ((n0 + n) * c.accumGrad + j)) (reference data dloss red step c.accumGrad (n0 + n) p0)))
    rw [h1, h2, hred]
    by_cases hr : c.comm = true ∧ c.grads ≠ 0
    · simp only [if_pos hr]
    · simp only [if_neg hr, id]

/-- Epochs in a row. -/
theorem fold_epochs (c : Conf) (red : V → V) (hred : red = if c.comm = true ∧ c.grads ≠ 0 then reduce else id) (p0 : V) (start n0 n : Nat) (s : Core B V)
    (hs : s.param = reference data dloss red step c.accumGrad n0 p0 ∧ s.pos = n0 * c.accumGrad) :
    let t := ((List.range n).flatMap (fun k => epochOrder c (start + k))).foldl (fun s v => coreStep data dloss reduce step v s) s
    t.param = reference data dloss red step c.accumGrad (n0 + n * c.iterPerEpoch) p0 ∧ t.pos = (n0 + n * c.iterPerEpoch) * c.accumGrad := by
  induction n with
  | zero => simpa using hs
  | succ n ih =>
    simp only [List.range_succ, List.flatMap_append, List.foldl_append, List.flatMap_cons, List.flatMap_nil, List.append_nil] at ih ⊢
    set t := ((List.range n).flatMap (fun k => epochOrder c (start + k))).foldl (fun s v => coreStep data dloss reduce step v s) s
    unfold epochOrder
    simp only [List.foldl_append, List.foldl_cons, List.foldl_nil]
    rw [show coreStep data dloss reduce step (.epochStart (start + n)) t = t from rfl, fold_eval]
    have := fold_iters data dloss reduce step c red hred p0 (start + n) (n0 + n * c.iterPerEpoch) c.iterPerEpoch t ih
    simp only [coreStep]
    rw [show n0 + (n + 1) * c.iterPerEpoch = n0 + n * c.iterPerEpoch + c.iterPerEpoch by ring]
    exact this

/-- **C153 (what training computes).** With the default methods of Worker, and callbacks, evaluation and checkpointing that leave
parameters, gradients and the training stream alone, train() that ends without an exception applies the solver
max_epoch * iter_per_epoch times, the k-th time to the sum of the gradients of the accum_grad next batches of the stream at the
current parameters (combined over the workers if there is a communicator and gradients to exchange). -/
theorem C153_training (u : User W E) (core : W → Core B V) (hu : ∀ v w, core (u.call v w).1 = coreStep data dloss reduce step v (core w))
    (c : Conf) (w : W) (hpos : (core w).pos = 0) (hx : (train u c w).exc = none) :
    (core (train u c w).state).param =
        reference data dloss (if c.comm = true ∧ c.grads ≠ 0 then reduce else id) step c.accumGrad (c.maxEpoch * c.iterPerEpoch) (core w).param ∧
      (core (train u c w).state).pos = c.maxEpoch * c.iterPerEpoch * c.accumGrad := by
  rw [C153_order] at hx ⊢
  rcases h : u.call .loadCheckpoint w with ⟨w1, _ | x⟩
  · rw [h] at hx
    simp only [] at hx ⊢
    rw [core_exec u core _ hu _ w hx]
    unfold trainOrder
    simp only [List.foldl_append, List.foldl_cons, List.foldl_nil]
    rw [fold_eval]
    have := fold_epochs data dloss reduce step c _ rfl (core w).param (u.startEpoch w1) 0 c.maxEpoch (core w) ⟨rfl, by simpa using hpos⟩
    simpa [coreStep] using this
  · rw [h] at hx; simp at hx

end semantics

/-- A user meeting the hypotheses: integers, loss gradient = batch, sgd. -/
def demo : User (Core Int Int) Empty := ⟨fun v s => (coreStep (fun n => n) (fun b _ => b) id (fun p g => p - g) v s, none), fun _ => 0⟩

example : ∀ v w, id (demo.call v w).1 = coreStep (fun n : Nat => (n : Int)) (fun b _ => b) id (fun p g => p - g) v (id w) := fun _ _ => rfl

/-- Two epochs of one iteration with two accumulated batches each: 0 + 1, then 2 + 3. -/
example : (train demo ⟨2, 1, 2, 1, false, 0, 1, 1, 1, 1, 1, 1, 1, 1, 1, 1⟩ ⟨10, 0, none, 0⟩).state.param = 4 ∧
    (train demo ⟨2, 1, 2, 1, false, 0, 1, 1, 1, 1, 1, 1, 1, 1, 1, 1⟩ ⟨10, 0, none, 0⟩).exc = none := ⟨rfl, rfl⟩

end Verif.Framework
