/-
C149: mean subtraction (src/nbla/function/generic/mean_subtraction.cpp, "cpp"). Simplifications: exact reals; the counter is a natural
number below INT_MAX (`(*t) + 1` is undefined beyond).
-/
import Verif.Norm.Core

namespace Verif.Norm
open Verif.Fn Verif.Elem Verif.ND

/-! ### Model -/

/-- Output, running mean (inputs[1]) and running count (inputs[2]). -/
structure MS where
  y : Mem ℝ
  rm : Mem ℝ
  t : Nat

/-- cpp:31-67 setup_impl: the two sizes. -/
def msSetup (sh : Shape) (baseAxis : Int) (rmShape : Shape) : Except String (Nat × Nat) :=
  match refineAxis baseAxis sh.length with
  | .error e => .error e
  | .ok b => if rmShape ≠ sh.drop b then .error "Shape of running_mean(inputs[1]) mismatch."
    else if prod (sh.drop b) = 0 then .error "division by zero"
    else .ok (prod sh / prod (sh.drop b), prod (sh.drop b))

/-- cpp:100-105: the batch mean of one element. -/
noncomputable def batchMean (n0 n1 : Nat) (x : Mem ℝ) (i1 : Nat) : ℝ :=
  (List.range n0).foldl (fun m i0 => m + x (i0 * n1 + i1)) 0 / n0

/-- cpp:86-121 forward_impl_batch. -/
noncomputable def msForward (n0 n1 : Nat) (x : Mem ℝ) (s : MS) : MS :=
  let r := (List.range n1).foldl (fun (s : MS) i1 =>
    let rm := put s.rm i1 (s.rm i1 + (batchMean n0 n1 x i1 - s.rm i1) * (1 / ((s.t : ℝ) + 1)))
    { s with rm := rm, y := forPut n0 (fun i0 => i0 * n1 + i1) (fun i0 _ => x (i0 * n1 + i1) - rm i1) s.y }) s
  { r with t := r.t + 1 }

/-- cpp:123-140 forward_impl_global (also recompute_impl, cpp:80-84). -/
def msGlobal (n0 n1 : Nat) (x : Mem ℝ) (s : MS) : MS :=
  (List.range n1).foldl (fun (s : MS) i1 =>
    { s with y := forPut n0 (fun i0 => i0 * n1 + i1) (fun i0 _ => x (i0 * n1 + i1) - s.rm i1) s.y }) s

/-- cpp:152-184 backward_impl_batch: reads the count that forward has advanced. -/
noncomputable def msBackward (n0 n1 : Nat) (t : Nat) (dy : Mem ℝ) (accum : Bool) (dx : Mem ℝ) : Mem ℝ :=
  let factor : ℝ := 1 / (t * n0)
  forPut (n0 * n1) id (fun i d => if accum then d + dy i * (1 - factor) else dy i * (1 - factor)) dx

/-- cpp:186-215 backward_impl_global. -/
def msBackwardGlobal (n0 n1 : Nat) (dy : Mem ℝ) (accum : Bool) (dx : Mem ℝ) : Mem ℝ :=
  forPut (n0 * n1) id (fun i d => if accum then d + dy i else dy i) dx

/-- Training: one forward per batch; a batch is its size and its data. -/
noncomputable def msTrain (n1 : Nat) (batches : List (Nat × Mem ℝ)) (s : MS) : MS := batches.foldl (fun s b => msForward b.1 n1 b.2 s) s

/-! ### Specification -/

/-- The mean of element i1 over a batch. -/
noncomputable def avg (n0 n1 : Nat) (x : Mem ℝ) (i1 : Nat) : ℝ := (∑ i0 ∈ Finset.range n0, x (i0 * n1 + i1)) / n0

/-! ### Proofs -/

theorem batchMean_eq (n0 n1 : Nat) (x : Mem ℝ) (i1 : Nat) : batchMean n0 n1 x i1 = avg n0 n1 x i1 := by
  unfold batchMean avg
  congr 1
  have : ∀ (n : Nat) (a : ℝ), (List.range n).foldl (fun m i0 => m + x (i0 * n1 + i1)) a = a + ∑ i0 ∈ Finset.range n, x (i0 * n1 + i1) := by
    intro n a
    induction n with
    | zero => simp
    | succ n ih => rw [List.range_succ, List.foldl_append, ih, Finset.sum_range_succ, ← add_assoc]; rfl
  rw [this, zero_add]

theorem row_ne {n1 i0 i1 j0 j1 : Nat} (h1 : i1 < n1) (h2 : j1 < n1) (h : i1 ≠ j1) : i0 * n1 + i1 ≠ j0 * n1 + j1 := by
  intro e
  have a := congrArg (· % n1) e
  simp only [Nat.add_mod, Nat.mul_mod_left, Nat.zero_add, Nat.mod_mod, Nat.mod_eq_of_lt h1, Nat.mod_eq_of_lt h2] at a
  exact h a

theorem msForward_spec (n0 n1 : Nat) (x : Mem ℝ) (s : MS) :
    (msForward n0 n1 x s).t = s.t + 1 ∧
    (∀ i1 < n1, (msForward n0 n1 x s).rm i1 = s.rm i1 + (avg n0 n1 x i1 - s.rm i1) / (s.t + 1)) ∧
    ∀ i0 < n0, ∀ i1 < n1, (msForward n0 n1 x s).y (i0 * n1 + i1) = x (i0 * n1 + i1) - (msForward n0 n1 x s).rm i1 := by
  let body := fun (s : MS) i1 =>
    let rm := put s.rm i1 (s.rm i1 + (batchMean n0 n1 x i1 - s.rm i1) * (1 / ((s.t : ℝ) + 1)))
    ({ s with rm := rm, y := forPut n0 (fun i0 => i0 * n1 + i1) (fun i0 _ => x (i0 * n1 + i1) - rm i1) s.y } : MS)
  have H : ∀ c ≤ n1, let r := (List.range c).foldl body s
      r.t = s.t ∧ (∀ i1 < n1, r.rm i1 = if i1 < c then s.rm i1 + (avg n0 n1 x i1 - s.rm i1) / (s.t + 1) else s.rm i1) ∧
      ∀ i0 < n0, ∀ i1 < c, r.y (i0 * n1 + i1) = x (i0 * n1 + i1) - r.rm i1 := by
    intro c hc
    induction c with
    | zero => exact ⟨rfl, fun i1 _ => rfl, by intro i0 _ i1 h; omega⟩
    | succ c ih =>
      obtain ⟨a1, a2, a3⟩ := ih (by omega)
      rw [List.range_succ, List.foldl_append]
      simp only [List.foldl_cons, List.foldl_nil]
      generalize (List.range c).foldl body s = r at a1 a2 a3
      have hp := forPut_spec n0 (fun i0 => i0 * n1 + c)
        (fun i0 _ => x (i0 * n1 + c) - put r.rm c (r.rm c + (batchMean n0 n1 x c - r.rm c) * (1 / ((r.t : ℝ) + 1))) c) r.y (fun i j _ _ e => by
          have e' : i * n1 = j * n1 := by simpa using e
          exact Nat.eq_of_mul_eq_mul_right (by omega) e')
      refine ⟨a1, fun i1 h1 => ?_, fun i0 h0 i1 h1 => ?_⟩
      · show put r.rm c _ i1 = _
        by_cases e : i1 = c
        · subst e
          rw [put_same, if_pos (by omega), a2 i1 h1, if_neg (by omega), batchMean_eq, a1]
          ring
        · rw [put_other _ _ (by omega), a2 i1 h1]
          by_cases hlt : i1 < c
          · rw [if_pos hlt, if_pos (by omega)]
          · rw [if_neg hlt, if_neg (by omega)]
      · have er : (body r c).rm = put r.rm c (r.rm c + (batchMean n0 n1 x c - r.rm c) * (1 / ((r.t : ℝ) + 1))) := rfl
        have ey : (body r c).y = forPut n0 (fun i0 => i0 * n1 + c)
          (fun i0 _ => x (i0 * n1 + c) - put r.rm c (r.rm c + (batchMean n0 n1 x c - r.rm c) * (1 / ((r.t : ℝ) + 1))) c) r.y := rfl
        rw [er, ey]
        by_cases e : i1 = c
        · subst e
          exact hp.1 i0 h0
        · have e0 := put_other r.rm (r.rm c + (batchMean n0 n1 x c - r.rm c) * (1 / ((r.t : ℝ) + 1))) e
          rw [e0, ← a3 i0 h0 i1 (by omega)]
          exact hp.2 _ fun j _ => row_ne (by omega) (by omega) (Ne.symm e)
  obtain ⟨h1, h2, h3⟩ := H n1 le_rfl
  refine ⟨by simp only [msForward]; exact congrArg (· + 1) h1, fun i1 hi => ?_, h3⟩
  have := h2 i1 hi
  rw [if_pos hi] at this
  exact this

theorem msGlobal_spec (n0 n1 : Nat) (x : Mem ℝ) (s : MS) :
    (msGlobal n0 n1 x s).t = s.t ∧ (msGlobal n0 n1 x s).rm = s.rm ∧
    ∀ i0 < n0, ∀ i1 < n1, (msGlobal n0 n1 x s).y (i0 * n1 + i1) = x (i0 * n1 + i1) - s.rm i1 := by
  unfold msGlobal
  have H : ∀ c ≤ n1, let r := (List.range c).foldl (fun (s : MS) i1 =>
      ({ s with y := forPut n0 (fun i0 => i0 * n1 + i1) (fun i0 _ => x (i0 * n1 + i1) - s.rm i1) s.y } : MS)) s
      r.t = s.t ∧ r.rm = s.rm ∧ ∀ i0 < n0, ∀ i1 < c, r.y (i0 * n1 + i1) = x (i0 * n1 + i1) - s.rm i1 := by
    intro c hc
    induction c with
    | zero => exact ⟨rfl, rfl, by intro i0 _ i1 h; omega⟩
    | succ c ih =>
      obtain ⟨a1, a2, a3⟩ := ih (by omega)
      rw [List.range_succ, List.foldl_append]
      simp only [List.foldl_cons, List.foldl_nil]
      generalize (List.range c).foldl _ s = r at a1 a2 a3
      have hp := forPut_spec n0 (fun i0 => i0 * n1 + c) (fun i0 _ => x (i0 * n1 + c) - r.rm c) r.y (fun i j _ _ e => by
          have e' : i * n1 = j * n1 := by simpa using e
          exact Nat.eq_of_mul_eq_mul_right (by omega) e')
      refine ⟨a1, a2, fun i0 h0 i1 h1 => ?_⟩
      show forPut n0 _ _ r.y (i0 * n1 + i1) = _
      by_cases e : i1 = c
      · subst e
        rw [← a2]
        exact hp.1 i0 h0
      · rw [← a3 i0 h0 i1 (by omega)]
        exact hp.2 _ fun j _ => row_ne (by omega) (by omega) (Ne.symm e)
  exact H n1 le_rfl

/-- **C149 (running mean).** After training forwards on any batches, of any sizes, from a zero count, the running mean is the arithmetic
mean of the batch means (whatever it held before), and the count is the number of batches. -/
theorem C149_running_mean (n1 : Nat) (batches : List (Nat × Mem ℝ)) (s : MS) (h0 : s.t = 0) (hne : batches ≠ []) :
    (msTrain n1 batches s).t = batches.length ∧
    ∀ i1 < n1, (msTrain n1 batches s).rm i1 = (batches.map fun b => avg b.1 n1 b.2 i1).sum / batches.length := by
  unfold msTrain
  induction batches using List.reverseRecOn with
  | nil => exact absurd rfl hne
  | append_singleton bs b ih =>
    rw [List.foldl_append]
    simp only [List.foldl_cons, List.foldl_nil]
    obtain ⟨f1, f2, -⟩ := msForward_spec b.1 n1 b.2 (bs.foldl (fun s b => msForward b.1 n1 b.2 s) s)
    by_cases hbs : bs = []
    · subst hbs
      simp only [List.foldl_nil] at f1 f2 ⊢
      refine ⟨by rw [f1, h0]; simp, fun i1 hi => ?_⟩
      rw [f2 i1 hi, h0]
      simp
    · obtain ⟨i1', i2'⟩ := ih hbs
      refine ⟨by rw [f1, i1']; simp, fun i1 hi => ?_⟩
      rw [f2 i1 hi, i2' i1 hi, i1']
      have hl : (bs.length : ℝ) ≠ 0 := by
        simp only [ne_eq, Nat.cast_eq_zero, List.length_eq_zero_iff]; exact hbs
      have hl1 : (bs.length : ℝ) + 1 ≠ 0 := by positivity
      simp only [List.map_append, List.map_cons, List.map_nil, List.sum_append, List.sum_cons, List.sum_nil, List.length_append, List.length_cons,
        List.length_nil, Nat.cast_add, Nat.cast_one, add_zero, zero_add]
      field_simp
      ring

/-- **C149 (output).** A training forward subtracts the mean it has just updated; evaluation and recomputation subtract the stored mean
and change neither mean nor count; recomputing right after a training forward gives the same output. -/
theorem C149_output (n0 n1 : Nat) (x : Mem ℝ) (s : MS) :
    (∀ i0 < n0, ∀ i1 < n1, (msForward n0 n1 x s).y (i0 * n1 + i1) = x (i0 * n1 + i1) - (s.rm i1 + (avg n0 n1 x i1 - s.rm i1) / (s.t + 1))) ∧
    (∀ i0 < n0, ∀ i1 < n1, (msGlobal n0 n1 x s).y (i0 * n1 + i1) = x (i0 * n1 + i1) - s.rm i1) ∧
    (msGlobal n0 n1 x s).rm = s.rm ∧ (msGlobal n0 n1 x s).t = s.t ∧
    ∀ y, ∀ i0 < n0, ∀ i1 < n1, (msGlobal n0 n1 x { msForward n0 n1 x s with y := y }).y (i0 * n1 + i1) = (msForward n0 n1 x s).y (i0 * n1 + i1) := by
  obtain ⟨-, f2, f3⟩ := msForward_spec n0 n1 x s
  obtain ⟨g1, g2, g3⟩ := msGlobal_spec n0 n1 x s
  refine ⟨fun i0 h0 i1 h1 => by rw [f3 i0 h0 i1 h1, f2 i1 h1], g3, g2, g1, fun y i0 h0 i1 h1 => ?_⟩
  rw [(msGlobal_spec n0 n1 x { msForward n0 n1 x s with y := y }).2.2 i0 h0 i1 h1, f3 i0 h0 i1 h1]

/-- **C149 (evaluation gradient).** In evaluation mode backward is the gradient and accumulates when asked. -/
theorem C149_grad_global (n0 n1 : Nat) (s : MS) (x dy dx : Mem ℝ) :
    IsGradX (n0 * n1) (fun x => dot (n0 * n1) dy (msGlobal n0 n1 x s).y) x (msBackwardGlobal n0 n1 dy false dx) ∧
    ∀ k < n0 * n1, msBackwardGlobal n0 n1 dy true dx k = dx k + dy k := by
  have hp := fun a : Bool => forPut_spec (n0 * n1) id (fun i d => if a then d + dy i else dy i) dx fun i j _ _ e => e
  refine ⟨fun cx vx hc => ?_, fun k hk => ?_⟩
  · have e : ∀ t, dot (n0 * n1) dy (msGlobal n0 n1 (cx t) s).y = ∑ k ∈ Finset.range (n0 * n1), dy k * (cx t k - s.rm (k % n1)) := by
      intro t
      unfold dot
      refine Finset.sum_congr rfl fun k hk => ?_
      rw [Finset.mem_range] at hk
      have hn : 0 < n1 := Nat.pos_of_mul_pos_left (Nat.lt_of_le_of_lt (Nat.zero_le _) hk)
      have hd := Nat.div_add_mod k n1
      have := (msGlobal_spec n0 n1 (cx t) s).2.2 (k / n1) (Nat.div_lt_of_lt_mul (by rwa [Nat.mul_comm])) (k % n1) (Nat.mod_lt _ hn)
      rw [Nat.mul_comm (k / n1), hd] at this
      rw [this]
    simp only [e]
    have : dot (n0 * n1) vx (msBackwardGlobal n0 n1 dy false dx) = ∑ k ∈ Finset.range (n0 * n1), dy k * vx k := by
      unfold dot
      refine Finset.sum_congr rfl fun k hk => ?_
      have := (hp false).1 k (Finset.mem_range.1 hk)
      simp only [id, Bool.false_eq_true, if_false] at this
      unfold msBackwardGlobal
      simp only [Bool.false_eq_true, if_false]
      rw [this, mul_comm]
    rw [this]
    refine HasDerivAt.fun_sum fun k hk => ?_
    exact ((hc k (Finset.mem_range.1 hk)).2.sub_const _).const_mul _
  · have := (hp true).1 k hk
    unfold msBackwardGlobal
    simpa using this

/-- The gradient of the training output: the mean depends on every sample of the batch. -/
noncomputable def msGradSpec (n0 n1 t : Nat) (dy : Mem ℝ) (k : Nat) : ℝ := dy k - (∑ i0 ∈ Finset.range n0, dy (i0 * n1 + k % n1)) / (t * n0)

theorem ms_true_grad (n0 n1 : Nat) (s : MS) (x dy : Mem ℝ) :
    IsGradX (n0 * n1) (fun x => dot (n0 * n1) dy (msForward n0 n1 x s).y) x (msGradSpec n0 n1 (s.t + 1) dy) := by
  intro cx vx hc
  have split : ∀ f : Nat → ℝ, ∑ k ∈ Finset.range (n0 * n1), f k = ∑ i0 ∈ Finset.range n0, ∑ i1 ∈ Finset.range n1, f (i0 * n1 + i1) := by
    intro f
    induction n0 with
    | zero => simp
    | succ n ih => rw [Nat.succ_mul, Finset.sum_range_add, Finset.sum_range_succ, ih (fun k hk => hc k (by rw [Nat.succ_mul]; omega))]
  have hk : ∀ i0 ∈ Finset.range n0, ∀ i1 ∈ Finset.range n1, i0 * n1 + i1 < n0 * n1 := by
    intro i0 h0 i1 h1
    rw [Finset.mem_range] at h0 h1
    calc i0 * n1 + i1 < i0 * n1 + n1 := by omega
      _ = (i0 + 1) * n1 := by rw [Nat.succ_mul]
      _ ≤ n0 * n1 := Nat.mul_le_mul_right _ h0
  have e : ∀ t, dot (n0 * n1) dy (msForward n0 n1 (cx t) s).y = ∑ i0 ∈ Finset.range n0, ∑ i1 ∈ Finset.range n1,
      dy (i0 * n1 + i1) * (cx t (i0 * n1 + i1) - (s.rm i1 + ((∑ j ∈ Finset.range n0, cx t (j * n1 + i1)) / n0 - s.rm i1) / (s.t + 1))) := by
    intro t
    unfold dot
    rw [split]
    refine Finset.sum_congr rfl fun i0 h0 => Finset.sum_congr rfl fun i1 h1 => ?_
    rw [(C149_output n0 n1 (cx t) s).1 i0 (Finset.mem_range.1 h0) i1 (Finset.mem_range.1 h1)]
    rfl
  simp only [e]
  have e2 : dot (n0 * n1) vx (msGradSpec n0 n1 (s.t + 1) dy) = ∑ i0 ∈ Finset.range n0, ∑ i1 ∈ Finset.range n1,
      dy (i0 * n1 + i1) * (vx (i0 * n1 + i1) - (((∑ j ∈ Finset.range n0, vx (j * n1 + i1)) / n0)) / (s.t + 1)) := by
    unfold dot
    rw [split]
    have hm : ∀ i0 i1, i1 ∈ Finset.range n1 → (i0 * n1 + i1) % n1 = i1 := by
      intro i0 i1 h1
      rw [Nat.add_comm, Nat.add_mul_mod_self_right, Nat.mod_eq_of_lt (Finset.mem_range.1 h1)]
    have l : ∑ i0 ∈ Finset.range n0, ∑ i1 ∈ Finset.range n1, vx (i0 * n1 + i1) * msGradSpec n0 n1 (s.t + 1) dy (i0 * n1 + i1) =
        ∑ i1 ∈ Finset.range n1, (∑ i0 ∈ Finset.range n0, vx (i0 * n1 + i1) * dy (i0 * n1 + i1) -
          (∑ i0 ∈ Finset.range n0, vx (i0 * n1 + i1)) * (∑ i0 ∈ Finset.range n0, dy (i0 * n1 + i1)) / ((s.t + 1) * n0)) := by
      rw [Finset.sum_comm]
      refine Finset.sum_congr rfl fun i1 h1 => ?_
      rw [Finset.sum_mul, Finset.sum_div, ← Finset.sum_sub_distrib]
      refine Finset.sum_congr rfl fun i0 _ => ?_
      rw [msGradSpec, hm i0 i1 h1]
      push_cast
      ring
    rw [l, Finset.sum_comm (s := Finset.range n0)]
    refine Finset.sum_congr rfl fun i1 h1 => ?_
    simp only [mul_sub, Finset.sum_sub_distrib]
    congr 1
    · exact Finset.sum_congr rfl fun i0 _ => mul_comm _ _
    · rw [← Finset.sum_mul]
      rw [div_div, mul_comm (n0 : ℝ)]
      ring
  rw [e2]
  refine HasDerivAt.fun_sum fun i0 h0 => HasDerivAt.fun_sum fun i1 h1 => ?_
  refine HasDerivAt.const_mul _ (((hc _ (hk i0 h0 i1 h1)).2).sub ?_)
  have : HasDerivAt (fun t => ∑ j ∈ Finset.range n0, cx t (j * n1 + i1)) (∑ j ∈ Finset.range n0, vx (j * n1 + i1)) 0 :=
    HasDerivAt.fun_sum fun j hj => (hc _ (hk j hj i1 h1)).2
  exact (((this.div_const _).sub_const _).div_const _).const_add _

/-- **C149 (training gradient), partial.** With one sample per batch, backward (which reads the count after forward) is the gradient,
added when accumulating. Missing: larger batches (see `C149_grad_refuted`). -/
theorem C149_grad_partial (n1 : Nat) (s : MS) (x dy dx : Mem ℝ) :
    IsGradX (1 * n1) (fun x => dot (1 * n1) dy (msForward 1 n1 x s).y) x (msBackward 1 n1 (msForward 1 n1 x s).t dy false dx) ∧
    ∀ (n0 t k : Nat) (dx' : Mem ℝ), k < n0 * n1 → msBackward n0 n1 t dy true dx k = dx k + msBackward n0 n1 t dy false dx' k := by
  have hp := fun (n0 t : Nat) (a : Bool) (dx : Mem ℝ) => forPut_spec (n0 * n1) id (fun i d => if a then d + dy i * (1 - 1 / ((t : ℝ) * n0)) else dy i * (1 - 1 / ((t : ℝ) * n0))) dx fun i j _ _ e => e
  refine ⟨?_, fun n0 t k dx' hk => ?_⟩
  · have hg := ms_true_grad 1 n1 s x dy
    intro cx vx hc
    have := hg cx vx hc
    rw [(msForward_spec 1 n1 x s).1]
    convert this using 1
    unfold dot
    refine Finset.sum_congr rfl fun k hk => ?_
    rw [Finset.mem_range] at hk
    have h1 := (hp 1 (s.t + 1) false dx).1 k hk
    simp only [id, Bool.false_eq_true, if_false] at h1
    have h2 : msBackward 1 n1 (s.t + 1) dy false dx k = dy k * (1 - 1 / (((s.t + 1 : Nat) : ℝ) * (1 : Nat))) := h1
    rw [h2, msGradSpec]
    have hm : k % n1 = k := Nat.mod_eq_of_lt (by omega)
    simp only [hm, Finset.range_one, Finset.sum_singleton, zero_mul, zero_add, Nat.cast_one, mul_one]
    ring
  · have h1 := (hp n0 t true dx).1 k hk
    have h2 := (hp n0 t false dx').1 k hk
    simp only [id, if_true, Bool.false_eq_true, if_false] at h1 h2
    unfold msBackward
    simp only [if_true, Bool.false_eq_true, if_false]
    rw [h1, h2]

/-- **C149 (training gradient), refuted.** Two samples of one element, the first forward: the output is `±(x₀ - x₁)/2`, its gradient for
dy = (1, 1) is zero, but backward gives 1/2 to both. -/
theorem C149_grad_refuted : ∃ (s : MS) (x dy dx : Mem ℝ), s.t = 0 ∧
    ¬ IsGradX (2 * 1) (fun x => dot (2 * 1) dy (msForward 2 1 x s).y) x (msBackward 2 1 (msForward 2 1 x s).t dy false dx) := by
  refine ⟨⟨fun _ => 0, fun _ => 0, 0⟩, fun _ => 0, fun _ => 1, fun _ => 0, rfl, fun h => ?_⟩
  have h1 := h (fun t _ => t) (fun _ => 1) (fun k _ => ⟨rfl, hasDerivAt_id 0⟩)
  have h2 := ms_true_grad 2 1 ⟨fun _ => 0, fun _ => 0, 0⟩ (fun _ => 0) (fun _ => 1) (fun t _ => t) (fun _ => 1) (fun k _ => ⟨rfl, hasDerivAt_id 0⟩)
  have := h1.unique h2
  rw [(msForward_spec 2 1 _ _).1] at this
  have hp := forPut_spec (2 * 1) id (fun i d => if false then d + (1:ℝ) * (1 - 1 / ((1 : Nat) * (2 : Nat))) else (1 : ℝ) * (1 - 1 / ((1 : Nat) * (2 : Nat)))) (fun _ => (0 : ℝ)) fun i j _ _ e => e
  have b : ∀ k < 2, msBackward 2 1 (0 + 1) (fun _ => 1) false (fun _ => 0) k = 1 / 2 := by
    intro k hk
    have := hp.1 k (by omega)
    simp only [id] at this
    refine Eq.trans this ?_
    norm_num
  simp only [dot, Finset.sum_range_succ, Finset.sum_range_zero, Nat.reduceMul, b 0 (by omega), b 1 (by omega), msGradSpec] at this
  norm_num at this

/-- **C149 (setup).** -/
theorem C149_setup (sh : Shape) (b : Nat) (hb : b < sh.length) (axis : Int) (ha : axis = b ∨ axis = (b : Int) - sh.length) (hpos : 0 < prod sh) (rmShape : Shape) :
    (rmShape = sh.drop b → msSetup sh axis rmShape = .ok (prod (sh.take b), prod (sh.drop b))) ∧ (rmShape ≠ sh.drop b → ∃ e, msSetup sh axis rmShape = .error e) := by
  unfold msSetup
  rw [refineAxis_ok b sh.length hb axis ha]
  have hp : prod sh = prod (sh.take b) * prod (sh.drop b) := by
    conv_lhs => rw [← List.take_append_drop b sh]
    rw [prod_append]
  refine ⟨fun h => ?_, fun h => ?_⟩
  · have h0 : prod (sh.drop b) ≠ 0 := by intro c; rw [hp, c] at hpos; simp at hpos
    simp only [h, ne_eq, not_true, if_false, h0]
    rw [hp, Nat.mul_div_cancel _ (Nat.pos_of_ne_zero h0)]
  · simp only [ne_eq, h, not_false_eq_true, if_true]
    exact ⟨_, rfl⟩

example : msSetup [4, 3, 2] 1 [3, 2] = .ok (4, 6) := by rw [(C149_setup [4, 3, 2] 1 (by decide) 1 (.inl rfl) (by decide) [3, 2]).1 rfl]; rfl

example (a b : Mem ℝ) (s : MS) (h : s.t = 0) : (msTrain 1 [(2, a), (1, b)] s).rm 0 = ((a 0 + a 1) / 2 + b 0) / 2 := by
  rw [(C149_running_mean 1 _ s h (by simp)).2 0 (by omega)]
  simp [avg, Finset.sum_range_succ]

end Verif.Norm
