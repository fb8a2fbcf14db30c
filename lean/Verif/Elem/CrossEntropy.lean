import Verif.Elem.Softmax
/-
Properties of softmax_cross_entropy and categorical_cross_entropy (model in Verif.Elem.Softmax).
-/
namespace Verif.Elem
open Verif.Fn Verif.ND Real

theorem off_one (n2 i0 i2 : Nat) : off 1 n2 i0 0 i2 = i0 * n2 + i2 := by simp [off]

theorem off_one' (n2 i0 i1 i2 : Nat) (h : i1 < 1) : off 1 n2 i0 i1 i2 = i0 * n2 + i2 := by
  obtain rfl : i1 = 0 := by omega
  exact off_one n2 i0 i2

/-- A loop over the slices that writes one element per slice. -/
theorem forSlices_one (n0 n2 : Nat) (g : Nat → Nat → ℝ) (y : Mem ℝ) (i0 i2 : Nat) (h0 : i0 < n0) (h2 : i2 < n2) :
    forSlices n0 n2 (fun i0 i2 y => put y (i0 * n2 + i2) (g i0 i2)) y (i0 * n2 + i2) = g i0 i2 := by
  have := (forSlices_spec n0 1 n2 (fun i0 i2 y => put y (i0 * n2 + i2) (g i0 i2)) (fun i0 _ i2 _ => g i0 i2) y
    (fun i0 i2 _ _ m i1 h1 => by rw [off_one' _ _ _ _ h1]; exact put_same _ _ _)
    (fun i0 i2 _ _ m k hk => by
      have := hk 0 (by omega)
      rw [off_one] at this
      exact put_other _ _ (fun e => this e.symm))).1 i0 0 i2 h0 (by omega) h2
  rwa [off_one] at this

theorem sceForward_spec (n0 n1 n2 : Nat) (l : Nat → Int) (lp y : Mem ℝ) (i0 i2 : Nat) (h0 : i0 < n0) (h2 : i2 < n2) :
    sceForward n0 n1 n2 l lp y (i0 * n2 + i2) = if l (i0 * n2 + i2) < 0 then 0 else -lp (off n1 n2 i0 (l (i0 * n2 + i2)).toNat i2) := by
  rw [← forSlices_one n0 n2 (fun i0 i2 => if l (i0 * n2 + i2) < 0 then 0 else -lp (off n1 n2 i0 (l (i0 * n2 + i2)).toNat i2)) y i0 i2 h0 h2]
  unfold sceForward
  refine congrArg (fun b => forSlices n0 n2 b y (i0 * n2 + i2)) ?_
  funext i0 i2 y
  show (if _ then _ else _) = _
  split <;> rfl

theorem cceForward_spec (tiny : ℝ) (n0 n1 n2 : Nat) (l : Nat → Int) (p y : Mem ℝ) (i0 i2 : Nat) (h0 : i0 < n0) (h2 : i2 < n2) :
    cceForward tiny n0 n1 n2 l p y (i0 * n2 + i2) =
      if l (i0 * n2 + i2) < 0 then 0 else -log (max (p (off n1 n2 i0 (l (i0 * n2 + i2)).toNat i2)) tiny) := by
  rw [← forSlices_one n0 n2 (fun i0 i2 => if l (i0 * n2 + i2) < 0 then 0
    else -log (max (p (off n1 n2 i0 (l (i0 * n2 + i2)).toNat i2)) tiny)) y i0 i2 h0 h2]
  unfold cceForward
  refine congrArg (fun b => forSlices n0 n2 b y (i0 * n2 + i2)) ?_
  funext i0 i2 y
  show (if _ then _ else _) = _
  split <;> rfl

theorem sceBackward_spec (n0 n1 n2 : Nat) (l : Nat → Int) (lp dy dx : Mem ℝ) (accum : Bool) (i0 i1 i2 : Nat)
    (h0 : i0 < n0) (h1 : i1 < n1) (h2 : i2 < n2) :
    sceBackward n0 n1 n2 l lp accum dy dx (off n1 n2 i0 i1 i2) = (if accum then dx (off n1 n2 i0 i1 i2) else 0) +
      if l (i0 * n2 + i2) < 0 then 0
      else dy (i0 * n2 + i2) * (exp (lp (off n1 n2 i0 i1 i2)) - (if l (i0 * n2 + i2) = i1 then 1 else 0)) := by
  unfold sceBackward
  rw [(forSlices_spec n0 n1 n2 _ (fun i0 i1 i2 v => v + if l (i0 * n2 + i2) < 0 then 0
      else dy (i0 * n2 + i2) * (exp (lp (off n1 n2 i0 i1 i2)) - (if l (i0 * n2 + i2) = i1 then 1 else 0))) _
    ?_ ?_).1 i0 i1 i2 h0 h1 h2]
  · congr 1
    have := off_lt h0 h1 h2
    cases accum <;> simp [this]
  · intro i0 i2 _ h2 m i1 h1
    show (if l (i0 * n2 + i2) < 0 then m else _) _ = _
    by_cases hn : l (i0 * n2 + i2) < 0
    · rw [if_pos hn, if_pos hn, add_zero]
    · rw [if_neg hn, if_neg hn]
      exact (forPut_spec n1 _ _ m (slice_inj n1 n2 i0 i2 h2)).1 i1 h1
  · intro i0 i2 _ h2 m k hk
    show (if l (i0 * n2 + i2) < 0 then m else _) _ = _
    by_cases hn : l (i0 * n2 + i2) < 0
    · rw [if_pos hn]
    · rw [if_neg hn]
      exact (forPut_spec n1 _ _ m (slice_inj n1 n2 i0 i2 h2)).2 k hk

theorem cceBackward_spec (tiny : ℝ) (n0 n1 n2 : Nat) (l : Nat → Int) (p dy dx : Mem ℝ) (accum : Bool) (i0 i1 i2 : Nat)
    (hl : ∀ i0 i2, i0 < n0 → i2 < n2 → l (i0 * n2 + i2) < n1) (h0 : i0 < n0) (h1 : i1 < n1) (h2 : i2 < n2) :
    cceBackward tiny n0 n1 n2 l p accum dy dx (off n1 n2 i0 i1 i2) = (if accum then dx (off n1 n2 i0 i1 i2) else 0) +
      if l (i0 * n2 + i2) = i1 then -dy (i0 * n2 + i2) / max (p (off n1 n2 i0 i1 i2)) tiny else 0 := by
  unfold cceBackward
  rw [(forSlices_spec n0 n1 n2 _ (fun i0 i1 i2 v => v + if l (i0 * n2 + i2) = i1 then
      -dy (i0 * n2 + i2) / max (p (off n1 n2 i0 i1 i2)) tiny else 0) _ ?_ ?_).1 i0 i1 i2 h0 h1 h2]
  · congr 1
    have := off_lt h0 h1 h2
    cases accum <;> simp [this]
  · intro i0 i2 h0 h2 m i1 h1
    by_cases hn : l (i0 * n2 + i2) < 0
    · rw [if_pos hn, if_neg (by omega), add_zero]
    · have hb := hl i0 i2 h0 h2
      rw [if_neg hn]
      by_cases e : l (i0 * n2 + i2) = i1
      · have e' : (l (i0 * n2 + i2)).toNat = i1 := by omega
        rw [if_pos e, e']
        exact put_same _ _ _
      · rw [if_neg e, add_zero]
        refine put_other _ _ fun he => e ?_
        have := (off_inj h1 h2 (show (l (i0 * n2 + i2)).toNat < n1 by omega) h2 he).2.1
        omega
  · intro i0 i2 h0 h2 m k hk
    by_cases hn : l (i0 * n2 + i2) < 0
    · rw [if_pos hn]
    · have hb := hl i0 i2 h0 h2
      rw [if_neg hn]
      exact put_other _ _ fun he => hk _ (show (l (i0 * n2 + i2)).toNat < n1 by omega) he.symm

/-- **C83.** The loss of a sample with a valid label is minus the logarithm of the softmax of that class; a negative label
gives loss zero. -/
theorem C83_sce (n0 n1 n2 : Nat) (l : Nat → Int) (x lp0 y : Mem ℝ) (i0 i2 : Nat) (h0 : i0 < n0) (h2 : i2 < n2) :
    (l (i0 * n2 + i2) < 0 → sceForward n0 n1 n2 l (logSoftmaxForward n0 n1 n2 x lp0) y (i0 * n2 + i2) = 0) ∧
    ∀ c : Nat, c < n1 → l (i0 * n2 + i2) = c → sceForward n0 n1 n2 l (logSoftmaxForward n0 n1 n2 x lp0) y (i0 * n2 + i2) =
      -log (exp (x (off n1 n2 i0 c i2)) / ∑ k ∈ Finset.range n1, exp (x (off n1 n2 i0 k i2))) := by
  refine ⟨fun h => by rw [sceForward_spec _ _ _ _ _ _ _ _ h0 h2, if_pos h], ?_⟩
  intro c hc h
  rw [sceForward_spec _ _ _ _ _ _ _ _ h0 h2, if_neg (by omega), h, Int.toNat_natCast, logSoftmaxForward_spec _ _ _ _ _ _ _ _ h0 hc h2,
    log_div (exp_pos _).ne' (sum_exp_pos n1 (by omega) _).ne', log_exp]
  rfl

/-- **C83.** The gradient of softmax_cross_entropy is the vector-Jacobian product, provided every label is below the number
of classes (negative labels are ignored); accumulation adds to the old gradient. -/
theorem C83_sce_backward (n0 n1 n2 : Nat) (l : Nat → Int) (x lp0 y0 dx : Mem ℝ)
    (hl : ∀ i0 i2, i0 < n0 → i2 < n2 → l (i0 * n2 + i2) < n1) :
    IsVJP (n0 * n1 * n2) (n0 * 1 * n2) (fun x => sceForward n0 n1 n2 l (logSoftmaxForward n0 n1 n2 x lp0) y0) x
      (fun dy => sceBackward n0 n1 n2 l (logSoftmaxForward n0 n1 n2 x lp0) false dy dx) ∧
    ∀ lp dy dx' k, k < n0 * n1 * n2 →
      sceBackward n0 n1 n2 l lp true dy dx k = dx k + sceBackward n0 n1 n2 l lp false dy dx' k := by
  refine ⟨?_, ?_⟩
  · refine IsVJP.slices n0 n1 1 n2 _ _ x
      (fun i0 i2 xs _ => if l (i0 * n2 + i2) < 0 then 0 else -logSoftmaxOf n1 xs (l (i0 * n2 + i2)).toNat)
      (fun i0 i2 dy i => if l (i0 * n2 + i2) < 0 then 0 else
        dy 0 * (exp (logSoftmaxOf n1 (fun i => x (off n1 n2 i0 i i2)) i) - (if l (i0 * n2 + i2) = i then 1 else 0))) ?_ ?_ ?_
    · intro x i0 i1 i2 h0 h1 h2
      rw [off_one' _ _ _ _ h1, sceForward_spec _ _ _ _ _ _ _ _ h0 h2]
      have := hl i0 i2 h0 h2
      by_cases hn : l (i0 * n2 + i2) < 0
      · rw [if_pos hn, if_pos hn]
      · rw [if_neg hn, if_neg hn, logSoftmaxForward_spec _ _ _ _ _ _ _ _ h0 (by omega) h2]
    · intro dy i0 i1 i2 h0 h1 h2
      rw [sceBackward_spec _ _ _ _ _ _ _ _ _ _ _ h0 h1 h2, logSoftmaxForward_spec _ _ _ _ _ _ _ _ h0 h1 h2]
      simp only [Bool.false_eq_true, if_false, zero_add, off_one]
    · intro i0 i2 h0 h2 c v hc dy
      have hlt := hl i0 i2 h0 h2
      by_cases hn : l (i0 * n2 + i2) < 0
      · simp only [if_pos hn, dot, mul_zero, Finset.sum_const_zero]
        exact hasDerivAt_const _ _
      · simp only [if_neg hn]
        have hc' : (l (i0 * n2 + i2)).toNat < n1 := by omega
        have hd := ((logSoftmaxOf_deriv n1 _ c v hc _ hc').neg).const_mul (dy 0)
        refine (hd.congr_deriv ?_).congr_of_eventuallyEq (Filter.Eventually.of_forall fun t => ?_)
        · have e : ∀ k ∈ Finset.range n1, v k * (dy 0 * (exp (logSoftmaxOf n1 (fun i => x (off n1 n2 i0 i i2)) k) -
              (if l (i0 * n2 + i2) = (k : Int) then 1 else 0))) =
              dy 0 * (exp (logSoftmaxOf n1 (fun i => x (off n1 n2 i0 i i2)) k) * v k) -
              (if k = (l (i0 * n2 + i2)).toNat then dy 0 * v k else 0) := by
            intro k _
            have : (l (i0 * n2 + i2) = (k : Int)) ↔ k = (l (i0 * n2 + i2)).toNat := by omega
            simp only [this]
            split_ifs <;> ring
          rw [dot, Finset.sum_congr rfl e, Finset.sum_sub_distrib, Finset.sum_ite_eq' , if_pos (Finset.mem_range.mpr hc'), ← Finset.mul_sum]
          ring
        · simp [dot]
  · intro lp dy dx' k hk
    obtain ⟨i0, i1, i2, h0, h1, h2, rfl⟩ := exists_off hk
    rw [sceBackward_spec _ _ _ _ _ _ _ _ _ _ _ h0 h1 h2, sceBackward_spec _ _ _ _ _ _ _ _ _ _ _ h0 h1 h2]
    simp only [Bool.false_eq_true, if_false, if_true, zero_add]

/-- **C83, refuted part.** Labels are never compared with the number of classes: a label that is too large makes the loss
of a sample the loss of the *next* sample for another class (or, for the last sample, reads behind the buffer). -/
theorem C83_label_unchecked_partial (n0 n1 : Nat) (l : Nat → Int) (x lp0 y : Mem ℝ) (i0 c : Nat) (h0 : i0 + 1 < n0) (hc : c < n1)
    (h : l i0 = (n1 + c : Nat)) : sceForward n0 n1 1 l (logSoftmaxForward n0 n1 1 x lp0) y i0 =
      -log (exp (x ((i0 + 1) * n1 + c)) / ∑ k ∈ Finset.range n1, exp (x ((i0 + 1) * n1 + k))) := by
  have := sceForward_spec n0 n1 1 l (logSoftmaxForward n0 n1 1 x lp0) y i0 0 (by omega) (by omega)
  simp only [Nat.mul_one, Nat.add_zero] at this
  rw [this, if_neg (by omega), h, Int.toNat_natCast]
  have e : off n1 1 i0 (n1 + c) 0 = off n1 1 (i0 + 1) c 0 := by simp only [off]; ring
  rw [e, logSoftmaxForward_spec _ _ _ _ _ _ _ _ h0 hc (by omega), log_div (exp_pos _).ne' (sum_exp_pos n1 (by omega) _).ne', log_exp]
  simp only [logSoftmaxOf, off, Nat.mul_one, Nat.add_zero]

/-- **C83.** categorical_cross_entropy: loss of a valid label, and its gradient, where the probabilities of the labels are
above the clipping threshold. -/
theorem C83_cce (tiny : ℝ) (n0 n1 n2 : Nat) (l : Nat → Int) (p y0 dx : Mem ℝ) (ht : 0 < tiny)
    (hl : ∀ i0 i2, i0 < n0 → i2 < n2 → l (i0 * n2 + i2) < n1)
    (hp : ∀ i0 i2 (c : Nat), i0 < n0 → i2 < n2 → l (i0 * n2 + i2) = c → tiny < p (off n1 n2 i0 c i2)) :
    (∀ i0 i2, i0 < n0 → i2 < n2 → (l (i0 * n2 + i2) < 0 → cceForward tiny n0 n1 n2 l p y0 (i0 * n2 + i2) = 0) ∧
      ∀ c : Nat, l (i0 * n2 + i2) = c → cceForward tiny n0 n1 n2 l p y0 (i0 * n2 + i2) = -log (p (off n1 n2 i0 c i2))) ∧
    IsVJP (n0 * n1 * n2) (n0 * 1 * n2) (fun p => cceForward tiny n0 n1 n2 l p y0) p
      (fun dy => cceBackward tiny n0 n1 n2 l p false dy dx) ∧
    ∀ dy dx' k, k < n0 * n1 * n2 →
      cceBackward tiny n0 n1 n2 l p true dy dx k = dx k + cceBackward tiny n0 n1 n2 l p false dy dx' k := by
  refine ⟨?_, ?_, ?_⟩
  · intro i0 i2 h0 h2
    refine ⟨fun h => by rw [cceForward_spec _ _ _ _ _ _ _ _ _ h0 h2, if_pos h], fun c h => ?_⟩
    rw [cceForward_spec _ _ _ _ _ _ _ _ _ h0 h2, if_neg (by omega), h, Int.toNat_natCast, max_eq_left (hp i0 i2 c h0 h2 h).le]
  · refine IsVJP.slices n0 n1 1 n2 _ _ p
      (fun i0 i2 xs _ => if l (i0 * n2 + i2) < 0 then 0 else -log (max (xs (l (i0 * n2 + i2)).toNat) tiny))
      (fun i0 i2 dy i => if l (i0 * n2 + i2) = i then -dy 0 / max (p (off n1 n2 i0 i i2)) tiny else 0) ?_ ?_ ?_
    · intro x i0 i1 i2 h0 h1 h2
      rw [off_one' _ _ _ _ h1, cceForward_spec _ _ _ _ _ _ _ _ _ h0 h2]
    · intro dy i0 i1 i2 h0 h1 h2
      rw [cceBackward_spec _ _ _ _ _ _ _ _ _ _ _ _ hl h0 h1 h2]
      simp only [Bool.false_eq_true, if_false, zero_add, off_one]
    · intro i0 i2 h0 h2 c v hc dy
      have hlt := hl i0 i2 h0 h2
      by_cases hn : l (i0 * n2 + i2) < 0
      · have e : ∀ k : Nat, ¬ l (i0 * n2 + i2) = k := by omega
        simp only [if_pos hn, dot, mul_zero, Finset.sum_const_zero, e, if_false]
        exact hasDerivAt_const _ _
      · simp only [if_neg hn]
        obtain ⟨q, hq⟩ : ∃ q : Nat, l (i0 * n2 + i2) = q := ⟨(l (i0 * n2 + i2)).toNat, by omega⟩
        have hq1 : q < n1 := by omega
        have hgt := hp i0 i2 q h0 h2 hq
        obtain ⟨c0, cd⟩ := hc q hq1
        have hev : ∀ᶠ t in nhds (0 : ℝ), tiny < c t q := by
          have : c 0 q ∈ Set.Ioi tiny := by rw [c0]; exact hgt
          exact cd.continuousAt.eventually (Ioi_mem_nhds this)
        have hd := ((cd.log (by rw [c0]; linarith)).neg).const_mul (dy 0)
        refine (hd.congr_deriv ?_).congr_of_eventuallyEq (hev.mono fun t ht' => ?_)
        · have e : ∀ k ∈ Finset.range n1, v k * (if l (i0 * n2 + i2) = (k : Int) then -dy 0 / max (p (off n1 n2 i0 k i2)) tiny else 0) =
              if k = q then v k * (-dy 0 / max (p (off n1 n2 i0 k i2)) tiny) else 0 := by
            intro k _
            have : (l (i0 * n2 + i2) = (k : Int)) ↔ k = q := by omega
            simp only [this]
            split_ifs <;> simp
          rw [dot, Finset.sum_congr rfl e, Finset.sum_ite_eq', if_pos (Finset.mem_range.mpr hq1), max_eq_left hgt.le, c0]
          ring
        · simp only [dot, Finset.sum_range_one, hq, Int.toNat_natCast, max_eq_left ht'.le]
          rfl
  · intro dy dx' k hk
    obtain ⟨i0, i1, i2, h0, h1, h2, rfl⟩ := exists_off hk
    rw [cceBackward_spec _ _ _ _ _ _ _ _ _ _ _ _ hl h0 h1 h2, cceBackward_spec _ _ _ _ _ _ _ _ _ _ _ _ hl h0 h1 h2]
    simp only [Bool.false_eq_true, if_false, if_true, zero_add]

/-- **C83, refuted part.** Below the threshold the loss is constant but the gradient is not zero. -/
theorem C83_cce_clipped_partial (tiny : ℝ) (ht : 0 < tiny) :
    (∀ q < tiny, cceForward tiny 1 1 1 (fun _ => 0) (fun _ => q) zeros 0 = -log tiny) ∧
    ∀ q < tiny, cceBackward tiny 1 1 1 (fun _ => 0) (fun _ => q) false (fun _ => 1) zeros 0 = -1 / tiny ∧ (-1 / tiny : ℝ) ≠ 0 := by
  refine ⟨?_, ?_⟩
  · intro q hq
    have := cceForward_spec tiny 1 1 1 (fun _ => 0) (fun _ => q) zeros 0 0 (by omega) (by omega)
    simp only [Nat.mul_one, Nat.add_zero] at this
    rw [this, if_neg (by omega), max_eq_right hq.le]
  · intro q hq
    have := cceBackward_spec tiny 1 1 1 (fun _ => 0) (fun _ => q) (fun _ => 1) zeros false 0 0 0 (by intros; norm_num) (by omega) (by omega) (by omega)
    have e : off 1 1 0 0 0 = 0 := rfl
    rw [e] at this
    rw [this, max_eq_right hq.le]
    refine ⟨by simp, ?_⟩
    have := ht.ne'
    simp [this]

/-! ### Non-vacuity -/

/-- Shape (2, 3, 2), axis 1 (or -2): two slices of two times three elements. -/
example : sliceSetup 1 [2, 3, 2] = .ok (2, 3, 2) ∧ sliceSetup (-2) [2, 3, 2] = .ok (2, 3, 2) :=
  ⟨C83_setup [2] [2] 3 1 (by decide) (by decide), C83_setup [2] [2] 3 (-2) (by decide) (by decide)⟩

/-- Two equal scores: softmax one half each; the loss is log 2. -/
example (y : Mem ℝ) : softmaxForward 1 2 1 (fun _ => 5) y 1 = 1 / 2 := by
  have := softmaxForward_spec 1 2 1 (fun _ => 5) y 0 1 0 (by omega) (by omega) (by omega)
  have e : off 2 1 0 1 0 = 1 := rfl
  rw [e] at this
  rw [this, softmaxOf]
  simp only [Finset.sum_range_succ, Finset.range_zero, Finset.sum_empty, zero_add]
  have := exp_pos (5 : ℝ)
  field_simp
  norm_num

/-- Labels 1 and -1 (ignored) of two samples with three classes meet the hypothesis of C83_sce_backward. -/
example : ∀ i0 i2, i0 < 2 → i2 < 1 → (fun j => if j = 0 then (1 : Int) else -1) (i0 * 1 + i2) < (3 : Nat) := by
  intro i0 i2 _ _
  simp only
  split <;> norm_num

end Verif.Elem
