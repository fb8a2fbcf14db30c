import Verif.Elem.Slices
/-
Softmax, LogSoftmax, SoftmaxCrossEntropy, CategoricalCrossEntropy over the real numbers: models
/repo/src/nbla/function/generic/{softmax,log_softmax,softmax_cross_entropy,categorical_cross_entropy}.cpp.
Simplification: exact reals; AccumType = T; std::numeric_limits<T>::min() is a positive parameter `tiny`.
-/
namespace Verif.Elem
open Verif.Fn Verif.ND Real

/-! ### Model -/

/-- setup_impl: sizes before, on and after the axis (softmax.cpp:29-43; the same lines in the other three files).
An integer division by zero, undefined in C++, is an error here. -/
def sliceSetup (axis : Int) (s : Shape) : Except String (Nat × Nat × Nat) :=
  match refineAxis axis s.length with
  | .error e => .error e
  | .ok a =>
    if sizeFrom s a = 0 ∨ size s / sizeFrom s a = 0 ∨ s.getD a 0 = 0 then .error "division by zero"
    else
      let size0 := size s / sizeFrom s a
      let size1 := s.getD a 0
      let size2 := size s / size0 / size1
      if size0 * size1 * size2 = size s then .ok (size0, size1, size2) else .error "An error occurred during setup"

open Classical in
/-- The running maximum (softmax.cpp:56-60); `p i1` is the offset of element i1 of the slice. -/
noncomputable def sliceMax (n1 : Nat) (p : Nat → Nat) (x : Mem ℝ) : ℝ :=
  (List.range n1).foldl (fun m i1 => if m ≥ x (p i1) then m else x (p i1)) (x (p 0))

/-- One slice of Softmax::forward_impl (softmax.cpp:54-73): the loop that stores exponentials and sums them, and the loop
that divides. -/
noncomputable def softmaxBody (n1 : Nat) (p : Nat → Nat) (x y : Mem ℝ) : Mem ℝ :=
  let max_x := sliceMax n1 p x
  let st := (List.range n1).foldl (fun (st : Mem ℝ × ℝ) i1 =>
    (put st.1 (p i1) (exp (x (p i1) - max_x)), st.2 + exp (x (p i1) - max_x))) (y, 0)
  forPut n1 p (fun _ v => v / st.2) st.1

/-- Softmax::forward_impl (softmax.cpp:46-76). -/
noncomputable def softmaxForward (n0 n1 n2 : Nat) (x y : Mem ℝ) : Mem ℝ :=
  forSlices n0 n2 (fun i0 i2 => softmaxBody n1 (fun i1 => off n1 n2 i0 i1 i2) x) y

/-- One slice of Softmax::backward_impl (softmax.cpp:96-107). -/
def softmaxBwdBody (n1 : Nat) (p : Nat → Nat) (y dy : Mem ℝ) (accum : Bool) (dx : Mem ℝ) : Mem ℝ :=
  let dyy := (List.range n1).foldl (fun s i1 => s + dy (p i1) * y (p i1)) 0
  forPut n1 p (fun i1 v => (if accum then v else 0) + y (p i1) * (dy (p i1) - dyy)) dx

/-- Softmax::backward_impl (softmax.cpp:79-110). -/
def softmaxBackward (n0 n1 n2 : Nat) (y : Mem ℝ) (accum : Bool) (dy dx : Mem ℝ) : Mem ℝ :=
  forSlices n0 n2 (fun i0 i2 => softmaxBwdBody n1 (fun i1 => off n1 n2 i0 i1 i2) y dy accum) dx

/-- One slice of LogSoftmax::forward_impl (log_softmax.cpp:53-73). -/
noncomputable def logSoftmaxBody (n1 : Nat) (p : Nat → Nat) (x y : Mem ℝ) : Mem ℝ :=
  let max_x := sliceMax n1 p x
  let st := (List.range n1).foldl (fun (st : Mem ℝ × ℝ) i1 =>
    (put st.1 (p i1) (x (p i1) - max_x), st.2 + exp (x (p i1) - max_x))) (y, 0)
  forPut n1 p (fun _ v => v - log st.2) st.1

/-- LogSoftmax::forward_impl (log_softmax.cpp:45-76). -/
noncomputable def logSoftmaxForward (n0 n1 n2 : Nat) (x y : Mem ℝ) : Mem ℝ :=
  forSlices n0 n2 (fun i0 i2 => logSoftmaxBody n1 (fun i1 => off n1 n2 i0 i1 i2) x) y

/-- One slice of LogSoftmax::backward_impl (log_softmax.cpp:95-107). -/
noncomputable def logSoftmaxBwdBody (n1 : Nat) (p : Nat → Nat) (y dy : Mem ℝ) (accum : Bool) (dx : Mem ℝ) : Mem ℝ :=
  let dys := (List.range n1).foldl (fun s i1 => s + dy (p i1)) 0
  forPut n1 p (fun i1 v => (if accum then v else 0) + dy (p i1) - exp (y (p i1)) * dys) dx

/-- LogSoftmax::backward_impl (log_softmax.cpp:79-109). -/
noncomputable def logSoftmaxBackward (n0 n1 n2 : Nat) (y : Mem ℝ) (accum : Bool) (dy dx : Mem ℝ) : Mem ℝ :=
  forSlices n0 n2 (fun i0 i2 => logSoftmaxBwdBody n1 (fun i1 => off n1 n2 i0 i1 i2) y dy accum) dx

/-- SoftmaxCrossEntropy::forward_impl (softmax_cross_entropy.cpp:74-98); `l` holds the labels, `lp` the log_softmax output. -/
def sceForward (n0 n1 n2 : Nat) (l : Nat → Int) (lp y : Mem ℝ) : Mem ℝ :=
  forSlices n0 n2 (fun i0 i2 y =>
    let j := i0 * n2 + i2
    if l j < 0 then put y j 0 else put y j (-lp (i0 * n1 * n2 + (l j).toNat * n2 + i2))) y

/-- SoftmaxCrossEntropy::backward_impl (softmax_cross_entropy.cpp:100-134), `total` elements in x. -/
noncomputable def sceBackward (n0 n1 n2 : Nat) (l : Nat → Int) (lp : Mem ℝ) (accum : Bool) (dy dx : Mem ℝ) : Mem ℝ :=
  forSlices n0 n2 (fun i0 i2 dx =>
    let j := i0 * n2 + i2
    if l j < 0 then dx
    else forPut n1 (fun i1 => off n1 n2 i0 i1 i2)
      (fun i1 v => v + dy j * (exp (lp (off n1 n2 i0 i1 i2)) - (if l j = i1 then 1 else 0))) dx)
    (if accum then dx else fun i => if i < n0 * n1 * n2 then 0 else dx i)

/-- CategoricalCrossEntropy::forward_impl (categorical_cross_entropy.cpp:72-94). -/
noncomputable def cceForward (tiny : ℝ) (n0 n1 n2 : Nat) (l : Nat → Int) (p y : Mem ℝ) : Mem ℝ :=
  forSlices n0 n2 (fun i0 i2 y =>
    let j := i0 * n2 + i2
    if l j < 0 then put y j 0 else put y j (-log (max (p (i0 * n1 * n2 + (l j).toNat * n2 + i2)) tiny))) y

/-- CategoricalCrossEntropy::backward_impl (categorical_cross_entropy.cpp:96-136). -/
noncomputable def cceBackward (tiny : ℝ) (n0 n1 n2 : Nat) (l : Nat → Int) (p : Mem ℝ) (accum : Bool) (dy dx : Mem ℝ) : Mem ℝ :=
  forSlices n0 n2 (fun i0 i2 dx =>
    let j := i0 * n2 + i2
    let k := i0 * n1 * n2 + (l j).toNat * n2 + i2
    if l j < 0 then dx else put dx k (dx k + -dy j / max (p k) tiny))
    (if accum then dx else fun i => if i < n0 * n1 * n2 then 0 else dx i)

/-! ### Specification -/

/-- Softmax of n numbers. -/
noncomputable def softmaxOf (n : Nat) (x : Mem ℝ) (i : Nat) : ℝ := exp (x i) / ∑ k ∈ Finset.range n, exp (x k)

/-- Its logarithm. -/
noncomputable def logSoftmaxOf (n : Nat) (x : Mem ℝ) (i : Nat) : ℝ := x i - log (∑ k ∈ Finset.range n, exp (x k))

/-! ### Proofs: one slice -/

theorem sum_exp_pos (n : Nat) (h : 0 < n) (x : Mem ℝ) : 0 < ∑ k ∈ Finset.range n, exp (x k) :=
  Finset.sum_pos (fun k _ => exp_pos _) ⟨0, Finset.mem_range.mpr h⟩

theorem softmaxOf_vjp (n : Nat) (x : Mem ℝ) : IsVJP n n (softmaxOf n) x
    (fun dy i => softmaxOf n x i * (dy i - ∑ k ∈ Finset.range n, dy k * softmaxOf n x k)) := by
  intro c v hc dy
  have he : ∀ k, k < n → HasDerivAt (fun t => exp (c t k)) (exp (x k) * v k) 0 := by
    intro k hk
    have := (hc k hk).2.exp
    rwa [(hc k hk).1] at this
  have hS : HasDerivAt (fun t => ∑ k ∈ Finset.range n, exp (c t k)) (∑ k ∈ Finset.range n, exp (x k) * v k) 0 :=
    HasDerivAt.fun_sum fun k hk => he k (Finset.mem_range.mp hk)
  have e0 : ∑ k ∈ Finset.range n, exp (c 0 k) = ∑ k ∈ Finset.range n, exp (x k) :=
    Finset.sum_congr rfl fun k hk => by rw [(hc k (Finset.mem_range.mp hk)).1]
  have hw : ∀ i, i < n → HasDerivAt (fun t => softmaxOf n (c t) i)
      (softmaxOf n x i * (v i - ∑ k ∈ Finset.range n, softmaxOf n x k * v k)) 0 := by
    intro i hi
    have hp := sum_exp_pos n (by omega) x
    have := (he i hi).div hS (by rw [e0]; exact hp.ne')
    refine this.congr_deriv ?_
    rw [e0, (hc i hi).1]
    have e1 : ∑ k ∈ Finset.range n, softmaxOf n x k * v k = (∑ k ∈ Finset.range n, exp (x k) * v k) / ∑ k ∈ Finset.range n, exp (x k) := by
      rw [Finset.sum_div]
      refine Finset.sum_congr rfl fun k _ => ?_
      rw [softmaxOf]; ring
    rw [e1, softmaxOf]
    field_simp
  refine (hasDerivAt_dot n dy _ _ hw).congr_deriv ?_
  simp only [dot, mul_sub, Finset.sum_sub_distrib]
  congr 1
  · exact Finset.sum_congr rfl fun i _ => by ring
  · simp only [Finset.mul_sum]
    rw [Finset.sum_comm]
    exact Finset.sum_congr rfl fun i _ => Finset.sum_congr rfl fun k _ => by ring

theorem logSoftmaxOf_deriv (n : Nat) (x : Mem ℝ) (c : ℝ → Mem ℝ) (v : Mem ℝ)
    (hc : ∀ k, k < n → c 0 k = x k ∧ HasDerivAt (fun t => c t k) (v k) 0) (i : Nat) (hi : i < n) :
    HasDerivAt (fun t => logSoftmaxOf n (c t) i) (v i - ∑ k ∈ Finset.range n, exp (logSoftmaxOf n x k) * v k) 0 := by
  have he : ∀ k, k < n → HasDerivAt (fun t => exp (c t k)) (exp (x k) * v k) 0 := by
    intro k hk
    have := (hc k hk).2.exp
    rwa [(hc k hk).1] at this
  have hS : HasDerivAt (fun t => ∑ k ∈ Finset.range n, exp (c t k)) (∑ k ∈ Finset.range n, exp (x k) * v k) 0 :=
    HasDerivAt.fun_sum fun k hk => he k (Finset.mem_range.mp hk)
  have e0 : ∑ k ∈ Finset.range n, exp (c 0 k) = ∑ k ∈ Finset.range n, exp (x k) :=
    Finset.sum_congr rfl fun k hk => by rw [(hc k (Finset.mem_range.mp hk)).1]
  have hp := sum_exp_pos n (by omega) x
  have := (hc i hi).2.sub (hS.log (by rw [e0]; exact hp.ne'))
  refine this.congr_deriv ?_
  rw [e0]
  congr 1
  rw [Finset.sum_div]
  refine Finset.sum_congr rfl fun k _ => ?_
  rw [logSoftmaxOf, exp_sub, exp_log hp]
  ring

theorem logSoftmaxOf_vjp (n : Nat) (x : Mem ℝ) : IsVJP n n (logSoftmaxOf n) x
    (fun dy i => dy i - exp (logSoftmaxOf n x i) * ∑ k ∈ Finset.range n, dy k) := by
  intro c v hc dy
  refine (hasDerivAt_dot n dy _ _ (fun i hi => logSoftmaxOf_deriv n x c v hc i hi)).congr_deriv ?_
  simp only [dot, mul_sub, Finset.sum_sub_distrib]
  congr 1
  · exact Finset.sum_congr rfl fun i _ => by ring
  · simp only [Finset.mul_sum]
    rw [Finset.sum_comm]
    exact Finset.sum_congr rfl fun i _ => Finset.sum_congr rfl fun k _ => by ring

theorem sliceMax_ge (n1 : Nat) (p : Nat → Nat) (x : Mem ℝ) : x (p 0) ≤ sliceMax n1 p x ∧ ∀ i, i < n1 → x (p i) ≤ sliceMax n1 p x := by
  unfold sliceMax
  induction n1 with
  | zero => exact ⟨le_refl _, fun i hi => absurd hi (by omega)⟩
  | succ n ih =>
    rw [List.range_succ, List.foldl_append]
    simp only [List.foldl_cons, List.foldl_nil]
    split
    · rename_i h
      refine ⟨ih.1, ?_⟩
      intro i hi
      by_cases e : i = n
      · subst e; exact h
      · exact ih.2 i (by omega)
    · rename_i h
      have h := not_le.mp h
      refine ⟨ih.1.trans h.le, ?_⟩
      intro i hi
      by_cases e : i = n
      · subst e; exact le_refl _
      · exact (ih.2 i (by omega)).trans h.le

theorem sliceMax_mem (n1 : Nat) (p : Nat → Nat) (x : Mem ℝ) (h : 0 < n1) : ∃ i, i < n1 ∧ sliceMax n1 p x = x (p i) := by
  unfold sliceMax
  have : ∀ m, ∃ i, i < m + 1 ∧ (List.range m).foldl (fun a i1 => if a ≥ x (p i1) then a else x (p i1)) (x (p 0)) = x (p i) ∧ (i = 0 ∨ i < m) := by
    intro m
    induction m with
    | zero => exact ⟨0, by omega, rfl, Or.inl rfl⟩
    | succ m ih =>
      obtain ⟨i, hi, e, h'⟩ := ih
      rw [List.range_succ, List.foldl_append]
      simp only [List.foldl_cons, List.foldl_nil]
      split
      · exact ⟨i, by omega, e, by omega⟩
      · exact ⟨m, by omega, rfl, Or.inr (by omega)⟩
  obtain ⟨i, _, e, h'⟩ := this n1
  exact ⟨i, by omega, e⟩

/-- The storing and summing loop of both functions. -/
theorem storeSum_spec (n1 : Nat) (p : Nat → Nat) (f g : Nat → ℝ) (y : Mem ℝ) (hinj : ∀ i j, i < n1 → j < n1 → p i = p j → i = j) :
    let st := (List.range n1).foldl (fun (st : Mem ℝ × ℝ) i1 => (put st.1 (p i1) (f i1), st.2 + g i1)) (y, 0)
    st.1 = forPut n1 p (fun i _ => f i) y ∧ st.2 = ∑ k ∈ Finset.range n1, g k := by
  clear hinj
  induction n1 with
  | zero => simp [forPut]
  | succ n ih =>
    simp only [List.range_succ, List.foldl_append, List.foldl_cons, List.foldl_nil, forPut, Finset.sum_range_succ] at ih ⊢
    rw [ih.1, ih.2]
    exact ⟨rfl, rfl⟩

theorem foldl_add_sum (n : Nat) (f : Nat → ℝ) : (List.range n).foldl (fun s i => s + f i) 0 = ∑ k ∈ Finset.range n, f k := by
  induction n with
  | zero => simp
  | succ n ih => rw [List.range_succ, List.foldl_append, Finset.sum_range_succ, ih]; rfl

theorem softmaxBody_spec (n1 : Nat) (p : Nat → Nat) (x y : Mem ℝ) (hinj : ∀ i j, i < n1 → j < n1 → p i = p j → i = j) :
    (∀ i, i < n1 → softmaxBody n1 p x y (p i) = softmaxOf n1 (fun i => x (p i)) i) ∧
    ∀ k, (∀ i, i < n1 → p i ≠ k) → softmaxBody n1 p x y k = y k := by
  have hs := storeSum_spec n1 p (fun i1 => exp (x (p i1) - sliceMax n1 p x)) (fun i1 => exp (x (p i1) - sliceMax n1 p x)) y hinj
  simp only at hs
  unfold softmaxBody
  rw [hs.1, hs.2]
  obtain ⟨a1, a2⟩ := forPut_spec n1 p (fun i (_ : ℝ) => exp (x (p i) - sliceMax n1 p x)) y hinj
  obtain ⟨b1, b2⟩ := forPut_spec n1 p (fun _ (v : ℝ) => v / ∑ k ∈ Finset.range n1, exp (x (p k) - sliceMax n1 p x))
    (forPut n1 p (fun i _ => exp (x (p i) - sliceMax n1 p x)) y) hinj
  refine ⟨?_, ?_⟩
  · intro i hi
    rw [b1 i hi, a1 i hi, softmaxOf]
    simp only [exp_sub, ← Finset.sum_div]
    have := sum_exp_pos n1 (by omega) fun i => x (p i)
    have h2 := exp_pos (sliceMax n1 p x)
    field_simp
  · intro k hk; rw [b2 k hk, a2 k hk]

theorem logSoftmaxBody_spec (n1 : Nat) (p : Nat → Nat) (x y : Mem ℝ) (hinj : ∀ i j, i < n1 → j < n1 → p i = p j → i = j) :
    (∀ i, i < n1 → logSoftmaxBody n1 p x y (p i) = logSoftmaxOf n1 (fun i => x (p i)) i) ∧
    ∀ k, (∀ i, i < n1 → p i ≠ k) → logSoftmaxBody n1 p x y k = y k := by
  have hs := storeSum_spec n1 p (fun i1 => x (p i1) - sliceMax n1 p x) (fun i1 => exp (x (p i1) - sliceMax n1 p x)) y hinj
  simp only at hs
  unfold logSoftmaxBody
  rw [hs.1, hs.2]
  obtain ⟨a1, a2⟩ := forPut_spec n1 p (fun i (_ : ℝ) => x (p i) - sliceMax n1 p x) y hinj
  obtain ⟨b1, b2⟩ := forPut_spec n1 p (fun _ (v : ℝ) => v - log (∑ k ∈ Finset.range n1, exp (x (p k) - sliceMax n1 p x)))
    (forPut n1 p (fun i _ => x (p i) - sliceMax n1 p x) y) hinj
  refine ⟨?_, ?_⟩
  · intro i hi
    rw [b1 i hi, a1 i hi, logSoftmaxOf]
    simp only [exp_sub, ← Finset.sum_div]
    have := sum_exp_pos n1 (by omega) fun i => x (p i)
    have h2 := exp_pos (sliceMax n1 p x)
    rw [log_div this.ne' h2.ne', log_exp]
    ring
  · intro k hk; rw [b2 k hk, a2 k hk]

theorem slice_inj (n1 n2 i0 i2 : Nat) (h2 : i2 < n2) : ∀ i j, i < n1 → j < n1 → off n1 n2 i0 i i2 = off n1 n2 i0 j i2 → i = j :=
  fun _ _ hi hj e => (off_inj hi h2 hj h2 e).2.1

theorem softmaxForward_spec (n0 n1 n2 : Nat) (x y : Mem ℝ) (i0 i1 i2 : Nat) (h0 : i0 < n0) (h1 : i1 < n1) (h2 : i2 < n2) :
    softmaxForward n0 n1 n2 x y (off n1 n2 i0 i1 i2) = softmaxOf n1 (fun i => x (off n1 n2 i0 i i2)) i1 :=
  (forSlices_spec n0 n1 n2 _ (fun i0 i1 i2 _ => softmaxOf n1 (fun i => x (off n1 n2 i0 i i2)) i1) y
    (fun i0 i2 _ h2 m i1 h1 => (softmaxBody_spec n1 _ x m (slice_inj n1 n2 i0 i2 h2)).1 i1 h1)
    (fun i0 i2 _ h2 m k hk => (softmaxBody_spec n1 _ x m (slice_inj n1 n2 i0 i2 h2)).2 k hk)).1 i0 i1 i2 h0 h1 h2

theorem logSoftmaxForward_spec (n0 n1 n2 : Nat) (x y : Mem ℝ) (i0 i1 i2 : Nat) (h0 : i0 < n0) (h1 : i1 < n1) (h2 : i2 < n2) :
    logSoftmaxForward n0 n1 n2 x y (off n1 n2 i0 i1 i2) = logSoftmaxOf n1 (fun i => x (off n1 n2 i0 i i2)) i1 :=
  (forSlices_spec n0 n1 n2 _ (fun i0 i1 i2 _ => logSoftmaxOf n1 (fun i => x (off n1 n2 i0 i i2)) i1) y
    (fun i0 i2 _ h2 m i1 h1 => (logSoftmaxBody_spec n1 _ x m (slice_inj n1 n2 i0 i2 h2)).1 i1 h1)
    (fun i0 i2 _ h2 m k hk => (logSoftmaxBody_spec n1 _ x m (slice_inj n1 n2 i0 i2 h2)).2 k hk)).1 i0 i1 i2 h0 h1 h2

theorem softmaxBackward_spec (n0 n1 n2 : Nat) (y dy dx : Mem ℝ) (accum : Bool) (i0 i1 i2 : Nat) (h0 : i0 < n0) (h1 : i1 < n1) (h2 : i2 < n2) :
    softmaxBackward n0 n1 n2 y accum dy dx (off n1 n2 i0 i1 i2) = (if accum then dx (off n1 n2 i0 i1 i2) else 0) +
      y (off n1 n2 i0 i1 i2) * (dy (off n1 n2 i0 i1 i2) - ∑ k ∈ Finset.range n1, dy (off n1 n2 i0 k i2) * y (off n1 n2 i0 k i2)) := by
  refine (forSlices_spec n0 n1 n2 _ (fun i0 i1 i2 v => (if accum then v else 0) +
      y (off n1 n2 i0 i1 i2) * (dy (off n1 n2 i0 i1 i2) - ∑ k ∈ Finset.range n1, dy (off n1 n2 i0 k i2) * y (off n1 n2 i0 k i2))) dx
    ?_ ?_).1 i0 i1 i2 h0 h1 h2
  · intro i0 i2 _ h2 m i1 h1
    simp only [softmaxBwdBody, foldl_add_sum]
    exact (forPut_spec n1 _ _ m (slice_inj n1 n2 i0 i2 h2)).1 i1 h1
  · intro i0 i2 _ h2 m k hk
    simp only [softmaxBwdBody, foldl_add_sum]
    exact (forPut_spec n1 _ _ m (slice_inj n1 n2 i0 i2 h2)).2 k hk

theorem logSoftmaxBackward_spec (n0 n1 n2 : Nat) (y dy dx : Mem ℝ) (accum : Bool) (i0 i1 i2 : Nat) (h0 : i0 < n0) (h1 : i1 < n1) (h2 : i2 < n2) :
    logSoftmaxBackward n0 n1 n2 y accum dy dx (off n1 n2 i0 i1 i2) = (if accum then dx (off n1 n2 i0 i1 i2) else 0) +
      dy (off n1 n2 i0 i1 i2) - exp (y (off n1 n2 i0 i1 i2)) * ∑ k ∈ Finset.range n1, dy (off n1 n2 i0 k i2) := by
  refine (forSlices_spec n0 n1 n2 _ (fun i0 i1 i2 v => (if accum then v else 0) +
      dy (off n1 n2 i0 i1 i2) - exp (y (off n1 n2 i0 i1 i2)) * ∑ k ∈ Finset.range n1, dy (off n1 n2 i0 k i2)) dx
    ?_ ?_).1 i0 i1 i2 h0 h1 h2
  · intro i0 i2 _ h2 m i1 h1
    simp only [logSoftmaxBwdBody, foldl_add_sum]
    exact (forPut_spec n1 _ _ m (slice_inj n1 n2 i0 i2 h2)).1 i1 h1
  · intro i0 i2 _ h2 m k hk
    simp only [logSoftmaxBwdBody, foldl_add_sum]
    exact (forPut_spec n1 _ _ m (slice_inj n1 n2 i0 i2 h2)).2 k hk

/-! ### Shapes -/

theorem prod_pos_split (A B : Shape) (d : Nat) (h : 0 < prod (A ++ d :: B)) : 0 < prod A ∧ 0 < d ∧ 0 < prod B := by
  rw [prod_append] at h
  have h1 := Nat.pos_of_mul_pos_right h
  have h2 : 0 < d * prod B := Nat.pos_of_mul_pos_left h
  exact ⟨h1, Nat.pos_of_mul_pos_right h2, Nat.pos_of_mul_pos_left h2⟩

/-- **C83.** The sizes the kernels use: the axis may be counted from the end; for non-empty arrays setup succeeds with the
product of the extents before, the extent of, and the product of the extents after the axis. -/
theorem C83_setup (A B : Shape) (d : Nat) (axis : Int) (ha : axis = A.length ∨ axis = (A.length : Int) - (A ++ d :: B).length)
    (h : 0 < prod (A ++ d :: B)) : sliceSetup axis (A ++ d :: B) = .ok (prod A, d, prod B) := by
  obtain ⟨h1, h2, h3⟩ := prod_pos_split A B d h
  have hlen : A.length < (A ++ d :: B).length := by simp
  have hdrop : (A ++ d :: B).drop A.length = d :: B := List.drop_left
  have hget : (A ++ d :: B).getD A.length 0 = d := by simp
  have hs := C33_size (A ++ d :: B) A.length
  rw [sliceSetup, refineAxis_ok A.length _ hlen axis ha]
  simp only
  rw [hs.1, hs.2.1, hdrop, hget]
  have e0 : prod (A ++ d :: B) = prod A * (d * prod B) := by rw [prod_append]; rfl
  have e1 : prod (d :: B) = d * prod B := rfl
  have hdp : 0 < d * prod B := Nat.mul_pos h2 h3
  rw [e0, e1, Nat.mul_div_cancel _ hdp, Nat.mul_div_cancel_left _ h1, Nat.mul_div_cancel_left _ h2, if_neg (by omega), if_pos (by ring)]

/-- The offset of element (a, k, b) of an array of shape A ++ [d] ++ B. -/
theorem ravel_off (A B : Shape) (d : Nat) (a b : List Nat) (k : Nat) (ha : InBounds A a) :
    ravel (A ++ d :: B) (a ++ k :: b) = off d (prod B) (ravel A a) k (ravel B b) := by
  rw [ravel_append _ _ _ _ ha.length]
  simp only [prod, ravel, off]
  ring

/-- **C83.** Softmax: element (a, i, b) of the result is exp(x[a,i,b]) divided by the sum of exp(x[a,k,b]) over k. -/
theorem C83_softmax (A B : Shape) (d : Nat) (x y : Mem ℝ) (a b : List Nat) (i : Nat) (ha : InBounds A a) (hb : InBounds B b) (hi : i < d) :
    softmaxForward (prod A) d (prod B) x y (ravel (A ++ d :: B) (a ++ i :: b)) =
      exp (x (ravel (A ++ d :: B) (a ++ i :: b))) / ∑ k ∈ Finset.range d, exp (x (ravel (A ++ d :: B) (a ++ k :: b))) := by
  simp only [ravel_off A B d a b _ ha]
  rw [softmaxForward_spec _ _ _ _ _ _ _ _ (ravel_lt ha) hi (ravel_lt hb)]
  rfl

/-- **C83.** LogSoftmax: element (a, i, b) of the result is the logarithm of the softmax. -/
theorem C83_log_softmax (A B : Shape) (d : Nat) (x y : Mem ℝ) (a b : List Nat) (i : Nat) (ha : InBounds A a) (hb : InBounds B b) (hi : i < d) :
    logSoftmaxForward (prod A) d (prod B) x y (ravel (A ++ d :: B) (a ++ i :: b)) =
      log (exp (x (ravel (A ++ d :: B) (a ++ i :: b))) / ∑ k ∈ Finset.range d, exp (x (ravel (A ++ d :: B) (a ++ k :: b)))) := by
  simp only [ravel_off A B d a b _ ha]
  rw [logSoftmaxForward_spec _ _ _ _ _ _ _ _ (ravel_lt ha) hi (ravel_lt hb), log_div (exp_pos _).ne' (sum_exp_pos d (by omega) _).ne', log_exp]
  rfl

/-- **C83.** Softmax outputs are positive and sum to one along the axis. -/
theorem C83_distribution (n0 n1 n2 : Nat) (x y : Mem ℝ) (i0 i2 : Nat) (h0 : i0 < n0) (h2 : i2 < n2) (h1 : 0 < n1) :
    (∀ i1, i1 < n1 → 0 < softmaxForward n0 n1 n2 x y (off n1 n2 i0 i1 i2)) ∧
    ∑ i1 ∈ Finset.range n1, softmaxForward n0 n1 n2 x y (off n1 n2 i0 i1 i2) = 1 := by
  have hp := sum_exp_pos n1 h1 fun i => x (off n1 n2 i0 i i2)
  refine ⟨?_, ?_⟩
  · intro i1 hi
    rw [softmaxForward_spec _ _ _ _ _ _ _ _ h0 hi h2]
    exact div_pos (exp_pos _) hp
  · rw [Finset.sum_congr rfl fun i1 hi => softmaxForward_spec n0 n1 n2 x y i0 i1 i2 h0 (Finset.mem_range.mp hi) h2]
    show (∑ i1 ∈ Finset.range n1, exp (x (off n1 n2 i0 i1 i2)) / ∑ k ∈ Finset.range n1, exp (x (off n1 n2 i0 k i2))) = 1
    rw [← Finset.sum_div]
    exact div_self hp.ne'

/-- **C83.** Numerical safety: every exponential is taken of a number that is at most zero, and the divisor (the argument
of the logarithm in LogSoftmax) is at least one. -/
theorem C83_stable (n1 : Nat) (p : Nat → Nat) (x : Mem ℝ) (h : 0 < n1) :
    (∀ i, i < n1 → x (p i) - sliceMax n1 p x ≤ 0) ∧ 1 ≤ ∑ k ∈ Finset.range n1, exp (x (p k) - sliceMax n1 p x) := by
  refine ⟨fun i hi => by linarith [(sliceMax_ge n1 p x).2 i hi], ?_⟩
  obtain ⟨i, hi, e⟩ := sliceMax_mem n1 p x h
  have h1 : exp (x (p i) - sliceMax n1 p x) = 1 := by rw [e]; simp
  rw [← h1]
  exact Finset.single_le_sum (f := fun k => exp (x (p k) - sliceMax n1 p x)) (fun k _ => (exp_pos _).le) (Finset.mem_range.mpr hi)

/-- **C83.** Backward of softmax and log_softmax is the vector-Jacobian product of forward, added to the old gradient when
accumulating. -/
theorem C83_backward (n0 n1 n2 : Nat) (x y0 dx : Mem ℝ) :
    IsVJP (n0 * n1 * n2) (n0 * n1 * n2) (fun x => softmaxForward n0 n1 n2 x y0) x
      (fun dy => softmaxBackward n0 n1 n2 (softmaxForward n0 n1 n2 x y0) false dy dx) ∧
    IsVJP (n0 * n1 * n2) (n0 * n1 * n2) (fun x => logSoftmaxForward n0 n1 n2 x y0) x
      (fun dy => logSoftmaxBackward n0 n1 n2 (logSoftmaxForward n0 n1 n2 x y0) false dy dx) ∧
    ∀ y dy dx' k, k < n0 * n1 * n2 →
      softmaxBackward n0 n1 n2 y true dy dx k = dx k + softmaxBackward n0 n1 n2 y false dy dx' k ∧
      logSoftmaxBackward n0 n1 n2 y true dy dx k = dx k + logSoftmaxBackward n0 n1 n2 y false dy dx' k := by
  refine ⟨?_, ?_, ?_⟩
  · refine IsVJP.slices n0 n1 n1 n2 _ _ x (fun _ _ => softmaxOf n1)
      (fun i0 i2 dy i => softmaxOf n1 (fun i => x (off n1 n2 i0 i i2)) i *
        (dy i - ∑ k ∈ Finset.range n1, dy k * softmaxOf n1 (fun i => x (off n1 n2 i0 i i2)) k)) ?_ ?_ ?_
    · intro x i0 i1 i2 h0 h1 h2; exact softmaxForward_spec _ _ _ _ _ _ _ _ h0 h1 h2
    · intro dy i0 i1 i2 h0 h1 h2
      rw [softmaxBackward_spec _ _ _ _ _ _ _ _ _ _ h0 h1 h2, softmaxForward_spec _ _ _ _ _ _ _ _ h0 h1 h2]
      simp only [Bool.false_eq_true, if_false, zero_add]
      congr 2
      exact Finset.sum_congr rfl fun k hk => by rw [softmaxForward_spec _ _ _ _ _ _ _ _ h0 (Finset.mem_range.mp hk) h2]
    · intro i0 i2 _ _; exact softmaxOf_vjp n1 _
  · refine IsVJP.slices n0 n1 n1 n2 _ _ x (fun _ _ => logSoftmaxOf n1)
      (fun i0 i2 dy i => dy i - exp (logSoftmaxOf n1 (fun i => x (off n1 n2 i0 i i2)) i) * ∑ k ∈ Finset.range n1, dy k) ?_ ?_ ?_
    · intro x i0 i1 i2 h0 h1 h2; exact logSoftmaxForward_spec _ _ _ _ _ _ _ _ h0 h1 h2
    · intro dy i0 i1 i2 h0 h1 h2
      rw [logSoftmaxBackward_spec _ _ _ _ _ _ _ _ _ _ h0 h1 h2, logSoftmaxForward_spec _ _ _ _ _ _ _ _ h0 h1 h2]
      simp only [Bool.false_eq_true, if_false, zero_add]
    · intro i0 i2 _ _; exact logSoftmaxOf_vjp n1 _
  · intro y dy dx' k hk
    obtain ⟨i0, i1, i2, h0, h1, h2, rfl⟩ := exists_off hk
    rw [softmaxBackward_spec _ _ _ _ _ _ _ _ _ _ h0 h1 h2, softmaxBackward_spec _ _ _ _ _ _ _ _ _ _ h0 h1 h2,
      logSoftmaxBackward_spec _ _ _ _ _ _ _ _ _ _ h0 h1 h2, logSoftmaxBackward_spec _ _ _ _ _ _ _ _ _ _ h0 h1 h2]
    simp only [Bool.false_eq_true, if_false, if_true, zero_add]
    exact ⟨trivial, add_sub_assoc _ _ _⟩

end Verif.Elem
