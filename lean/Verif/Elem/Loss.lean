import Verif.Elem.CrossEntropy
/-
Loss functions of two inputs over the real numbers: squared_error, absolute_error, huber_loss,
epsilon_insensitive_loss (with broadcasting), sigmoid_cross_entropy, binary_cross_entropy, kl_multinomial,
top_n_error, binary_error. Exact reals; std::numeric_limits<T>::min() is a positive parameter `tiny`, the constant
1.0e-8 of kl_multinomial a positive parameter `eps`.
-/
namespace Verif.Elem
open Real Verif.Fn Verif.ND

/-! ### Model -/

/-- The losses defined by NBLA_DEFINE_TRANSFORM_BINARY(_1). -/
inductive Loss
  | squaredError | absoluteError | huber (δ : ℝ) | epsilonInsensitive (ε : ℝ)

open Classical in
/-- OP (squared_error.hpp:42, absolute_error.hpp:46, huber_loss.hpp:49-52, epsilon_insensitive_loss.hpp:56-58). -/
noncomputable def Loss.forward : Loss → ℝ → ℝ → ℝ
  | squaredError, a, b => (a - b) * (a - b)
  | absoluteError, a, b => |a - b|
  | huber δ, a, b => if |a - b| < δ then |a - b| * |a - b| else δ * (2 * |a - b| - δ)
  | epsilonInsensitive ε, a, b => if |a - b| > ε then |a - b| - ε else 0

open Classical in
/-- GOP0 (squared_error.hpp:43, absolute_error.hpp:47, huber_loss.hpp:53-55, epsilon_insensitive_loss.hpp:59). -/
noncomputable def Loss.grad0 : Loss → (dy x0 x1 y : ℝ) → ℝ
  | squaredError, dy, a, b, _ => 2 * dy * (a - b)
  | absoluteError, dy, a, b, _ => if a - b > 0 then dy else -dy
  | huber δ, dy, a, b, _ => 2 * dy * (if |a - b| < δ then a - b else (if a - b > 0 then 1 else -1) * δ)
  | epsilonInsensitive ε, dy, a, b, _ => if a - b > ε then dy else if a - b < -ε then -dy else 0

open Classical in
/-- GOP1 (squared_error.hpp:43, absolute_error.hpp:48, huber_loss.hpp:56-58, epsilon_insensitive_loss.hpp:60). -/
noncomputable def Loss.grad1 : Loss → (dy x0 x1 y : ℝ) → ℝ
  | squaredError, dy, a, b, _ => -2 * dy * (a - b)
  | absoluteError, dy, a, b, _ => if a - b > 0 then -dy else dy
  | huber δ, dy, a, b, _ => -2 * dy * (if |a - b| < δ then a - b else (if a - b > 0 then 1 else -1) * δ)
  | epsilonInsensitive ε, dy, a, b, _ => if a - b > ε then -dy else if a - b < -ε then dy else 0

/-- Where the loss is smooth. Huber's loss is smooth everywhere. -/
def Loss.smooth : Loss → ℝ → ℝ → Prop
  | squaredError, _, _ => True
  | absoluteError, a, b => a ≠ b
  | huber δ, _, _ => 0 < δ
  | epsilonInsensitive ε, a, b => 0 ≤ ε ∧ |a - b| ≠ ε

/-- Loop of the losses without broadcasting: `for s: y[s] = op(x0[s], x1[s])`. -/
def pairForward (op : ℝ → ℝ → ℝ) (n : Nat) (x0 x1 y : Mem ℝ) : Mem ℝ :=
  (List.range n).foldl (fun m i => put m i (op (x0 i) (x1 i))) y

/-- Loop of their gradients: `for s: dx[s] = (accum ? dx[s] : 0) + g(dy[s], x0[s], x1[s])`. -/
def pairBackward (g : ℝ → ℝ → ℝ → ℝ) (n : Nat) (x0 x1 : Mem ℝ) (accum : Bool) (dy dx : Mem ℝ) : Mem ℝ :=
  (List.range n).foldl (fun m i => put m i ((if accum then m i else 0) + g (dy i) (x0 i) (x1 i))) dx

open Classical in
/-- The comparison `x0[s] >= 0` converted to a number (sigmoid_cross_entropy.cpp:50-51). -/
noncomputable def geZero (a : ℝ) : ℝ := if a ≥ 0 then 1 else 0

/-- SigmoidCrossEntropy::forward_impl (sigmoid_cross_entropy.cpp:49-52). -/
noncomputable def sigmoidCE (a b : ℝ) : ℝ := -(a * (b - geZero a) - log (1 + exp (a - 2 * a * geZero a)))

/-- SigmoidCrossEntropy::backward_impl (sigmoid_cross_entropy.cpp:71-76). -/
noncomputable def sigmoidCEGrad (dy a b : ℝ) : ℝ := dy * (1 / (1 + exp (-a)) - b)

/-- BinaryCrossEntropy::forward_impl (binary_cross_entropy.cpp:43-47). -/
noncomputable def binaryCE (tiny a b : ℝ) : ℝ := -(b * log (max a tiny) + (1 - b) * log (max (1 - a) tiny))

/-- BinaryCrossEntropy::backward_impl (binary_cross_entropy.cpp:64-70). -/
noncomputable def binaryCEGrad0 (tiny dy a b : ℝ) : ℝ := dy * (a - b) / max (a - a * a) tiny

/-- BinaryCrossEntropy::backward_impl (binary_cross_entropy.cpp:72-79). -/
noncomputable def binaryCEGrad1 (tiny dy a _b : ℝ) : ℝ := dy * (log (max (1 - a) tiny) - log (max a tiny))

/-- One term of KLMultinomial::forward_impl (kl_multinomial.cpp:66-67). -/
noncomputable def klTerm (eps a b : ℝ) : ℝ := a * (log (a + eps) - log (b + eps))

/-- KLMultinomial::backward_impl, first input (kl_multinomial.cpp:96-98). -/
noncomputable def klGrad0 (eps dy a b : ℝ) : ℝ := dy * (log (a + eps) - log (b + eps) + 1)

/-- KLMultinomial::backward_impl, second input (kl_multinomial.cpp:112). -/
noncomputable def klGrad1 (dy a b : ℝ) : ℝ := -(dy * a / b)

open Classical in
/-- TopNError::forward_impl (top_n_error.cpp:59-81): counts the classes with at least the score of the label. -/
noncomputable def topNError (N : Nat) (n0 n1 n2 : Nat) (l : Nat → Nat) (p y : Mem ℝ) : Mem ℝ :=
  forSlices n0 n2 (fun i0 i2 y =>
    let j := i0 * n2 + i2
    let k := i0 * n1 * n2 + i2
    let threshold := p (k + l j * n2)
    let count := (List.range n1).foldl (fun c i1 => c + if p (k + i1 * n2) ≥ threshold then 1 else 0) 0
    put y j (if count > N then 1 else 0)) y

open Classical in
/-- BinaryError::forward_impl (binary_error.cpp:43-45). -/
noncomputable def binaryErr (a b : ℝ) : ℝ := if (decide (a ≥ 0.5)) != (decide (b ≥ 0.5)) then 1 else 0

/-! ### Proofs -/

theorem deriv_of_sides {f : ℝ → ℝ} {d x : ℝ} (h1 : HasDerivWithinAt f d (Set.Iic x) x) (h2 : HasDerivWithinAt f d (Set.Ici x) x) : HasDerivAt f d x := by
  have := h1.union h2
  rwa [Set.Iic_union_Ici, hasDerivWithinAt_univ] at this

theorem side_left {f g : ℝ → ℝ} {d x a : ℝ} (h : HasDerivAt g d x) (ha : a < x) (e : ∀ t, a < t → t ≤ x → f t = g t) :
    HasDerivWithinAt f d (Set.Iic x) x := by
  refine h.hasDerivWithinAt.congr_of_eventuallyEq ?_ (e x ha le_rfl)
  filter_upwards [self_mem_nhdsWithin, mem_nhdsWithin_of_mem_nhds (lt_mem_nhds ha)] with t h1 h2
  exact e t h2 h1

theorem side_right {f g : ℝ → ℝ} {d x a : ℝ} (h : HasDerivAt g d x) (ha : x < a) (e : ∀ t, t < a → x ≤ t → f t = g t) :
    HasDerivWithinAt f d (Set.Ici x) x := by
  refine h.hasDerivWithinAt.congr_of_eventuallyEq ?_ (e x ha le_rfl)
  filter_upwards [self_mem_nhdsWithin, mem_nhdsWithin_of_mem_nhds (gt_mem_nhds ha)] with t h1 h2
  exact e t h2 h1

/-- All four losses are functions of the difference. -/
theorem loss_diff (f : Loss) (a b : ℝ) : f.forward a b = f.forward (a - b) 0 := by
  cases f <;> simp only [Loss.forward, sub_zero]

theorem loss_grad_diff (f : Loss) (dy a b y : ℝ) : f.grad0 dy a b y = f.grad0 dy (a - b) 0 y ∧ f.grad1 dy a b y = -f.grad0 dy a b y := by
  cases f <;> simp only [Loss.grad0, Loss.grad1, sub_zero] <;> refine ⟨trivial, ?_⟩ <;> (try split_ifs) <;> ring

theorem sq_deriv (x : ℝ) : HasDerivAt (fun x : ℝ => x * x) (2 * x) x := by
  refine ((hasDerivAt_id x).mul (hasDerivAt_id x)).congr_deriv ?_
  simp only [id]; ring

theorem loss_deriv (f : Loss) (a b d y : ℝ) (hs : f.smooth a b) (hd : d = a - b) :
    HasDerivAt (fun d => f.forward d 0) (f.grad0 1 d 0 y) d := by
  subst hd
  set d := a - b with hd
  cases f with
  | squaredError =>
    simp only [Loss.forward, Loss.grad0, sub_zero, mul_one]
    exact sq_deriv d
  | absoluteError =>
    have hne : d ≠ 0 := sub_ne_zero.mpr hs
    simp only [Loss.forward, Loss.grad0, sub_zero]
    rcases lt_or_gt_of_ne hne with h | h
    · rw [if_neg (by linarith)]
      refine of_lt (hasDerivAt_neg d) h fun t ht => abs_of_neg ht
    · rw [if_pos h]
      refine of_gt (g := fun t => t) (hasDerivAt_id d) h fun t ht => abs_of_pos ht
  | huber δ =>
    have hδ : 0 < δ := hs
    simp only [Loss.forward, Loss.grad0, sub_zero, mul_one, abs_mul_abs_self]
    have lin : ∀ x, HasDerivAt (fun t : ℝ => δ * (2 * t - δ)) (2 * δ) x := fun x => by
      refine (((hasDerivAt_id x).const_mul 2).sub_const δ).const_mul δ |>.congr_deriv ?_; ring
    have lin' : ∀ x, HasDerivAt (fun t : ℝ => δ * (2 * -t - δ)) (-(2 * δ)) x := fun x => by
      refine (((hasDerivAt_neg x).const_mul 2).sub_const δ).const_mul δ |>.congr_deriv ?_; ring
    have mid : ∀ t, -δ ≤ t → t ≤ δ → (if |t| < δ then t * t else δ * (2 * |t| - δ)) = t * t := by
      intro t h1 h2
      split
      · rfl
      · rename_i h
        have : |t| = δ := le_antisymm (abs_le.mpr ⟨h1, h2⟩) (not_lt.mp h)
        rw [this, ← abs_mul_abs_self t, this]; ring
    have hi : ∀ t, δ ≤ t → (if |t| < δ then t * t else δ * (2 * |t| - δ)) = δ * (2 * t - δ) := by
      intro t h
      rw [abs_of_nonneg (by linarith), if_neg (by linarith)]
    have lo : ∀ t, t ≤ -δ → (if |t| < δ then t * t else δ * (2 * |t| - δ)) = δ * (2 * -t - δ) := by
      intro t h
      rw [abs_of_nonpos (by linarith), if_neg (by linarith)]
    rcases lt_trichotomy d δ with h | h | h
    · rcases lt_trichotomy d (-δ) with h' | h' | h'
      · rw [if_neg (by rw [abs_of_nonpos (by linarith)]; linarith), if_neg (by linarith)]
        refine (of_lt (lin' d) h' fun t ht => lo t ht.le).congr_deriv (by ring)
      · rw [if_neg (by rw [abs_of_nonpos (by linarith)]; linarith), if_neg (by linarith)]
        refine deriv_of_sides ?_ ?_
        · refine ((side_left (lin' d) (sub_one_lt d) fun t _ ht => lo t (by linarith))).congr_deriv (by ring)
        · refine (side_right (sq_deriv d) (a := 0) (by linarith) fun t ht h2 => mid t (by linarith) (by linarith)).congr_deriv (by rw [h']; ring)
      · rw [if_pos (abs_lt.mpr ⟨h', h⟩)]
        exact of_mid (sq_deriv d) h' h fun t h1 h2 => mid t h1.le h2.le
    · rw [if_neg (by rw [abs_of_nonneg (by linarith)]; linarith), if_pos (by linarith)]
      refine deriv_of_sides ?_ ?_
      · refine (side_left (sq_deriv d) (a := 0) (by linarith) fun t ht h2 => mid t (by linarith) (by linarith)).congr_deriv (by rw [h]; ring)
      · refine ((side_right (lin d) (lt_add_one d) fun t _ ht => hi t (by linarith))).congr_deriv (by ring)
    · rw [if_neg (by rw [abs_of_nonneg (by linarith)]; linarith), if_pos (by linarith)]
      refine (of_gt (lin d) h fun t ht => hi t ht.le).congr_deriv (by ring)
  | epsilonInsensitive ε =>
    obtain ⟨hε, hne⟩ := hs
    simp only [Loss.forward, Loss.grad0, sub_zero]
    rcases lt_or_gt_of_ne hne with h | h
    · have h' := abs_lt.mp h
      rw [if_neg (by linarith), if_neg (by linarith)]
      refine of_mid (hasDerivAt_const d (0 : ℝ)) h'.1 h'.2 fun t h1 h2 => ?_
      rw [if_neg (not_lt.mpr (abs_le.mpr ⟨h1.le, h2.le⟩))]
    · rcases lt_abs.mp h with h' | h'
      · rw [if_pos h']
        refine of_gt (g := fun t => t - ε) ((hasDerivAt_id d).sub_const ε) h' fun t ht => ?_
        rw [abs_of_nonneg (by linarith), if_pos ht]
      · rw [if_neg (by linarith), if_pos (by linarith)]
        refine of_lt (g := fun t => -t - ε) (a := -ε) ((hasDerivAt_neg d).sub_const ε) (by linarith) fun t ht => ?_
        rw [abs_of_nonpos (by linarith), if_pos (by linarith)]

theorem loss_binDeriv (f : Loss) (x0 x1 y : ℝ) (h : f.smooth x0 x1) : BinDeriv f.forward f.grad0 f.grad1 x0 x1 y := by
  refine ⟨?_, ?_⟩
  · intro a b va vb ha hb da db
    have hd := loss_deriv f x0 x1 (a 0 - b 0) y h (by rw [ha, hb])
    have := HasDerivAt.comp (0 : ℝ) hd (da.sub db)
    refine (this.congr_deriv ?_).congr_of_eventuallyEq (Filter.Eventually.of_forall fun t => ?_)
    · rw [(loss_grad_diff f 1 x0 x1 y).2, (loss_grad_diff f 1 x0 x1 y).1, ha, hb]; ring
    · exact loss_diff f _ _
  · intro dy
    cases f <;> simp only [Loss.grad0, Loss.grad1] <;> constructor <;> (try split_ifs) <;> ring

/-- **C84.** The values of the losses of the difference d = x0 - x1. -/
theorem C84_values (a b : ℝ) :
    Loss.squaredError.forward a b = (a - b) ^ 2 ∧ Loss.absoluteError.forward a b = |a - b| ∧
    (∀ δ, 0 ≤ δ → (|a - b| ≤ δ → (Loss.huber δ).forward a b = (a - b) ^ 2) ∧ (δ ≤ |a - b| → (Loss.huber δ).forward a b = δ * (2 * |a - b| - δ))) ∧
    ∀ ε, (Loss.epsilonInsensitive ε).forward a b = max (|a - b| - ε) 0 := by
  refine ⟨by simp only [Loss.forward]; ring, rfl, ?_, ?_⟩
  · intro δ _
    simp only [Loss.forward]
    refine ⟨fun h => ?_, fun h => by rw [if_neg (not_lt.mpr h)]⟩
    split
    · rw [abs_mul_abs_self]; ring
    · rename_i h'
      have : |a - b| = δ := le_antisymm h (not_lt.mp h')
      rw [← sq_abs, this]; ring
  · intro ε
    simp only [Loss.forward]
    split
    · rw [max_eq_left]; linarith
    · rw [max_eq_right]; linarith

/-- **C84.** Backward of the four losses, with broadcasting, computes the vector-Jacobian product with respect to both inputs
wherever the loss is smooth — for Huber's loss with positive delta, everywhere. -/
theorem C84_backward (f : Loss) (s0 s1 out : Shape) (h : binarySetup s0 s1 = .ok out) (x0 x1 y y0 dx0 dx1 : Mem ℝ)
    (hs : ∀ j, InBounds out j → f.smooth (x0 (ravel s0 (bcast s0 j))) (x1 (ravel s1 (bcast s1 j)))) :
    IsVJP2 (prod s0) (prod s1) (prod out) (fun x0 x1 => binaryForward f.forward s0 s1 (prod out) x0 x1 y0) x0 x1
      (fun dy => binaryBackward f.grad0 s0 s1 (prod out) (prod s0) false x0 x1 y false dy dx0)
      (fun dy => binaryBackward f.grad1 s0 s1 (prod out) (prod s1) true x0 x1 y false dy dx1) :=
  binary_kernel_vjp _ _ _ s0 s1 out h x0 x1 y y0 dx0 dx1 fun j hj y => loss_binDeriv f _ _ y (hs j hj)

/-- **C84, refuted part.** With a negative epsilon the loss is |d| - ε everywhere, but for 0 < -d < -ε the gradient has the
wrong sign. -/
theorem C84_negative_epsilon_partial (ε d y : ℝ) (h : d < 0) (h2 : ε < d) :
    HasDerivAt (fun d => (Loss.epsilonInsensitive ε).forward d 0) (-1) d ∧ (Loss.epsilonInsensitive ε).grad0 1 d 0 y = 1 := by
  refine ⟨?_, ?_⟩
  · refine of_lt (g := fun t => -t - ε) ((hasDerivAt_neg d).sub_const ε) h fun t ht => ?_
    simp only [Loss.forward, sub_zero]
    rw [abs_of_neg ht, if_pos (by linarith)]
  · simp only [Loss.grad0, sub_zero]
    rw [if_pos (by linarith)]

/-! Losses without broadcasting -/

theorem pairForward_eq (op : ℝ → ℝ → ℝ) (n : Nat) (x0 x1 y : Mem ℝ) (i : Nat) :
    pairForward op n x0 x1 y i = if i < n then op (x0 i) (x1 i) else y i := by
  unfold pairForward
  induction n with
  | zero => simp
  | succ n ih =>
    rw [List.range_succ, List.foldl_append]
    simp only [List.foldl_cons, List.foldl_nil]
    by_cases e : i = n
    · subst e; rw [put_same, if_pos (by omega)]
    · rw [put_other _ _ e, ih]
      have h1 : (i < n + 1) = (i < n) := by apply propext; omega
      simp only [h1]

theorem pairBackward_eq (g : ℝ → ℝ → ℝ → ℝ) (n : Nat) (x0 x1 : Mem ℝ) (accum : Bool) (dy dx : Mem ℝ) (i : Nat) :
    pairBackward g n x0 x1 accum dy dx i = if i < n then (if accum then dx i else 0) + g (dy i) (x0 i) (x1 i) else dx i := by
  unfold pairBackward
  induction n generalizing i with
  | zero => simp
  | succ n ih =>
    rw [List.range_succ, List.foldl_append]
    simp only [List.foldl_cons, List.foldl_nil]
    by_cases e : i = n
    · subst e
      have h1 : i < i + 1 := by omega
      have h2 : ¬ i < i := by omega
      simp only [put_same, ih, h1, h2, if_true, if_false]
    · rw [put_other _ _ e, ih]
      have h1 : (i < n + 1) = (i < n) := by apply propext; omega
      simp only [h1]

/-- Whole array from one pair, first input. -/
theorem pair_vjp0 (op : ℝ → ℝ → ℝ) (g : ℝ → ℝ → ℝ → ℝ) (n : Nat) (x0 x1 y0 dx : Mem ℝ)
    (h : ∀ i, i < n → ∃ d, HasDerivAt (fun a => op a (x1 i)) d (x0 i) ∧ ∀ dy, g dy (x0 i) (x1 i) = dy * d) :
    IsVJP n n (fun x0 => pairForward op n x0 x1 y0) x0 (fun dy => pairBackward g n x0 x1 false dy dx) := by
  intro c v hc dy
  have hd : ∀ i, i < n → HasDerivAt (fun t => pairForward op n (c t) x1 y0 i) (v i * g 1 (x0 i) (x1 i)) 0 := by
    intro i hi
    obtain ⟨d, hd, hg⟩ := h i hi
    rw [← (hc i hi).1] at hd
    refine ((HasDerivAt.comp (0 : ℝ) hd (hc i hi).2).congr_deriv ?_).congr_of_eventuallyEq (Filter.Eventually.of_forall fun t => ?_)
    · rw [hg]; ring
    · simp only [pairForward_eq, if_pos hi, Function.comp]
  refine (hasDerivAt_dot n dy _ _ hd).congr_deriv (dot_congr fun i hi => ?_)
  obtain ⟨d, _, hg⟩ := h i hi
  simp only [pairBackward_eq, if_pos hi, Bool.false_eq_true, if_false, zero_add]
  rw [hg, hg]; ring

/-- Whole array from one pair, second input. -/
theorem pair_vjp1 (op : ℝ → ℝ → ℝ) (g : ℝ → ℝ → ℝ → ℝ) (n : Nat) (x0 x1 y0 dx : Mem ℝ)
    (h : ∀ i, i < n → ∃ d, HasDerivAt (fun b => op (x0 i) b) d (x1 i) ∧ ∀ dy, g dy (x0 i) (x1 i) = dy * d) :
    IsVJP n n (fun x1 => pairForward op n x0 x1 y0) x1 (fun dy => pairBackward g n x0 x1 false dy dx) := by
  intro c v hc dy
  have hd : ∀ i, i < n → HasDerivAt (fun t => pairForward op n x0 (c t) y0 i) (v i * g 1 (x0 i) (x1 i)) 0 := by
    intro i hi
    obtain ⟨d, hd, hg⟩ := h i hi
    rw [← (hc i hi).1] at hd
    refine ((HasDerivAt.comp (0 : ℝ) hd (hc i hi).2).congr_deriv ?_).congr_of_eventuallyEq (Filter.Eventually.of_forall fun t => ?_)
    · rw [hg]; ring
    · simp only [pairForward_eq, if_pos hi, Function.comp]
  refine (hasDerivAt_dot n dy _ _ hd).congr_deriv (dot_congr fun i hi => ?_)
  obtain ⟨d, _, hg⟩ := h i hi
  simp only [pairBackward_eq, if_pos hi, Bool.false_eq_true, if_false, zero_add]
  rw [hg, hg]; ring

/-- The branch-free formula of sigmoid_cross_entropy is log(1 + e^a) - a b. -/
theorem sigmoidCE_eq (a b : ℝ) : sigmoidCE a b = log (1 + exp a) - a * b := by
  unfold sigmoidCE geZero
  by_cases h : a ≥ 0
  · simp only [if_pos h, mul_one]
    have e : 1 + exp (a - 2 * a) = (1 + exp a) * exp (-a) := by
      rw [add_mul, one_mul, ← exp_add]
      simp only [add_neg_cancel, exp_zero]
      rw [show a - 2 * a = -a by ring]; ring
    rw [e, log_mul (by positivity) (exp_pos _).ne', log_exp]
    ring
  · simp only [if_neg h, mul_zero, sub_zero]
    ring

/-- **C84.** sigmoid_cross_entropy is -(b log σ(a) + (1-b) log(1-σ(a))), no exponential of a positive number is formed, and its
backward is the vector-Jacobian product for every input. -/
theorem C84_sigmoid_cross_entropy (n : Nat) (x0 x1 y0 dx : Mem ℝ) :
    (∀ i, i < n → pairForward sigmoidCE n x0 x1 y0 i =
      -(x1 i * log (1 / (1 + exp (-x0 i))) + (1 - x1 i) * log (1 - 1 / (1 + exp (-x0 i))))) ∧
    (∀ a : ℝ, a - 2 * a * geZero a ≤ 0) ∧
    IsVJP n n (fun x0 => pairForward sigmoidCE n x0 x1 y0) x0 (fun dy => pairBackward sigmoidCEGrad n x0 x1 false dy dx) := by
  refine ⟨?_, ?_, ?_⟩
  · intro i hi
    rw [pairForward_eq, if_pos hi, sigmoidCE_eq]
    generalize x0 i = a
    generalize x1 i = b
    have h1 : 1 / (1 + exp (-a)) = exp a / (1 + exp a) := by
      rw [exp_neg]; have := exp_pos a; field_simp; ring
    have h2 : 1 - exp a / (1 + exp a) = 1 / (1 + exp a) := by
      have := exp_pos a
      have h : (1 + exp a) ≠ 0 := by positivity
      field_simp
      ring
    have hp : (1 + exp a) ≠ 0 := by have := exp_pos a; positivity
    rw [h1, h2, log_div (exp_pos a).ne' hp, log_div one_ne_zero hp, log_exp, log_one]
    ring
  · intro a
    unfold geZero
    by_cases h : a ≥ 0
    · rw [if_pos h]; linarith
    · rw [if_neg h]; linarith
  · refine pair_vjp0 _ _ n x0 x1 y0 dx fun i hi => ⟨1 / (1 + exp (-x0 i)) - x1 i, ?_, fun dy => rfl⟩
    have hp : (1 + exp (x0 i)) ≠ 0 := by have := exp_pos (x0 i); positivity
    have := (((hasDerivAt_exp (x0 i)).const_add 1).log hp).sub ((hasDerivAt_id (x0 i)).mul_const (x1 i))
    refine (this.congr_deriv ?_).congr_of_eventuallyEq (Filter.Eventually.of_forall fun t => sigmoidCE_eq t (x1 i))
    rw [exp_neg, one_mul]
    congr 1
    have := exp_pos (x0 i)
    field_simp
    ring

/-- **C84.** binary_cross_entropy: value and both gradients where the probability is not clipped, that is where p, 1-p and
p(1-p) are above the threshold. -/
theorem C84_binary_cross_entropy (tiny : ℝ) (ht : 0 < tiny) (n : Nat) (x0 x1 y0 dx : Mem ℝ)
    (hp : ∀ i, i < n → tiny < x0 i ∧ tiny < 1 - x0 i ∧ tiny ≤ x0 i * (1 - x0 i)) :
    (∀ i, i < n → pairForward (binaryCE tiny) n x0 x1 y0 i = -(x1 i * log (x0 i) + (1 - x1 i) * log (1 - x0 i))) ∧
    IsVJP n n (fun x0 => pairForward (binaryCE tiny) n x0 x1 y0) x0 (fun dy => pairBackward (binaryCEGrad0 tiny) n x0 x1 false dy dx) ∧
    IsVJP n n (fun x1 => pairForward (binaryCE tiny) n x0 x1 y0) x1 (fun dy => pairBackward (binaryCEGrad1 tiny) n x0 x1 false dy dx) := by
  refine ⟨?_, ?_, ?_⟩
  · intro i hi
    rw [pairForward_eq, if_pos hi, binaryCE, max_eq_left (hp i hi).1.le, max_eq_left (hp i hi).2.1.le]
  · refine pair_vjp0 _ _ n x0 x1 y0 dx fun i hi => ⟨(x0 i - x1 i) / max (x0 i - x0 i * x0 i) tiny, ?_, fun dy => by rw [binaryCEGrad0]; ring⟩
    obtain ⟨h1, h2, h3⟩ := hp i hi
    generalize x0 i = a at *
    generalize x1 i = b at *
    have ha : a ≠ 0 := by linarith
    have ha' : 1 - a ≠ 0 := by linarith
    have d1 := ((hasDerivAt_id a).log ha).const_mul b
    have d2 := (((hasDerivAt_id a).const_sub 1).log ha').const_mul (1 - b)
    have d := (d1.add d2).neg
    have hev : ∀ᶠ t in nhds a, tiny < t ∧ tiny < 1 - t := by
      filter_upwards [lt_mem_nhds h1, gt_mem_nhds (show a < 1 - tiny by linarith)] with t k1 k2
      exact ⟨k1, by linarith⟩
    refine (d.congr_deriv ?_).congr_of_eventuallyEq (hev.mono fun t ht' => ?_)
    · rw [max_eq_left (by linarith), show a - a * a = a * (1 - a) by ring]
      simp only [id]
      field_simp
      ring
    · show binaryCE tiny t b = _
      rw [binaryCE, max_eq_left ht'.1.le, max_eq_left ht'.2.le]
      rfl
  · refine pair_vjp1 _ _ n x0 x1 y0 dx fun i hi => ⟨log (max (1 - x0 i) tiny) - log (max (x0 i) tiny), ?_, fun dy => rfl⟩
    have d := (((hasDerivAt_id (x1 i)).mul_const (log (max (x0 i) tiny))).add
      (((hasDerivAt_id (x1 i)).const_sub 1).mul_const (log (max (1 - x0 i) tiny)))).neg
    refine (d.congr_deriv (by ring)).congr_of_eventuallyEq (Filter.Eventually.of_forall fun t => ?_)
    rfl

/-- **C84, refuted part.** A clipped probability: forward is locally constant, the gradient is (a - b)/tiny. -/
theorem C84_binary_clipped_partial (tiny a : ℝ) (ht : 0 < tiny) (h0 : a < 0) :
    HasDerivAt (fun a => binaryCE tiny a 1) 0 a ∧ binaryCEGrad0 tiny 1 a 1 = (a - 1) / tiny ∧ (a - 1) / tiny ≠ 0 := by
  refine ⟨?_, ?_, ?_⟩
  · refine of_lt (hasDerivAt_const a (-log tiny)) h0 fun t ht' => ?_
    rw [binaryCE, max_eq_right (by linarith)]; ring
  · rw [binaryCEGrad0, max_eq_right (by nlinarith)]; ring
  · exact div_ne_zero (by linarith) ht.ne'

/-! KL divergence -/

/-- KLMultinomial::forward_impl (kl_multinomial.cpp:51-70): n samples of k numbers. -/
noncomputable def klForward (eps : ℝ) (n k : Nat) (x0 x1 y : Mem ℝ) : Mem ℝ :=
  (List.range n).foldl (fun y i => (List.range k).foldl (fun y j => put y i (y i + klTerm eps (x0 (i * k + j)) (x1 (i * k + j)))) (put y i 0)) y

/-- KLMultinomial::backward_impl (kl_multinomial.cpp:87-101). -/
noncomputable def klBackward0 (eps : ℝ) (n k : Nat) (x0 x1 : Mem ℝ) (accum : Bool) (dy dx : Mem ℝ) : Mem ℝ :=
  (List.range n).foldl (fun m i => forPut k (fun j => i * k + j)
    (fun j v => (if accum then v else 0) + klGrad0 eps (dy i) (x0 (i * k + j)) (x1 (i * k + j))) m) dx

/-- KLMultinomial::backward_impl (kl_multinomial.cpp:103-115). -/
noncomputable def klBackward1 (n k : Nat) (x0 x1 : Mem ℝ) (accum : Bool) (dy dx : Mem ℝ) : Mem ℝ :=
  (List.range n).foldl (fun m i => forPut k (fun j => i * k + j)
    (fun j v => (if accum then v else 0) + klGrad1 (dy i) (x0 (i * k + j)) (x1 (i * k + j))) m) dx

theorem accum_fold (y : Mem ℝ) (i k : Nat) (f : Nat → ℝ) :
    (List.range k).foldl (fun y j => put y i (y i + f j)) (put y i 0) = put y i (∑ j ∈ Finset.range k, f j) := by
  induction k with
  | zero => simp
  | succ k ih =>
    rw [List.range_succ, List.foldl_append, ih, Finset.sum_range_succ]
    simp only [List.foldl_cons, List.foldl_nil, put_same]
    funext q
    by_cases e : q = i
    · subst e; rw [put_same, put_same]
    · rw [put_other _ _ e, put_other _ _ e, put_other _ _ e]

theorem rows_fold (n : Nat) (g : Nat → ℝ) (y : Mem ℝ) (i : Nat) :
    (List.range n).foldl (fun y i => put y i (g i)) y i = if i < n then g i else y i := by
  induction n with
  | zero => simp
  | succ n ih =>
    rw [List.range_succ, List.foldl_append]
    simp only [List.foldl_cons, List.foldl_nil]
    by_cases e : i = n
    · subst e; rw [put_same, if_pos (by omega)]
    · rw [put_other _ _ e, ih]
      have h1 : (i < n + 1) = (i < n) := by apply propext; omega
      simp only [h1]

/-- **C84.** kl_multinomial: each result is the sum of a (log(a+eps) - log(b+eps)) over the sample. -/
theorem C84_kl_forward (eps : ℝ) (n k : Nat) (x0 x1 y : Mem ℝ) (i : Nat) (hi : i < n) :
    klForward eps n k x0 x1 y i =
      ∑ j ∈ Finset.range k, x0 (i * k + j) * (log (x0 (i * k + j) + eps) - log (x1 (i * k + j) + eps)) := by
  have e : klForward eps n k x0 x1 y = (List.range n).foldl (fun y i => put y i (∑ j ∈ Finset.range k, klTerm eps (x0 (i * k + j)) (x1 (i * k + j)))) y := by
    unfold klForward
    congr 1
    funext y i
    exact accum_fold y i k _
  rw [e, rows_fold, if_pos hi]
  rfl

theorem forSlices_n2_one {α} (n : Nat) (body : Nat → α → α) (m : α) : (List.range n).foldl (fun m i => body i m) m = forSlices n 1 (fun i0 _ => body i0) m := by
  simp [forSlices, List.range_succ]

theorem kl_rows (n k : Nat) (g : Nat → Nat → ℝ → ℝ) (dx : Mem ℝ) (i j : Nat) (hi : i < n) (hj : j < k) :
    (List.range n).foldl (fun m i => forPut k (fun j => i * k + j) (g i) m) dx (i * k + j) = g i j (dx (i * k + j)) := by
  have e : ∀ i j, i * k + j = off k 1 i j 0 := fun i j => by simp [off]
  have hs := (forSlices_spec n k 1 (fun i0 i2 => forPut k (fun j => i0 * k + j) (g i0)) (fun i0 i1 _ v => g i0 i1 v) dx
    (fun i0 i2 h0 h2 m i1 h1 => by
      obtain rfl : i2 = 0 := by omega
      rw [← e]
      exact (forPut_spec k _ _ m (fun a b _ _ h => by omega)).1 i1 h1)
    (fun i0 i2 h0 h2 m q hq => by
      obtain rfl : i2 = 0 := by omega
      exact (forPut_spec k _ _ m (fun a b _ _ h => by omega)).2 q fun a ha => by rw [e]; exact hq a ha)).1 i j 0 hi hj (by omega)
  rw [← e] at hs
  rw [forSlices_n2_one]
  exact hs

theorem kl_vjp (eps : ℝ) (n k : Nat) (x y0 : Mem ℝ) (F : Mem ℝ → Mem ℝ) (B : Mem ℝ → Mem ℝ) (op g : Nat → ℝ → ℝ)
    (hF : ∀ x i, i < n → F x i = ∑ j ∈ Finset.range k, op (i * k + j) (x (i * k + j)))
    (hB : ∀ dy i j, i < n → j < k → B dy (i * k + j) = dy i * g (i * k + j) (x (i * k + j)))
    (hd : ∀ q, q < n * k → HasDerivAt (op q) (g q (x q)) (x q)) : IsVJP (n * k) n F x B := by
  intro c v hc dy
  have hlt : ∀ i j, i < n → j < k → i * k + j < n * k := fun i j hi hj => by
    have := Nat.mul_le_mul_right k (show i + 1 ≤ n by omega)
    rw [Nat.succ_mul] at this; omega
  have hw : ∀ i, i < n → HasDerivAt (fun t => F (c t) i) (∑ j ∈ Finset.range k, v (i * k + j) * g (i * k + j) (x (i * k + j))) 0 := by
    intro i hi
    have : HasDerivAt (fun t => ∑ j ∈ Finset.range k, op (i * k + j) (c t (i * k + j)))
        (∑ j ∈ Finset.range k, v (i * k + j) * g (i * k + j) (x (i * k + j))) 0 := by
      refine HasDerivAt.fun_sum fun j hj => ?_
      have hq := hlt i j hi (Finset.mem_range.mp hj)
      have h := hd _ hq
      rw [← (hc _ hq).1] at h
      refine (HasDerivAt.comp (0 : ℝ) h (hc _ hq).2).congr_deriv ?_
      rw [(hc _ hq).1]; ring
    exact this.congr_of_eventuallyEq (Filter.Eventually.of_forall fun t => hF _ i hi)
  refine (hasDerivAt_dot n dy _ _ hw).congr_deriv ?_
  rw [dot, dot, sum_range_mul]
  refine Finset.sum_congr rfl fun i hi => ?_
  rw [Finset.mul_sum]
  refine Finset.sum_congr rfl fun j hj => ?_
  rw [hB _ _ _ (Finset.mem_range.mp hi) (Finset.mem_range.mp hj)]
  ring

/-- **C84.** Were the stabilising constant zero, both gradients of kl_multinomial would be the vector-Jacobian products
(positive inputs). What is missing is the same statement for the constant the code uses, which is false: see the next theorem. -/
theorem C84_kl_backward_partial (n k : Nat) (x0 x1 y0 dx : Mem ℝ) (h0 : ∀ q, q < n * k → 0 < x0 q) (h1 : ∀ q, q < n * k → 0 < x1 q) :
    IsVJP (n * k) n (fun x0 => klForward 0 n k x0 x1 y0) x0 (fun dy => klBackward0 0 n k x0 x1 false dy dx) ∧
    IsVJP (n * k) n (fun x1 => klForward 0 n k x0 x1 y0) x1 (fun dy => klBackward1 n k x0 x1 false dy dx) := by
  refine ⟨?_, ?_⟩
  · refine kl_vjp 0 n k x0 y0 _ _ (fun q a => a * (log a - log (x1 q))) (fun q a => log a - log (x1 q) + 1) ?_ ?_ ?_
    · intro x i hi
      rw [C84_kl_forward _ _ _ _ _ _ _ hi]; simp only [add_zero]
    · intro dy i j hi hj
      rw [klBackward0, kl_rows n k (fun i j v => (if false then v else 0) + klGrad0 0 (dy i) (x0 (i * k + j)) (x1 (i * k + j))) dx i j hi hj]
      simp [klGrad0]
    · intro q hq
      have hp := h0 q hq
      refine (((hasDerivAt_id (x0 q)).mul ((hasDerivAt_log hp.ne').sub_const (log (x1 q)))).congr_deriv ?_)
      simp only [id]
      field_simp
  · refine kl_vjp 0 n k x1 y0 _ _ (fun q b => x0 q * (log (x0 q) - log b)) (fun q b => -(x0 q / b)) ?_ ?_ ?_
    · intro x i hi
      rw [C84_kl_forward _ _ _ _ _ _ _ hi]; simp only [add_zero]
    · intro dy i j hi hj
      rw [klBackward1, kl_rows n k (fun i j v => (if false then v else 0) + klGrad1 (dy i) (x0 (i * k + j)) (x1 (i * k + j))) dx i j hi hj]
      simp [klGrad1]
      ring
    · intro q hq
      have hp := h1 q hq
      refine (((hasDerivAt_log hp.ne').const_sub (log (x0 q))).const_mul (x0 q)).congr_deriv ?_
      ring

/-- **C84, refuted part.** With the constant of the code neither gradient formula is the derivative of the forward formula:
the first adds 1 instead of a/(a+eps), the second divides by b instead of b+eps. -/
theorem C84_kl_wrong_partial (eps a b : ℝ) (he : 0 < eps) (ha : 0 < a) (hb : 0 < b) :
    (∃ d, HasDerivAt (fun a => klTerm eps a b) d a ∧ klGrad0 eps 1 a b - d = eps / (a + eps) ∧ klGrad0 eps 1 a b ≠ d) ∧
    (∃ d, HasDerivAt (fun b => klTerm eps a b) d b ∧ klGrad1 1 a b ≠ d) := by
  have hae : a + eps ≠ 0 := by positivity
  have hbe : b + eps ≠ 0 := by positivity
  refine ⟨⟨log (a + eps) - log (b + eps) + a / (a + eps), ?_, ?_, ?_⟩, ⟨-(a / (b + eps)), ?_, ?_⟩⟩
  · refine ((hasDerivAt_id a).mul ((((hasDerivAt_id a).add_const eps).log hae).sub_const (log (b + eps)))).congr_deriv ?_
    simp only [id]
    ring
  · rw [klGrad0]; field_simp; ring
  · intro h
    rw [klGrad0] at h
    have : a / (a + eps) = 1 := by linarith
    rw [div_eq_one_iff_eq hae] at this
    linarith
  · refine ((((hasDerivAt_id b).add_const eps).log hbe).const_sub (log (a + eps)) |>.const_mul a).congr_deriv ?_
    simp only [id]
    ring
  · intro h
    rw [klGrad1, one_mul, neg_inj, div_eq_div_iff hb.ne' hbe] at h
    nlinarith

/-! Classification errors -/

/-- **C84.** top_n_error is 1 exactly when more than N classes have at least the score of the label, so for pairwise different
scores exactly when at least N classes beat the label strictly. -/
theorem C84_top_n_error (N n0 n1 n2 : Nat) (l : Nat → Nat) (p y : Mem ℝ) (i0 i2 : Nat) (h0 : i0 < n0) (h2 : i2 < n2) :
    topNError N n0 n1 n2 l p y (i0 * n2 + i2) = (if N < ((Finset.range n1).filter
      fun c => p (off n1 n2 i0 (l (i0 * n2 + i2)) i2) ≤ p (off n1 n2 i0 c i2)).card then 1 else 0) ∧
    (l (i0 * n2 + i2) < n1 → (∀ c c', c < n1 → c' < n1 → p (off n1 n2 i0 c i2) = p (off n1 n2 i0 c' i2) → c = c') →
      topNError N n0 n1 n2 l p y (i0 * n2 + i2) = if N ≤ ((Finset.range n1).filter
        fun c => p (off n1 n2 i0 (l (i0 * n2 + i2)) i2) < p (off n1 n2 i0 c i2)).card then 1 else 0) := by
  classical
  have hcount : ∀ (m : Nat) (q : Nat → Prop) [DecidablePred q], (List.range m).foldl (fun c i1 => c + if q i1 then 1 else 0) 0 = ((Finset.range m).filter q).card := by
    intro m q _
    induction m with
    | zero => simp
    | succ m ih =>
      rw [List.range_succ, List.foldl_append, ih, Finset.range_add_one, Finset.filter_insert]
      simp only [List.foldl_cons, List.foldl_nil]
      split
      · rw [Finset.card_insert_of_notMem (by simp)]
      · rfl
  have hoff : ∀ i0 c i2, i0 * n1 * n2 + i2 + c * n2 = off n1 n2 i0 c i2 := fun i0 c i2 => by simp only [off]; ring
  have main : topNError N n0 n1 n2 l p y (i0 * n2 + i2) = (if N < ((Finset.range n1).filter
      fun c => p (off n1 n2 i0 (l (i0 * n2 + i2)) i2) ≤ p (off n1 n2 i0 c i2)).card then 1 else 0) := by
    rw [← forSlices_one n0 n2 (fun i0 i2 => if N < ((Finset.range n1).filter
      fun c => p (off n1 n2 i0 (l (i0 * n2 + i2)) i2) ≤ p (off n1 n2 i0 c i2)).card then (1 : ℝ) else 0) y i0 i2 h0 h2]
    unfold topNError
    refine congrArg (fun b => forSlices n0 n2 b y (i0 * n2 + i2)) ?_
    funext i0 i2 y
    simp only [hoff, ge_iff_le, gt_iff_lt]
    congr 1
    rw [hcount n1 (fun c => p (off n1 n2 i0 (l (i0 * n2 + i2)) i2) ≤ p (off n1 n2 i0 c i2))]
  refine ⟨?_, ?_⟩
  · rw [main]
  · intro hl hdis
    rw [main]
    have e : (Finset.range n1).filter (fun c => p (off n1 n2 i0 (l (i0 * n2 + i2)) i2) ≤ p (off n1 n2 i0 c i2)) =
        insert (l (i0 * n2 + i2)) ((Finset.range n1).filter fun c => p (off n1 n2 i0 (l (i0 * n2 + i2)) i2) < p (off n1 n2 i0 c i2)) := by
      ext c
      simp only [Finset.mem_filter, Finset.mem_range, Finset.mem_insert]
      constructor
      · rintro ⟨h1, h2⟩
        rcases h2.lt_or_eq with h | h
        · exact Or.inr ⟨h1, h⟩
        · exact Or.inl (hdis _ _ hl h1 h).symm
      · rintro (rfl | ⟨h1, h2⟩)
        · exact ⟨hl, le_refl _⟩
        · exact ⟨h1, h2.le⟩
    rw [e, Finset.card_insert_of_notMem (by simp)]
    simp only [Nat.lt_succ_iff]

/-- **C84.** binary_error is 0 or 1, and 0 exactly when both numbers are on the same side of one half. -/
theorem C84_binary_error (a b : ℝ) : binaryErr a b = if (0.5 ≤ a ↔ 0.5 ≤ b) then 0 else 1 := by
  unfold binaryErr
  by_cases h1 : (0.5 : ℝ) ≤ a <;> by_cases h2 : (0.5 : ℝ) ≤ b <;> simp [h1, h2]

/-! ### Non-vacuity -/

example : (Loss.huber 1).smooth 3 2 := one_pos
example : (Loss.epsilonInsensitive 0.5).smooth 3 2 := ⟨by norm_num, by norm_num⟩
example : binarySetup [2, 3] [2, 1] = .ok [2, 3] := by decide
example : ∃ a : ℝ, (1e-30 : ℝ) < a ∧ 1e-30 < 1 - a ∧ 1e-30 ≤ a * (1 - a) := ⟨1 / 2, by norm_num⟩

end Verif.Elem
