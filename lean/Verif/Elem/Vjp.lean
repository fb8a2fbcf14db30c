import Verif.Elem.Unary
import Verif.Fn.Binary
import Mathlib.Analysis.SpecialFunctions.Complex.LogDeriv
import Mathlib.Analysis.Calculus.Deriv.Mul
/-
What a gradient kernel computes, over the real numbers: the vector-Jacobian product. Whole-array kernels of the
elementwise functions of one and two inputs (with broadcasting).
-/
namespace Verif.Elem
open Real Verif.Fn Verif.ND

/-! ### Specification -/

/-- `B dy` is the gradient at `x` of `dy · F`: along every differentiable path through x the number Σ_j dy_j F(x)_j changes
at the rate Σ_k v_k (B dy)_k, v being the velocity of the path. -/
def IsVJP (m n : Nat) (F : Mem ℝ → Mem ℝ) (x : Mem ℝ) (B : Mem ℝ → Mem ℝ) : Prop :=
  ∀ (c : ℝ → Mem ℝ) (v : Mem ℝ), (∀ k, k < m → c 0 k = x k ∧ HasDerivAt (fun t => c t k) (v k) 0) →
    ∀ dy, HasDerivAt (fun t => dot n dy (F (c t))) (dot m v (B dy)) 0

/-- The same for a function of two arrays. -/
def IsVJP2 (m0 m1 n : Nat) (F : Mem ℝ → Mem ℝ → Mem ℝ) (x0 x1 : Mem ℝ) (B0 B1 : Mem ℝ → Mem ℝ) : Prop :=
  ∀ (c0 c1 : ℝ → Mem ℝ) (v0 v1 : Mem ℝ),
    (∀ k, k < m0 → c0 0 k = x0 k ∧ HasDerivAt (fun t => c0 t k) (v0 k) 0) →
    (∀ k, k < m1 → c1 0 k = x1 k ∧ HasDerivAt (fun t => c1 t k) (v1 k) 0) →
    ∀ dy, HasDerivAt (fun t => dot n dy (F (c0 t) (c1 t))) (dot m0 v0 (B0 dy) + dot m1 v1 (B1 dy)) 0

/-! ### The model: kernels -/

/-- transform_unary (base_transform_unary.hpp:94-102). -/
def unaryForward (op : ℝ → ℝ) (n : Nat) (x y : Mem ℝ) : Mem ℝ :=
  (List.range n).foldl (fun m i => put m i (op (x i))) y

/-- transform_unary_grad (base_transform_unary.hpp:104-110). -/
def unaryBackward (g : ℝ → ℝ → ℝ → ℝ) (n : Nat) (x y : Mem ℝ) (accum : Bool) (dy dx : Mem ℝ) : Mem ℝ :=
  (List.range n).foldl (fun m i => put m i ((if accum then m i else 0) + g (dy i) (x i) (y i))) dx

/-- The functions of two inputs with a declared gradient. -/
inductive Binary
  | add2 | sub2 | mul2 | div2 | pow2 | maximum2 | minimum2 | atan2

open Classical in
/-- The OP argument of each NBLA_DEFINE_TRANSFORM_BINARY; std::atan2 is the argument of x1 + i x0. -/
noncomputable def Binary.forward : Binary → ℝ → ℝ → ℝ
  | add2, a, b => a + b                              -- bc_add2.hpp:34
  | sub2, a, b => a - b                              -- sub2.hpp:41
  | mul2, a, b => a * b                              -- mul2.hpp:42
  | div2, a, b => a / b                              -- div2.hpp:44
  | pow2, a, b => a ^ b                              -- pow2.hpp:44
  | maximum2, a, b => if a > b then a else b         -- maximum2.hpp:41
  | minimum2, a, b => if a < b then a else b         -- minimum2.hpp:41
  | atan2, a, b => Complex.arg (b + a * Complex.I)   -- atan2.hpp:47

open Classical in
/-- GOP0. -/
noncomputable def Binary.grad0 : Binary → (dy x0 x1 y : ℝ) → ℝ
  | add2, dy, _, _, _ => dy
  | sub2, dy, _, _, _ => dy
  | mul2, dy, _, b, _ => dy * b
  | div2, dy, _, b, _ => dy / b
  | pow2, dy, a, b, _ => dy * b * a ^ (b - 1)
  | maximum2, dy, a, b, _ => (if a > b then 1 else 0) * dy
  | minimum2, dy, a, b, _ => (if a < b then 1 else 0) * dy
  | atan2, dy, a, b, _ => dy * b / (a * a + b * b)

open Classical in
/-- GOP1. -/
noncomputable def Binary.grad1 : Binary → (dy x0 x1 y : ℝ) → ℝ
  | add2, dy, _, _, _ => dy
  | sub2, dy, _, _, _ => -dy
  | mul2, dy, a, _, _ => dy * a
  | div2, dy, a, b, _ => -dy * a / (b * b)
  | pow2, dy, a, b, _ => dy * Real.log a * a ^ b
  | maximum2, dy, a, b, _ => (if a ≤ b then 1 else 0) * dy
  | minimum2, dy, a, b, _ => (if a ≥ b then 1 else 0) * dy
  | atan2, dy, a, b, _ => -dy * a / (a * a + b * b)

/-- DEP_X_0 = DEP_X_1 of each macro; DEP_Y is false for all of them. -/
def Binary.depX : Binary → Bool
  | add2 | sub2 => false
  | _ => true

/-- Where the operation is smooth. -/
def Binary.smooth : Binary → ℝ → ℝ → Prop
  | div2, _, b => b ≠ 0
  | pow2, a, _ => 0 < a
  | maximum2, a, b | minimum2, a, b => a ≠ b
  | atan2, a, b => 0 < b ∨ a ≠ 0
  | _, _, _ => True

/-! ### Operation by operation -/

/-- **C82.** The two gradient formulas of every binary operation give its total derivative. -/
theorem C82_binary (f : Binary) (x0 x1 : ℝ) (h : f.smooth x0 x1) (y : ℝ) :
    (∀ (a b : ℝ → ℝ) (va vb : ℝ), a 0 = x0 → b 0 = x1 → HasDerivAt a va 0 → HasDerivAt b vb 0 →
      HasDerivAt (fun t => f.forward (a t) (b t)) (va * f.grad0 1 x0 x1 y + vb * f.grad1 1 x0 x1 y) 0) ∧
    ∀ dy, f.grad0 dy x0 x1 y = dy * f.grad0 1 x0 x1 y ∧ f.grad1 dy x0 x1 y = dy * f.grad1 1 x0 x1 y := by
  refine ⟨?_, ?_⟩
  · intro a b va vb ha hb da db
    subst ha; subst hb
    have ca := da.continuousAt
    have cb := db.continuousAt
    cases f with
    | add2 => simp only [Binary.grad0, Binary.grad1, mul_one]; exact da.add db
    | sub2 => refine (da.sub db).congr_deriv ?_; simp only [Binary.grad0, Binary.grad1]; ring
    | mul2 => refine (da.mul db).congr_deriv ?_; simp only [Binary.grad0, Binary.grad1]; ring
    | div2 =>
      have h : b 0 ≠ 0 := h
      refine (da.div db h).congr_deriv ?_; simp only [Binary.grad0, Binary.grad1]; field_simp; ring
    | pow2 =>
      refine (da.rpow db h).congr_deriv ?_; simp only [Binary.grad0, Binary.grad1]; ring
    | maximum2 =>
      have h : a 0 ≠ b 0 := h
      simp only [Binary.grad0, Binary.grad1]
      rcases lt_or_gt_of_ne h with h | h
      · rw [if_neg (by linarith), if_pos h.le]
        simp only [zero_mul, mul_zero, zero_add, mul_one]
        refine db.congr_of_eventuallyEq ?_
        filter_upwards [ca.eventually_lt cb h] with t ht
        simp only [Binary.forward]; rw [if_neg (by linarith)]
      · rw [if_pos h, if_neg (by linarith)]
        simp only [zero_mul, mul_zero, add_zero, mul_one]
        refine da.congr_of_eventuallyEq ?_
        filter_upwards [cb.eventually_lt ca h] with t ht
        simp only [Binary.forward]; rw [if_pos ht]
    | minimum2 =>
      have h : a 0 ≠ b 0 := h
      simp only [Binary.grad0, Binary.grad1]
      rcases lt_or_gt_of_ne h with h | h
      · rw [if_pos h, if_neg (by linarith)]
        simp only [zero_mul, mul_zero, add_zero, mul_one]
        refine da.congr_of_eventuallyEq ?_
        filter_upwards [ca.eventually_lt cb h] with t ht
        simp only [Binary.forward]; rw [if_pos ht]
      · rw [if_neg (by linarith), if_pos h.le]
        simp only [zero_mul, mul_zero, zero_add, mul_one]
        refine db.congr_of_eventuallyEq ?_
        filter_upwards [cb.eventually_lt ca h] with t ht
        simp only [Binary.forward]; rw [if_neg (by linarith)]
    | atan2 =>
      have hz : HasDerivAt (fun t : ℝ => (b t : ℂ) + (a t : ℂ) * Complex.I) ((vb : ℂ) + (va : ℂ) * Complex.I) 0 :=
        db.ofReal_comp.add (da.ofReal_comp.mul_const Complex.I)
      have hs : (b 0 : ℂ) + (a 0 : ℂ) * Complex.I ∈ Complex.slitPlane := by
        rw [Complex.mem_slitPlane_iff]
        rcases h with h | h
        · left; simpa using h
        · right; simpa using h
      have hl := hz.clog_real hs
      have him := Complex.imCLM.hasFDerivAt.comp_hasDerivAt (0 : ℝ) hl
      have e : (fun t => Binary.atan2.forward (a t) (b t)) = Complex.imCLM ∘ fun t => Complex.log ((b t : ℂ) + (a t : ℂ) * Complex.I) := by
        funext t
        simp [Binary.forward, Complex.log_im]
      rw [e]
      refine him.congr_deriv ?_
      simp only [Binary.grad0, Binary.grad1, Complex.imCLM_apply, Complex.div_im]
      have hn : Complex.normSq ((b 0 : ℂ) + (a 0 : ℂ) * Complex.I) = a 0 * a 0 + b 0 * b 0 := by
        rw [Complex.normSq_apply]; simp; ring
      rw [hn]
      simp
      ring
  · intro dy
    cases f <;> simp only [Binary.grad0, Binary.grad1] <;> constructor <;> ring

/-- **C82.** An operation whose gradient is declared not to depend on input data does not read it. -/
theorem C82_binary_dependence (f : Binary) (dy x0 x1 x0' x1' y y' : ℝ) :
    (f.depX = false → f.grad0 dy x0 x1 y = f.grad0 dy x0' x1' y ∧ f.grad1 dy x0 x1 y = f.grad1 dy x0' x1' y) ∧
    f.grad0 dy x0 x1 y = f.grad0 dy x0 x1 y' ∧ f.grad1 dy x0 x1 y = f.grad1 dy x0 x1 y' := by
  cases f <;> simp [Binary.depX, Binary.grad0, Binary.grad1]

/-- At equal arguments maximum2 and minimum2 send the whole gradient to the second input. -/
theorem C82_tie (dy x : ℝ) (y : ℝ) : Binary.maximum2.grad0 dy x x y = 0 ∧ Binary.maximum2.grad1 dy x x y = dy ∧
    Binary.minimum2.grad0 dy x x y = 0 ∧ Binary.minimum2.grad1 dy x x y = dy := by
  simp [Binary.grad0, Binary.grad1]

/-! ### Whole arrays -/

theorem unaryForward_eq (op : ℝ → ℝ) (n : Nat) (x y : Mem ℝ) (i : Nat) :
    unaryForward op n x y i = if i < n then op (x i) else y i := by
  unfold unaryForward
  induction n with
  | zero => simp
  | succ n ih =>
    rw [List.range_succ, List.foldl_append]
    simp only [List.foldl_cons, List.foldl_nil]
    by_cases e : i = n
    · subst e; rw [put_same, if_pos (by omega)]
    · rw [put_other _ _ e, ih]
      by_cases h : i < n
      · rw [if_pos h, if_pos (by omega)]
      · rw [if_neg h, if_neg (by omega)]

theorem unaryBackward_eq (g : ℝ → ℝ → ℝ → ℝ) (n : Nat) (x y : Mem ℝ) (accum : Bool) (dy dx : Mem ℝ) (i : Nat) :
    unaryBackward g n x y accum dy dx i = if i < n then (if accum then dx i else 0) + g (dy i) (x i) (y i) else dx i := by
  unfold unaryBackward
  induction n generalizing i with
  | zero => simp
  | succ n ih =>
    rw [List.range_succ, List.foldl_append]
    simp only [List.foldl_cons, List.foldl_nil]
    by_cases e : i = n
    · subst e
      have h1 : i < i + 1 := by omega
      have h2 : ¬ i < i := by omega
      simp only [put_same, ih, h1, h2, if_true, if_false]
    · rw [put_other _ _ e, ih]
      have h1 : (i < n + 1) = (i < n) := by apply propext; omega
      simp only [h1]

theorem hasDerivAt_dot (n : Nat) (dy : Mem ℝ) (F : ℝ → Mem ℝ) (w : Mem ℝ) (h : ∀ i, i < n → HasDerivAt (fun t => F t i) (w i) 0) :
    HasDerivAt (fun t => dot n dy (F t)) (dot n dy w) 0 := by
  unfold dot
  refine (HasDerivAt.fun_sum (u := Finset.range n) (A := fun i t => dy i * F t i) (A' := fun i => dy i * w i) ?_)
  intro i hi
  exact (h i (Finset.mem_range.mp hi)).const_mul (dy i)

theorem dot_congr {n : Nat} {a b a' b' : Mem ℝ} (h : ∀ i, i < n → a i * b i = a' i * b' i) : dot n a b = dot n a' b' :=
  Finset.sum_congr rfl fun i hi => h i (Finset.mem_range.mp hi)

/-- **C82.** Forward and backward of every elementwise function on a whole array: each element of the result is the
function of the same element of the input; backward computes the vector-Jacobian product where the input avoids
the kinks; accumulation adds to what the gradient buffer held; nothing outside of the arrays is written. -/
theorem C82_unary_kernel (f : Unary) (n : Nat) (x y0 : Mem ℝ) :
    (∀ i, i < n → unaryForward f.forward n x y0 i = f.forward (x i)) ∧
    ((∀ i, i < n → x i ∈ f.domain ∧ x i ∉ f.kinks) → ∀ dx, IsVJP n n (fun x => unaryForward f.forward n x y0) x
      (fun dy => unaryBackward f.grad n x (unaryForward f.forward n x y0) false dy dx)) ∧
    (∀ y dy dx dx' i, i < n → unaryBackward f.grad n x y true dy dx i = dx i + unaryBackward f.grad n x y false dy dx' i) ∧
    (∀ y dy dx accum i, n ≤ i → unaryForward f.forward n x y0 i = y0 i ∧ unaryBackward f.grad n x y accum dy dx i = dx i) := by
  refine ⟨?_, ?_, ?_, ?_⟩
  · intro i hi; rw [unaryForward_eq, if_pos hi]
  · intro hs dx c v hc dy
    have hd : ∀ i, i < n → HasDerivAt (fun t => unaryForward f.forward n (c t) y0 i) (f.grad 1 (x i) (f.forward (x i)) * v i) 0 := by
      intro i hi
      have h1 := smooth_deriv f (x i) (hs i hi).1 (hs i hi).2
      rw [← (hc i hi).1] at h1
      have h2 := h1.comp (0 : ℝ) (hc i hi).2
      rw [(hc i hi).1] at h2
      refine h2.congr_of_eventuallyEq (Filter.Eventually.of_forall fun t => ?_)
      simp only [unaryForward_eq, if_pos hi, Function.comp]
    refine (hasDerivAt_dot n dy _ _ hd).congr_deriv ?_
    refine dot_congr fun i hi => ?_
    simp only [unaryBackward_eq, if_pos hi, unaryForward_eq]
    obtain ⟨d, hd1, hd2⟩ := C82_unary f (x i) (hs i hi).1 (hs i hi).2
    rw [hd2 1, hd2 (dy i)]
    simp only [Bool.false_eq_true, if_false]
    ring
  · intro y dy dx dx' i hi
    rw [unaryBackward_eq, unaryBackward_eq, if_pos hi, if_pos hi]; simp
  · intro y dy dx accum i hi
    rw [unaryBackward_eq, unaryForward_eq, if_neg (by omega), if_neg (by omega)]; exact ⟨rfl, rfl⟩

theorem binary_dot (s0 s1 : Shape) (n m : Nat) (side : Bool) (g : ℝ → ℝ → ℝ → ℝ → ℝ) (x0 x1 y dy dx v : Mem ℝ)
    (hb : ∀ i, i < n → binaryOff s0 s1 side i < m) :
    dot m v (binaryBackward g s0 s1 n m side x0 x1 y false dy dx) =
      ∑ i ∈ Finset.range n, v (binaryOff s0 s1 side i) * g (dy i) (x0 (binaryOff s0 s1 false i)) (x1 (binaryOff s0 s1 true i)) (y i) := by
  have e1 : ∀ k, k < m → binaryBackward g s0 s1 n m side x0 x1 y false dy dx k =
      bwdAdd (binaryPairs s0 s1 side n) (fun i => g (dy i) (x0 (binaryOff s0 s1 false i)) (x1 (binaryOff s0 s1 true i)) (y i)) zeros k := by
    intro k hk
    have : binaryBackward g s0 s1 n m side x0 x1 y false dy dx =
        bwdAdd (binaryPairs s0 s1 side n) (fun i => g (dy i) (x0 (binaryOff s0 s1 false i)) (x1 (binaryOff s0 s1 true i)) (y i))
          (fun i => if i < m then 0 else dx i) := by
      rw [bwdAdd, binaryPairs, List.foldl_map]; rfl
    rw [this, bwdAdd_eq, bwdAdd_eq]
    simp [zeros, hk]
  have e2 : dot m v (binaryBackward g s0 s1 n m side x0 x1 y false dy dx) =
      dot m (bwdAdd (binaryPairs s0 s1 side n) (fun i => g (dy i) (x0 (binaryOff s0 s1 false i)) (x1 (binaryOff s0 s1 true i)) (y i)) zeros) v :=
    dot_congr fun k hk => by rw [e1 k hk, mul_comm]
  rw [e2, dot_bwdAdd m _ ?_, binaryPairs, List.map_map, sum_range_list]
  · congr 1
    apply List.map_congr_left
    intro i _
    simp only [Function.comp]
    ring
  · intro p hp
    obtain ⟨i, hi, rfl⟩ := List.mem_map.mp hp
    exact hb i (List.mem_range.mp hi)

/-- The gradient formulas `g0`, `g1` of an operation of two numbers give its total derivative at (x0, x1). -/
def BinDeriv (op : ℝ → ℝ → ℝ) (g0 g1 : ℝ → ℝ → ℝ → ℝ → ℝ) (x0 x1 y : ℝ) : Prop :=
  (∀ (a b : ℝ → ℝ) (va vb : ℝ), a 0 = x0 → b 0 = x1 → HasDerivAt a va 0 → HasDerivAt b vb 0 →
    HasDerivAt (fun t => op (a t) (b t)) (va * g0 1 x0 x1 y + vb * g1 1 x0 x1 y) 0) ∧
  ∀ dy, g0 dy x0 x1 y = dy * g0 1 x0 x1 y ∧ g1 dy x0 x1 y = dy * g1 1 x0 x1 y

/-- Backward of a binary operation with broadcasting computes the vector-Jacobian product. -/
theorem binary_kernel_vjp (op : ℝ → ℝ → ℝ) (g0 g1 : ℝ → ℝ → ℝ → ℝ → ℝ) (s0 s1 out : Shape) (h : binarySetup s0 s1 = .ok out)
    (x0 x1 y y0 dx0 dx1 : Mem ℝ)
    (hs : ∀ j, InBounds out j → ∀ y, BinDeriv op g0 g1 (x0 (ravel s0 (bcast s0 j))) (x1 (ravel s1 (bcast s1 j))) y) :
    IsVJP2 (prod s0) (prod s1) (prod out) (fun x0 x1 => binaryForward op s0 s1 (prod out) x0 x1 y0) x0 x1
      (fun dy => binaryBackward g0 s0 s1 (prod out) (prod s0) false x0 x1 y false dy dx0)
      (fun dy => binaryBackward g1 s0 s1 (prod out) (prod s1) true x0 x1 y false dy dx1) := by
  have hoff : ∀ i, i < prod out → ∃ j, InBounds out j ∧ binaryOff s0 s1 false i = ravel s0 (bcast s0 j) ∧ InBounds s0 (bcast s0 j) ∧
      binaryOff s0 s1 true i = ravel s1 (bcast s1 j) ∧ InBounds s1 (bcast s1 j) := by
    intro i hi
    obtain ⟨j, hj, rfl⟩ : ∃ j, InBounds out j ∧ ravel out j = i := by
      have : i ∈ (indices out).map (ravel out) := by rw [indices_ravel]; exact List.mem_range.mpr hi
      obtain ⟨j, hj, e⟩ := List.mem_map.mp this
      exact ⟨j, (mem_indices _ _).mp hj, e⟩
    have hf := C81_forward (fun a b : Nat × Nat => (a.1, b.2)) s0 s1 out h (fun i => (i, i)) (fun i => (i, i)) (fun i => (i, i)) j hj
    rw [binaryForward_lt, if_pos (ravel_lt hj)] at hf
    simp only [Prod.mk.injEq] at hf
    exact ⟨j, hj, hf.1.1, hf.2.1, hf.1.2, hf.2.2⟩
  have hb0 : ∀ i, i < prod out → binaryOff s0 s1 false i < prod s0 := fun i hi => by
    obtain ⟨j, _, h1, h2, _⟩ := hoff i hi
    rw [h1]; exact ravel_lt h2
  have hb1 : ∀ i, i < prod out → binaryOff s0 s1 true i < prod s1 := fun i hi => by
    obtain ⟨j, _, _, _, h1, h2⟩ := hoff i hi
    rw [h1]; exact ravel_lt h2
  intro c0 c1 v0 v1 hc0 hc1 dy
  have hsm : ∀ i, i < prod out → ∀ y, BinDeriv op g0 g1 (x0 (binaryOff s0 s1 false i)) (x1 (binaryOff s0 s1 true i)) y := by
    intro i hi
    obtain ⟨j, hj, h1, _, h2, _⟩ := hoff i hi
    rw [h1, h2]; exact hs j hj
  have hd : ∀ i, i < prod out → HasDerivAt (fun t => binaryForward op s0 s1 (prod out) (c0 t) (c1 t) y0 i)
      (v0 (binaryOff s0 s1 false i) * g0 1 (x0 (binaryOff s0 s1 false i)) (x1 (binaryOff s0 s1 true i)) (y i) +
        v1 (binaryOff s0 s1 true i) * g1 1 (x0 (binaryOff s0 s1 false i)) (x1 (binaryOff s0 s1 true i)) (y i)) 0 := by
    intro i hi
    have k0 := hc0 _ (hb0 i hi)
    have k1 := hc1 _ (hb1 i hi)
    have := (hsm i hi (y i)).1 _ _ _ _ k0.1 k1.1 k0.2 k1.2
    refine this.congr_of_eventuallyEq (Filter.Eventually.of_forall fun t => ?_)
    simp only [binaryForward_lt, if_pos hi]
  refine (hasDerivAt_dot _ dy _ _ hd).congr_deriv ?_
  rw [binary_dot s0 s1 _ _ false g0 x0 x1 y dy dx0 v0 hb0, binary_dot s0 s1 _ _ true g1 x0 x1 y dy dx1 v1 hb1,
    ← Finset.sum_add_distrib]
  refine Finset.sum_congr rfl fun i hi => ?_
  have := (hsm i (Finset.mem_range.mp hi) (y i)).2 (dy i)
  rw [this.1, this.2]
  ring

/-- **C82.** Backward of every binary operation, with broadcasting of either input, computes the vector-Jacobian
product with respect to both inputs, wherever the operation is smooth at every pair of elements it combines. -/
theorem C82_binary_kernel (f : Binary) (s0 s1 out : Shape) (h : binarySetup s0 s1 = .ok out) (x0 x1 y y0 dx0 dx1 : Mem ℝ)
    (hs : ∀ j, InBounds out j → f.smooth (x0 (ravel s0 (bcast s0 j))) (x1 (ravel s1 (bcast s1 j)))) :
    IsVJP2 (prod s0) (prod s1) (prod out) (fun x0 x1 => binaryForward f.forward s0 s1 (prod out) x0 x1 y0) x0 x1
      (fun dy => binaryBackward f.grad0 s0 s1 (prod out) (prod s0) false x0 x1 y false dy dx0)
      (fun dy => binaryBackward f.grad1 s0 s1 (prod out) (prod s1) true x0 x1 y false dy dx1) := by
  exact binary_kernel_vjp _ _ _ s0 s1 out h x0 x1 y y0 dx0 dx1 fun j hj y => C82_binary f _ _ (hs j hj) y

/-! ### Composition -/

/-- A unit output gradient picks one element. -/
theorem dot_unit (n j : Nat) (hj : j < n) (x : Mem ℝ) : dot n (fun i => if i = j then 1 else 0) x = x j := by
  simp only [dot, ite_mul, one_mul, zero_mul]
  rw [Finset.sum_ite_eq' (Finset.range n) j]
  simp [hj]

/-- **C82.** Running backward through two functions one after the other computes the vector-Jacobian product of their
composition. -/
theorem C82_chain (m n p : Nat) (F G : Mem ℝ → Mem ℝ) (x : Mem ℝ) (B B' : Mem ℝ → Mem ℝ) (hF : IsVJP m n F x B)
    (hG : IsVJP n p G (F x) B') (hloc : ∀ z, (∀ k, k < m → z k = x k) → ∀ j, j < n → F z j = F x j) :
    IsVJP m p (fun x => G (F x)) x (fun dy => B (B' dy)) := by
  intro c v hc dz
  have hw : ∀ j, j < n → HasDerivAt (fun t => F (c t) j) (dot m v (B fun i => if i = j then 1 else 0)) 0 := by
    intro j hj
    refine (hF c v hc fun i => if i = j then 1 else 0).congr_of_eventuallyEq (Filter.Eventually.of_forall fun t => ?_)
    exact (dot_unit n j hj _).symm
  have h2 := hG (fun t => F (c t)) (fun j => dot m v (B fun i => if i = j then 1 else 0))
    (fun j hj => ⟨hloc _ (fun k hk => (hc k hk).1) j hj, hw j hj⟩) dz
  refine h2.congr_deriv ?_
  have h3 := hasDerivAt_dot n (B' dz) (fun t => F (c t)) _ hw
  have h4 := hF c v hc (B' dz)
  have h5 := h3.unique h4
  rw [← h5]
  exact dot_congr fun i _ => mul_comm _ _

/-- **C82.** Every kernel proved to be the transpose of its forward (C72 to C79) computes the vector-Jacobian product. -/
theorem C82_linear (m n : Nat) (F : Mem ℝ → Mem ℝ) (B : Mem ℝ → Mem ℝ) (h : Adjoint m n F B) (x : Mem ℝ) : IsVJP m n F x B := by
  intro c v hc dy
  have e : (fun t => dot n dy (F (c t))) = fun t => dot m (B dy) (c t) := by funext t; exact h (c t) dy
  rw [e]
  refine (hasDerivAt_dot m (B dy) c v fun k hk => (hc k hk).2).congr_deriv ?_
  exact dot_congr fun i _ => mul_comm _ _

example : Binary.atan2.smooth 1 (-2) := Or.inr one_ne_zero
example : binarySetup [2, 1] [1, 3] = .ok [2, 3] := by decide

end Verif.Elem
