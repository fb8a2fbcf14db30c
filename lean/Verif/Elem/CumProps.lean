import Verif.Elem.Cum
/-
Properties of CumSum (C119) and CumProd (C120).
-/
namespace Verif.Elem
open Verif.Fn Verif.ND

/-- **C119, C120.** setup of cumsum and cumprod on a non-empty array of shape A ++ [d] ++ B with the axis given as a
non-negative or negative number: the loops run over prod A slices, d elements, prod B slices, i.e. over the whole array. -/
theorem C119_setup (A B : Shape) (d : Nat) (axis : Int) (ha : axis = A.length ∨ axis = (A.length : Int) - (A ++ d :: B).length)
    (h : 0 < prod (A ++ d :: B)) : cumSetup axis (A ++ d :: B) = .ok (prod A, d, prod B) ∧ prod A * d * prod B = prod (A ++ d :: B) := by
  have hs := C83_setup A B d axis ha h
  have e0 : prod (A ++ d :: B) = prod A * (d * prod B) := by rw [prod_append]; rfl
  refine ⟨?_, by rw [e0]; ring⟩
  unfold sliceSetup at hs
  unfold cumSetup
  cases hr : refineAxis axis (A ++ d :: B).length with
  | error e => rw [hr] at hs; simp at hs
  | ok a =>
    rw [hr] at hs
    simp only at hs ⊢
    by_cases hc : sizeFrom (A ++ d :: B) a = 0 ∨ size (A ++ d :: B) / sizeFrom (A ++ d :: B) a = 0 ∨ (A ++ d :: B).getD a 0 = 0
    · rw [if_pos hc] at hs; simp at hs
    · rw [if_neg hc] at hs ⊢
      revert hs
      split
      · exact id
      · intro hs; simp at hs

/-- **C119, C120.** An axis outside [-ndim, ndim) is refused. -/
theorem C119_bad_axis (axis : Int) (s : Shape) (h : axis ≥ s.length ∨ axis < -(s.length : Int)) : ∃ e, cumSetup axis s = .error e := by
  unfold cumSetup refineAxis
  rw [if_neg (by omega)]
  exact ⟨_, rfl⟩

/-- **C119.** cumsum: element (a, i, b) is the sum of x[a,k,b] over the k ≤ i (exclusive: k < i; reverse: k ≥ i; both: k > i). -/
theorem C119_forward (A B : Shape) (d : Nat) (rev excl : Bool) (x y : Mem ℝ) (a b : List Nat) (i : Nat) (ha : InBounds A a) (hb : InBounds B b) (hi : i < d) :
    cumsumForward (prod A) d (prod B) rev excl x y (ravel (A ++ d :: B) (a ++ i :: b)) =
      ∑ k ∈ cumSet d rev excl i, x (ravel (A ++ d :: B) (a ++ k :: b)) := by
  simp only [ravel_off A B d a b _ ha]
  exact (cumsumForward_spec _ _ _ _ _ _ _).1 _ _ _ (ravel_lt ha) hi (ravel_lt hb)

/-- **C120.** cumprod: element (a, i, b) is the product of x[a,k,b] over the same k. -/
theorem C120_forward (A B : Shape) (d : Nat) (rev excl : Bool) (x y : Mem ℝ) (a b : List Nat) (i : Nat) (ha : InBounds A a) (hb : InBounds B b) (hi : i < d) :
    cumprodForward (prod A) d (prod B) rev excl x y (ravel (A ++ d :: B) (a ++ i :: b)) =
      ∏ k ∈ cumSet d rev excl i, x (ravel (A ++ d :: B) (a ++ k :: b)) := by
  simp only [ravel_off A B d a b _ ha]
  exact (cumprodForward_spec _ _ _ _ _ _ _).1 _ _ _ (ravel_lt ha) hi (ravel_lt hb)

/-- The sets meant in the two theorems above, in the four modes. -/
theorem cumSet_modes (d i k : Nat) :
    (k ∈ cumSet d false false i ↔ k < d ∧ k ≤ i) ∧ (k ∈ cumSet d false true i ↔ k < d ∧ k < i) ∧
    (k ∈ cumSet d true false i ↔ k < d ∧ i ≤ k) ∧ (k ∈ cumSet d true true i ↔ k < d ∧ i < k) := by
  simp [mem_cumSet]

/-- Nothing outside the array is written. -/
theorem C119_frame (n0 n1 n2 : Nat) (rev excl accum : Bool) (buf : Nat → Nat → Mem ℝ) (x y dy dx : Mem ℝ) (k : Nat) (hk : n0 * n1 * n2 ≤ k) :
    cumsumForward n0 n1 n2 rev excl x y k = y k ∧ cumprodForward n0 n1 n2 rev excl x y k = y k ∧
    cumsumBackward n0 n1 n2 rev excl accum dy dx k = dx k ∧ cumprodBackward n0 n1 n2 rev excl accum buf x dy dx k = dx k := by
  have hne : ∀ i0 i1 i2, i0 < n0 → i1 < n1 → i2 < n2 → off n1 n2 i0 i1 i2 ≠ k := by
    intro i0 i1 i2 h0 h1 h2
    have := off_lt h0 h1 h2
    omega
  exact ⟨(cumsumForward_spec _ _ _ _ _ _ _).2 k hne, (cumprodForward_spec _ _ _ _ _ _ _).2 k hne,
    (cumsumBackward_spec _ _ _ _ _ _ _ _).2 k hne, (cumprodBackward_spec _ _ _ _ _ _ _ _ _ _).2 k hne⟩

theorem cumsum_vjp (n : Nat) (rev excl : Bool) (x : Mem ℝ) :
    IsVJP n n (fun x i => ∑ k ∈ cumSet n rev excl i, x k) x (fun dy i => ∑ k ∈ cumSet n (!rev) excl i, dy k) := by
  intro c v hc dy
  have hd : HasDerivAt (fun t => dot n dy (fun i => ∑ k ∈ cumSet n rev excl i, c t k)) (∑ i ∈ Finset.range n, dy i * ∑ k ∈ cumSet n rev excl i, v k) 0 := by
    unfold dot
    exact HasDerivAt.fun_sum fun i _ => (HasDerivAt.fun_sum fun k hk => (hc k (mem_cumSet.mp hk).1).2).const_mul _
  refine hd.congr_deriv ?_
  unfold dot
  simp only [cumSet, Finset.sum_filter, Finset.mul_sum]
  rw [Finset.sum_comm]
  refine Finset.sum_congr rfl fun k _ => Finset.sum_congr rfl fun i _ => ?_
  cases rev <;> cases excl <;> simp [mul_comm]

theorem cumprod_vjp (n : Nat) (rev excl : Bool) (x : Mem ℝ) :
    IsVJP n n (fun x i => ∏ k ∈ cumSet n rev excl i, x k) x (fun dy => cumprodVjp n rev excl x dy) := by
  intro c v hc dy
  have hd : HasDerivAt (fun t => dot n dy (fun i => ∏ k ∈ cumSet n rev excl i, c t k))
      (∑ i ∈ Finset.range n, dy i * ∑ k ∈ cumSet n rev excl i, (∏ l ∈ (cumSet n rev excl i).erase k, c 0 l) • v k) 0 := by
    unfold dot
    refine HasDerivAt.fun_sum fun i _ => HasDerivAt.const_mul _ ?_
    exact HasDerivAt.fun_finsetProd fun k hk => (hc k (mem_cumSet.mp hk).1).2
  refine hd.congr_deriv ?_
  unfold dot cumprodVjp
  have e : ∀ i ∈ Finset.range n, dy i * ∑ k ∈ cumSet n rev excl i, (∏ l ∈ (cumSet n rev excl i).erase k, c 0 l) • v k =
      ∑ k ∈ Finset.range n, if k ∈ cumSet n rev excl i then v k * (dy i * ∏ l ∈ (cumSet n rev excl i).erase k, x l) else 0 := by
    intro i _
    rw [Finset.mul_sum, ← Finset.sum_filter]
    have : (Finset.range n).filter (fun k => k ∈ cumSet n rev excl i) = cumSet n rev excl i := by
      ext k
      simp only [Finset.mem_filter, Finset.mem_range]
      exact ⟨fun h => h.2, fun h => ⟨(mem_cumSet.mp h).1, h⟩⟩
    rw [this]
    refine Finset.sum_congr rfl fun k _ => ?_
    rw [Finset.prod_congr rfl fun l hl => (hc l (mem_cumSet.mp (Finset.mem_of_mem_erase hl)).1).1, smul_eq_mul]
    ring
  rw [Finset.sum_congr rfl e, Finset.sum_comm]
  refine Finset.sum_congr rfl fun k _ => ?_
  rw [Finset.mul_sum, Finset.sum_filter]

/-- **C119.** Backward of cumsum is the vector-Jacobian product of forward, added to the old gradient when accumulating. -/
theorem C119_backward (n0 n1 n2 : Nat) (rev excl : Bool) (x y0 dx : Mem ℝ) :
    IsVJP (n0 * n1 * n2) (n0 * n1 * n2) (fun x => cumsumForward n0 n1 n2 rev excl x y0) x
      (fun dy => cumsumBackward n0 n1 n2 rev excl false dy dx) ∧
    ∀ dy dx' k, k < n0 * n1 * n2 →
      cumsumBackward n0 n1 n2 rev excl true dy dx k = dx k + cumsumBackward n0 n1 n2 rev excl false dy dx' k := by
  refine ⟨?_, ?_⟩
  · refine IsVJP.slices n0 n1 n1 n2 _ _ x (fun _ _ x i => ∑ k ∈ cumSet n1 rev excl i, x k) (fun _ _ dy i => ∑ k ∈ cumSet n1 (!rev) excl i, dy k) ?_ ?_ ?_
    · intro x i0 i1 i2 h0 h1 h2; exact (cumsumForward_spec _ _ _ _ _ _ _).1 _ _ _ h0 h1 h2
    · intro dy i0 i1 i2 h0 h1 h2
      simp only [(cumsumBackward_spec _ _ _ _ _ _ _ _).1 _ _ _ h0 h1 h2, Bool.false_eq_true, if_false, zero_add]
    · intro i0 i2 _ _; exact cumsum_vjp n1 rev excl _
  · intro dy dx' k hk
    obtain ⟨i0, i1, i2, h0, h1, h2, rfl⟩ := exists_off hk
    simp only [(cumsumBackward_spec _ _ _ _ _ _ _ _).1 _ _ _ h0 h1 h2, Bool.false_eq_true, if_false, if_true, zero_add]

/-- **C120.** Backward of cumprod, which divides by x before the first zero of a slice and never elsewhere, is the
vector-Jacobian product of forward at every x, whatever zeros it contains, added to the old gradient when accumulating. -/
theorem C120_backward (n0 n1 n2 : Nat) (rev excl : Bool) (buf : Nat → Nat → Mem ℝ) (x y0 dx : Mem ℝ) :
    IsVJP (n0 * n1 * n2) (n0 * n1 * n2) (fun x => cumprodForward n0 n1 n2 rev excl x y0) x
      (fun dy => cumprodBackward n0 n1 n2 rev excl false buf x dy dx) ∧
    ∀ buf' dy dx' k, k < n0 * n1 * n2 →
      cumprodBackward n0 n1 n2 rev excl true buf x dy dx k = dx k + cumprodBackward n0 n1 n2 rev excl false buf' x dy dx' k := by
  refine ⟨?_, ?_⟩
  · refine IsVJP.slices n0 n1 n1 n2 _ _ x (fun _ _ x i => ∏ k ∈ cumSet n1 rev excl i, x k) (fun i0 i2 dy => cumprodVjp n1 rev excl (fun i => x (off n1 n2 i0 i i2)) dy) ?_ ?_ ?_
    · intro x i0 i1 i2 h0 h1 h2; exact (cumprodForward_spec _ _ _ _ _ _ _).1 _ _ _ h0 h1 h2
    · intro dy i0 i1 i2 h0 h1 h2
      simp only [(cumprodBackward_spec _ _ _ _ _ _ _ _ _ _).1 _ _ _ h0 h1 h2, Bool.false_eq_true, if_false, add_zero]
    · intro i0 i2 _ _; exact cumprod_vjp n1 rev excl _
  · intro buf' dy dx' k hk
    obtain ⟨i0, i1, i2, h0, h1, h2, rfl⟩ := exists_off hk
    simp only [(cumprodBackward_spec _ _ _ _ _ _ _ _ _ _).1 _ _ _ h0 h1 h2, Bool.false_eq_true, if_false, if_true, add_zero]
    ring

/-! ### Non-vacuity -/

example : cumSetup 1 [2, 3, 2] = .ok (2, 3, 2) ∧ cumSetup (-1) [2, 3] = .ok (2, 3, 1) := by decide
example : ∃ e, cumSetup 2 [2, 3] = .error e := C119_bad_axis _ _ (by decide)
example : cumSet 4 true true 1 = {2, 3} ∧ cumSet 4 false false 1 = {0, 1} := by decide
example : InBounds [2] [1] ∧ InBounds [2] [0] := by decide
/-- The gradient at a slice with a zero in the middle: x = (2, 0, 3), dy = (1, 1, 1) gives (1, 2 + 2·3, 0). -/
example : cumprodVjp 3 false false (fun i => if i = 0 then 2 else if i = 1 then 0 else 3) (fun _ => 1) 1 = 8 := by
  have h : (Finset.range 3).filter (fun k => 1 ∈ cumSet 3 false false k) = {1, 2} := by decide
  have h1 : (cumSet 3 false false 1).erase 1 = {0} := by decide
  have h2 : (cumSet 3 false false 2).erase 1 = {0, 2} := by decide
  unfold cumprodVjp
  rw [h, Finset.sum_insert (by decide), Finset.sum_singleton, h1, h2, Finset.prod_singleton, Finset.prod_insert (by decide), Finset.prod_singleton]
  norm_num

end Verif.Elem
