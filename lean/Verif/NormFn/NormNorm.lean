import Verif.NormFn.Bcast
/-
F.norm_normalization: models /repo/src/nbla/function/generic/norm_normalization.cpp on top of Norm and Div2. backward_impl
passes an accum vector of one element to the two-input Div2 (line 83-84), which reads accum[1]: an unspecified bit, a
parameter of the model.
-/
namespace Verif.NormFn
open Verif.Fn Verif.ND Verif.Elem

/-! ### Model -/

open Classical in
/-- NormNormalization::setup_impl (norm_normalization.cpp:29-48). -/
noncomputable def nnSetup (p : ℝ) (s : Shape) : Except String Shape :=
  if p ≥ 1 then .ok s else .error "value: `p` must be greater than or equal to 1."

/-- Contents of fresh buffers. -/
structure NNFresh where
  norm : Fresh
  nrm : Mem ℝ
  gnrm : Mem ℝ

/-- NormNormalization::forward_impl (norm_normalization.cpp:50-60). -/
noncomputable def nnForward (p : ℝ) (axes : List Int) (s : Shape) (t : NNFresh) (x y : Mem ℝ) : Except String (Mem ℝ) :=
  match normSetup p axes true s with
  | .error e => .error e
  | .ok (o, nsh) =>
    match normForward o s t.norm x t.nrm with
    | .error e => .error e
    | .ok nrm =>
      match binarySetup s nsh with
      | .error e => .error e
      | .ok out => .ok (binaryForward Binary.div2.forward s nsh (prod out) x nrm y)

/-- NormNormalization::backward_impl (norm_normalization.cpp:62-88): `bit` is what Div2 reads for accum[1]. -/
noncomputable def nnBackward (p : ℝ) (axes : List Int) (s : Shape) (t : NNFresh) (bit : Bool) (x y : Mem ℝ) (accum : Bool) (dy dx : Mem ℝ) :
    Except String (Mem ℝ) :=
  match normSetup p axes true s with
  | .error e => .error e
  | .ok (o, nsh) =>
    match normForward o s t.norm x t.nrm with
    | .error e => .error e
    | .ok nrm =>
      match binarySetup s nsh with
      | .error e => .error e
      | .ok out =>
        let y := binaryForward Binary.div2.forward s nsh (prod out) x nrm y
        let dx := binaryBackward Binary.div2.grad0 s nsh (prod out) (prod s) false x nrm y accum dy dx
        let gn := binaryBackward Binary.div2.grad1 s nsh (prod out) (prod nsh) true x nrm y bit dy t.gnrm
        normBackward o s t.norm x nrm true gn dx

/-! ### C171 -/

/-- **C171 (partial: the unspecified bit is 0).** F.norm_normalization divides each element by the p-norm over the axes of the
group it belongs to; backward computes the gradient wherever each group has a non-zero element (and, for p = 1, no element is
zero), added to the old one when accumulating. What is missing is the same for either value of the bit, which is false. -/
theorem C171_norm_normalization_partial (p : ℝ) (hp : 1 ≤ p) (axes : List Int) (s : Shape) (hr : ∀ a ∈ axes, -(s.length : Int) ≤ a ∧ a < s.length)
    (hnd : axes.Nodup) (hsign : (∀ a ∈ axes, 0 ≤ a) ∨ ∀ a ∈ axes, a < 0) (hpos : 0 < prod s) (t : NNFresh) (y0 : Mem ℝ) :
    nnSetup p s = .ok s ∧
    ∃ red : List Nat, (∀ a : Nat, a ∈ red ↔ ((a : Int) ∈ axes ∨ (a : Int) - s.length ∈ axes) ∧ a < s.length) ∧
    ∃ F : Mem ℝ → Mem ℝ, (∀ x, nnForward p axes s t x y0 = .ok (F x)) ∧
      (∀ x i, InBounds s i → F x (ravel s i) = x (ravel s i) / ((((fiber red s i).map fun i' => |x (ravel s i')| ^ p).sum) ^ (1 / p))) ∧
      ∀ x (y : Mem ℝ), ∃ B : Mem ℝ → Mem ℝ,
        (∀ acc dy dx, ∃ r, nnBackward p axes s t false x y acc dy dx = .ok r ∧
          (∀ k, k < prod s → r k = (if acc then dx k else 0) + B dy k) ∧ ∀ k, prod s ≤ k → r k = dx k) ∧
        ((∀ i, InBounds s i → ∃ i' ∈ fiber red s i, x (ravel s i') ≠ 0) → (1 < p ∨ ∀ k, k < prod s → x k ≠ 0) →
          IsVJP (prod s) (prod s) F x B) := by
  refine ⟨if_pos hp, ?_⟩
  obtain ⟨red, hs, hhi, hmem, hset⟩ := (C170_setup p axes true s).2 hp hr hnd hsign
  obtain ⟨N, hN, hNl, hNv, hNB⟩ := C170_norm p hp true red s hs hhi hpos t.norm t.nrm
  have hbs := keep_setup red s hpos
  refine ⟨red, hmem, fun x => binaryForward Binary.div2.forward s (outShape true red s) (prod s) x (N x) y0, ?_, ?_, ?_⟩
  · intro x
    rw [nnForward, hset]
    simp only []
    rw [hN]
    simp only []
    rw [hbs]
  · intro x i hi
    simp only []
    rw [(binary_value _ s _ hbs x (N x) y0 i hi).1, keep_bcast red s i hi, hNv x i hi]
    rfl
  · intro x y
    obtain ⟨B, hB, hBv⟩ := hNB x (N x)
    set y' := binaryForward Binary.div2.forward s (outShape true red s) (prod s) x (N x) y with hy'
    have h0 := binary_accum Binary.div2.grad0 s (outShape true red s) s hbs false x (N x) y'
    have h1 := binary_accum Binary.div2.grad1 s (outShape true red s) s hbs true x (N x) y'
    simp only [Bool.false_eq_true, if_false, if_true] at h0 h1
    refine ⟨fun dy k => binaryBackward Binary.div2.grad0 s (outShape true red s) (prod s) (prod s) false x (N x) y' false dy (fun _ => 0) k +
      B (binaryBackward Binary.div2.grad1 s (outShape true red s) (prod s) (prod (outShape true red s)) true x (N x) y' false dy t.gnrm) k, ?_, ?_⟩
    · intro acc dy dx
      obtain ⟨r, hr, hr1, hr2⟩ := hB true
        (binaryBackward Binary.div2.grad1 s (outShape true red s) (prod s) (prod (outShape true red s)) true x (N x) y' false dy t.gnrm)
        (binaryBackward Binary.div2.grad0 s (outShape true red s) (prod s) (prod s) false x (N x) y' acc dy dx)
      refine ⟨r, ?_, ?_, ?_⟩
      · rw [nnBackward, hset]
        simp only []
        rw [hN]
        simp only []
        rw [hbs]
        exact hr
      · intro k hk
        rw [hr1 k hk, if_pos rfl, (h0 dy acc dx).1 k hk, add_assoc]
      · intro k hk
        rw [hr2 k hk, (h0 dy acc dx).2 k hk]
    · intro hne hz
      have hpn : ∀ j, InBounds s j → Binary.div2.smooth (x (ravel s (bcast s j))) (N x (ravel (outShape true red s) (bcast (outShape true red s) j))) := by
        intro j hj
        show N x _ ≠ 0
        rw [keep_bcast red s j hj, hNv x j hj]
        obtain ⟨i', hi', hx⟩ := hne j hj
        have hnn : ∀ z ∈ (fiber red s j).map fun i' => |x (ravel s i')| ^ p, 0 ≤ z := by
          intro z hz
          obtain ⟨i'', _, rfl⟩ := List.mem_map.mp hz
          exact Real.rpow_nonneg (abs_nonneg _) _
        have : 0 < ((fiber red s j).map fun i' => |x (ravel s i')| ^ p).sum :=
          lt_of_lt_of_le (Real.rpow_pos_of_pos (abs_pos.mpr hx) p) (List.single_le_sum hnn _ (List.mem_map.mpr ⟨i', hi', rfl⟩))
        exact (Real.rpow_pos_of_pos this _).ne'
      have hG := C82_binary_kernel Binary.div2 s (outShape true red s) s hbs x (N x) y' y0 (fun _ => 0) t.gnrm hpn
      exact IsVJP2.diag (N := N) (G := fun x0 x1 => binaryForward Binary.div2.forward s (outShape true red s) (prod s) x0 x1 y0) hG (hBv hne hz) hNl

/-- **C171, refuted part.** With the bit 1, the gradient buffer of the norm is not cleared and its uninitialised content goes into
the gradient of the input: for x = [1] and output gradient 0 the result is that content, and so any number. -/
theorem C171_uninitialised_refuted (c : ℝ) (t : Fresh) (nrm y dx : Mem ℝ) :
    ∃ r, nnBackward 1 [0] [1] ⟨t, nrm, fun _ => c⟩ true (fun _ => 1) y false (fun _ => 0) dx = .ok r ∧ r 0 = c := by
  have hset : normSetup 1 [0] true [1] = .ok (⟨1, readyObj true [0] [1]⟩, outShape true [0] [1]) := by
    rw [normSetup, if_pos le_rfl]
    have : reduceSetup (reduceNew [0] true) [1] = .ok (readyObj true [0] [1], outShape true [0] [1]) := by decide
    rw [this]
  have hout : outShape true [0] [1] = [1] := by decide
  have hbs : binarySetup [1] [1] = .ok [1] := by decide
  have hoff : ∀ b, binaryOff [1] [1] b 0 = 0 := by decide
  obtain ⟨N, hN, _, hNv, hNB⟩ := C170_norm 1 le_rfl true [0] [1] (by simp) (by simp) (by decide) t nrm
  have hfib : fiber [0] [1] [0] = [[0]] := by decide
  have hv : ∀ x : Mem ℝ, N x 0 = |x 0| := by
    intro x
    have := hNv x [0] (by simp [InBounds])
    rw [hfib] at this
    have e1 : ravel (outShape true [0] [1]) (outIndex true [0] ([1] : Shape).length [0]) = 0 := by decide
    have e2 : ravel [1] [0] = 0 := by decide
    rw [e1] at this
    simpa [e2] using this
  obtain ⟨B, hB, hBv⟩ := hNB (fun _ => 1) (N fun _ => 1)
  have hvjp := hBv (by
      intro i hi
      refine ⟨i, ?_, one_ne_zero⟩
      simp only [fiber, List.mem_filter, mem_indices]
      exact ⟨hi, by simp⟩) (Or.inr fun _ _ => one_ne_zero)
  have hB0 : ∀ dy : Mem ℝ, B dy 0 = dy 0 := by
    intro dy
    have h1 := hvjp (fun t _ => 1 + t) (fun _ => 1) (fun k _ => ⟨by simp, by simpa using (hasDerivAt_id (0 : ℝ)).const_add 1⟩) dy
    have h2 : HasDerivAt (fun t : ℝ => dy 0 * |1 + t|) (dy 0 * 1) 0 := by
      refine HasDerivAt.const_mul _ ?_
      have := (hasDerivAt_abs_pos (x := 1 + 0) (by norm_num)).comp (0 : ℝ) ((hasDerivAt_id (0 : ℝ)).const_add 1)
      rw [mul_one] at this
      exact this
    have e : (fun t : ℝ => dot (prod (outShape true [0] [1])) dy (N fun _ => 1 + t)) = fun t : ℝ => dy 0 * |1 + t| := by
      funext t
      rw [hout]
      simp [dot, prod, hv]
    rw [e] at h1
    have := h1.unique h2
    simpa [dot, prod] using this
  have e0 : ∀ b x0 x1 y'' acc (d : Mem ℝ) g, binaryBackward g [1] [1] 1 1 b x0 x1 y'' acc (fun _ => (0 : ℝ)) d 0 =
      (if acc then d 0 else 0) + g 0 (x0 0) (x1 0) (y'' 0) := by
    intro b x0 x1 y'' acc d g
    simp only [binaryBackward, List.range_one, List.foldl_cons, List.foldl_nil, hoff, put_same]
    cases acc <;> simp
  rw [nnBackward, hset]
  simp only []
  rw [hN]
  simp only []
  rw [hout, hbs]
  simp only [prod, Nat.mul_one]
  obtain ⟨r, hr, hr1, _⟩ := hB true (binaryBackward Binary.div2.grad1 [1] [1] 1 1 true (fun _ => 1) (N fun _ => 1)
      (binaryForward Binary.div2.forward [1] [1] 1 (fun _ => 1) (N fun _ => 1) y) true (fun _ => 0) fun _ => c)
    (binaryBackward Binary.div2.grad0 [1] [1] 1 1 false (fun _ => 1) (N fun _ => 1)
      (binaryForward Binary.div2.forward [1] [1] 1 (fun _ => 1) (N fun _ => 1) y) false (fun _ => 0) dx)
  refine ⟨r, hr, ?_⟩
  rw [hr1 0 (by decide), hB0, e0, e0]
  simp [Binary.grad0, Binary.grad1]

/-- Non-vacuity: rows of a 2 x 2 array of ones, p = 1. -/
example : (∀ a ∈ ([1] : List Int), -(2 : Int) ≤ a ∧ a < 2) ∧
    (∀ i, InBounds [2, 2] i → ∃ i' ∈ fiber [1] [2, 2] i, (fun _ => (1 : ℝ)) (ravel [2, 2] i') ≠ 0) := by
  refine ⟨by simp, ?_⟩
  intro i hi
  refine ⟨i, ?_, one_ne_zero⟩
  simp only [fiber, List.mem_filter, mem_indices]
  exact ⟨hi, by simp⟩

end Verif.NormFn
