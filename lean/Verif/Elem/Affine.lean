import Verif.Elem.Bilinear
import Verif.Elem.Softmax
/-
Affine: models /repo/src/nbla/function/generic/affine.cpp over the real numbers.
-/
namespace Verif.Elem
open Verif.Fn Verif.ND

/-! ### Model -/

/-- Affine::setup_impl (affine.cpp:29-80): (i_row, i_col, w_col) and the shape of the output. An integer division by zero,
undefined in C++, is an error here. -/
def affineSetup (axis : Int) (xs ws : Shape) (bs : Option Shape) : Except String ((Nat × Nat × Nat) × Shape) :=
  if ws.length < 2 then .error "Weights(inputs[1]) must be matrix or tensor." else
  match refineAxis axis xs.length with
  | .error e => .error e
  | .ok a =>
    if ¬ a < xs.length then .error "Base_axis must be less than ndim of input data(inputs[0])."
    else if sizeFrom xs a ≠ ws.getD 0 0 then .error "Size of input data(inputs[0]) and weights(inputs[1]) mismatch."
    else if sizeFrom xs a = 0 ∨ ws.getD 0 0 = 0 then .error "division by zero"
    else
      let i_col := sizeFrom xs a
      let i_row := size xs / i_col
      let w_row := ws.getD 0 0
      let w_col := size ws / w_row
      let out := xs.take a ++ ws.drop 1
      if i_col ≠ w_row then .error "Shape mismatch."
      else if size out ≠ i_row * w_col then .error "Shape mismatch."
      else match bs with
        | none => .ok ((i_row, i_col, w_col), out)
        | some bs =>
          if bs.length ≠ ws.length - 1 then .error "Length of bias(inputs[2]) and weights(inputs[1]) mismatch."
          else if (List.range bs.length).all (fun i => bs.getD i 0 == ws.getD (i + 1) 0) then .ok ((i_row, i_col, w_col), out)
          else .error "Shape of bias(inputs[2]) and weights(inputs[1]) mismatch."

/-- Affine::forward_impl (affine.cpp:82-100). -/
noncomputable def affineForward (r K C : Nat) (x w : Mem ℝ) (b : Option (Mem ℝ)) (y : Mem ℝ) : Mem ℝ :=
  let y1 := matMul false r C K (at_ 0 C) (at_ 0 K) (at_ 0 C) x w y
  match b with
  | none => y1
  | some b => forMat r C (at_ 0 C) (fun _ j old => old + b j) y1

/-- Affine::backward_impl, gradient of the data (affine.cpp:114-124). -/
noncomputable def affineBackwardX (r K C : Nat) (w : Mem ℝ) (accum : Bool) (dy dx : Mem ℝ) : Mem ℝ :=
  matMul accum r K C (at_ 0 K) (at_ 0 C) (fun i j => at_ 0 C j i) dy w dx

/-- Affine::backward_impl, gradient of the weights (affine.cpp:125-135). -/
noncomputable def affineBackwardW (r K C : Nat) (x : Mem ℝ) (accum : Bool) (dy dw : Mem ℝ) : Mem ℝ :=
  matMul accum K C r (at_ 0 C) (fun i j => at_ 0 K j i) (at_ 0 C) x dy dw

/-- Affine::backward_impl, gradient of the bias (affine.cpp:136-144). -/
noncomputable def affineBackwardB (r C : Nat) (accum : Bool) (dy db : Mem ℝ) : Mem ℝ :=
  forPut C (fun j => j) (fun j old => (if accum then old else 0) + ∑ i ∈ Finset.range r, dy (at_ 0 C i j)) db

/-! ### Theorems -/

theorem at0_inj (P Q : Nat) : ∀ i j i' j', i < P → j < Q → i' < P → j' < Q → at_ 0 Q i j = at_ 0 Q i' j' → i = i' ∧ j = j' :=
  fun _ _ _ _ _ hj _ hj' h => at_inj hj hj' h

theorem at0_lt {P Q i j : Nat} (hi : i < P) (hj : j < Q) : at_ 0 Q i j < P * Q := by
  unfold at_; have := row_lt hi hj; omega

theorem affineForward_spec (r K C : Nat) (x w : Mem ℝ) (b : Option (Mem ℝ)) (y : Mem ℝ) (i j : Nat) (hi : i < r) (hj : j < C) :
    affineForward r K C x w b y (at_ 0 C i j) =
      (∑ k ∈ Finset.range K, x (at_ 0 K i k) * w (at_ 0 C k j)) + (match b with | none => 0 | some b => b j) := by
  have h1 := (matMul_spec false r C K (at_ 0 C) (at_ 0 K) (at_ 0 C) x w y (at0_inj r C)).1 i j hi hj
  cases b with
  | none => simp only [affineForward]; rw [h1]; simp
  | some b =>
    simp only [affineForward]
    rw [(forMat_spec r C (at_ 0 C) (fun _ j old => old + b j) _ (at0_inj r C)).1 i j hi hj, h1]; simp

/-- Everything an affine kernel may touch. -/
theorem out_at {P Q k : Nat} (h : P * Q ≤ k) : ∀ i j, i < P → j < Q → at_ 0 Q i j ≠ k := by
  intro i j hi hj e
  have := at0_lt hi hj
  omega

/-- A sum over a matrix. -/
theorem sum_at (P Q : Nat) (f : Nat → ℝ) : ∑ k ∈ Finset.range (P * Q), f k = ∑ i ∈ Finset.range P, ∑ j ∈ Finset.range Q, f (at_ 0 Q i j) := by
  rw [sum_range_mul]
  simp only [at_, Nat.zero_add]

/-- The index set of the affine map: row of the data, contracted index, column of the weights. -/
def affineIdx (r K C : Nat) : Finset (Nat × Nat × Nat) := Finset.range r ×ˢ Finset.range K ×ˢ Finset.range C

theorem affine_tri (r K C : Nat) (dy x w : Mem ℝ) :
    tri (affineIdx r K C) (fun t => at_ 0 C t.1 t.2.2) (fun t => at_ 0 K t.1 t.2.1) (fun t => at_ 0 C t.2.1 t.2.2) dy x w =
      ∑ i ∈ Finset.range r, ∑ k ∈ Finset.range K, ∑ j ∈ Finset.range C, dy (at_ 0 C i j) * (x (at_ 0 K i k) * w (at_ 0 C k j)) := by
  rw [tri, affineIdx, Finset.sum_product]
  refine Finset.sum_congr rfl fun i _ => ?_
  rw [Finset.sum_product]

theorem affine_dotF (r K C : Nat) (dy x w : Mem ℝ) (b : Option (Mem ℝ)) (y : Mem ℝ) :
    dot (r * C) dy (affineForward r K C x w b y) =
      (∑ i ∈ Finset.range r, ∑ k ∈ Finset.range K, ∑ j ∈ Finset.range C, dy (at_ 0 C i j) * (x (at_ 0 K i k) * w (at_ 0 C k j))) +
      ∑ i ∈ Finset.range r, ∑ j ∈ Finset.range C, dy (at_ 0 C i j) * (match b with | none => 0 | some b => b j) := by
  rw [dot, sum_at, ← Finset.sum_add_distrib]
  refine Finset.sum_congr rfl fun i hi => ?_
  rw [Finset.sum_comm, ← Finset.sum_add_distrib]
  refine Finset.sum_congr rfl fun j hj => ?_
  rw [affineForward_spec r K C x w b y i j (Finset.mem_range.mp hi) (Finset.mem_range.mp hj), mul_add, Finset.mul_sum]

theorem affine_dotX (r K C : Nat) (dy v w dx : Mem ℝ) : dot (r * K) v (affineBackwardX r K C w false dy dx) =
    ∑ i ∈ Finset.range r, ∑ k ∈ Finset.range K, ∑ j ∈ Finset.range C, dy (at_ 0 C i j) * (v (at_ 0 K i k) * w (at_ 0 C k j)) := by
  rw [dot, sum_at]
  refine Finset.sum_congr rfl fun i hi => Finset.sum_congr rfl fun k hk => ?_
  rw [affineBackwardX, (matMul_spec false r K C _ _ _ dy w dx (at0_inj r K)).1 i k (Finset.mem_range.mp hi) (Finset.mem_range.mp hk)]
  simp only [Bool.false_eq_true, if_false, zero_add, Finset.mul_sum]
  refine Finset.sum_congr rfl fun j _ => ?_
  ring

theorem affine_dotW (r K C : Nat) (dy x v dw : Mem ℝ) : dot (K * C) v (affineBackwardW r K C x false dy dw) =
    ∑ i ∈ Finset.range r, ∑ k ∈ Finset.range K, ∑ j ∈ Finset.range C, dy (at_ 0 C i j) * (x (at_ 0 K i k) * v (at_ 0 C k j)) := by
  rw [dot, sum_at, Finset.sum_comm (s := Finset.range r)]
  refine Finset.sum_congr rfl fun k hk => ?_
  rw [Finset.sum_comm (s := Finset.range r)]
  refine Finset.sum_congr rfl fun j hj => ?_
  rw [affineBackwardW, (matMul_spec false K C r _ _ _ x dy dw (at0_inj K C)).1 k j (Finset.mem_range.mp hk) (Finset.mem_range.mp hj)]
  simp only [Bool.false_eq_true, if_false, zero_add, Finset.mul_sum]
  refine Finset.sum_congr rfl fun i _ => ?_
  ring

theorem affineBackwardB_spec (r C : Nat) (accum : Bool) (dy db : Mem ℝ) (k : Nat) : affineBackwardB r C accum dy db k =
    if k < C then (if accum then db k else 0) + ∑ i ∈ Finset.range r, dy (at_ 0 C i k) else db k := by
  have h := forPut_spec C (fun j => j) (fun j old => (if accum then old else 0) + ∑ i ∈ Finset.range r, dy (at_ 0 C i j)) db
    (fun i j _ _ e => e)
  by_cases hk : k < C
  · rw [if_pos hk]; exact h.1 k hk
  · rw [if_neg hk]; exact h.2 k fun i hi e => hk (by omega)

theorem affine_dotB (r C : Nat) (dy v db : Mem ℝ) : dot C v (affineBackwardB r C false dy db) =
    ∑ i ∈ Finset.range r, ∑ j ∈ Finset.range C, dy (at_ 0 C i j) * v j := by
  rw [dot, Finset.sum_comm]
  refine Finset.sum_congr rfl fun j hj => ?_
  rw [affineBackwardB_spec, if_pos (Finset.mem_range.mp hj)]
  simp only [Bool.false_eq_true, if_false, zero_add, Finset.mul_sum]
  exact Finset.sum_congr rfl fun i _ => mul_comm _ _

theorem affineIdx_bounds (r K C : Nat) : (∀ t ∈ affineIdx r K C, at_ 0 K t.1 t.2.1 < r * K) ∧ ∀ t ∈ affineIdx r K C, at_ 0 C t.2.1 t.2.2 < K * C := by
  constructor <;> intro t ht <;> simp only [affineIdx, Finset.mem_product, Finset.mem_range] at ht
  · exact at0_lt ht.1 ht.2.1
  · exact at0_lt ht.2.1 ht.2.2

/-- **C87.** Affine's backward computes the vector-Jacobian product with respect to data, weights and bias, whatever the
gradient buffers held. -/
theorem C87_affine_grad (r K C : Nat) (x w b y0 dx dw db : Mem ℝ) :
    IsVJP3 (r * K) (K * C) C (r * C) (fun x w b => affineForward r K C x w (some b) y0) x w b
      (fun dy => affineBackwardX r K C w false dy dx) (fun dy => affineBackwardW r K C x false dy dw)
      (fun dy => affineBackwardB r C false dy db) ∧
    IsVJP2 (r * K) (K * C) (r * C) (fun x w => affineForward r K C x w none y0) x w
      (fun dy => affineBackwardX r K C w false dy dx) (fun dy => affineBackwardW r K C x false dy dw) := by
  obtain ⟨hb0, hb1⟩ := affineIdx_bounds r K C
  refine ⟨?_, ?_⟩
  · refine vjp3_of_tri (affineIdx r K C) (fun t => at_ 0 C t.1 t.2.2) (fun t => at_ 0 K t.1 t.2.1) (fun t => at_ 0 C t.2.1 t.2.2)
      _ _ _ _ hb0 hb1 _ x w b _ _ _ ?_ ?_ ?_
    · intro dy x w z; rw [affine_dotF, affine_tri, affine_dotB]
    · intro dy v; rw [affine_dotX, affine_tri]
    · intro dy v; rw [affine_dotW, affine_tri]
  · refine vjp2_of_tri (affineIdx r K C) (fun t => at_ 0 C t.1 t.2.2) (fun t => at_ 0 K t.1 t.2.1) (fun t => at_ 0 C t.2.1 t.2.2)
      _ _ _ hb0 hb1 _ x w _ _ ?_ ?_ ?_
    · intro dy x w; rw [affine_dotF, affine_tri]; simp
    · intro dy v; rw [affine_dotX, affine_tri]
    · intro dy v; rw [affine_dotW, affine_tri]

/-- A matrix product into a whole matrix: accumulation adds, and nothing outside is written. -/
theorem matMul_accum (P Q R : Nat) (pa pb : Nat → Nat → Nat) (a b c c' : Mem ℝ) :
    (∀ k, k < P * Q → matMul true P Q R (at_ 0 Q) pa pb a b c k = c k + matMul false P Q R (at_ 0 Q) pa pb a b c' k) ∧
    ∀ acc k, P * Q ≤ k → matMul acc P Q R (at_ 0 Q) pa pb a b c k = c k := by
  refine ⟨?_, ?_⟩
  · intro k hk
    have hq : 0 < Q := Nat.pos_of_ne_zero (by rintro rfl; simp at hk)
    have hi : k / Q < P := Nat.div_lt_of_lt_mul (by rwa [Nat.mul_comm])
    have hj : k % Q < Q := Nat.mod_lt _ hq
    have e : k = at_ 0 Q (k / Q) (k % Q) := by unfold at_; rw [Nat.mul_comm, Nat.div_add_mod]; omega
    rw [e, (matMul_spec true P Q R _ pa pb a b c (at0_inj P Q)).1 _ _ hi hj, (matMul_spec false P Q R _ pa pb a b c' (at0_inj P Q)).1 _ _ hi hj]
    simp
  · intro acc k hk
    exact (matMul_spec acc P Q R _ pa pb a b c (at0_inj P Q)).2 k (out_at hk)

/-- **C87.** With accumulation each gradient is added to what the buffer held; nothing outside of the arrays is written. -/
theorem C87_affine_accum (r K C : Nat) (x w dy dx dx' dw dw' db db' : Mem ℝ) :
    (∀ k, k < r * K → affineBackwardX r K C w true dy dx k = dx k + affineBackwardX r K C w false dy dx' k) ∧
    (∀ k, k < K * C → affineBackwardW r K C x true dy dw k = dw k + affineBackwardW r K C x false dy dw' k) ∧
    (∀ k, k < C → affineBackwardB r C true dy db k = db k + affineBackwardB r C false dy db' k) ∧
    ∀ accum, (∀ k, r * K ≤ k → affineBackwardX r K C w accum dy dx k = dx k) ∧
      (∀ k, K * C ≤ k → affineBackwardW r K C x accum dy dw k = dw k) ∧ ∀ k, C ≤ k → affineBackwardB r C accum dy db k = db k := by
  refine ⟨(matMul_accum r K C _ _ dy w dx dx').1, (matMul_accum K C r _ _ x dy dw dw').1, ?_, fun accum =>
    ⟨(matMul_accum r K C _ _ dy w dx dx').2 accum, (matMul_accum K C r _ _ x dy dw dw').2 accum, ?_⟩⟩
  · intro k hk; rw [affineBackwardB_spec, affineBackwardB_spec, if_pos hk, if_pos hk]; simp
  · intro k hk; rw [affineBackwardB_spec, if_neg (by omega)]

/-- **C87.** Setup accepts exactly data of shape A ++ B (B not empty, split at the base axis, which may be counted from the
end), weights of shape [size of B] ++ C with C not empty, and a bias of shape C, provided B has at least one element; the
output has shape A ++ C. -/
theorem C87_affine_setup (axis : Int) (xs ws : Shape) (bs : Option Shape) (p : (Nat × Nat × Nat) × Shape) :
    affineSetup axis xs ws bs = .ok p ↔ ∃ A B C : Shape, xs = A ++ B ∧ B ≠ [] ∧ ws = prod B :: C ∧ C ≠ [] ∧
      (axis = A.length ∨ axis = (A.length : Int) - xs.length) ∧ 0 < prod B ∧ (∀ b, bs = some b → b = C) ∧
      p = ((prod A, prod B, prod C), A ++ C) := by
  constructor
  · intro h
    unfold affineSetup at h
    by_cases hw : ws.length < 2
    · rw [if_pos hw] at h; cases h
    rw [if_neg hw] at h
    by_cases hr : axis < xs.length ∧ axis ≥ -(xs.length : Int)
    swap
    · simp only [refineAxis, if_neg hr] at h; cases h
    simp only [refineAxis, if_pos hr] at h
    obtain ⟨a, ha⟩ : ∃ a, a = (if axis < 0 then axis + xs.length else axis).toNat := ⟨_, rfl⟩
    rw [← ha] at h
    have hax : axis = a ∨ axis = (a : Int) - xs.length := by
      by_cases h0 : axis < 0
      · rw [if_pos h0] at ha; right; omega
      · rw [if_neg h0] at ha; left; omega
    have hal : a < xs.length := by omega
    have hs := C33_size xs a
    have hsw := (C33_size ws 0).1
    rw [if_neg (by omega : ¬ ¬ a < xs.length), hs.2.1] at h
    by_cases h1 : prod (xs.drop a) ≠ ws.getD 0 0
    · rw [if_pos h1] at h; cases h
    rw [if_neg h1] at h
    have h1 := Decidable.of_not_not h1
    by_cases h2 : prod (xs.drop a) = 0 ∨ ws.getD 0 0 = 0
    · rw [if_pos h2] at h; cases h
    rw [if_neg h2] at h
    obtain ⟨w0, C, rfl⟩ : ∃ w0 C, ws = w0 :: C := by
      cases ws with
      | nil => simp at hw
      | cons w0 C => exact ⟨w0, C, rfl⟩
    have hw0 : (w0 :: C).getD 0 0 = w0 := rfl
    rw [hw0] at h h1 h2
    have hpos : 0 < w0 := by omega
    have hx : prod xs = prod (xs.take a) * w0 := by
      conv_lhs => rw [← List.take_append_drop a xs]
      rw [prod_append, h1]
    have e1 : size xs / w0 = prod (xs.take a) := by rw [hs.1, hx, Nat.mul_div_cancel _ hpos]
    have e2 : size (w0 :: C) / w0 = prod C := by rw [hsw]; exact Nat.mul_div_cancel_left _ hpos
    have e3 : size (xs.take a ++ (w0 :: C).drop 1) = prod (xs.take a) * prod C := by
      rw [(C33_size _ 0).1, prod_append]; rfl
    simp only [e1, e2, e3, h1, ne_eq, not_true_eq_false, if_false] at h
    have hlen : (xs.take a).length = a := by simp; omega
    refine ⟨xs.take a, xs.drop a, C, (List.take_append_drop a xs).symm, ?_, by rw [h1], ?_, by rw [hlen]; exact hax, by omega, ?_, ?_⟩
    · intro e
      have := congrArg List.length e
      simp at this; omega
    · rintro rfl; simp at hw
    · rintro b rfl
      simp only at h
      by_cases h3 : b.length = (w0 :: C).length - 1
      swap
      · rw [if_pos h3] at h; cases h
      rw [if_neg (fun h => h h3)] at h
      by_cases h4 : (List.range b.length).all (fun i => b.getD i 0 == (w0 :: C).getD (i + 1) 0)
      swap
      · rw [if_neg h4] at h; cases h
      have h3' : b.length = C.length := by simpa using h3
      refine List.ext_getElem h3' fun i hi hi' => ?_
      have := List.all_eq_true.mp h4 i (List.mem_range.mpr hi)
      simp only [beq_iff_eq] at this
      simpa [hi, hi'] using this
    · cases bs with
      | none => simp only at h; rw [h1]; injection h with h; exact h.symm
      | some b =>
        simp only at h
        split at h
        · cases h
        split at h
        · rw [h1]; injection h with h; exact h.symm
        · cases h
  · rintro ⟨A, B, C, rfl, hB, rfl, hC, hax, hpos, hbias, rfl⟩
    have hBl : 0 < B.length := List.length_pos_of_ne_nil hB
    have hCl : 0 < C.length := List.length_pos_of_ne_nil hC
    have hal : A.length < (A ++ B).length := by simp; omega
    have hs := C33_size (A ++ B) A.length
    have hd : (A ++ B).drop A.length = B := List.drop_left
    have ht : (A ++ B).take A.length = A := List.take_left
    unfold affineSetup
    rw [if_neg (by simp; omega), refineAxis_ok A.length _ hal axis hax]
    simp only
    rw [if_neg (by omega), hs.2.1, hs.1, hd, ht, (C33_size (prod B :: C) 0).1, (C33_size _ 0).1]
    have e0 : (prod B :: C).getD 0 0 = prod B := rfl
    have e1 : prod (A ++ B) / prod B = prod A := by rw [prod_append, Nat.mul_div_cancel _ hpos]
    have e2 : prod (prod B :: C) / prod B = prod C := Nat.mul_div_cancel_left _ hpos
    have e3 : prod (A ++ (prod B :: C).drop 1) = prod A * prod C := by rw [prod_append]; rfl
    have e4 : ¬ (prod B = 0 ∨ prod B = 0) := by omega
    simp only [e0, e1, e2, e3, ne_eq, not_true_eq_false, if_false, e4]
    cases bs with
    | none => rfl
    | some b =>
      have := hbias b rfl
      subst this
      simp

/-- **C87.** What affine computes: element (a, c) of the result is the sum over the multi-indices b of B of
x[a, b] * w[b, c], plus bias[c]. -/
theorem C87_affine (A B C : Shape) (x w : Mem ℝ) (bias : Option (Mem ℝ)) (y : Mem ℝ) (a c : List Nat) (ha : InBounds A a) (hc : InBounds C c) :
    affineForward (prod A) (prod B) (prod C) x w bias y (ravel (A ++ C) (a ++ c)) =
      ((indices B).map fun b => x (ravel (A ++ B) (a ++ b)) * w (ravel (prod B :: C) (ravel B b :: c))).sum +
        (match bias with | none => 0 | some bias => bias (ravel C c)) := by
  have e : ravel (A ++ C) (a ++ c) = at_ 0 (prod C) (ravel A a) (ravel C c) := by
    rw [ravel_append _ _ _ _ ha.length, at_, Nat.zero_add]
  rw [e, affineForward_spec _ _ _ _ _ _ _ _ _ (ravel_lt ha) (ravel_lt hc)]
  congr 1
  rw [← map_range_sum, ← indices_ravel B, List.map_map]
  congr 1
  refine List.map_congr_left fun b hb => ?_
  simp only [Function.comp]
  congr 2
  · rw [ravel_append _ _ _ _ ha.length, at_, Nat.zero_add]
  · rw [at_, Nat.zero_add]; rfl

/-- An array with no element per row: the real setup divides by zero where the result would be well defined (zeros). -/
theorem C87_affine_empty_partial : affineSetup 1 [2, 0] [0, 3] none = .error "division by zero" := by decide

example : affineSetup (-2) [5, 2, 3] [6, 4, 7] (some [4, 7]) = .ok ((5, 6, 28), [5, 4, 7]) := by decide
example : affineSetup 1 [5, 2, 3] [6, 4] (some [5]) = .error "Shape of bias(inputs[2]) and weights(inputs[1]) mismatch." := by decide
example : InBounds [5] [4] ∧ InBounds [4, 7] [3, 6] := by decide

end Verif.Elem
