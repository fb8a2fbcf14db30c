import Verif.Elem.Slices
import Verif.Fn.ChunkProps
/-
PReLU: models /repo/src/nbla/function/generic/prelu.cpp, over the real numbers; `int` is unbounded.
-/
namespace Verif.Act
open Verif.ND Verif.Fn Verif.Elem

/-! ### Model -/

/-- What PReLU::setup_impl leaves behind. -/
structure PreluState where
  single : Bool   -- inputs[1]->size() == 1
  shape : Nat     -- base_shape_
  stride : Nat    -- base_stride_

/-- PReLU::setup_impl (prelu.cpp:30-48). -/
def preluSetup (axis : Int) (xsh wsh : Shape) : Except String PreluState :=
  match refineAxis axis xsh.length with
  | .error e => .error e
  | .ok a =>
    if size wsh = 1 ∨ (wsh.length = 1 ∧ wsh.getD 0 0 = xsh.getD a 0) then
      .ok ⟨decide (size wsh = 1), xsh.getD a 0, (cStrides xsh).getD a 0⟩
    else .error "value: The negative slope must be a 1d tensor or a scalar."

/-- Position of the slope of element s (prelu.cpp:59, 65, 103, 114). -/
def PreluState.chan (st : PreluState) (s : Nat) : Nat := if st.single then 0 else (s / st.stride) % st.shape

open Classical in
/-- PReLU::forward_impl (prelu.cpp:50-69). -/
noncomputable def preluForward (st : PreluState) (n : Nat) (x w y : Mem ℝ) : Mem ℝ :=
  (List.range n).foldl (fun m s => put m s (if x s ≥ 0 then x s else x s * w (st.chan s))) y

open Classical in
/-- The input part of PReLU::backward_impl (prelu.cpp:92-97, 110-116). -/
noncomputable def preluDx (st : PreluState) (n : Nat) (x w : Mem ℝ) (accum : Bool) (dy dx : Mem ℝ) : Mem ℝ :=
  (List.range n).foldl (fun m s => put m s ((if accum then m s else 0) + (if x s ≥ 0 then dy s else dy s * w (st.chan s)))) dx

open Classical in
/-- The slope part of PReLU::backward_impl (prelu.cpp:98-107, 117-127): `m` slopes. -/
noncomputable def preluDw (st : PreluState) (n m : Nat) (x : Mem ℝ) (accum : Bool) (dy dw : Mem ℝ) : Mem ℝ :=
  (List.range n).foldl (fun d s => if x s < 0 then put d (st.chan s) (d (st.chan s) + dy s * x s) else d)
    (if accum then dw else fun k => if k < m then 0 else dw k)

/-! ### Lemmas -/

/-- A loop that rewrites each element of an array once. -/
theorem foldPut_eq {R} (g : Nat → R → R) (n : Nat) (y : Mem R) (i : Nat) :
    (List.range n).foldl (fun m s => put m s (g s (m s))) y i = if i < n then g i (y i) else y i := by
  induction n generalizing i with
  | zero => simp
  | succ n ih =>
    rw [List.range_succ, List.foldl_append]
    simp only [List.foldl_cons, List.foldl_nil]
    by_cases e : i = n
    · subst e; rw [put_same, ih i]; simp
    · rw [put_other _ _ e, ih]
      by_cases h : i < n
      · simp [h, Nat.lt_succ_of_lt h]
      · have h' : ¬ i < n + 1 := by omega
        simp [h, h']

theorem preluForward_eq (st : PreluState) (n : Nat) (x w y : Mem ℝ) (i : Nat) :
    preluForward st n x w y i = if i < n then (if x i ≥ 0 then x i else x i * w (st.chan i)) else y i := by
  classical
  have := foldPut_eq (fun s _ => if x s ≥ 0 then x s else x s * w (st.chan s)) n y i
  unfold preluForward
  convert this using 2

theorem preluDx_eq (st : PreluState) (n : Nat) (x w : Mem ℝ) (accum : Bool) (dy dx : Mem ℝ) (i : Nat) :
    preluDx st n x w accum dy dx i =
      if i < n then (if accum then dx i else 0) + (if x i ≥ 0 then dy i else dy i * w (st.chan i)) else dx i := by
  classical
  have := foldPut_eq (fun s o => (if accum then o else 0) + (if x s ≥ 0 then dy s else dy s * w (st.chan s))) n dx i
  unfold preluDx
  convert this using 2

theorem preluDw_eq (st : PreluState) (n m : Nat) (x : Mem ℝ) (accum : Bool) (dy dw : Mem ℝ) (k : Nat) :
    preluDw st n m x accum dy dw k = (if accum = true ∨ m ≤ k then dw k else 0) +
      ∑ s ∈ Finset.range n, if x s < 0 ∧ st.chan s = k then dy s * x s else 0 := by
  classical
  unfold preluDw
  induction n generalizing k with
  | zero =>
    simp only [List.range_zero, List.foldl_nil, Finset.range_zero, Finset.sum_empty, add_zero]
    cases accum
    · by_cases h : k < m
      · simp [h]
      · simp [h, Nat.le_of_not_lt h]
    · simp
  | succ n ih =>
    rw [List.range_succ, List.foldl_append, Finset.sum_range_succ]
    simp only [List.foldl_cons, List.foldl_nil]
    rw [← add_assoc, ← ih]
    by_cases hx : x n < 0
    · by_cases hk : st.chan n = k
      · subst hk
        simp [hx]
      · rw [if_pos hx, put_other _ _ (Ne.symm hk)]
        simp [hk]
    · simp [hx]

theorem prelu_dw_dot (st : PreluState) (n m : Nat) (x : Mem ℝ) (dy dw v : Mem ℝ) (hc : ∀ s, s < n → st.chan s < m) :
    dot m v (preluDw st n m x false dy dw) = ∑ s ∈ Finset.range n, if x s < 0 then v (st.chan s) * (dy s * x s) else 0 := by
  unfold dot
  have h1 : ∀ k ∈ Finset.range m, v k * preluDw st n m x false dy dw k =
      ∑ s ∈ Finset.range n, v k * (if x s < 0 ∧ st.chan s = k then dy s * x s else 0) := by
    intro k hk
    have : ¬ ((false : Bool) = true ∨ m ≤ k) := by
      have := Finset.mem_range.mp hk
      simp; omega
    rw [preluDw_eq, if_neg this, zero_add, Finset.mul_sum]
  rw [Finset.sum_congr rfl h1, Finset.sum_comm]
  refine Finset.sum_congr rfl fun s hs => ?_
  by_cases hx : x s < 0
  · simp only [hx, true_and, if_true, mul_ite, mul_zero]
    rw [Finset.sum_ite_eq, if_pos (Finset.mem_range.mpr (hc s (Finset.mem_range.mp hs)))]
  · simp [hx]

/-- The two gradients, for any assignment of slopes to elements. -/
theorem prelu_vjp (st : PreluState) (n m : Nat) (x w y0 dx dw : Mem ℝ) (hc : ∀ s, s < n → st.chan s < m)
    (hx : ∀ s, s < n → x s ≠ 0) :
    IsVJP2 n m n (fun x w => preluForward st n x w y0) x w (fun dy => preluDx st n x w false dy dx)
      (fun dy => preluDw st n m x false dy dw) := by
  intro c0 c1 v0 v1 h0 h1 dy
  have hd := hasDerivAt_dot n dy (fun t => preluForward st n (c0 t) (c1 t) y0)
    (fun s => if 0 ≤ x s then v0 s else v0 s * w (st.chan s) + x s * v1 (st.chan s)) (by
      intro s hs
      obtain ⟨e0, d0⟩ := h0 s hs
      obtain ⟨e1, d1⟩ := h1 _ (hc s hs)
      simp only [preluForward_eq, if_pos hs]
      have hcont := d0.continuousAt
      rcases lt_or_gt_of_ne (hx s hs) with hneg | hpos
      · rw [if_neg (not_le.mpr hneg)]
        have hm := d0.mul d1
        rw [e0, e1] at hm
        refine hm.congr_of_eventuallyEq ?_
        have : ∀ᶠ t in nhds (0 : ℝ), c0 t s < 0 := hcont.eventually_lt continuousAt_const (by rw [e0]; exact hneg)
        filter_upwards [this] with t ht
        rw [if_neg (not_le.mpr ht)]; rfl
      · rw [if_pos (le_of_lt hpos)]
        refine d0.congr_of_eventuallyEq ?_
        have : ∀ᶠ t in nhds (0 : ℝ), 0 < c0 t s := continuousAt_const.eventually_lt hcont (by rw [e0]; exact hpos)
        filter_upwards [this] with t ht
        rw [if_pos (le_of_lt ht)])
  refine hd.congr_deriv ?_
  rw [prelu_dw_dot st n m x dy dw v1 hc]
  unfold dot
  rw [← Finset.sum_add_distrib]
  refine Finset.sum_congr rfl fun s hs => ?_
  have hs := Finset.mem_range.mp hs
  simp only [preluDx_eq, hs, if_true, Bool.false_eq_true, if_false, zero_add, ge_iff_le]
  by_cases h : 0 ≤ x s
  · rw [if_pos h, if_pos h, if_neg (not_lt.mpr h)]; ring
  · rw [if_neg h, if_neg h, if_pos (not_le.mp h)]; ring

theorem cStrides_getD (A B : Shape) (C : Nat) : (cStrides (A ++ C :: B)).getD A.length 0 = prod B := by
  induction A with
  | nil => simp [cStrides_cons]
  | cons a A ih => rw [List.cons_append, cStrides_cons]; simpa using ih

theorem prod_zero_mid (A B : Shape) : prod (A ++ 0 :: B) = 0 := by
  induction A with
  | nil => simp [prod]
  | cons a A ih => simp only [List.cons_append, prod] at ih ⊢; rw [ih, Nat.mul_zero]

/-! ### C166 -/

/-- The slope that goes with index `c` of the channel axis. -/
def slopeIdx (wsh : Shape) (c : Nat) : Nat := if prod wsh = 1 then 0 else c

theorem chan_eq (A B wsh : Shape) (C : Nat) (a b : List Nat) (c : Nat) (ha : InBounds A a) (hc : c < C) (hb : InBounds B b) :
    (PreluState.mk (decide (prod wsh = 1)) C (prod B)).chan (ravel (A ++ C :: B) (a ++ c :: b)) = slopeIdx wsh c := by
  have la : a.length = A.length := ((inBounds_iff _ _).mp ha).1
  rw [PreluState.chan, slopeIdx]
  by_cases h : prod wsh = 1
  · simp [h]
  · rw [if_neg h, decide_eq_false h]
    simp only [Bool.false_eq_true, if_false]
    rw [ravel_append A (C :: B) a (c :: b) la]
    have hB : ravel B b < prod B := ravel_lt hb
    have e : ravel A a * prod (C :: B) + ravel (C :: B) (c :: b) = (ravel A a * C + c) * prod B + ravel B b := by
      simp only [prod, ravel]; ring
    rw [e, Nat.add_comm, Nat.add_mul_div_right _ _ (by omega), Nat.div_eq_of_lt hB, Nat.zero_add, Nat.mul_add_mod_of_lt' hc]
where
  Nat.mul_add_mod_of_lt' {p q r : Nat} (h : q < r) : (p * r + q) % r = q := by
    rw [Nat.add_comm, Nat.add_mul_mod_self_right, Nat.mod_eq_of_lt h]

/-- **C166 (accepted shapes).** PReLU is accepted exactly when the axis is in range and there is either one slope or a vector of
as many slopes as the axis has positions. -/
theorem C166_setup (xsh wsh : Shape) (axis : Int) :
    (∃ st, preluSetup axis xsh wsh = .ok st) ↔
      ∃ a : Nat, a < xsh.length ∧ (axis = a ∨ axis = (a : Int) - xsh.length) ∧ (prod wsh = 1 ∨ wsh = [xsh.getD a 0]) := by
  have hw : ∀ d, (wsh.length = 1 ∧ wsh.getD 0 0 = d) ↔ wsh = [d] := by
    intro d
    match wsh with
    | [] => simp
    | [e] => simp
    | _ :: _ :: _ => simp
  constructor
  · rintro ⟨st, h⟩
    rw [preluSetup] at h
    by_cases hr : axis < -(xsh.length : Int) ∨ (xsh.length : Int) ≤ axis
    · obtain ⟨e, he⟩ := refineAxis_rejects axis xsh.length hr
      rw [he] at h; cases h
    · have hr' : -(xsh.length : Int) ≤ axis ∧ axis < xsh.length := by omega
      obtain ⟨a, ha, hax⟩ : ∃ a : Nat, a < xsh.length ∧ (axis = a ∨ axis = (a : Int) - xsh.length) := by
        by_cases hn : 0 ≤ axis
        · exact ⟨axis.toNat, by omega, Or.inl (by omega)⟩
        · exact ⟨(axis + xsh.length).toNat, by omega, Or.inr (by omega)⟩
      rw [refineAxis_ok a xsh.length ha axis hax] at h
      by_cases hc : size wsh = 1 ∨ (wsh.length = 1 ∧ wsh.getD 0 0 = xsh.getD a 0)
      · rw [size_eq, hw] at hc
        exact ⟨a, ha, hax, hc⟩
      · simp only [if_neg hc] at h; cases h
  · rintro ⟨a, ha, hax, hc⟩
    rw [← size_eq, ← hw] at hc
    rw [preluSetup, refineAxis_ok a xsh.length ha axis hax]
    exact ⟨_, if_pos hc⟩

/-- **C166.** PReLU with the channel axis between the axes A and B: element (a, c, b) of the result is x if x ≥ 0 and
x times the slope of channel c (the only slope if there is one) otherwise; backward computes the gradients with respect to the
input and to the slopes wherever no input is 0; with accumulation both are added to the old gradients; nothing outside of the
arrays is written. -/
theorem C166_prelu (A B wsh : Shape) (C : Nat) (axis : Int) (haxis : axis = A.length ∨ axis = (A.length : Int) - (A.length + 1 + B.length))
    (hw : prod wsh = 1 ∨ wsh = [C]) (x w y0 : Mem ℝ) :
    let n := prod (A ++ C :: B)
    ∃ st, preluSetup axis (A ++ C :: B) wsh = .ok st ∧
    (∀ a c b, InBounds A a → c < C → InBounds B b →
      slopeIdx wsh c < prod wsh ∧
      let p := ravel (A ++ C :: B) (a ++ c :: b)
      (0 ≤ x p → preluForward st n x w y0 p = x p) ∧ (x p < 0 → preluForward st n x w y0 p = x p * w (slopeIdx wsh c))) ∧
    ((∀ s, s < n → x s ≠ 0) → ∀ dx dw, IsVJP2 n (prod wsh) n (fun x w => preluForward st n x w y0) x w
      (fun dy => preluDx st n x w false dy dx) (fun dy => preluDw st n (prod wsh) x false dy dw)) ∧
    (∀ dy dx dx' s, s < n → preluDx st n x w true dy dx s = dx s + preluDx st n x w false dy dx' s) ∧
    (∀ dy dw dw' k, k < prod wsh → preluDw st n (prod wsh) x true dy dw k = dw k + preluDw st n (prod wsh) x false dy dw' k) ∧
    (∀ s, n ≤ s → preluForward st n x w y0 s = y0 s ∧ ∀ acc dy dx, preluDx st n x w acc dy dx s = dx s) ∧
    ∀ k, prod wsh ≤ k → ∀ acc dy dw, preluDw st n (prod wsh) x acc dy dw k = dw k := by
  intro n
  have hset : preluSetup axis (A ++ C :: B) wsh = .ok ⟨decide (prod wsh = 1), C, prod B⟩ := by
    rw [preluSetup, refineAxis_ok A.length (A ++ C :: B).length (by simp) axis (by
      rcases haxis with h | h
      · exact Or.inl h
      · right; rw [h]; simp; omega)]
    have hg : (A ++ C :: B).getD A.length 0 = C := getD_mid A B C
    simp only [size_eq, hg, cStrides_getD]
    rw [if_pos]
    rcases hw with h | h
    · exact Or.inl h
    · right; rw [h]; simp
  have hchan := fun a c b => chan_eq A B wsh C a b c
  have hslope : ∀ c, c < C → slopeIdx wsh c < prod wsh := by
    intro c hc
    rw [slopeIdx]
    by_cases h : prod wsh = 1
    · rw [if_pos h, h]; omega
    · rw [if_neg h]
      rcases hw with h' | h'
      · exact absurd h' h
      · rw [h']; simpa [prod] using hc
  have hlt : ∀ s, s < n → (PreluState.mk (decide (prod wsh = 1)) C (prod B)).chan s < prod wsh := by
    intro s hs
    rw [PreluState.chan]
    by_cases h : prod wsh = 1
    · simp [h]
    · rw [decide_eq_false h]
      simp only [Bool.false_eq_true, if_false]
      rcases hw with h' | h'
      · exact absurd h' h
      · rw [h']
        have hC : 0 < C := by
          rcases Nat.eq_zero_or_pos C with hz | hz
          · subst hz
            have : n = 0 := prod_zero_mid A B
            omega
          · exact hz
        simpa [prod] using Nat.mod_lt _ hC
  refine ⟨_, hset, ?_, ?_, ?_, ?_, ?_, ?_⟩
  · intro a c b ha hc hb
    refine ⟨hslope c hc, ?_⟩
    intro p
    have la : a.length = A.length := ((inBounds_iff _ _).mp ha).1
    have hp : p < n := ravel_lt ((inBounds_append A (C :: B) a (c :: b) la).mpr ⟨ha, hc, hb⟩)
    refine ⟨fun h => ?_, fun h => ?_⟩
    · rw [preluForward_eq, if_pos hp, if_pos h]
    · rw [preluForward_eq, if_pos hp, if_neg (not_le.mpr h), hchan a c b ha hc hb]
  · intro hx dx dw
    exact prelu_vjp _ n _ x w y0 dx dw hlt hx
  · intro dy dx dx' s hs
    rw [preluDx_eq, preluDx_eq, if_pos hs, if_pos hs]; simp
  · intro dy dw dw' k hk
    rw [preluDw_eq, preluDw_eq, if_pos (Or.inl rfl), if_neg (by simp; omega), zero_add]
  · intro s hs
    refine ⟨by rw [preluForward_eq, if_neg (by omega)], fun acc dy dx => by rw [preluDx_eq, if_neg (by omega)]⟩
  · intro k hk acc dy dw
    rw [preluDw_eq, if_pos (Or.inr hk)]
    rw [Finset.sum_eq_zero, add_zero]
    intro s hs
    have := hlt s (Finset.mem_range.mp hs)
    rw [if_neg (fun h => by omega)]

/-- Non-vacuity: two channels of two positions, slopes 2 and 3. -/
example : ∃ st, preluSetup 0 [2, 2] [2] = .ok st ∧ preluForward st 4 (fun i => (i : ℝ) - 5) (fun k => (k : ℝ) + 2) (fun _ => 0) 3 = -6 ∧
    preluForward st 4 (fun i => (i : ℝ) - 5) (fun k => (k : ℝ) + 2) (fun _ => 0) 1 = -8 ∧
    ((∀ s, s < 4 → ((s : ℝ) - 5) ≠ 0)) := by
  refine ⟨_, rfl, ?_, ?_, ?_⟩
  · rw [preluForward_eq]
    norm_num [PreluState.chan, size, sizeFrom, cStrides]
  · rw [preluForward_eq]
    norm_num [PreluState.chan, size, sizeFrom, cStrides]
  · intro s hs
    have : (s : ℝ) < 4 := by exact_mod_cast hs
    linarith

end Verif.Act
