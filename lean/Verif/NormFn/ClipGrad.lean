import Verif.NormFn.Bcast
/-
F.clip_grad_by_value, F.clip_grad_by_norm: model /repo/src/nbla/function/generic/{clip_grad_by_value,clip_grad_by_norm}.cpp.
Simplifications: exact reals; for clip_grad_by_norm a zero group gradient gives 0/0 in the code: the theorems require a
non-zero one.
-/
namespace Verif.NormFn
open Verif.Fn Verif.ND Verif.Elem

/-! ### Model -/

/-- ClipGradByValue::setup_impl (clip_grad_by_value.cpp:27-47): the "checks" only test that numbers are not zero; the loop
runs over the axes of x, beyond the end of a shorter shape it reads out of bounds. -/
def cvSetup (s0 s1 s2 : Shape) : Except String Shape :=
  if ¬ (s0.length ≠ 0 ∧ s1.length ≠ 0 ∧ s2.length ≠ 0) then .error "value: Dimensions differ"
  else if s1.length < s0.length ∨ s2.length < s0.length then .error "undefined behaviour"
  else if ∃ i ∈ List.range s0.length, ¬ (s0.getD i 0 ≠ 0 ∧ s1.getD i 0 ≠ 0 ∧ s2.getD i 0 ≠ 0) then .error "value: Size differs"
  else .ok s0

/-- forward_impl of both functions (clip_grad_by_value.cpp:49-57, clip_grad_by_norm.cpp:47-55). -/
def copyForward {R} (n : Nat) (x y : Mem R) : Mem R := (List.range n).foldl (fun m i => put m i (x i)) y

open Classical in
/-- clip_grad_by_value_backward_cpu (clip_grad_by_value.cpp:59-80). -/
noncomputable def cvDx (n : Nat) (lo hi : Mem ℝ) (accum : Bool) (dy dx : Mem ℝ) : Mem ℝ :=
  (List.range n).foldl (fun m i =>
    let v := if dy i > hi i then hi i else if dy i < lo i then lo i else dy i
    put m i ((if accum then m i else 0) + v)) dx

/-- ClipGradByValue::backward_impl (clip_grad_by_value.cpp:82-113): gradients of x, min and max; `p`, `a` are propagate_down and
accum of the three inputs, n, n1, n2 their sizes. -/
noncomputable def cvBackward (n n1 n2 : Nat) (lo hi : Mem ℝ) (p a : Bool × Bool × Bool) (dy dx dlo dhi : Mem ℝ) : Mem ℝ × Mem ℝ × Mem ℝ :=
  if ¬ p.1 then (dx, dlo, dhi)
  else (cvDx n lo hi a.1 dy dx, if p.2.1 && !a.2.1 then fun k => if k < n1 then 0 else dlo k else dlo,
    if p.2.2 && !a.2.2 then fun k => if k < n2 then 0 else dhi k else dhi)

/-- Contents of the four intermediate buffers and of the transposed input of Sum. -/
structure CnFresh where
  v0 : Mem ℝ
  v1 : Mem ℝ
  v2 : Mem ℝ
  v3 : Mem ℝ
  buf : Mem ℝ

/-- ClipGradByNorm::setup_impl and backward_impl (clip_grad_by_norm.cpp:32-45, 75-122): square, sum over the axes keeping
dimensions, broadcast back, divide by the root. -/
noncomputable def cnBackward (norm : ℝ) (axes : List Int) (s : Shape) (t : CnFresh) (accum : Bool) (dy dx : Mem ℝ) : Except String (Mem ℝ) :=
  let v0 := copyForward (prod s) dy t.v0
  let v1 := unaryForward (Unary.powScalar 2).forward (prod s) v0 t.v1
  match reduceSetup (reduceNew axes true) s with
  | .error e => .error e
  | .ok (so, rsh) =>
    match reduceForward sumRow so s v1 t.buf t.v2 with
    | .error e => .error e
    | .ok v2 =>
      match bcForward rsh s v2 t.v3 with
      | .error e => .error e
      | .ok m => .ok ((List.range (prod s)).foldl (fun d i => put d i ((if accum then d i else 0) + norm * dy i / √(m i))) dx)

/-! ### Lemmas -/

theorem fold_put_old {R} (g : Nat → R → R) (n : Nat) (y : Mem R) (i : Nat) :
    (List.range n).foldl (fun m s => put m s (g s (m s))) y i = if i < n then g i (y i) else y i := by
  induction n generalizing i with
  | zero => simp
  | succ n ih =>
    rw [List.range_succ, List.foldl_append]
    simp only [List.foldl_cons, List.foldl_nil]
    by_cases e : i = n
    · subst e; rw [put_same, ih i]; simp
    · rw [put_other _ _ e, ih]
      by_cases h : i < n
      · simp [h, Nat.lt_succ_of_lt h]
      · have h' : ¬ i < n + 1 := by omega
        simp [h, h']

theorem copyForward_eq {R} (n : Nat) (x y : Mem R) (i : Nat) : copyForward n x y i = if i < n then x i else y i :=
  fold_put_old (fun s _ => x s) n y i

/-! ### C168: clip_grad_by_value -/

/-- **C168 (partial: the three shapes are equal).** clip_grad_by_value leaves the values alone and clips each element of the
gradient to [min, max]; it is added to the old gradient when accumulating; min and max get no gradient: theirs is set to zero
if it is asked for without accumulation. What is missing is that other shapes are rejected, which is false. -/
theorem C168_by_value_partial (s : Shape) (hne : s ≠ []) (hpos : 0 < prod s) (lo hi : Mem ℝ) :
    cvSetup s s s = .ok s ∧
    (∀ (x y : Mem ℝ) k, copyForward (prod s) x y k = if k < prod s then x k else y k) ∧
    (∀ p a dy dx dlo dhi, cvBackward (prod s) (prod s) (prod s) lo hi (false, p) a dy dx dlo dhi = (dx, dlo, dhi)) ∧
    ∀ p a dy dx dlo dhi, ∃ rx rlo rhi, cvBackward (prod s) (prod s) (prod s) lo hi (true, p) a dy dx dlo dhi = (rx, rlo, rhi) ∧
      (∀ k, k < prod s → lo k ≤ hi k → rx k = (if a.1 then dx k else 0) + max (lo k) (min (hi k) (dy k))) ∧
      (∀ k, prod s ≤ k → rx k = dx k ∧ rlo k = dlo k ∧ rhi k = dhi k) ∧
      ∀ k, k < prod s → rlo k = (if p.1 && !a.2.1 then 0 else dlo k) ∧ rhi k = (if p.2 && !a.2.2 then 0 else dhi k) := by
  refine ⟨?_, fun x y k => copyForward_eq _ _ _ _, fun p a dy dx dlo dhi => rfl, ?_⟩
  · have hl : s.length ≠ 0 := by simpa using hne
    rw [cvSetup, if_neg (by simp [hl]), if_neg (by omega), if_neg]
    rintro ⟨i, hi', h⟩
    have := getD_pos s hpos i (List.mem_range.mp hi')
    exact h ⟨by omega, by omega, by omega⟩
  · intro p a dy dx dlo dhi
    have hv : ∀ k, cvDx (prod s) lo hi a.1 dy dx k = if k < prod s then (if a.1 then dx k else 0) +
        (if dy k > hi k then hi k else if dy k < lo k then lo k else dy k) else dx k := by
      intro k
      classical
      have := fold_put_old (fun i o => (if a.1 then o else 0) + (if dy i > hi i then hi i else if dy i < lo i then lo i else dy i)) (prod s) dx k
      unfold cvDx
      convert this using 2
    refine ⟨_, _, _, rfl, ?_, ?_, ?_⟩
    · intro k hk hle
      rw [hv k, if_pos hk]
      congr 1
      by_cases h1 : dy k > hi k
      · rw [if_pos h1, min_eq_left h1.le, max_eq_right hle]
      · rw [if_neg h1, min_eq_right (not_lt.mp h1)]
        by_cases h2 : dy k < lo k
        · rw [if_pos h2, max_eq_left h2.le]
        · rw [if_neg h2, max_eq_right (not_lt.mp h2)]
    · intro k hk
      have hk' : ¬ k < prod s := by omega
      refine ⟨by rw [hv k, if_neg hk'], ?_, ?_⟩ <;> (simp only []; split <;> simp [hk'])
    · intro k hk
      constructor <;> (simp only []; split <;> simp [hk])

/-- **C168, refuted part.** min and max of another shape than x are accepted, although the documentation demands the same shape
and the error message speaks of differing sizes; backward then reads beyond their ends: two arrays `min` with the same single
element give different gradients. -/
theorem C168_shapes_refuted : cvSetup [2] [1] [1] = .ok [2] ∧
    ∃ lo lo' : Mem ℝ, (∀ k, k < prod [1] → lo k = lo' k) ∧
      (cvBackward 2 1 1 lo (fun _ => 1) (true, false, false) (false, false, false) (fun _ => 0) (fun _ => 0) (fun _ => 0) (fun _ => 0)).1 1 ≠
      (cvBackward 2 1 1 lo' (fun _ => 1) (true, false, false) (false, false, false) (fun _ => 0) (fun _ => 0) (fun _ => 0) (fun _ => 0)).1 1 := by
  refine ⟨by decide, fun _ => 0, fun k => if k = 0 then 0 else 1 / 2, ?_, ?_⟩
  · intro k hk
    have : k = 0 := by simp [prod] at hk; exact hk
    simp [this]
  · have hv : ∀ lo : Mem ℝ, (cvBackward 2 1 1 lo (fun _ => 1) (true, false, false) (false, false, false) (fun _ => 0) (fun _ => 0) (fun _ => 0) (fun _ => 0)).1 1 =
        if (0 : ℝ) < lo 1 then lo 1 else 0 := by
      intro lo
      show cvDx 2 lo (fun _ => 1) false (fun _ => 0) (fun _ => 0) 1 = _
      have e : ¬ ((0 : ℝ) > 1) := by norm_num
      simp [cvDx, List.range_succ, put, e]
    rw [hv, hv]
    norm_num

/-! ### C168: clip_grad_by_norm -/

theorem keep_canBroadcast (red : List Nat) (s : Shape) : CanBroadcast (outShape true red s) s := by
  refine ⟨by rw [outShape_keep_length], ?_⟩
  intro a e t he ht
  rw [outShape_keep_length, Nat.sub_self, Nat.zero_add] at ht
  have ha : a < s.length := by
    by_contra h
    rw [List.getElem?_eq_none (by omega)] at ht
    cases ht
  have h := outShape_keep_getD red s a ha
  rw [List.getD_eq_getElem?_getD, he, List.getD_eq_getElem?_getD, ht] at h
  simp only [Option.getD_some] at h
  by_cases hr : a ∈ red
  · right; rw [h, if_pos hr]
  · left; rw [h, if_neg hr]

theorem keep_bcIndex (red : List Nat) (s : Shape) (j : List Nat) (hj : InBounds s j) :
    bcIndex (outShape true red s) s j = outIndex true red s.length j := by
  rw [← keep_bcast red s j hj]
  have hl : (outShape true red s).length = j.length := by rw [outShape_keep_length, hj.length]
  have e : s.length - (outShape true red s).length = 0 := by rw [outShape_keep_length]; omega
  rw [bcIndex, e, List.drop_zero]
  generalize outShape true red s = q at hl
  clear e hj
  induction q generalizing j with
  | nil => cases j <;> rfl
  | cons d q ih =>
    match j, hl with
    | k :: j, hl =>
      simp only [List.zip_cons_cons, List.map_cons, bcast]
      rw [ih j (by simpa using hl)]

/-- **C168 (clip_grad_by_norm).** Forward leaves the values alone. Backward multiplies the gradient of each group (the elements
that differ only in the reduced axes) by clip_norm over its Euclidean norm, so that the norm of each group with a non-zero
gradient becomes exactly |clip_norm| (also if it was smaller before); it is added to the old gradient when accumulating. -/
theorem C168_by_norm (norm : ℝ) (axes : List Int) (s : Shape) (hr : ∀ a ∈ axes, -(s.length : Int) ≤ a ∧ a < s.length)
    (hnd : axes.Nodup) (hsign : (∀ a ∈ axes, 0 ≤ a) ∨ ∀ a ∈ axes, a < 0) (hpos : 0 < prod s) (t : CnFresh) (dy : Mem ℝ) :
    ∃ red : List Nat, (∀ a : Nat, a ∈ red ↔ ((a : Int) ∈ axes ∨ (a : Int) - s.length ∈ axes) ∧ a < s.length) ∧
    ∃ g : Mem ℝ,
      (∀ accum dx, ∃ r, cnBackward norm axes s t accum dy dx = .ok r ∧ (∀ k, k < prod s → r k = (if accum then dx k else 0) + g k) ∧
        ∀ k, prod s ≤ k → r k = dx k) ∧
      (∀ i, InBounds s i → g (ravel s i) = norm * dy (ravel s i) / √((fiber red s i).map fun i' => dy (ravel s i') ^ 2).sum) ∧
      ∀ i, InBounds s i → (∃ i' ∈ fiber red s i, dy (ravel s i') ≠ 0) → √((fiber red s i).map fun i' => g (ravel s i') ^ 2).sum = |norm| := by
  obtain ⟨red, hs, hhi, hmem, hset⟩ := C85_setup_partial axes true s hr hnd hsign
  refine ⟨red, hmem, ?_⟩
  obtain ⟨S, hS, _, hSv, _⟩ := sum_facts true red s hs hhi hpos t.buf t.v2
  set v1 := unaryForward (Unary.powScalar 2).forward (prod s) (copyForward (prod s) dy t.v0) t.v1 with hv1
  have hv1' : ∀ k, k < prod s → v1 k = dy k ^ 2 := by
    intro k hk
    simp only [hv1, unaryForward_eq, if_pos hk, powScalar_forward, copyForward_eq]
    exact_mod_cast Real.rpow_natCast (dy k) 2
  obtain ⟨m, hm, hmv, _⟩ := (C73_broadcast (outShape true red s) s).2 (S v1) t.v3 (keep_canBroadcast red s)
  have hmv' : ∀ i, InBounds s i → m (ravel s i) = ((fiber red s i).map fun i' => dy (ravel s i') ^ 2).sum := by
    intro i hi
    rw [hmv i hi, keep_bcIndex red s i hi, hSv v1 i hi]
    congr 1
    apply List.map_congr_left
    intro i' hi'
    exact hv1' _ (ravel_lt (fiber_inBounds hi'))
  have hgv : ∀ i, InBounds s i → (fun k => norm * dy k / √(m k)) (ravel s i) =
      norm * dy (ravel s i) / √((fiber red s i).map fun i' => dy (ravel s i') ^ 2).sum := by
    intro i hi
    simp only []
    rw [hmv' i hi]
  refine ⟨fun k => norm * dy k / √(m k), ?_, hgv, ?_⟩
  · intro accum dx
    refine ⟨(List.range (prod s)).foldl (fun d i => put d i ((if accum then d i else 0) + norm * dy i / √(m i))) dx, ?_, ?_, ?_⟩
    · rw [cnBackward]
      simp only [hset]
      rw [hS]
      simp only []
      rw [hm]
    · intro k hk
      rw [fold_put_old (fun i o => (if accum then o else 0) + norm * dy i / √(m i)) (prod s) dx k, if_pos hk]
    · intro k hk
      rw [fold_put_old (fun i o => (if accum then o else 0) + norm * dy i / √(m i)) (prod s) dx k, if_neg (by omega)]
  · intro i hi ⟨i', hi', hne⟩
    set q := ((fiber red s i).map fun i' => dy (ravel s i') ^ 2).sum with hq
    have hfib : ∀ j ∈ fiber red s i, fiber red s j = fiber red s i := by
      intro j hj
      simp only [fiber, List.mem_filter, decide_eq_true_eq] at hj
      simp only [fiber, hj.2]
    have hnn : ∀ z ∈ (fiber red s i).map fun i' => dy (ravel s i') ^ 2, 0 ≤ z := by
      intro z hz
      obtain ⟨_, _, rfl⟩ := List.mem_map.mp hz
      positivity
    have hqpos : 0 < q := lt_of_lt_of_le (show 0 < dy (ravel s i') ^ 2 by positivity) (List.single_le_sum hnn _ (List.mem_map.mpr ⟨i', hi', rfl⟩))
    have e : ((fiber red s i).map fun j => (fun k => norm * dy k / √(m k)) (ravel s j) ^ 2) =
        ((fiber red s i).map fun j => norm ^ 2 / q * dy (ravel s j) ^ 2) := by
      apply List.map_congr_left
      intro j hj
      rw [hgv j (fiber_inBounds hj), hfib j hj, ← hq, div_pow, Real.sq_sqrt hqpos.le]
      ring
    rw [e, List.sum_map_mul_left, ← hq, div_mul_cancel₀ _ hqpos.ne', Real.sqrt_sq_eq_abs]

/-- Non-vacuity. -/
example : (∀ a ∈ ([1] : List Int), -(2 : Int) ≤ a ∧ a < 2) ∧ ∃ i' ∈ fiber [1] [2, 2] [0, 0], (fun k => if k = 1 then (3 : ℝ) else 0) (ravel [2, 2] i') ≠ 0 := by
  refine ⟨by simp, [0, 1], by decide, ?_⟩
  have : ravel [2, 2] [0, 1] = 1 := by decide
  simp [this]

end Verif.NormFn
