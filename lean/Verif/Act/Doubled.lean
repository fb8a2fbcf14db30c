import Verif.Act.PRelu
import Verif.Elem.Bilinear
import Verif.Elem.ConvLoops
/-
CReLU and CELU: model /repo/src/nbla/function/generic/{crelu,celu}.cpp, over the real numbers; `int` is unbounded. Both
double one axis: the first half holds a function of x, the second half another one.
An input without elements from the axis on makes setup_impl divide by zero: the model rejects.
-/
namespace Verif.Act
open Verif.ND Verif.Fn Verif.Elem

/-! ### Model -/

/-- What setup_impl leaves behind: the output shape, size0_ (elements from the axis on), size1_. -/
structure DblState where
  out : Shape
  n0 : Nat
  n1 : Nat

/-- CReLU::setup_impl (crelu.cpp:28-42) and CELU::setup_impl (celu.cpp:29-39). -/
def dblSetup (axis : Int) (ish : Shape) : Except String DblState :=
  match refineAxis axis ish.length with
  | .error e => .error e
  | .ok a =>
    if sizeFrom ish a = 0 then .error "division by zero"
    else if sizeFrom ish a * (size ish / sizeFrom ish a) = size ish then
      .ok ⟨ish.set a (ish.getD a 0 * 2), sizeFrom ish a, size ish / sizeFrom ish a⟩
    else .error "unclassified: An error occurred during setup."

/-- Assignments in order. -/
def puts {R} (l : List (Nat × R)) (y : Mem R) : Mem R := l.foldl (fun m p => put m p.1 p.2) y

/-- CReLU::forward_impl (crelu.cpp:44-55): `std::max(T(0), x)` and `std::max(T(0), -1 * x)`. -/
noncomputable def creluForward (st : DblState) (x y : Mem ℝ) : Mem ℝ :=
  puts ((List.range st.n1).flatMap fun i1 => (List.range st.n0).flatMap fun i0 =>
    [(i1 * st.n0 * 2 + i0, max 0 (x (i1 * st.n0 + i0))),
     (i1 * st.n0 * 2 + st.n0 + i0, max 0 (-1 * x (i1 * st.n0 + i0)))]) y

open Classical in
/-- CReLU::backward_impl (crelu.cpp:57-76). -/
noncomputable def creluBackward (st : DblState) (x : Mem ℝ) (accum : Bool) (dy dx : Mem ℝ) : Mem ℝ :=
  forMat st.n1 st.n0 (fun i1 i0 => i1 * st.n0 + i0)
    (fun i1 i0 old => if x (i1 * st.n0 + i0) > 0 then (if accum then old else 0) + dy (i1 * st.n0 * 2 + i0)
      else (if accum then old else 0) - dy (i1 * st.n0 * 2 + st.n0 + i0)) dx

open Classical in
/-- CELU::forward_impl (celu.cpp:41-53). -/
noncomputable def celuForward (α : ℝ) (st : DblState) (x y : Mem ℝ) : Mem ℝ :=
  puts ((List.range st.n1).flatMap fun i1 => (List.range st.n0).flatMap fun i0 =>
    let j0 := i1 * st.n0 * 2 + i0
    let xk := x (i1 * st.n0 + i0)
    [(j0, if 0 ≤ xk then xk else α * (Real.exp xk - 1)), (j0 + st.n0, if xk ≤ 0 then -xk else α * (Real.exp (-xk) - 1))]) y

open Classical in
/-- CELU::backward_impl (celu.cpp:55-79). -/
noncomputable def celuBackward (α : ℝ) (st : DblState) (x : Mem ℝ) (accum : Bool) (dy dx : Mem ℝ) : Mem ℝ :=
  forMat st.n1 st.n0 (fun i1 i0 => i1 * st.n0 + i0)
    (fun i1 i0 old =>
      let j0 := i1 * st.n0 * 2 + i0
      let j1 := j0 + st.n0
      let xk := x (i1 * st.n0 + i0)
      let d := (if 0 ≤ xk then dy j0 else dy j0 * α * Real.exp xk) - (if xk ≤ 0 then dy j1 else dy j1 * α * Real.exp (-xk))
      (if accum then old else 0) + d) dx

/-! ### Lemmas -/

theorem puts_spec {R} (l : List (Nat × R)) (y : Mem R) :
    ((∀ p ∈ l, ∀ q ∈ l, p.1 = q.1 → p.2 = q.2) → ∀ p ∈ l, puts l y p.1 = p.2) ∧
    ∀ k, (∀ p ∈ l, p.1 ≠ k) → puts l y k = y k := by
  have hout : ∀ (l : List (Nat × R)) (y : Mem R) k, (∀ p ∈ l, p.1 ≠ k) → puts l y k = y k := by
    intro l
    induction l with
    | nil => intro y k _; rfl
    | cons q l ih =>
      intro y k h
      show puts l (put y q.1 q.2) k = y k
      rw [ih _ k (fun p hp => h p (List.mem_cons_of_mem _ hp)), put_other _ _ (Ne.symm (h q List.mem_cons_self))]
  refine ⟨?_, hout l y⟩
  induction l generalizing y with
  | nil => intro _ p hp; cases hp
  | cons q l ih =>
    intro hf p hp
    show puts l (put y q.1 q.2) p.1 = p.2
    by_cases hm : ∃ r ∈ l, r.1 = p.1
    · obtain ⟨r, hr, e⟩ := hm
      have h1 := ih (put y q.1 q.2) (fun a ha b hb => hf a (List.mem_cons_of_mem _ ha) b (List.mem_cons_of_mem _ hb)) r hr
      rw [← e, h1]
      exact hf r (List.mem_cons_of_mem _ hr) p hp e
    · push Not at hm
      rw [hout l _ p.1 hm]
      rcases List.mem_cons.mp hp with h | h
      · subst h; simp
      · exact absurd rfl (hm p h)

/-- Two interleaved blocks of assignments. -/
theorem dbl_forward (n0 n1 : Nat) (f g : Nat → ℝ) (y : Mem ℝ) (l : List (Nat × ℝ))
    (hl : l = (List.range n1).flatMap fun i1 => (List.range n0).flatMap fun i0 =>
      [(i1 * (n0 * 2) + i0, f (i1 * n0 + i0)), (i1 * (n0 * 2) + (n0 + i0), g (i1 * n0 + i0))]) :
    (∀ i1 i0, i1 < n1 → i0 < n0 → puts l y (i1 * (n0 * 2) + i0) = f (i1 * n0 + i0) ∧
      puts l y (i1 * (n0 * 2) + (n0 + i0)) = g (i1 * n0 + i0)) ∧
    ∀ k, n1 * (n0 * 2) ≤ k → puts l y k = y k := by
  have hmem : ∀ p : Nat × ℝ, p ∈ l ↔ ∃ i1 i0, i1 < n1 ∧ i0 < n0 ∧
      (p = (i1 * (n0 * 2) + i0, f (i1 * n0 + i0)) ∨ p = (i1 * (n0 * 2) + (n0 + i0), g (i1 * n0 + i0))) := by
    intro p
    rw [hl]
    simp only [List.mem_flatMap, List.mem_range, List.mem_cons, List.not_mem_nil, or_false]
    constructor
    · rintro ⟨i1, h1, i0, h0, h⟩; exact ⟨i1, i0, h1, h0, h⟩
    · rintro ⟨i1, i0, h1, h0, h⟩; exact ⟨i1, h1, i0, h0, h⟩
  obtain ⟨s1, s2⟩ := puts_spec l y
  have hfun : ∀ p ∈ l, ∀ q ∈ l, p.1 = q.1 → p.2 = q.2 := by
    intro p hp q hq e
    obtain ⟨i1, i0, h1, h0, hp⟩ := (hmem p).mp hp
    obtain ⟨j1, j0, k1, k0, hq⟩ := (hmem q).mp hq
    have key : ∀ a b, a < n0 * 2 → b < n0 * 2 → i1 * (n0 * 2) + a = j1 * (n0 * 2) + b → i1 = j1 ∧ a = b :=
      fun a b ha hb e => divmod_unique (n0 * 2) i1 j1 a b ha hb e
    rcases hp with rfl | rfl <;> rcases hq with rfl | rfl
    · obtain ⟨rfl, rfl⟩ := key _ _ (by omega) (by omega) e; rfl
    · obtain ⟨rfl, h⟩ := key _ _ (by omega) (by omega) e; omega
    · obtain ⟨rfl, h⟩ := key _ _ (by omega) (by omega) e; omega
    · obtain ⟨rfl, h⟩ := key _ _ (by omega) (by omega) e
      have : i0 = j0 := by omega
      subst this; rfl
  refine ⟨?_, ?_⟩
  · intro i1 i0 h1 h0
    exact ⟨s1 hfun _ ((hmem _).mpr ⟨i1, i0, h1, h0, Or.inl rfl⟩), s1 hfun _ ((hmem _).mpr ⟨i1, i0, h1, h0, Or.inr rfl⟩)⟩
  · intro k hk
    apply s2
    intro p hp e
    obtain ⟨i1, i0, h1, h0, hp⟩ := (hmem p).mp hp
    have a1 := row_lt (P := n1) (Q := n0 * 2) (i := i1) (j := i0) h1 (by omega)
    have a2 := row_lt (P := n1) (Q := n0 * 2) (i := i1) (j := n0 + i0) h1 (by omega)
    rcases hp with rfl | rfl
    · have e : i1 * (n0 * 2) + i0 = k := e; omega
    · have e : i1 * (n0 * 2) + (n0 + i0) = k := e; omega

/-- The gradient of a function that doubles an axis. -/
theorem dbl_vjp (n0 n1 : Nat) (F B : Mem ℝ → Mem ℝ) (f g : ℝ → ℝ) (p q : ℝ → ℝ) (x : Mem ℝ)
    (hF : ∀ x i1 i0, i1 < n1 → i0 < n0 → F x (i1 * (n0 * 2) + i0) = f (x (i1 * n0 + i0)) ∧ F x (i1 * (n0 * 2) + (n0 + i0)) = g (x (i1 * n0 + i0)))
    (hB : ∀ dy i1 i0, i1 < n1 → i0 < n0 → B dy (i1 * n0 + i0) =
      dy (i1 * (n0 * 2) + i0) * p (x (i1 * n0 + i0)) + dy (i1 * (n0 * 2) + (n0 + i0)) * q (x (i1 * n0 + i0)))
    (hd : ∀ s, s < n1 * n0 → HasDerivAt f (p (x s)) (x s) ∧ HasDerivAt g (q (x s)) (x s)) :
    IsVJP (n1 * n0) (n1 * (n0 * 2)) F x B := by
  intro c v hc dy
  have hsum : ∀ z : Mem ℝ, dot (n1 * (n0 * 2)) dy z = ∑ i1 ∈ Finset.range n1, ∑ i0 ∈ Finset.range n0,
      (dy (i1 * (n0 * 2) + i0) * z (i1 * (n0 * 2) + i0) + dy (i1 * (n0 * 2) + (n0 + i0)) * z (i1 * (n0 * 2) + (n0 + i0))) := by
    intro z
    unfold dot
    rw [sum_range_mul]
    refine Finset.sum_congr rfl fun i1 _ => ?_
    rw [Nat.mul_two, Finset.sum_range_add, ← Finset.sum_add_distrib]
  have e1 : (fun t => dot (n1 * (n0 * 2)) dy (F (c t))) = fun t => ∑ i1 ∈ Finset.range n1, ∑ i0 ∈ Finset.range n0,
      (dy (i1 * (n0 * 2) + i0) * f (c t (i1 * n0 + i0)) + dy (i1 * (n0 * 2) + (n0 + i0)) * g (c t (i1 * n0 + i0))) := by
    funext t
    rw [hsum]
    refine Finset.sum_congr rfl fun i1 h1 => Finset.sum_congr rfl fun i0 h0 => ?_
    have := hF (c t) i1 i0 (Finset.mem_range.mp h1) (Finset.mem_range.mp h0)
    rw [this.1, this.2]
  have e2 : dot (n1 * n0) v (B dy) = ∑ i1 ∈ Finset.range n1, ∑ i0 ∈ Finset.range n0,
      (dy (i1 * (n0 * 2) + i0) * (p (x (i1 * n0 + i0)) * v (i1 * n0 + i0)) +
        dy (i1 * (n0 * 2) + (n0 + i0)) * (q (x (i1 * n0 + i0)) * v (i1 * n0 + i0))) := by
    unfold dot
    rw [sum_range_mul]
    refine Finset.sum_congr rfl fun i1 h1 => Finset.sum_congr rfl fun i0 h0 => ?_
    rw [hB dy i1 i0 (Finset.mem_range.mp h1) (Finset.mem_range.mp h0)]; ring
  rw [e1, e2]
  refine HasDerivAt.fun_sum fun i1 h1 => HasDerivAt.fun_sum fun i0 h0 => ?_
  have hs := row_lt (Finset.mem_range.mp h1) (Finset.mem_range.mp h0)
  obtain ⟨c0, cd⟩ := hc _ hs
  obtain ⟨d1, d2⟩ := hd _ hs
  rw [← c0] at d1 d2 ⊢
  exact ((d1.comp 0 cd).const_mul _).add ((d2.comp 0 cd).const_mul _)

theorem dblSetup_ok (A B : Shape) (d : Nat) (axis : Int)
    (haxis : axis = A.length ∨ axis = (A.length : Int) - (A.length + 1 + B.length)) (hpos : 0 < d * prod B) :
    dblSetup axis (A ++ d :: B) = .ok ⟨A ++ (d * 2) :: B, d * prod B, prod A⟩ := by
  rw [dblSetup, refineAxis_ok A.length (A ++ d :: B).length (by simp) axis (by
    rcases haxis with h | h
    · exact Or.inl h
    · right; rw [h]; simp; omega)]
  have h1 : sizeFrom (A ++ d :: B) A.length = d * prod B := by rw [sizeFrom_eq, drop_mid]; rfl
  have h2 : size (A ++ d :: B) = prod A * (d * prod B) := by rw [size_eq, prod_append']; rfl
  simp only [h1, h2]
  rw [if_neg (by omega), Nat.mul_div_cancel _ hpos, if_pos (Nat.mul_comm _ _), getD_mid]
  simp
where
  prod_append' (A B : Shape) : prod (A ++ B) = prod A * prod B := by
    induction A with
    | nil => simp [prod]
    | cons a A ih => simp only [List.cons_append, prod, ih, Nat.mul_assoc]

/-! ### Specification -/

/-- The result of doubling axis `A.length` of an array of shape A, d, B: index c of the new axis holds `f` of element c for
c < d and `g` of element c - d otherwise. -/
def Doubles (A B : Shape) (d : Nat) (f g : ℝ → ℝ) (x y : Mem ℝ) : Prop :=
  ∀ a c b, InBounds A a → c < d → InBounds B b →
    y (ravel (A ++ (d * 2) :: B) (a ++ c :: b)) = f (x (ravel (A ++ d :: B) (a ++ c :: b))) ∧
    y (ravel (A ++ (d * 2) :: B) (a ++ (d + c) :: b)) = g (x (ravel (A ++ d :: B) (a ++ c :: b)))

theorem doubles_of_flat (A B : Shape) (d : Nat) (f g : ℝ → ℝ) (x y : Mem ℝ)
    (h : ∀ i1 i0, i1 < prod A → i0 < d * prod B → y (i1 * (d * prod B * 2) + i0) = f (x (i1 * (d * prod B) + i0)) ∧
      y (i1 * (d * prod B * 2) + (d * prod B + i0)) = g (x (i1 * (d * prod B) + i0))) : Doubles A B d f g x y := by
  intro a c b ha hc hb
  have la : a.length = A.length := ((inBounds_iff _ _).mp ha).1
  have := h (ravel A a) (c * prod B + ravel B b) (ravel_lt ha) (row_lt hc (ravel_lt hb))
  rw [ravel_append A ((d * 2) :: B) a (c :: b) la, ravel_append A ((d * 2) :: B) a ((d + c) :: b) la, ravel_append A (d :: B) a (c :: b) la]
  simp only [prod, ravel]
  rw [← this.1, ← this.2]
  refine ⟨by congr 1; ring, by congr 1; ring⟩

theorem prod_mid (A B : Shape) (d : Nat) : prod (A ++ d :: B) = prod A * (d * prod B) := by
  rw [dblSetup_ok.prod_append']; rfl

/-! ### C167 -/

theorem celu_derivs (α x : ℝ) (h : x ≠ 0 ∨ α = 1) :
    HasDerivAt (fun x : ℝ => if 0 ≤ x then x else α * (Real.exp x - 1)) (if 0 ≤ x then 1 else α * Real.exp x) x := by
  have he : HasDerivAt (fun x : ℝ => α * (Real.exp x - 1)) (α * Real.exp x) x := ((Real.hasDerivAt_exp x).sub_const 1).const_mul α
  rcases lt_trichotomy x 0 with hx | hx | hx
  · rw [if_neg (not_le.mpr hx)]
    refine he.congr_of_eventuallyEq ?_
    filter_upwards [eventually_lt_nhds hx] with t ht
    rw [if_neg (not_le.mpr ht)]
  · subst hx
    have hα : α = 1 := by simpa using h
    subst hα
    rw [if_pos le_rfl]
    have hl : HasDerivWithinAt (fun x : ℝ => if 0 ≤ x then x else 1 * (Real.exp x - 1)) 1 (Set.Iic 0) 0 := by
      have : HasDerivWithinAt (fun x : ℝ => 1 * (Real.exp x - 1)) 1 (Set.Iic 0) 0 := by simpa using he.hasDerivWithinAt (s := Set.Iic 0)
      refine this.congr (fun t ht => ?_) (by simp)
      have ht : t ≤ 0 := ht
      rcases eq_or_lt_of_le ht with h0 | h0
      · subst h0; simp
      · rw [if_neg (not_le.mpr h0)]
    have hr : HasDerivWithinAt (fun x : ℝ => if 0 ≤ x then x else 1 * (Real.exp x - 1)) 1 (Set.Ici 0) 0 := by
      refine (hasDerivAt_id (0 : ℝ)).hasDerivWithinAt.congr (fun t ht => ?_) (by simp)
      have ht : 0 ≤ t := ht
      rw [if_pos ht]; rfl
    have hu := hl.union hr
    rw [Set.Iic_union_Ici] at hu
    exact hasDerivWithinAt_univ.mp hu
  · rw [if_pos hx.le]
    refine (hasDerivAt_id x).congr_of_eventuallyEq ?_
    filter_upwards [eventually_gt_nhds hx] with t ht
    rw [if_pos ht.le]; rfl

theorem celu_derivs' (α x : ℝ) (h : x ≠ 0 ∨ α = 1) :
    HasDerivAt (fun x : ℝ => if x ≤ 0 then -x else α * (Real.exp (-x) - 1)) (-(if x ≤ 0 then 1 else α * Real.exp (-x))) x := by
  have h1 := celu_derivs α (-x) (by rcases h with h | h; exact Or.inl (neg_ne_zero.mpr h); exact Or.inr h)
  have h2 := h1.comp x (hasDerivAt_neg x)
  have e1 : (fun x : ℝ => if x ≤ 0 then -x else α * (Real.exp (-x) - 1)) =
      (fun x : ℝ => if 0 ≤ x then x else α * (Real.exp x - 1)) ∘ fun x => -x := by
    funext t; simp only [Function.comp, Left.nonneg_neg_iff]
  rw [e1]
  refine h2.congr_deriv ?_
  simp only [Left.nonneg_neg_iff]; ring

theorem relu_derivs (x : ℝ) (h : x ≠ 0) : HasDerivAt (fun x : ℝ => max 0 x) (if x > 0 then 1 else 0) x ∧
    HasDerivAt (fun x : ℝ => max 0 (-1 * x)) (-(if x > 0 then 0 else 1)) x := by
  rcases lt_or_gt_of_ne h with hx | hx
  · rw [if_neg (not_lt.mpr hx.le), if_neg (not_lt.mpr hx.le)]
    refine ⟨(hasDerivAt_const x (0 : ℝ)).congr_of_eventuallyEq ?_, (hasDerivAt_neg x).congr_of_eventuallyEq ?_⟩
    · filter_upwards [eventually_lt_nhds hx] with t ht
      exact max_eq_left ht.le
    · filter_upwards [eventually_lt_nhds hx] with t ht
      rw [max_eq_right (by linarith)]; ring
  · rw [if_pos hx, if_pos hx, neg_zero]
    refine ⟨(hasDerivAt_id x).congr_of_eventuallyEq ?_, (hasDerivAt_const x (0 : ℝ)).congr_of_eventuallyEq ?_⟩
    · filter_upwards [eventually_gt_nhds hx] with t ht
      rw [max_eq_right ht.le]; rfl
    · filter_upwards [eventually_gt_nhds hx] with t ht
      exact max_eq_left (by linarith)

theorem grad_facts (n0 n1 : Nat) (val : Nat → Nat → ℝ → ℝ) (dx : Mem ℝ) :
    (∀ i1 i0, i1 < n1 → i0 < n0 → forMat n1 n0 (fun i1 i0 => i1 * n0 + i0) val dx (i1 * n0 + i0) = val i1 i0 (dx (i1 * n0 + i0))) ∧
    ∀ k, n1 * n0 ≤ k → forMat n1 n0 (fun i1 i0 => i1 * n0 + i0) val dx k = dx k := by
  obtain ⟨h1, h2⟩ := forMat_spec n1 n0 (fun i1 i0 => i1 * n0 + i0) val dx
    (fun i j i' j' _ hj _ hj' e => divmod_unique n0 i i' j j' hj hj' e)
  refine ⟨h1, fun k hk => h2 k fun i j hi hj e => ?_⟩
  have := row_lt hi hj
  omega

/-- **C167 (CReLU).** CReLU doubles the given axis: first half max(0, x), second half max(0, -x); backward computes the gradient
wherever no input is 0; with accumulation it is added to the old one; nothing outside of the arrays is written. -/
theorem C167_crelu (A B : Shape) (d : Nat) (axis : Int) (haxis : axis = A.length ∨ axis = (A.length : Int) - (A.length + 1 + B.length))
    (hpos : 0 < d * prod B) (x y0 : Mem ℝ) :
    let n := prod (A ++ d :: B)
    ∃ st, dblSetup axis (A ++ d :: B) = .ok st ∧ st.out = A ++ (d * 2) :: B ∧
    Doubles A B d (fun x => max 0 x) (fun x => max 0 (-x)) x (creluForward st x y0) ∧
    ((∀ s, s < n → x s ≠ 0) → ∀ dx, IsVJP n (prod st.out) (fun x => creluForward st x y0) x (fun dy => creluBackward st x false dy dx)) ∧
    (∀ dy dx dx' s, s < n → creluBackward st x true dy dx s = dx s + creluBackward st x false dy dx' s) ∧
    (∀ k, prod st.out ≤ k → creluForward st x y0 k = y0 k) ∧ ∀ k, n ≤ k → ∀ acc dy dx, creluBackward st x acc dy dx k = dx k := by
  intro n
  have hn : n = prod A * (d * prod B) := prod_mid A B d
  have hout : prod (A ++ (d * 2) :: B) = prod A * (d * prod B * 2) := by rw [prod_mid]; ring
  have hF : ∀ x : Mem ℝ, _ := fun x => dbl_forward (d * prod B) (prod A) (fun s => max 0 (x s)) (fun s => max 0 (-1 * x s)) y0 _
    (by simp only [Nat.mul_assoc]; rfl)
  have hFe : ∀ x, creluForward ⟨A ++ (d * 2) :: B, d * prod B, prod A⟩ x y0 = puts _ y0 := fun x => by
    unfold creluForward; simp only [Nat.mul_assoc, Nat.add_assoc]; rfl
  have hB : ∀ acc dy dx, _ := fun acc (dy dx : Mem ℝ) => grad_facts (d * prod B) (prod A)
    (fun i1 i0 old => if x (i1 * (d * prod B) + i0) > 0 then (if acc = true then old else 0) + dy (i1 * (d * prod B) * 2 + i0)
      else (if acc = true then old else 0) - dy (i1 * (d * prod B) * 2 + d * prod B + i0)) dx
  have hBe : ∀ acc dy dx, creluBackward ⟨A ++ (d * 2) :: B, d * prod B, prod A⟩ x acc dy dx = forMat (prod A) (d * prod B) (fun i1 i0 => i1 * (d * prod B) + i0)
    (fun i1 i0 old => if x (i1 * (d * prod B) + i0) > 0 then (if acc = true then old else 0) + dy (i1 * (d * prod B) * 2 + i0)
      else (if acc = true then old else 0) - dy (i1 * (d * prod B) * 2 + d * prod B + i0)) dx := by
    intro acc dy dx
    unfold creluBackward
    congr 1
  refine ⟨_, dblSetup_ok A B d axis haxis hpos, rfl, ?_, ?_, ?_, ?_, ?_⟩
  · refine doubles_of_flat A B d _ _ x _ fun i1 i0 h1 h0 => ?_
    rw [hFe]
    have := (hF x).1 i1 i0 h1 h0
    simp only [neg_one_mul] at this ⊢
    exact this
  · intro hx dx
    show IsVJP n (prod (A ++ (d * 2) :: B)) _ _ _
    rw [hn, hout]
    refine dbl_vjp (d * prod B) (prod A) _ _ (fun x => max 0 x) (fun x => max 0 (-1 * x)) (fun x => if x > 0 then 1 else 0)
      (fun x => -(if x > 0 then 0 else 1)) x ?_ ?_ ?_
    · intro x i1 i0 h1 h0
      simp only [hFe]
      exact (hF x).1 i1 i0 h1 h0
    · intro dy i1 i0 h1 h0
      simp only [hBe]
      rw [(hB false dy dx).1 i1 i0 h1 h0]
      simp only [Nat.mul_assoc, Nat.add_assoc]
      split <;> simp
    · intro s hs
      exact relu_derivs (x s) (hx s (by omega))
  · intro dy dx dx' s hs
    obtain ⟨i1, i0, h1, h0, rfl⟩ := cover (hn ▸ hs)
    rw [hBe, hBe, (hB true dy dx).1 i1 i0 h1 h0, (hB false dy dx').1 i1 i0 h1 h0]
    split <;> simp [sub_eq_add_neg]
  · intro k hk
    rw [hFe]
    exact (hF x).2 k (by rw [← hout]; exact hk)
  · intro k hk acc dy dx
    rw [hBe]
    exact (hB acc dy dx).2 k (by omega)

/-- **C167 (CELU).** CELU doubles the given axis: first half x or α(e^x - 1), second half the same of -x; backward computes the
gradient wherever no input is 0, and everywhere for α = 1; with accumulation it is added to the old one; nothing outside of the
arrays is written. -/
theorem C167_celu (α : ℝ) (A B : Shape) (d : Nat) (axis : Int) (haxis : axis = A.length ∨ axis = (A.length : Int) - (A.length + 1 + B.length))
    (hpos : 0 < d * prod B) (x y0 : Mem ℝ) :
    let n := prod (A ++ d :: B)
    let elu : ℝ → ℝ := fun x => if 0 ≤ x then x else α * (Real.exp x - 1)
    ∃ st, dblSetup axis (A ++ d :: B) = .ok st ∧ st.out = A ++ (d * 2) :: B ∧
    Doubles A B d elu (fun x => elu (-x)) x (celuForward α st x y0) ∧
    ((∀ s, s < n → x s ≠ 0 ∨ α = 1) → ∀ dx, IsVJP n (prod st.out) (fun x => celuForward α st x y0) x (fun dy => celuBackward α st x false dy dx)) ∧
    (∀ dy dx dx' s, s < n → celuBackward α st x true dy dx s = dx s + celuBackward α st x false dy dx' s) ∧
    (∀ k, prod st.out ≤ k → celuForward α st x y0 k = y0 k) ∧ ∀ k, n ≤ k → ∀ acc dy dx, celuBackward α st x acc dy dx k = dx k := by
  intro n elu
  have hn : n = prod A * (d * prod B) := prod_mid A B d
  have hout : prod (A ++ (d * 2) :: B) = prod A * (d * prod B * 2) := by rw [prod_mid]; ring
  have hF : ∀ x : Mem ℝ, _ := fun x => dbl_forward (d * prod B) (prod A) (fun s => if 0 ≤ x s then x s else α * (Real.exp (x s) - 1))
    (fun s => if x s ≤ 0 then -x s else α * (Real.exp (-x s) - 1)) y0 _ rfl
  have hFe : ∀ x, celuForward α ⟨A ++ (d * 2) :: B, d * prod B, prod A⟩ x y0 = puts ((List.range (prod A)).flatMap fun i1 => (List.range (d * prod B)).flatMap fun i0 =>
      [(i1 * (d * prod B * 2) + i0, if 0 ≤ x (i1 * (d * prod B) + i0) then x (i1 * (d * prod B) + i0) else α * (Real.exp (x (i1 * (d * prod B) + i0)) - 1)),
       (i1 * (d * prod B * 2) + (d * prod B + i0), if x (i1 * (d * prod B) + i0) ≤ 0 then -x (i1 * (d * prod B) + i0) else α * (Real.exp (-x (i1 * (d * prod B) + i0)) - 1))]) y0 := fun x => by
    unfold celuForward
    congr 1
    congr 1
    funext i1
    congr 1
    funext i0
    simp only [Nat.mul_assoc, Nat.add_assoc]
    rw [Nat.add_comm i0]
  have hB : ∀ acc dy dx, _ := fun acc (dy dx : Mem ℝ) => grad_facts (d * prod B) (prod A)
    (fun i1 i0 old => (if acc = true then old else 0) + ((if 0 ≤ x (i1 * (d * prod B) + i0) then dy (i1 * (d * prod B) * 2 + i0)
        else dy (i1 * (d * prod B) * 2 + i0) * α * Real.exp (x (i1 * (d * prod B) + i0))) -
      (if x (i1 * (d * prod B) + i0) ≤ 0 then dy (i1 * (d * prod B) * 2 + i0 + d * prod B)
        else dy (i1 * (d * prod B) * 2 + i0 + d * prod B) * α * Real.exp (-x (i1 * (d * prod B) + i0))))) dx
  have hBe : ∀ acc dy dx, celuBackward α ⟨A ++ (d * 2) :: B, d * prod B, prod A⟩ x acc dy dx = forMat (prod A) (d * prod B) (fun i1 i0 => i1 * (d * prod B) + i0)
    (fun i1 i0 old => (if acc = true then old else 0) + ((if 0 ≤ x (i1 * (d * prod B) + i0) then dy (i1 * (d * prod B) * 2 + i0)
        else dy (i1 * (d * prod B) * 2 + i0) * α * Real.exp (x (i1 * (d * prod B) + i0))) -
      (if x (i1 * (d * prod B) + i0) ≤ 0 then dy (i1 * (d * prod B) * 2 + i0 + d * prod B)
        else dy (i1 * (d * prod B) * 2 + i0 + d * prod B) * α * Real.exp (-x (i1 * (d * prod B) + i0))))) dx := by
    intro acc dy dx
    unfold celuBackward
    congr 1
  have hneg : ∀ x, elu (-x) = if x ≤ 0 then -x else α * (Real.exp (-x) - 1) := by
    intro x; simp only [elu, Left.nonneg_neg_iff]
  refine ⟨_, dblSetup_ok A B d axis haxis hpos, rfl, ?_, ?_, ?_, ?_, ?_⟩
  · refine doubles_of_flat A B d _ _ x _ fun i1 i0 h1 h0 => ?_
    rw [hFe, hneg]
    exact (hF x).1 i1 i0 h1 h0
  · intro hx dx
    show IsVJP n (prod (A ++ (d * 2) :: B)) _ _ _
    rw [hn, hout]
    refine dbl_vjp (d * prod B) (prod A) _ _ elu (fun x => if x ≤ 0 then -x else α * (Real.exp (-x) - 1))
      (fun x => if 0 ≤ x then 1 else α * Real.exp x) (fun x => -(if x ≤ 0 then 1 else α * Real.exp (-x))) x ?_ ?_ ?_
    · intro x i1 i0 h1 h0
      simp only [hFe]
      exact (hF x).1 i1 i0 h1 h0
    · intro dy i1 i0 h1 h0
      simp only [hBe]
      rw [(hB false dy dx).1 i1 i0 h1 h0]
      rw [show i1 * (d * prod B) * 2 + i0 + d * prod B = i1 * (d * prod B * 2) + (d * prod B + i0) by ring, Nat.mul_assoc]
      simp only [Bool.false_eq_true, if_false, zero_add]
      split <;> split <;> ring
    · intro s hs
      exact ⟨celu_derivs α (x s) (hx s (by omega)), celu_derivs' α (x s) (hx s (by omega))⟩
  · intro dy dx dx' s hs
    obtain ⟨i1, i0, h1, h0, rfl⟩ := cover (hn ▸ hs)
    rw [hBe, hBe, (hB true dy dx).1 i1 i0 h1 h0, (hB false dy dx').1 i1 i0 h1 h0]
    simp
  · intro k hk
    rw [hFe]
    exact (hF x).2 k (by rw [← hout]; exact hk)
  · intro k hk acc dy dx
    rw [hBe]
    exact (hB acc dy dx).2 k (by omega)

/-- **C167 (rejections).** An axis out of range is rejected; an input with no elements from the axis on cannot be set up. -/
theorem C167_rejects (ish : Shape) (axis : Int) :
    ((axis < -(ish.length : Int) ∨ (ish.length : Int) ≤ axis) → ∃ e, dblSetup axis ish = .error e) ∧
    ((∃ st, dblSetup axis ish = .ok st) → ∃ a : Nat, a < ish.length ∧ (axis = a ∨ axis = (a : Int) - ish.length) ∧ 0 < prod (ish.drop a)) := by
  constructor
  · intro h
    obtain ⟨e, he⟩ := refineAxis_rejects axis ish.length h
    exact ⟨e, by rw [dblSetup, he]⟩
  · rintro ⟨st, h⟩
    by_cases hr : axis < -(ish.length : Int) ∨ (ish.length : Int) ≤ axis
    · obtain ⟨e, he⟩ := refineAxis_rejects axis ish.length hr
      rw [dblSetup, he] at h; cases h
    · obtain ⟨a, ha, hax⟩ : ∃ a : Nat, a < ish.length ∧ (axis = a ∨ axis = (a : Int) - ish.length) := by
        by_cases hn : 0 ≤ axis
        · exact ⟨axis.toNat, by omega, Or.inl (by omega)⟩
        · exact ⟨(axis + ish.length).toNat, by omega, Or.inr (by omega)⟩
      refine ⟨a, ha, hax, ?_⟩
      rw [dblSetup, refineAxis_ok a ish.length ha axis hax] at h
      by_cases hz : sizeFrom ish a = 0
      · simp only [hz] at h; cases h
      · rw [sizeFrom_eq] at hz; omega

/-- Non-vacuity: shape [2, 1], axis 1; the derivative hypotheses hold for the input 1, -2. -/
example : ∃ st, dblSetup (-1) [2, 1] = .ok st ∧ st.out = [2, 2] ∧ creluForward st (fun i => if i = 0 then 1 else -2) (fun _ => 7) 3 = 2 ∧
    (∀ s, s < 2 → (fun i => if i = 0 then (1 : ℝ) else -2) s ≠ 0) := by
  obtain ⟨st, h, ho, hd, _⟩ := C167_crelu [2] [] 1 (-1) (Or.inr rfl) (by decide) (fun i => if i = 0 then 1 else -2) (fun _ => 7)
  refine ⟨st, h, ho, ?_, ?_⟩
  · have := (hd [1] 0 [] (by simp [InBounds]) (by omega) (by simp [InBounds])).2
    norm_num [ravel, prod] at this
    exact this
  · intro s hs
    by_cases h0 : s = 0 <;> simp [h0]

end Verif.Act
