import Verif.NormFn.Chain
/-
F.norm: models /repo/src/nbla/function/generic/norm.cpp (the caller of the kernels of Abs, PowScalar and Sum modelled in
Verif.Elem) and execute/backward of /repo/src/nbla/imperative.cpp. Simplifications: exact real numbers; `1 / p_` is exact.
-/
namespace Verif.NormFn
open Verif.Fn Verif.ND Verif.Elem

/-! ### Model -/

/-- Members of Norm that matter: p_ and the Sum function. -/
structure NormObj where
  p : ℝ
  sum : ReduceObj

open Classical in
/-- Norm::setup_impl (norm.cpp:29-43): the function object and the output shape, which is the one of Sum. -/
noncomputable def normSetup (p : ℝ) (axes : List Int) (keep : Bool) (s : Shape) : Except String (NormObj × Shape) :=
  if p ≥ 1 then
    match reduceSetup (reduceNew axes keep) s with
    | .error e => .error e
    | .ok (o, out) => .ok (⟨p, o⟩, out)
  else .error "value: `p` must be greater than or equal to 1."

/-- Contents of fresh buffers: temporaries are not initialised. -/
structure Fresh where
  a : Mem ℝ
  q : Mem ℝ
  r : Mem ℝ
  buf : Mem ℝ
  gbuf : Mem ℝ
  ga : Mem ℝ
  gq : Mem ℝ
  gr : Mem ℝ

/-- Norm::forward_impl (norm.cpp:45-56): abs, pow in place, sum into y, pow in place. execute sets the function up and runs
it (imperative.cpp:71-74). -/
noncomputable def normForward (o : NormObj) (s : Shape) (t : Fresh) (x y : Mem ℝ) : Except String (Mem ℝ) :=
  let a := unaryForward Unary.abs.forward (size s) x t.a
  let a := unaryForward (Unary.powScalar o.p).forward (size s) a a
  match reduceSetup o.sum s with
  | .error e => .error e
  | .ok (so, out) =>
    match reduceForward sumRow so s a t.buf y with
    | .error e => .error e
    | .ok r => .ok (unaryForward (Unary.powScalar (1 / o.p)).forward (size out) r r)

/-- Norm::backward_impl (norm.cpp:58-88): forward again into temporaries (and y), then the four gradients backwards, only the
last one accumulating. -/
noncomputable def normBackward (o : NormObj) (s : Shape) (t : Fresh) (x y : Mem ℝ) (accum : Bool) (dy dx : Mem ℝ) : Except String (Mem ℝ) :=
  let a := unaryForward Unary.abs.forward (size s) x t.a
  let q := unaryForward (Unary.powScalar o.p).forward (size s) a t.q
  match reduceSetup o.sum s with
  | .error e => .error e
  | .ok (so, out) =>
    match reduceForward sumRow so s q t.buf t.r with
    | .error e => .error e
    | .ok r =>
      let y := unaryForward (Unary.powScalar (1 / o.p)).forward (size out) r y
      let gr := unaryBackward (Unary.powScalar (1 / o.p)).grad (size out) r y false dy t.gr
      match reduceBackward (fun outer R _ accum dy dx => rowBackward (sumGrad dy) outer R accum dx) so s q t.buf t.gbuf false gr t.gq with
      | .error e => .error e
      | .ok gq =>
        let ga := unaryBackward (Unary.powScalar o.p).grad (size s) a q false gq t.ga
        .ok (unaryBackward Unary.abs.grad (size s) x a accum ga dx)

/-! ### Lemmas -/

theorem powScalar_forward (a x : ℝ) : (Unary.powScalar a).forward x = x ^ a := by
  simp only [Unary.forward]
  by_cases h : a = 0.5
  · rw [if_pos h, h, Real.sqrt_eq_rpow]; norm_num
  · rw [if_neg h]

/-- An elementwise function and a kernel that multiplies by its derivative. -/
theorem IsVJP.pointwise {n : Nat} {F B : Mem ℝ → Mem ℝ} (f : ℝ → ℝ) (d : Mem ℝ) (x : Mem ℝ) (hF : ∀ x i, i < n → F x i = f (x i))
    (hd : ∀ i, i < n → HasDerivAt f (d i) (x i)) (hB : ∀ dy i, i < n → B dy i = dy i * d i) : IsVJP n n F x B := by
  intro c v hc dy
  have h1 : ∀ i, i < n → HasDerivAt (fun t => F (c t) i) (d i * v i) 0 := by
    intro i hi
    have h := hd i hi
    rw [← (hc i hi).1] at h
    have := h.comp (0 : ℝ) (hc i hi).2
    refine this.congr_of_eventuallyEq (Filter.Eventually.of_forall fun t => ?_)
    exact hF _ i hi
  have h2 := hasDerivAt_dot n dy (fun t => F (c t)) _ h1
  convert h2 using 1
  exact dot_congr fun i hi => by rw [hB dy i hi]; ring

/-- The derivative of |x|^p as the two kernels compute it. -/
theorem abs_pow_deriv (p : ℝ) (hp : 1 ≤ p) (x : ℝ) (h : x ≠ 0 ∨ 1 < p) :
    HasDerivAt (fun x : ℝ => |x| ^ p) (if x < 0 then -(1 * p * |x| ^ (p - 1)) else 1 * p * |x| ^ (p - 1)) x := by
  rcases lt_trichotomy x 0 with hx | hx | hx
  · rw [if_pos hx]
    have h1 : HasDerivAt (fun x : ℝ => |x|) (-1) x := hasDerivAt_abs_neg hx
    have h2 := h1.rpow_const (p := p) (Or.inl (abs_ne_zero.mpr hx.ne))
    convert h2 using 1; ring
  · have hp' : 1 < p := h.resolve_left (fun h => h hx)
    subst hx
    rw [if_neg (lt_irrefl _), abs_zero, Real.zero_rpow (by linarith)]
    have := hasDerivAt_abs_rpow (0 : ℝ) hp'
    simpa using this
  · rw [if_neg (not_lt.mpr hx.le)]
    have h1 : HasDerivAt (fun x : ℝ => |x|) 1 x := hasDerivAt_abs_pos hx
    have h2 := h1.rpow_const (p := p) (Or.inl (abs_ne_zero.mpr hx.ne'))
    convert h2 using 1

/-- The elements of a fibre are in bounds. -/
theorem fiber_inBounds {red : List Nat} {s : Shape} {i i' : List Nat} (h : i' ∈ fiber red s i) : InBounds s i' := by
  simp only [fiber, List.mem_filter, mem_indices] at h
  exact h.1

/-! ### C170 -/

/-- **C170 (setup).** p below 1 is rejected; otherwise the output shape is the one of a reduction over the axes. -/
theorem C170_setup (p : ℝ) (axes : List Int) (keep : Bool) (s : Shape) :
    (p < 1 → ∃ e, normSetup p axes keep s = .error e) ∧
    (1 ≤ p → (∀ a ∈ axes, -(s.length : Int) ≤ a ∧ a < s.length) → axes.Nodup → ((∀ a ∈ axes, 0 ≤ a) ∨ ∀ a ∈ axes, a < 0) →
      ∃ red : List Nat, red.Pairwise (· < ·) ∧ (∀ a ∈ red, a < s.length) ∧
        (∀ a : Nat, a ∈ red ↔ ((a : Int) ∈ axes ∨ (a : Int) - s.length ∈ axes) ∧ a < s.length) ∧
        normSetup p axes keep s = .ok (⟨p, readyObj keep red s⟩, outShape keep red s)) := by
  constructor
  · intro h
    exact ⟨_, if_neg (not_le.mpr h)⟩
  · intro hp h1 h2 h3
    obtain ⟨red, a1, a2, a3, a4⟩ := C85_setup_partial axes keep s h1 h2 h3
    refine ⟨red, a1, a2, a3, ?_⟩
    rw [normSetup, if_pos hp, a4]

/-- **C170.** F.norm over the axes `red`: each element of the result is the p-th root of the sum of the p-th powers of the
absolute values of the elements it reduces; backward computes its gradient wherever each of these groups has a non-zero
element (and no element is zero, if p = 1), adds it to the old gradient when accumulating, and depends on no uninitialised
memory; nothing outside of the arrays is written. -/
theorem C170_norm (p : ℝ) (hp : 1 ≤ p) (keep : Bool) (red : List Nat) (s : Shape) (hs : red.Pairwise (· < ·)) (hhi : ∀ a ∈ red, a < s.length)
    (hpos : 0 < prod s) (t : Fresh) (y0 : Mem ℝ) :
    let out := outShape keep red s
    ∃ F : Mem ℝ → Mem ℝ, (∀ x, normForward ⟨p, readyObj keep red s⟩ s t x y0 = .ok (F x)) ∧
      Local (prod s) (prod out) F ∧
      (∀ x i, InBounds s i → F x (ravel out (outIndex keep red s.length i)) = (((fiber red s i).map fun i' => |x (ravel s i')| ^ p).sum) ^ (1 / p)) ∧
      ∀ x (y : Mem ℝ), ∃ B : Mem ℝ → Mem ℝ,
        (∀ acc dy dx, ∃ r, normBackward ⟨p, readyObj keep red s⟩ s t x y acc dy dx = .ok r ∧
          (∀ k, k < prod s → r k = (if acc then dx k else 0) + B dy k) ∧ ∀ k, prod s ≤ k → r k = dx k) ∧
        ((∀ i, InBounds s i → ∃ i' ∈ fiber red s i, x (ravel s i') ≠ 0) → (1 < p ∨ ∀ k, k < prod s → x k ≠ 0) →
          IsVJP (prod s) (prod out) F x B) := by
  intro out
  set n := prod s with hn
  obtain ⟨S, hS, hSl, hSv, _⟩ := sum_facts keep red s hs hhi hpos t.buf y0
  obtain ⟨S', hS', hSl', hSv', hSb⟩ := sum_facts keep red s hs hhi hpos t.buf t.r
  have hrd := reduceSetup_ready keep red s hs hhi
  -- the powers
  set Q : Mem ℝ → Mem ℝ := fun x => unaryForward (Unary.powScalar p).forward n (unaryForward Unary.abs.forward n x t.a)
    (unaryForward Unary.abs.forward n x t.a) with hQ
  set Q' : Mem ℝ → Mem ℝ := fun x => unaryForward (Unary.powScalar p).forward n (unaryForward Unary.abs.forward n x t.a) t.q with hQ'
  have hQv : ∀ x i, i < n → Q x i = |x i| ^ p := by
    intro x i hi
    simp only [hQ, unaryForward_eq, if_pos hi, powScalar_forward]
    rfl
  have hQv' : ∀ x i, i < n → Q' x i = |x i| ^ p := by
    intro x i hi
    simp only [hQ', unaryForward_eq, if_pos hi, powScalar_forward]
    rfl
  have hQl : Local n n Q' := by
    intro x x' h j hj
    rw [hQv' x j hj, hQv' x' j hj, h j hj]
  set F : Mem ℝ → Mem ℝ := fun x => unaryForward (Unary.powScalar (1 / p)).forward (prod out) (S (Q x)) (S (Q x)) with hF
  -- both sums are the same
  have hSS : ∀ x j, j < prod out → S (Q x) j = S' (Q' x) j := by
    intro x j hj
    obtain ⟨i, hi, e⟩ := exists_fiber keep red s hs hhi hpos j hj
    rw [← e, hSv _ i hi, hSv' _ i hi]
    congr 1
    apply List.map_congr_left
    intro i' hi'
    rw [hQv _ _ (ravel_lt (fiber_inBounds hi')), hQv' _ _ (ravel_lt (fiber_inBounds hi'))]
  have hFv : ∀ x j, j < prod out → F x j = S' (Q' x) j ^ (1 / p) := by
    intro x j hj
    simp only [hF, unaryForward_eq, if_pos hj, powScalar_forward]
    rw [hSS x j hj]
  refine ⟨F, ?_, ?_, ?_, ?_⟩
  · intro x
    rw [normForward]
    simp only [size_eq, hrd]
    rw [hS]
  · intro x x' h j hj
    rw [hFv x j hj, hFv x' j hj, hSl' _ _ (hQl x x' h) j hj]
  · intro x i hi
    have hj : ravel out (outIndex keep red s.length i) < prod out := by
      rw [(ravel_keep s red keep i).1, (ravel_keep s red keep []).2]
      exact ravel_lt (inBounds_pick s i _ (kept_lt _ _) hi)
    rw [hFv x _ hj, hSv' _ i hi]
    congr 2
    apply List.map_congr_left
    intro i' hi'
    rw [hQv' _ _ (ravel_lt (fiber_inBounds hi'))]
  · intro x y
    obtain ⟨SB, hSB, hSvjp, _⟩ := hSb (Q' x) t.gbuf t.gq
    refine ⟨fun dy => unaryBackward Unary.abs.grad n x (unaryForward Unary.abs.forward n x t.a) false
      (unaryBackward (Unary.powScalar p).grad n (unaryForward Unary.abs.forward n x t.a) (Q' x) false
        (SB false (unaryBackward (Unary.powScalar (1 / p)).grad (prod out) (S' (Q' x))
          (unaryForward (Unary.powScalar (1 / p)).forward (prod out) (S' (Q' x)) y) false dy t.gr)) t.ga) t.a, ?_, ?_⟩
    · intro acc dy dx
      refine ⟨unaryBackward Unary.abs.grad n x (unaryForward Unary.abs.forward n x t.a) acc
        (unaryBackward (Unary.powScalar p).grad n (unaryForward Unary.abs.forward n x t.a) (Q' x) false
          (SB false (unaryBackward (Unary.powScalar (1 / p)).grad (prod out) (S' (Q' x))
            (unaryForward (Unary.powScalar (1 / p)).forward (prod out) (S' (Q' x)) y) false dy t.gr)) t.ga) dx, ?_, ?_, ?_⟩
      · rw [normBackward]
        simp only [size_eq, hrd]
        rw [hS']
        simp only []
        rw [hSB]
      · intro k hk
        simp only [unaryBackward_eq, if_pos hk]
        simp
      · intro k hk
        simp only [unaryBackward_eq]
        rw [if_neg (by omega)]
    · intro hne hz
      have hrpos : ∀ j, j < prod out → 0 < S' (Q' x) j := by
        intro j hj
        obtain ⟨i, hi, e⟩ := exists_fiber keep red s hs hhi hpos j hj
        rw [← e, hSv' _ i hi]
        obtain ⟨i', hi', hx⟩ := hne i hi
        have hnn : ∀ z ∈ (fiber red s i).map fun i' => Q' x (ravel s i'), 0 ≤ z := by
          intro z hz
          obtain ⟨i'', h'', rfl⟩ := List.mem_map.mp hz
          rw [hQv' _ _ (ravel_lt (fiber_inBounds h''))]
          exact Real.rpow_nonneg (abs_nonneg _) _
        refine lt_of_lt_of_le ?_ (List.single_le_sum hnn _ (List.mem_map.mpr ⟨i', hi', rfl⟩))
        rw [hQv' _ _ (ravel_lt (fiber_inBounds hi'))]
        exact Real.rpow_pos_of_pos (abs_pos.mpr hx) _
      have hQvjp : IsVJP n n Q' x (fun dq => unaryBackward Unary.abs.grad n x (unaryForward Unary.abs.forward n x t.a) false
          (unaryBackward (Unary.powScalar p).grad n (unaryForward Unary.abs.forward n x t.a) (Q' x) false dq t.ga) t.a) := by
        refine IsVJP.pointwise (fun x => |x| ^ p) (fun i => if x i < 0 then -(1 * p * |x i| ^ (p - 1)) else 1 * p * |x i| ^ (p - 1)) x hQv' ?_ ?_
        · intro i hi
          refine abs_pow_deriv p hp (x i) ?_
          rcases hz with h | h
          · exact Or.inr h
          · exact Or.inl (h i hi)
        · intro dq i hi
          simp only [unaryBackward_eq, if_pos hi, unaryForward_eq, Unary.grad, Unary.forward, Bool.false_eq_true, if_false, zero_add]
          split <;> ring
      have hR := (C82_unary_kernel (Unary.powScalar (1 / p)) (prod out) (S' (Q' x)) y).2.1
        (fun i hi => ⟨Or.inl (hrpos i hi), Set.notMem_empty _⟩) t.gr
      have h1 := IsVJP.comp (G := fun r => unaryForward (Unary.powScalar (1 / p)).forward (prod out) r y) hSvjp hSl' hR
      have h2 := IsVJP.comp (G := fun q => unaryForward (Unary.powScalar (1 / p)).forward (prod out) (S' q) y) hQvjp hQl h1
      refine IsVJP.congr h2 ?_ ?_
      · intro x j hj
        rw [hFv x j hj]
        simp only [unaryForward_eq, if_pos hj, powScalar_forward]
      · intro dy i hi; rfl

/-- Non-vacuity: the Euclidean norm of the rows of a 2 x 2 array, [[3, 4], [0, 1]]. -/
example : ∃ (red : List Nat) (x : Mem ℝ), normSetup 2 [-1] false [2, 2] = .ok (⟨2, readyObj false red [2, 2]⟩, [2]) ∧
    (∀ i, InBounds [2, 2] i → ∃ i' ∈ fiber red [2, 2] i, x (ravel [2, 2] i') ≠ 0) ∧
    ∀ t y0, ∃ r, normForward ⟨2, readyObj false red [2, 2]⟩ [2, 2] t x y0 = .ok r ∧ r 0 = 5 := by
  obtain ⟨red, h1, h2, h3, h4⟩ := (C170_setup 2 [-1] false [2, 2]).2 (by norm_num) (by simp) (by simp) (by simp)
  have e : red = [1] := by
    have h1' : ∀ a : Nat, a ∈ red ↔ a = 1 := by
      intro a; rw [h3]
      simp
      omega
    have hp : red.Perm [1] := by
      rw [List.perm_ext_iff_of_nodup (h1.imp fun h => by omega) (by simp)]
      intro a; rw [h1']; simp
    exact List.perm_singleton.mp hp
  subst e
  refine ⟨[1], fun k => if k = 0 then 3 else if k = 1 then 4 else if k = 3 then 1 else 0, h4, ?_, ?_⟩
  · intro i hi
    match i, hi with
    | [a, b], hi =>
      simp only [InBounds] at hi
      refine ⟨[a, 1], ?_, ?_⟩
      · simp only [fiber, List.mem_filter, mem_indices]
        refine ⟨by simp [InBounds]; omega, ?_⟩
        simp [outIndex, pick, keptAxes]
        intro c hc hc'
        have : c = 0 := by omega
        subst this; rfl
      · have ha : a = 0 ∨ a = 1 := by omega
        rcases ha with rfl | rfl <;> simp [ravel, prod]
  · intro t y0
    obtain ⟨F, hF, _, hv, _⟩ := C170_norm 2 (by norm_num) false [1] [2, 2] h1 h2 (by decide) t y0
    refine ⟨_, hF _, ?_⟩
    have := hv (fun k => if k = 0 then 3 else if k = 1 then 4 else if k = 3 then 1 else 0) [0, 0] (by simp [InBounds])
    have ef : fiber [1] [2, 2] [0, 0] = [[0, 0], [0, 1]] := by decide
    rw [ef] at this
    have e0 : ravel (outShape false [1] [2, 2]) (outIndex false [1] ([2, 2] : Shape).length [0, 0]) = 0 := by decide
    rw [e0] at this
    rw [this]
    have e1 : ravel [2, 2] [0, 0] = 0 := by decide
    have e2 : ravel [2, 2] [0, 1] = 1 := by decide
    simp only [List.map_cons, List.map_nil, List.sum_cons, List.sum_nil, e1, e2]
    norm_num

end Verif.NormFn
