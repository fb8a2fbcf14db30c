import Mathlib.Analysis.Calculus.Deriv.Mul
import Mathlib.Analysis.Calculus.Deriv.Add
import Mathlib.Algebra.BigOperators.Field
import Verif.Act.PRelu
/-
AddN and MulN, the functions whose inputs can be switched off: model /repo/src/nbla/function/generic/{add_n,mul_n}.cpp,
Function::set_active_input_mask / is_active_input (/repo/src/nbla/function.cpp:211-233), and the parts of Function::setup,
forward and backward (function.cpp:27-172) that decide when setup_impl, and with it the reset of the mask, runs again.
Elements are real numbers; the gradients of different inputs are different buffers; the fall-back function, the context and
the number of outputs (always one) are not modelled.
-/
namespace Verif.NAry
open Verif.ND Verif.Fn Verif.Act

/-! ### Model -/

/-- Which of the two functions. -/
inductive Op
  | add | mul

/-- Function::is_active_input (function.cpp:228-233). -/
def isActive (mask : List Bool) (i : Nat) : Bool := if i < mask.length then mask.getD i false else true

/-- Function::set_active_input_mask (function.cpp:211-219); `mask` is cg_input_mask. -/
def setMask (mask new : List Bool) : Except String (List Bool) :=
  if mask.length = 0 then .error "function does not allow to deactivate inputs"
  else if new.length = mask.length then .ok new
  else .error "Mask size must match the number of function inputs"

/-- AddN::setup_impl (add_n.cpp:24-40) and MulN::setup_impl (mul_n.cpp:24-40): the output shape and cg_input_mask. -/
def nSetup (shapes : List Shape) : Except String (Shape × List Bool) :=
  match shapes with
  | [] => .error "at least one input should be given"
  | s :: rest => if rest.all (fun r => s == r) then .ok (s, List.replicate shapes.length true)
                 else .error "shape of all inputs must be identical"

/-- `y[k] += x[k]` / `y[k] *= x[k]`. -/
noncomputable def Op.step : Op → ℝ → ℝ → ℝ
  | .add, a, b => a + b
  | .mul, a, b => a * b

/-- forward_impl (add_n.cpp:42-67, mul_n.cpp:42-67): copy the first active input, then combine the later active ones. -/
noncomputable def nForward (op : Op) (mask : List Bool) (N n : Nat) (xs : Nat → Mem ℝ) (y : Mem ℝ) : Mem ℝ :=
  match (List.range N).find? (isActive mask) with
  | none => y
  | some i =>
    ((List.range N).drop (i + 1)).foldl
      (fun m j => if isActive mask j then (List.range n).foldl (fun m k => put m k (op.step (m k) (xs j k))) m else m)
      ((List.range n).foldl (fun m k => put m k (xs i k)) y)

/-- The right-hand side of add_n.cpp:80,84 and mul_n.cpp:83,87. -/
noncomputable def Op.grad : Op → (dy y x : ℝ) → ℝ
  | .add, dy, _, _ => dy
  | .mul, dy, y, x => dy * y / x

/-- backward_impl (add_n.cpp:69-89, mul_n.cpp:69-92): the gradient buffers `g` of all inputs afterwards. -/
noncomputable def nBackwardImpl (op : Op) (mask : List Bool) (N n : Nat) (xs : Nat → Mem ℝ) (y : Mem ℝ)
    (pd accum : Nat → Bool) (dy : Mem ℝ) (g : Nat → Mem ℝ) : Nat → Mem ℝ :=
  (List.range N).foldl (fun g i =>
    if isActive mask i && pd i then
      Function.update g i ((List.range n).foldl
        (fun m k => put m k ((if accum i then m k else 0) + op.grad (dy k) (y k) (xs i k))) (g i))
    else g) g

/-- The zeroing in Function::backward (function.cpp:163-169), then backward_impl. -/
noncomputable def nBackward (op : Op) (mask : List Bool) (N n : Nat) (xs : Nat → Mem ℝ) (y : Mem ℝ)
    (pd accum : Nat → Bool) (dy : Mem ℝ) (g : Nat → Mem ℝ) : Nat → Mem ℝ :=
  nBackwardImpl op mask N n xs y pd accum dy (fun i => if pd i && !accum i then zeros else g i)

/-- The members of the function object that survive between calls: in_shapes and cg_input_mask. -/
structure FnState where
  shapes : List Shape
  mask : List Bool

/-- Function::setup (function.cpp:27-72). -/
def fnSetup (shapes : List Shape) : Except String FnState :=
  match nSetup shapes with
  | .error e => .error e
  | .ok (_, mask) => .ok ⟨shapes, mask⟩

/-- The shape check that starts Function::forward and Function::backward (function.cpp:74-109, 121-123, 135-137): setup
again when an input changed its shape. -/
def fnCheck (st : FnState) (shapes : List Shape) : Except String FnState :=
  if shapes.length = st.shapes.length then (if st.shapes = shapes then .ok st else fnSetup shapes)
  else .error "Num of inputs has been changed since setup is called"

/-! ### Specification -/

/-- The inputs in use, according to the list given by the user. -/
def inUse (mask : List Bool) : Finset Nat := (Finset.range mask.length).filter fun i => mask[i]? = some true

/-- `B dy i` is the gradient with respect to input `i` of `dy · F`, for all inputs together: along all differentiable paths
of the inputs the number Σ_k dy_k F(..)_k changes at the rate Σ_i Σ_k v_ik (B dy i)_k. -/
def IsVJPn (N n : Nat) (F : (Nat → Mem ℝ) → Mem ℝ) (xs : Nat → Mem ℝ) (B : Mem ℝ → Nat → Mem ℝ) : Prop :=
  ∀ (c : ℝ → Nat → Mem ℝ) (v : Nat → Mem ℝ),
    (∀ i, i < N → ∀ k, k < n → c 0 i k = xs i k ∧ HasDerivAt (fun t => c t i k) (v i k) 0) →
    ∀ dy, HasDerivAt (fun t => dot n dy (F (c t))) (∑ i ∈ Finset.range N, dot n (v i) (B dy i)) 0

/-! ### Lemmas -/

theorem isActive_iff (mask : List Bool) (i : Nat) (h : i < mask.length) : isActive mask i = true ↔ mask[i]? = some true := by
  unfold isActive
  rw [if_pos h, List.getD_eq_getElem?_getD, List.getElem?_eq_getElem h]
  simp

/-- The fold over the later inputs, element by element. -/
theorem combine_eq (op : Op) (act : Nat → Bool) (n : Nat) (xs : Nat → Mem ℝ) (l : List Nat) (y : Mem ℝ) (k : Nat) :
    l.foldl (fun m j => if act j then (List.range n).foldl (fun m k => put m k (op.step (m k) (xs j k))) m else m) y k =
      if k < n then (l.filter act).foldl (fun a j => op.step a (xs j k)) (y k) else y k := by
  induction l generalizing y with
  | nil => simp
  | cons j l ih =>
    rw [List.foldl_cons, ih]
    by_cases ha : act j = true
    · rw [if_pos ha, List.filter_cons_of_pos ha, List.foldl_cons,
        foldPut_eq (fun k o => op.step o (xs j k)) n y k]
      split <;> rfl
    · rw [if_neg ha, List.filter_cons_of_neg ha]

theorem foldl_add (l : List Nat) (f : Nat → ℝ) (a : ℝ) : l.foldl (fun a j => a + f j) a = a + (l.map f).sum := by
  induction l generalizing a with
  | nil => simp
  | cons j l ih => rw [List.foldl_cons, ih, List.map_cons, List.sum_cons]; ring

theorem foldl_mul (l : List Nat) (f : Nat → ℝ) (a : ℝ) : l.foldl (fun a j => a * f j) a = a * (l.map f).prod := by
  induction l generalizing a with
  | nil => simp
  | cons j l ih => rw [List.foldl_cons, ih, List.map_cons, List.prod_cons]; ring

/-- Splitting a list at the first element that satisfies a predicate. -/
theorem filter_range (act : Nat → Bool) (N i : Nat) (h : (List.range N).find? act = some i) :
    (List.range N).filter act = i :: ((List.range N).drop (i + 1)).filter act := by
  have hi : i < N := by have := List.mem_of_find?_eq_some h; simpa using this
  have hact : act i = true := List.find?_some h
  have hlt : ∀ j, j < i → act j = false := by
    intro j hj
    by_contra hne
    have hne : act j = true := by simpa using hne
    rw [List.find?_range_eq_some] at h
    exact absurd (h.2.2 j hj) (by simp [hne])
  have hsplit : List.range N = List.range i ++ i :: (List.range N).drop (i + 1) := by
    have h1 : List.range N = (List.range N).take i ++ (List.range N).drop i := (List.take_append_drop _ _).symm
    rw [List.take_range, Nat.min_eq_left hi.le, List.drop_eq_getElem_cons (by simpa using hi)] at h1
    simpa using h1
  conv_lhs => rw [hsplit]
  rw [List.filter_append, List.filter_cons_of_pos hact, List.filter_eq_nil_iff.mpr]
  · rfl
  · intro j hj; rw [hlt j (by simpa using hj)]; simp

theorem filter_inUse (mask : List Bool) : ((List.range mask.length).filter (isActive mask)).toFinset = inUse mask := by
  ext i
  simp only [List.mem_toFinset, List.mem_filter, List.mem_range, inUse, Finset.mem_filter, Finset.mem_range]
  constructor
  · rintro ⟨a, b⟩; exact ⟨a, (isActive_iff mask i a).mp b⟩
  · rintro ⟨a, b⟩; exact ⟨a, (isActive_iff mask i a).mpr b⟩

theorem sum_inUse (mask : List Bool) (f : Nat → ℝ) :
    (((List.range mask.length).filter (isActive mask)).map f).sum = ∑ i ∈ inUse mask, f i := by
  rw [← filter_inUse, List.sum_toFinset _ (List.nodup_range.filter _)]

theorem prod_inUse (mask : List Bool) (f : Nat → ℝ) :
    (((List.range mask.length).filter (isActive mask)).map f).prod = ∏ i ∈ inUse mask, f i := by
  rw [← filter_inUse, List.prod_toFinset _ (List.nodup_range.filter _)]

theorem backwardImpl_eq (op : Op) (mask : List Bool) (N n : Nat) (xs : Nat → Mem ℝ) (y : Mem ℝ)
    (pd accum : Nat → Bool) (dy : Mem ℝ) (g : Nat → Mem ℝ) (i k : Nat) :
    nBackwardImpl op mask N n xs y pd accum dy g i k =
      if i < N ∧ isActive mask i = true ∧ pd i = true ∧ k < n then
        (if accum i then g i k else 0) + op.grad (dy k) (y k) (xs i k) else g i k := by
  unfold nBackwardImpl
  induction N with
  | zero => simp
  | succ N ih =>
    rw [List.range_succ, List.foldl_append, List.foldl_cons, List.foldl_nil]
    by_cases e : i = N
    · subst e
      rw [if_neg (by simp)] at ih
      by_cases h : (isActive mask i && pd i) = true
      · rw [if_pos h, Function.update_self, foldPut_eq (fun k o => (if accum i then o else 0) + op.grad (dy k) (y k) (xs i k)), ih]
        have h' : isActive mask i = true ∧ pd i = true := by simpa using h
        by_cases hk : k < n
        · rw [if_pos hk, if_pos (show i < i + 1 ∧ isActive mask i = true ∧ pd i = true ∧ k < n from ⟨Nat.lt_succ_self _, h'.1, h'.2, hk⟩)]
        · rw [if_neg hk, if_neg (fun hh => hk hh.2.2.2)]
      · rw [if_neg h, ih, if_neg]
        rintro ⟨-, a, b, -⟩; simp [a, b] at h
    · have : (i < N + 1 ∧ isActive mask i = true ∧ pd i = true ∧ k < n) ↔ (i < N ∧ isActive mask i = true ∧ pd i = true ∧ k < n) :=
        ⟨fun ⟨a, b⟩ => ⟨by omega, b⟩, fun ⟨a, b⟩ => ⟨by omega, b⟩⟩
      simp only [this]
      by_cases h : (isActive mask N && pd N) = true
      · rw [if_pos h, Function.update_of_ne e, ih]
      · rw [if_neg h, ih]

/-! ### Theorems -/

/-- **C176 (setup).** Setup accepts exactly non-empty lists of inputs of one shape, the output gets that shape, and every
input is in use; a mask is accepted afterwards exactly when it has one entry per input, and then is the mask. -/
theorem C176_setup (shapes : List Shape) :
    (∀ s mask, nSetup shapes = .ok (s, mask) ↔
      shapes ≠ [] ∧ (∀ t ∈ shapes, t = s) ∧ mask.length = shapes.length ∧ ∀ i, i < shapes.length → mask[i]? = some true) ∧
    ∀ s mask, nSetup shapes = .ok (s, mask) → ∀ new r, setMask mask new = .ok r ↔ new.length = shapes.length ∧ r = new := by
  have h1 : ∀ s mask, nSetup shapes = .ok (s, mask) ↔
      shapes ≠ [] ∧ (∀ t ∈ shapes, t = s) ∧ mask.length = shapes.length ∧ ∀ i, i < shapes.length → mask[i]? = some true := by
    intro s mask
    cases shapes with
    | nil => simp [nSetup]
    | cons a rest =>
      unfold nSetup
      simp only []
      by_cases h : (rest.all fun r => a == r) = true
      · rw [if_pos h]
        have h' : ∀ t ∈ rest, a = t := by simpa using h
        constructor
        · intro e
          simp only [Except.ok.injEq, Prod.mk.injEq] at e
          obtain ⟨rfl, rfl⟩ := e
          refine ⟨by simp, ?_, by simp, ?_⟩
          · intro t ht
            rcases List.mem_cons.mp ht with rfl | ht
            · rfl
            · exact (h' t ht).symm
          · intro i hi; rw [List.getElem?_replicate, if_pos hi]
        · rintro ⟨-, e1, e2, e3⟩
          simp only [Except.ok.injEq, Prod.mk.injEq]
          refine ⟨e1 a (by simp), ?_⟩
          apply List.ext_getElem?
          intro i
          by_cases hi : i < (a :: rest).length
          · rw [e3 i hi, List.getElem?_replicate, if_pos hi]
          · rw [List.getElem?_eq_none (by simpa using Nat.le_of_not_lt hi), List.getElem?_eq_none (by omega)]
      · rw [if_neg h]
        constructor
        · intro e; simp at e
        · rintro ⟨-, e1, -⟩
          exfalso; apply h
          rw [List.all_eq_true]
          intro t ht
          simp [e1 a (by simp), e1 t (by simp [ht])]
  refine ⟨h1, ?_⟩
  intro s mask hs new r
  obtain ⟨a, b, c, d⟩ := (h1 s mask).mp hs
  have hlen : mask.length ≠ 0 := by rw [c]; simpa using a
  unfold setMask
  rw [if_neg hlen, ← c]
  by_cases hn : new.length = mask.length
  · rw [if_pos hn]; simp [hn, eq_comm]
  · rw [if_neg hn]; simp [hn]

/-- **C176 (value).** With at least one input in use the output is the sum (product) over exactly the inputs in use. -/
theorem C176_value (mask : List Bool) (n : Nat) (xs : Nat → Mem ℝ) (y : Mem ℝ) (h : ∃ i : Nat, mask[i]? = some true) :
    ∀ k, k < n →
      nForward .add mask mask.length n xs y k = ∑ i ∈ inUse mask, xs i k ∧
      nForward .mul mask mask.length n xs y k = ∏ i ∈ inUse mask, xs i k := by
  intro k hk
  obtain ⟨i0, hi0⟩ := h
  have hlt : i0 < mask.length := (List.getElem?_eq_some_iff.mp hi0).1
  have hex : ∃ i, (List.range mask.length).find? (isActive mask) = some i := by
    cases hf : (List.range mask.length).find? (isActive mask) with
    | some i => exact ⟨i, rfl⟩
    | none =>
      rw [List.find?_eq_none] at hf
      exact absurd ((isActive_iff mask i0 hlt).mpr hi0) (hf i0 (by simpa using hlt))
  obtain ⟨i, hi⟩ := hex
  have hfil := filter_range (isActive mask) mask.length i hi
  have hcopy : (List.range n).foldl (fun m k => put m k (xs i k)) y k = xs i k := by
    rw [foldPut_eq (fun k _ => xs i k) n y k, if_pos hk]
  constructor
  · unfold nForward
    rw [hi]; simp only []
    rw [combine_eq, if_pos hk, hcopy, ← sum_inUse, hfil, List.map_cons, List.sum_cons]
    exact foldl_add _ (fun j => xs j k) _
  · unfold nForward
    rw [hi]; simp only []
    rw [combine_eq, if_pos hk, hcopy, ← prod_inUse, hfil, List.map_cons, List.prod_cons]
    exact foldl_mul _ (fun j => xs j k) _

/-- **C176 (an input that is switched off is not read).** Neither the output nor any gradient depends on it. -/
theorem C176_not_read (op : Op) (mask : List Bool) (n : Nat) (xs xs' : Nat → Mem ℝ)
    (h : ∀ i, mask[i]? = some true → xs i = xs' i) (y : Mem ℝ) (pd accum : Nat → Bool) (dy : Mem ℝ) (g : Nat → Mem ℝ) :
    nForward op mask mask.length n xs y = nForward op mask mask.length n xs' y ∧
    nBackward op mask mask.length n xs y pd accum dy g = nBackward op mask mask.length n xs' y pd accum dy g := by
  constructor
  · funext k
    unfold nForward
    cases hf : (List.range mask.length).find? (isActive mask) with
    | none => rfl
    | some i =>
      simp only []
      have hi : i < mask.length := by have := List.mem_of_find?_eq_some hf; simpa using this
      have e : xs i = xs' i := h i ((isActive_iff mask i hi).mp (List.find?_some hf))
      rw [combine_eq, combine_eq, e]
      congr 1
      apply List.foldl_ext
      intro a j hj
      rw [List.mem_filter] at hj
      have hjN : j < mask.length := by have := List.mem_of_mem_drop hj.1; simpa using this
      rw [h j ((isActive_iff mask j hjN).mp hj.2)]
  · funext i k
    unfold nBackward
    rw [backwardImpl_eq, backwardImpl_eq]
    by_cases hc : i < mask.length ∧ isActive mask i = true ∧ pd i = true ∧ k < n
    · rw [if_pos hc, if_pos hc, h i ((isActive_iff mask i hc.1).mp hc.2.1)]
    · rw [if_neg hc, if_neg hc]

/-- **C176 (gradient of add_n).** Backward writes, or adds to what was there, the gradient of the forward map, for every
mask with an input in use; the gradient of an input that is switched off is 0, and that of an input that is not asked for
is left alone. -/
theorem C176_add_n (mask : List Bool) (n : Nat) (xs : Nat → Mem ℝ) (y0 y : Mem ℝ) (h : ∃ i : Nat, mask[i]? = some true) :
    ∃ B : Mem ℝ → Nat → Mem ℝ,
      IsVJPn mask.length n (fun xs => nForward .add mask mask.length n xs y0) xs B ∧
      (∀ dy i k, mask[i]? ≠ some true → B dy i k = 0) ∧
      ∀ pd accum dy g i k, i < mask.length → k < n → nBackward .add mask mask.length n xs y pd accum dy g i k =
        if pd i then (if accum i then g i k else 0) + B dy i k else g i k := by
  refine ⟨fun dy i k => if mask[i]? = some true then dy k else 0, ?_, ?_, ?_⟩
  · intro c v hc dy
    have hval : (fun t => dot n dy (nForward .add mask mask.length n (c t) y0)) =
        fun t => ∑ k ∈ Finset.range n, dy k * ∑ i ∈ inUse mask, c t i k := by
      funext t
      exact Finset.sum_congr rfl fun k hk => by rw [((C176_value mask n (c t) y0 h) k (by simpa using hk)).1]
    rw [hval]
    have hd : HasDerivAt (fun t => ∑ k ∈ Finset.range n, dy k * ∑ i ∈ inUse mask, c t i k)
        (∑ k ∈ Finset.range n, dy k * ∑ i ∈ inUse mask, v i k) 0 := by
      refine HasDerivAt.fun_sum fun k hk => HasDerivAt.const_mul (dy k) (HasDerivAt.fun_sum fun i hi => ?_)
      exact (hc i (by have := (Finset.mem_filter.mp hi).1; simpa using this) k (by simpa using hk)).2
    refine hd.congr_deriv ?_
    unfold dot
    rw [Finset.sum_comm]
    refine Finset.sum_congr rfl fun k _ => ?_
    simp only [inUse, Finset.sum_filter, Finset.mul_sum]
    exact Finset.sum_congr rfl fun i _ => by split <;> ring
  · intro dy i k hi; exact if_neg hi
  · intro pd accum dy g i k hi hk
    unfold nBackward
    rw [backwardImpl_eq]
    by_cases hp : pd i = true
    · rw [if_pos hp]
      by_cases hm : mask[i]? = some true
      · rw [if_pos ⟨hi, (isActive_iff mask i hi).mpr hm, hp, hk⟩]
        cases accum i <;> simp [hp, hm, Op.grad]
      · rw [if_neg (fun hh => hm ((isActive_iff mask i hi).mp hh.2.1))]
        cases accum i <;> simp [hp, hm, zeros]
    · rw [if_neg hp, if_neg (fun hh => hp hh.2.2.1)]
      simp [hp]

/-- **C176 (gradient of mul_n), the part that holds.** The same for the product, when no element of an input in use is 0 and
`y` is the output of forward. -/
theorem C176_mul_n_partial (mask : List Bool) (n : Nat) (xs : Nat → Mem ℝ) (y0 y : Mem ℝ) (h : ∃ i : Nat, mask[i]? = some true)
    (hy : ∀ k, k < n → y k = nForward .mul mask mask.length n xs y0 k)
    (hx : ∀ i k, mask[i]? = some true → k < n → xs i k ≠ 0) :
    ∃ B : Mem ℝ → Nat → Mem ℝ,
      IsVJPn mask.length n (fun xs => nForward .mul mask mask.length n xs y0) xs B ∧
      (∀ dy i k, mask[i]? ≠ some true → B dy i k = 0) ∧
      ∀ pd accum dy g i k, i < mask.length → k < n → nBackward .mul mask mask.length n xs y pd accum dy g i k =
        if pd i then (if accum i then g i k else 0) + B dy i k else g i k := by
  refine ⟨fun dy i k => if mask[i]? = some true then dy k * y k / xs i k else 0, ?_, ?_, ?_⟩
  · intro c v hc dy
    have hval : (fun t => dot n dy (nForward .mul mask mask.length n (c t) y0)) =
        fun t => ∑ k ∈ Finset.range n, dy k * ∏ i ∈ inUse mask, c t i k := by
      funext t
      exact Finset.sum_congr rfl fun k hk => by rw [((C176_value mask n (c t) y0 h) k (by simpa using hk)).2]
    rw [hval]
    have hd : HasDerivAt (fun t => ∑ k ∈ Finset.range n, dy k * ∏ i ∈ inUse mask, c t i k)
        (∑ k ∈ Finset.range n, dy k * ∑ i ∈ inUse mask, (∏ j ∈ (inUse mask).erase i, c 0 j k) • v i k) 0 := by
      refine HasDerivAt.fun_sum fun k hk => HasDerivAt.const_mul (dy k) (HasDerivAt.fun_finsetProd fun i hi => ?_)
      exact (hc i (by have := (Finset.mem_filter.mp hi).1; simpa using this) k (by simpa using hk)).2
    refine hd.congr_deriv ?_
    unfold dot
    rw [Finset.sum_comm]
    refine Finset.sum_congr rfl fun k hk => ?_
    have hk : k < n := by simpa using hk
    rw [Finset.mul_sum]
    have hrw : ∀ i ∈ inUse mask, dy k * ((∏ j ∈ (inUse mask).erase i, c 0 j k) • v i k) = v i k * (dy k * y k / xs i k) := by
      intro i hi
      have hmi : mask[i]? = some true := (Finset.mem_filter.mp hi).2
      have hprod : ∏ j ∈ (inUse mask).erase i, c 0 j k = ∏ j ∈ (inUse mask).erase i, xs j k :=
        Finset.prod_congr rfl fun j hj =>
          (hc j (by have := (Finset.mem_filter.mp (Finset.mem_of_mem_erase hj)).1; simpa using this) k hk).1
      rw [hprod, hy k hk, ((C176_value mask n xs y0 h) k hk).2, ← Finset.mul_prod_erase _ _ hi, smul_eq_mul]
      have := hx i k hmi hk
      field_simp
    rw [Finset.sum_congr rfl hrw]
    simp only [inUse, Finset.sum_filter]
    exact Finset.sum_congr rfl fun i _ => by split <;> ring
  · intro dy i k hi; exact if_neg hi
  · intro pd accum dy g i k hi hk
    unfold nBackward
    rw [backwardImpl_eq]
    by_cases hp : pd i = true
    · rw [if_pos hp]
      by_cases hm : mask[i]? = some true
      · rw [if_pos ⟨hi, (isActive_iff mask i hi).mpr hm, hp, hk⟩]
        cases accum i <;> simp [hp, hm, Op.grad]
      · rw [if_neg (fun hh => hm ((isActive_iff mask i hi).mp hh.2.1))]
        cases accum i <;> simp [hp, hm, zeros]
    · rw [if_neg hp, if_neg (fun hh => hp hh.2.2.1)]
      simp [hp]

/-- Non-vacuity: three inputs, the second one switched off; 2·5 = 10. -/
example : ∃ mask : List Bool, mask = [true, false, true] ∧ (∃ i : Nat, mask[i]? = some true) ∧
    nForward .mul mask mask.length 1 (fun i _ => (i : ℝ) + 2) zeros 0 = 2 * 4 ∧
    ∀ (i k : Nat), mask[i]? = some true → k < 1 → (fun (i : Nat) (_ : Nat) => (i : ℝ) + 2) i k ≠ 0 := by
  refine ⟨_, rfl, ⟨0, rfl⟩, ?_, ?_⟩
  · rw [((C176_value [true, false, true] 1 _ zeros ⟨0, rfl⟩) 0 (by norm_num)).2]
    have : inUse [true, false, true] = {0, 2} := by decide
    rw [this, Finset.prod_pair (by norm_num)]
    norm_num
  · intro i k _ _; positivity

/-- **C176, refuted for inputs that contain 0.** The gradient of x0·x1 with respect to x0 at (0, 3) is 3; in the real-number
model (0/0 = 0) backward writes 0, and in floating point it writes NaN. No value of the quotient depends on x1: the same
number is written for x1 = 5. -/
theorem C176_mul_n_zero :
    (∀ dx, nBackward .mul [true, true] 2 1 (fun i _ => if i = 0 then 0 else 3)
      (nForward .mul [true, true] 2 1 (fun i _ => if i = 0 then 0 else 3) zeros)
      (fun _ => true) (fun _ => false) (fun _ => 1) dx 0 0 = 0) ∧
    HasDerivAt (fun t => nForward .mul [true, true] 2 1 (fun i _ => if i = 0 then t else 3) zeros 0) 3 0 := by
  constructor
  · intro dx
    unfold nBackward
    rw [backwardImpl_eq, if_pos ⟨by norm_num, by decide, rfl, by norm_num⟩]
    simp [Op.grad]
  · have hu : inUse [true, true] = {0, 1} := by decide
    have : (fun t : ℝ => nForward .mul [true, true] 2 1 (fun i _ => if i = 0 then t else 3) zeros 0) = fun t => t * 3 := by
      funext t
      have := ((C176_value [true, true] 1 (fun i _ => if i = 0 then t else 3) zeros ⟨0, rfl⟩) 0 (by norm_num)).2
      rw [hu, Finset.prod_pair (by norm_num)] at this
      simpa using this
    rw [this]
    simpa using (hasDerivAt_id (0 : ℝ)).mul_const 3

/-- **C176, refuted for a mask that switches off everything.** Such a mask is accepted, and forward then writes nothing: the
output keeps whatever was in it, instead of the empty sum 0 or the empty product 1. -/
theorem C176_all_off (op : Op) (N n : Nat) (xs : Nat → Mem ℝ) (y : Mem ℝ) (hN : 0 < N) :
    setMask (List.replicate N true) (List.replicate N false) = .ok (List.replicate N false) ∧
    nForward op (List.replicate N false) N n xs y = y := by
  constructor
  · unfold setMask
    rw [if_neg (by simp; omega), if_pos (by simp)]
  · unfold nForward
    have : (List.range N).find? (isActive (List.replicate N false)) = none := by
      rw [List.find?_eq_none]
      intro i hi
      have hi : i < N := by simpa using hi
      simp [isActive, hi]
    rw [this]

/-- **C177 (the mask stays).** Any number of forward and backward calls with the shapes seen by the last setup keeps the
mask the user set. -/
theorem C177_mask_stays_partial (st : FnState) (calls : List (List Shape)) (h : ∀ s ∈ calls, s = st.shapes) :
    calls.foldlM fnCheck st = .ok st := by
  induction calls with
  | nil => rfl
  | cons s calls ih =>
    have e : fnCheck st s = .ok st := by
      unfold fnCheck
      rw [h s (by simp), if_pos rfl, if_pos rfl]
    rw [List.foldlM_cons, e]
    exact ih fun s hs => h s (by simp [hs])

/-- **C177, refuted when an input is reshaped.** The first call after all inputs got a new common shape runs setup again and
silently switches every input on, whatever mask had been set. -/
theorem C177_mask_lost (st : FnState) (s : Shape) (h : st.shapes ≠ List.replicate st.shapes.length s)
    (hne : st.shapes ≠ []) :
    ∃ st', fnCheck st (List.replicate st.shapes.length s) = .ok st' ∧ st'.shapes = List.replicate st.shapes.length s ∧
      ∀ i, i < st.shapes.length → st'.mask[i]? = some true := by
  have hN : 0 < st.shapes.length := List.length_pos_iff.mpr hne
  obtain ⟨mask, hm⟩ : ∃ mask, nSetup (List.replicate st.shapes.length s) = .ok (s, mask) := by
    refine ⟨List.replicate st.shapes.length true, ((C176_setup _).1 _ _).mpr ⟨?_, ?_, by simp, ?_⟩⟩
    · intro e; have := congrArg List.length e; simp at this; exact hne this
    · intro t ht; exact List.eq_of_mem_replicate ht
    · intro i hi; rw [List.getElem?_replicate, if_pos (by simpa using hi)]
  have hmm := ((C176_setup _).1 _ _).mp hm
  refine ⟨⟨List.replicate st.shapes.length s, mask⟩, ?_, rfl, ?_⟩
  · unfold fnCheck fnSetup
    rw [if_pos (by simp), if_neg h, hm]
  · intro i hi; exact hmm.2.2.2 i (by simpa using hi)

/-- Non-vacuity: two inputs of shape (2,3) with the second switched off; forward with shape (4,) switches it on again. -/
example : ∃ st : FnState, st.mask = [true, false] ∧ st.shapes = [[2, 3], [2, 3]] ∧ [[2, 3], [2, 3]].foldlM (m := Except String)
      (fun st _ => fnCheck st [[2, 3], [2, 3]]) st = .ok st ∧ (fnCheck st [[4], [4]]).map (·.mask) = .ok [true, true] :=
  ⟨⟨[[2, 3], [2, 3]], [true, false]⟩, rfl, rfl, rfl, rfl⟩

end Verif.NAry
