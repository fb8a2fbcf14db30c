import Verif.Fn.Chunk
/-
C74: concatenate, stack and split.
-/
namespace Verif.Fn
open Verif.ND

theorem sizeFrom_eq (s : Shape) (a : Nat) : sizeFrom s a = prod (s.drop a) := (C33_size s a).2.1

theorem size_eq (s : Shape) : size s = prod s := (C33_size s 0).1

theorem refineAxis_ok (a ndim : Nat) (h : a < ndim) (arg : Int) (harg : arg = a ∨ arg = (a : Int) - ndim) :
    refineAxis arg ndim = .ok a := by
  rcases harg with rfl | rfl
  · simp only [refineAxis]; rw [if_pos (by omega), if_neg (by omega)]; simp
  · simp only [refineAxis]; rw [if_pos (by omega), if_pos (by omega)]; congr 1; omega

theorem refineAxis_rejects (arg : Int) (ndim : Nat) (h : arg < -(ndim : Int) ∨ (ndim : Int) ≤ arg) : ∃ e, refineAxis arg ndim = .error e := by
  unfold refineAxis
  rw [if_neg (by omega)]
  exact ⟨_, rfl⟩

theorem catCheck_rejects (axis : Nat) (s0 : Shape) (rest : List Shape) (hr : ∀ s ∈ rest, s.length = s0.length)
    (s : Shape) (hs : s ∈ rest) (j : Nat) (hj : j < s0.length) (hne : j ≠ axis) (hd : s.getD j 0 ≠ s0.getD j 0) :
    ∃ e, catCheck axis s0 rest = .error e := by
  induction rest generalizing s0 with
  | nil => simp at hs
  | cons r rest ih =>
    unfold catCheck
    by_cases h0 : r.length = 0
    · rw [if_pos h0]; exact ⟨_, rfl⟩
    · rw [if_neg h0, if_neg (by have := hr r (by simp); omega)]
      by_cases hex : ∃ j, j < s0.length ∧ j ≠ axis ∧ r.getD j 0 ≠ s0.getD j 0
      · rw [if_pos hex]; exact ⟨_, rfl⟩
      · rw [if_neg hex]
        have hg : (s0.set axis (s0.getD axis 0 + r.getD axis 0)).getD j 0 = s0.getD j 0 := by
          simp only [List.getD_eq_getElem?_getD]
          rw [List.getElem?_set_ne (Ne.symm hne)]
        rcases List.mem_cons.mp hs with rfl | hs
        · exact absurd ⟨j, hj, hne, hd⟩ hex
        · exact ih _ (fun t ht => by rw [List.length_set]; exact hr t (by simp [ht])) hs (by simpa using hj) (by rw [hg]; exact hd)

/-- **C74 (rejections).** `concatenate` raises for an axis outside `[-ndim, ndim)` and for inputs (of the same rank) that differ
away from the axis. -/
theorem C74_concatenate_rejects (s0 : Shape) (rest : List Shape) :
    (∀ arg : Int, arg < -(s0.length : Int) ∨ (s0.length : Int) ≤ arg → ∃ e, catSetup arg (s0 :: rest) = .error e) ∧
    (∀ axis : Nat, axis < s0.length → (∀ s ∈ rest, s.length = s0.length) →
      (∃ s ∈ rest, ∃ j, j < s0.length ∧ j ≠ axis ∧ s.getD j 0 ≠ s0.getD j 0) → ∃ e, catSetup axis (s0 :: rest) = .error e) := by
  constructor
  · intro arg h
    obtain ⟨e, he⟩ := refineAxis_rejects arg s0.length h
    simp only [catSetup, he]
    exact ⟨_, rfl⟩
  · rintro axis ha hr ⟨s, hs, j, hj, hne, hd⟩
    obtain ⟨e, he⟩ := catCheck_rejects axis s0 rest hr s hs j hj hne hd
    simp only [catSetup, refineAxis_ok axis s0.length ha axis (Or.inl rfl), he]
    exact ⟨_, rfl⟩

example : (∃ e, catSetup 2 [[2, 3], [2, 4]] = .error e) ∧ (∃ e, catSetup 1 [[2, 3], [2, 4], [3, 4]] = .error e) ∧
    (∃ s, catSetup (-1) [[2, 3], [2, 4]] = .ok s) := ⟨⟨_, rfl⟩, ⟨_, rfl⟩, ⟨_, rfl⟩⟩

theorem getD_mid (A B : Shape) (d : Nat) : (A ++ d :: B).getD A.length 0 = d := by simp

theorem catCheck_ok (A B : Shape) (d0 : Nat) (ds : List Nat) :
    catCheck A.length (A ++ d0 :: B) (ds.map fun d => A ++ d :: B) = .ok (A ++ (d0 + ds.sum) :: B) := by
  induction ds generalizing d0 with
  | nil => simp [catCheck]
  | cons d ds ih =>
    simp only [List.map_cons, catCheck]
    rw [if_neg (by simp), if_neg (by simp), if_neg, getD_mid, getD_mid, List.set_append_right _ _ (by omega)]
    · simp only [Nat.sub_self, List.set_cons_zero, ih, List.sum_cons, Nat.add_assoc]
    · rintro ⟨j, hj, hne, h⟩
      apply h
      by_cases hlt : j < A.length
      · simp only [List.getD_eq_getElem?_getD]
        rw [List.getElem?_append_left hlt, List.getElem?_append_left hlt]
      · obtain ⟨t, rfl⟩ : ∃ t, j = A.length + (t + 1) := ⟨j - A.length - 1, by omega⟩
        simp only [List.getD_eq_getElem?_getD]
        rw [List.getElem?_append_right (by omega), List.getElem?_append_right (by omega)]
        simp

theorem drop_mid (A B : Shape) (d : Nat) : (A ++ d :: B).drop A.length = d :: B := by simp

theorem sum_map_mul (ds : List Nat) (m : Nat) : (ds.map fun d => d * m).sum = ds.sum * m := by
  induction ds with
  | nil => simp
  | cons d ds ih => simp [ih, Nat.add_mul]

theorem foldl_add (l : List Nat) (a : Nat) : l.foldl (· + ·) a = a + l.sum := by
  induction l generalizing a with
  | nil => simp
  | cons d ds ih => simp [ih, Nat.add_assoc]

theorem offset_mul (ds : List Nat) (m c : Nat) : offsetOf (ds.map fun d => d * m) c = offsetOf ds c * m := by
  rw [offsetOf, ← List.map_take, sum_map_mul]; rfl

theorem take_sum_le (ds : List Nat) (c d : Nat) (h : ds[c]? = some d) : offsetOf ds c + d ≤ ds.sum := by
  induction ds generalizing c with
  | nil => simp at h
  | cons e ds ih => cases c with
    | zero => simp at h; subst h; simp [offsetOf]
    | succ c =>
      have := ih c (by simpa using h)
      simp only [offsetOf, List.take_succ_cons, List.sum_cons] at this ⊢
      omega

/-- Setup of a concatenation of arrays that agree except along the axis. -/
theorem catSetup_ok (A B : Shape) (d0 : Nat) (ds : List Nat) (arg : Int)
    (harg : arg = A.length ∨ arg = (A.length : Int) - (A.length + 1 + B.length : Nat)) (hpos : 0 < d0 * prod B) :
    catSetup arg ((d0 :: ds).map fun d => A ++ d :: B) =
      .ok { axis := A.length, oshape := A ++ (d0 :: ds).sum :: B, outer := prod A,
            total := (d0 :: ds).sum * prod B } := by
  simp only [List.map_cons, catSetup]
  have hl : (A ++ d0 :: B).length = A.length + 1 + B.length := by simp; omega
  rw [refineAxis_ok A.length _ (by rw [hl]; omega) arg (by rw [hl]; exact harg)]
  simp only [catCheck_ok]
  congr 2
  · rw [size_eq, sizeFrom_eq, drop_mid, prod_append]
    show prod A * (d0 * prod B) / (d0 * prod B) = _
    rw [Nat.mul_div_cancel _ hpos]
  · rw [foldl_add]
    simp only [sizeFrom_eq, List.map_map, Function.comp_def, drop_mid, List.sum_cons, prod]
    rw [sum_map_mul, Nat.add_mul]; omega

section
variable {R : Type _}

/-- **C74.** `concatenate(x₀, …, xₙ, axis)` of arrays `A × d_c × B`: the result has shape
`A × (d₀+…+dₙ) × B`, and element `(ka, i, kb)` of input `c` is found in the result at
`(ka, d₀+…+d_{c-1}+i, kb)`. Negative axes count from the end. -/
theorem C74_concatenate (A B : Shape) (d0 : Nat) (ds : List Nat) (arg : Int)
    (harg : arg = A.length ∨ arg = (A.length : Int) - (A.length + 1 + B.length : Nat)) (hpos : 0 < d0 * prod B) :
    ∃ s, catSetup arg ((d0 :: ds).map fun d => A ++ d :: B) = .ok s ∧ s.oshape = A ++ (d0 :: ds).sum :: B ∧
      ∀ (xs : List (Mem R)) (y : Mem R) c d x, (d0 :: ds)[c]? = some d → xs[c]? = some x →
      xs.length = (d0 :: ds).length →
      ∀ ka i kb, InBounds A ka → i < d → InBounds B kb →
        catForward s ((d0 :: ds).map fun d => A ++ d :: B) xs y
          (ravel s.oshape (ka ++ (((d0 :: ds).take c).sum + i) :: kb)) = x (ravel (A ++ d :: B) (ka ++ i :: kb)) := by
  refine ⟨_, catSetup_ok A B d0 ds arg harg hpos, rfl, ?_⟩
  intro xs y c d x hc hx hlen ka i kb hka hi hkb
  simp only [catForward]
  have e1 : ((d0 :: ds).map fun d => A ++ d :: B).map (fun sh => sizeFrom sh A.length) = (d0 :: ds).map fun d => d * prod B := by
    rw [List.map_map]; apply List.map_congr_left; intro d _
    simp only [Function.comp, sizeFrom_eq, drop_mid, prod]
  rw [e1]
  generalize hD : d0 :: ds = D at *
  have hfst : ((D.map fun d => d * prod B).zip xs).map (·.1) = D.map fun d => d * prod B := by
    rw [List.map_fst_zip]; simp [hlen]
  have hz : ((D.map fun d => d * prod B).zip xs)[c]? = some (d * prod B, x) := by
    rw [List.getElem?_zip_eq_some]; simp [hc, hx]
  have hB := ravel_lt hkb
  have hlt : i * prod B + ravel B kb < d * prod B := by
    calc i * prod B + ravel B kb < i * prod B + prod B := by omega
      _ = (i + 1) * prod B := by rw [Nat.add_mul]; omega
      _ ≤ d * prod B := Nat.mul_le_mul_right _ hi
  have key := (catLoop_spec (prod A) (D.sum * prod B) 0 ((D.map fun d => d * prod B).zip xs) y
    (by rw [hfst, sum_map_mul]; omega) (ravel A ka) (ravel_lt hka)).1 c _ x hz _ hlt
  rw [hfst, offset_mul] at key
  rw [ravel_append _ _ _ _ hka.length, ravel_append _ _ _ _ hka.length]
  have e2 : prod (d :: B) = d * prod B := rfl
  have e3 : prod (D.sum :: B) = D.sum * prod B := rfl
  have e4 : ravel (D.sum :: B) (((D.take c).sum + i) :: kb) = 0 + offsetOf D c * prod B + (i * prod B + ravel B kb) := by
    simp only [ravel, offsetOf, Nat.add_mul]; omega
  have e5 : ravel (d :: B) (i :: kb) = i * prod B + ravel B kb := rfl
  rw [e2, e3, e4, e5]
  exact key

/-- **C74.** Backward of concatenate hands each input its own part of the output gradient, adding to the
old gradient exactly when that input's `accum` flag is set. -/
theorem C74_concatenate_backward [AddCommMonoid R] (A B : Shape) (d0 : Nat) (ds : List Nat) (arg : Int)
    (harg : arg = A.length ∨ arg = (A.length : Int) - (A.length + 1 + B.length : Nat)) (hpos : 0 < d0 * prod B) :
    ∃ s, catSetup arg ((d0 :: ds).map fun d => A ++ d :: B) = .ok s ∧ s.oshape = A ++ (d0 :: ds).sum :: B ∧
      ∀ (acc : List Bool) (dy : Mem R) (dxs : List (Mem R)) c d a dx, (d0 :: ds)[c]? = some d →
      acc[c]? = some a → dxs[c]? = some dx → acc.length = (d0 :: ds).length → dxs.length = (d0 :: ds).length →
      ∃ g, (catBackward s ((d0 :: ds).map fun d => A ++ d :: B) acc dy dxs)[c]? = some g ∧
      ∀ ka i kb, InBounds A ka → i < d → InBounds B kb →
        g (ravel (A ++ d :: B) (ka ++ i :: kb)) =
          (if a then dx (ravel (A ++ d :: B) (ka ++ i :: kb)) else 0) +
            dy (ravel s.oshape (ka ++ (((d0 :: ds).take c).sum + i) :: kb)) := by
  refine ⟨_, catSetup_ok A B d0 ds arg harg hpos, rfl, ?_⟩
  intro acc dy dxs c d a dx hc ha hx hlen1 hlen2
  simp only [catBackward]
  have e1 : ((d0 :: ds).map fun d => A ++ d :: B).map (fun sh => sizeFrom sh A.length) = (d0 :: ds).map fun d => d * prod B := by
    rw [List.map_map]; apply List.map_congr_left; intro d _
    simp only [Function.comp, sizeFrom_eq, drop_mid, prod]
  rw [e1]
  generalize hD : d0 :: ds = D at *
  have hfst : ((D.map fun d => d * prod B).zip (acc.zip dxs)).map (·.1) = D.map fun d => d * prod B := by
    rw [List.map_fst_zip]; simp [hlen1, hlen2]
  have hz : ((D.map fun d => d * prod B).zip (acc.zip dxs))[c]? = some (d * prod B, a, dx) := by
    rw [List.getElem?_zip_eq_some, List.getElem?_zip_eq_some]; simp [hc, hx, ha]
  obtain ⟨g, hg, key⟩ := catBackLoop_spec (prod A) (D.sum * prod B) dy 0 _ c _ a dx hz
  refine ⟨g, hg, ?_⟩
  intro ka i kb hka hi hkb
  have hB := ravel_lt hkb
  have hlt : i * prod B + ravel B kb < d * prod B := by
    calc i * prod B + ravel B kb < i * prod B + prod B := by omega
      _ = (i + 1) * prod B := by rw [Nat.add_mul]; omega
      _ ≤ d * prod B := Nat.mul_le_mul_right _ hi
  have key := key (ravel A ka) _ (ravel_lt hka) hlt
  rw [hfst, offset_mul] at key
  rw [ravel_append _ _ _ _ hka.length, ravel_append _ _ _ _ hka.length]
  have e2 : prod (d :: B) = d * prod B := rfl
  have e3 : prod (D.sum :: B) = D.sum * prod B := rfl
  have e4 : ravel (D.sum :: B) (((D.take c).sum + i) :: kb) = 0 + offsetOf D c * prod B + (i * prod B + ravel B kb) := by
    simp only [ravel, offsetOf, Nat.add_mul]; omega
  have e5 : ravel (d :: B) (i :: kb) = i * prod B + ravel B kb := rfl
  rw [e2, e3, e4, e5]
  exact key

/-! Stack -/

theorem stackForward_eq (s : StackState) (xs : List (Mem R)) (y : Mem R) (h : xs.length = s.num) :
    stackForward s xs y = catLoop s.outer (s.inner * s.num) 0 (xs.map fun x => (s.inner, x)) y := by
  unfold stackForward
  have : ∀ (xs : List (Mem R)) (n k : Nat) (y : Mem R), xs.length = n →
      ((List.range' k n).zip xs).foldl (fun y p => fwd (slotPairs s.outer s.inner s.num p.1) p.2 y) y =
      catLoop s.outer (s.inner * s.num) (k * s.inner) (xs.map fun x => (s.inner, x)) y := by
    intro xs
    induction xs with
    | nil => intro n k y hn; subst hn; rfl
    | cons x xs ih =>
      intro n k y hn
      subst hn
      simp only [List.length_cons, List.range'_succ, List.zip_cons_cons, List.foldl_cons, List.map_cons, catLoop]
      rw [ih _ _ _ rfl, Nat.add_mul, Nat.one_mul]; rfl
  rw [List.range_eq_range', this xs _ 0 y h, Nat.zero_mul]

theorem stack_shape (A B : Shape) (n : Nat) : (A ++ B).insertIdx A.length n = A ++ n :: B := by
  induction A with
  | nil => simp
  | cons d A ih => simpa using ih

theorem stackSetup_ok (A B : Shape) (n : Nat) (hn : 0 < n) (arg : Int)
    (harg : arg = A.length ∨ arg = (A.length : Int) - ((A.length + B.length : Nat) + 1)) (hpos : 0 < prod B) :
    stackSetup arg (List.replicate n (A ++ B)) =
      .ok { axis := A.length, oshape := A ++ n :: B, num := n, outer := prod A, inner := prod B } := by
  obtain ⟨m, rfl⟩ : ∃ m, n = m + 1 := ⟨n - 1, by omega⟩
  have hax : (if arg < 0 then arg + ((A ++ B).length + 1) else arg) = (A.length : Int) := by
    rw [List.length_append]
    rcases harg with h | h <;> subst h
    · rw [if_neg (by omega)]
    · split <;> omega
  simp only [List.replicate_succ, stackSetup, hax]
  rw [if_neg (by omega), if_neg (by simp), if_neg]
  · simp only [Int.toNat_natCast, List.length_cons, List.length_replicate, stack_shape, size_eq, sizeFrom_eq,
      List.drop_left, prod_append]
    rw [Nat.mul_div_cancel _ hpos]
  · rintro ⟨s, hs, hne⟩
    exact hne (List.eq_of_mem_replicate hs)

theorem sum_replicate_nat (n m : Nat) : (List.replicate n m).sum = m * n := by
  induction n with
  | zero => simp
  | succ n ih => simp [List.replicate_succ, ih, Nat.mul_add, Nat.add_comm]

/-- **C74.** `stack(x₀, …, xₙ₋₁, axis)` of equally shaped arrays `A × B`: a new axis of extent `n` is
inserted, and slice `c` along it is input `c`. -/
theorem C74_stack (A B : Shape) (n : Nat) (hn : 0 < n) (arg : Int)
    (harg : arg = A.length ∨ arg = (A.length : Int) - ((A.length + B.length : Nat) + 1)) (hpos : 0 < prod B) :
    ∃ s, stackSetup arg (List.replicate n (A ++ B)) = .ok s ∧ s.oshape = A ++ n :: B ∧
      ∀ (xs : List (Mem R)) (y : Mem R) (c : Nat) x, xs.length = n → xs[c]? = some x →
      ∀ ka kb, InBounds A ka → InBounds B kb →
        stackForward s xs y (ravel s.oshape (ka ++ c :: kb)) = x (ravel (A ++ B) (ka ++ kb)) := by
  refine ⟨_, stackSetup_ok A B n hn arg harg hpos, rfl, ?_⟩
  intro xs y c x hl hx ka kb hka hkb
  rw [stackForward_eq _ _ _ (by simpa using hl)]
  simp only
  have hfst : (xs.map fun x => (prod B, x)).map (·.1) = List.replicate n (prod B) := by
    rw [List.map_map]; simp [Function.comp_def, hl]
  have hc : c < n := by rw [← hl]; exact (List.getElem?_eq_some_iff.mp hx).1
  have hz : (xs.map fun x => (prod B, x))[c]? = some (prod B, x) := by simp [hx]
  have key := (catLoop_spec (prod A) (prod B * n) 0 (xs.map fun x => (prod B, x)) y
    (by rw [hfst, sum_replicate_nat]; omega) (ravel A ka) (ravel_lt hka)).1 c _ x hz _ (ravel_lt hkb)
  have eo : offsetOf (List.replicate n (prod B)) c = prod B * c := by
    rw [offsetOf, List.take_replicate, sum_replicate_nat, Nat.min_eq_left (by omega)]
  rw [hfst, eo] at key
  rw [ravel_append _ _ _ _ hka.length, ravel_append _ _ _ _ hka.length]
  have e3 : prod (n :: B) = prod B * n := Nat.mul_comm _ _
  have e4 : ravel (n :: B) (c :: kb) = 0 + prod B * c + ravel B kb := by
    simp only [ravel, Nat.mul_comm (prod B)]; omega
  rw [e3, e4]; exact key

/-- **C74.** Backward of stack hands each input its slice of the output gradient. -/
theorem C74_stack_backward [AddCommMonoid R] (A B : Shape) (n : Nat) (hn : 0 < n) (arg : Int)
    (harg : arg = A.length ∨ arg = (A.length : Int) - ((A.length + B.length : Nat) + 1)) (hpos : 0 < prod B) :
    ∃ s, stackSetup arg (List.replicate n (A ++ B)) = .ok s ∧ s.oshape = A ++ n :: B ∧
      ∀ (acc : List Bool) (dy : Mem R) (dxs : List (Mem R)) (c : Nat) a dx, c < n →
      acc[c]? = some a → dxs[c]? = some dx →
      ∃ g, (stackBackward s acc dy dxs)[c]? = some g ∧ ∀ ka kb, InBounds A ka → InBounds B kb →
        g (ravel (A ++ B) (ka ++ kb)) = (if a then dx (ravel (A ++ B) (ka ++ kb)) else 0) +
          dy (ravel s.oshape (ka ++ c :: kb)) := by
  refine ⟨_, stackSetup_ok A B n hn arg harg hpos, rfl, ?_⟩
  intro acc dy dxs c a dx hc ha hx
  have hz : ((List.range n).zip (acc.zip dxs))[c]? = some (c, a, dx) := by
    rw [List.getElem?_zip_eq_some, List.getElem?_zip_eq_some]; simp [hc, hx, ha]
  refine ⟨_, by simp only [stackBackward, List.getElem?_map, hz]; rfl, ?_⟩
  intro ka kb hka hkb
  rw [ravel_append _ _ _ _ hka.length, ravel_append _ _ _ _ hka.length]
  have e3 : ravel A ka * prod (n :: B) + ravel (n :: B) (c :: kb) = ravel A ka * (prod B * n) + c * prod B + ravel B kb := by
    have : prod (n :: B) = prod B * n := Nat.mul_comm _ _
    rw [this]; simp only [ravel]; omega
  rw [e3]
  simp only [slot_eq_chunk]
  cases a
  · simp only [Bool.false_eq_true, if_false, zero_add]
    rw [bwdSet_chunk _ _ _ _ _ _ _ _ (ravel_lt hka) (ravel_lt hkb)]
  · simp only [if_true]
    rw [bwdAdd_chunk _ _ _ _ _ _ _ _ (ravel_lt hka) (ravel_lt hkb)]

/-! Split -/

theorem splitSetup_ok (A B : Shape) (n : Nat) (arg : Int)
    (harg : arg = A.length ∨ arg = (A.length : Int) - (A.length + 1 + B.length : Nat)) (hpos : 0 < prod B) :
    splitSetup arg (A ++ n :: B) n =
      .ok { axis := A.length, oshape := A ++ B, num := n, outer := prod A, inner := prod B } := by
  have hl : (A ++ n :: B).length = A.length + 1 + B.length := by simp; omega
  have hax : (if arg < 0 then arg + ((A ++ n :: B).length : Int) else arg) = (A.length : Int) := by
    rw [hl]
    rcases harg with h | h <;> subst h
    · rw [if_neg (by omega)]
    · split <;> omega
  have he : (A ++ n :: B).eraseIdx A.length = A ++ B := by
    rw [List.eraseIdx_append_of_length_le (by omega)]; simp
  simp only [splitSetup, hax]
  rw [if_neg (by omega), if_neg (by simp)]
  simp only [Int.toNat_natCast, getD_mid, he, sizeFrom_eq, size_eq, List.drop_left, prod_append]
  rw [if_neg (by simp), if_neg (by omega), if_neg]
  · rw [Nat.mul_div_cancel _ hpos]
  · rw [Nat.mul_div_cancel _ hpos]
    simp only [prod, ne_eq, not_not]
    rw [Nat.mul_comm, Nat.mul_comm (prod B)]

/-- **C74.** `split(x, axis)` of an array `A × n × B` returns its `n` slices `A × B`. -/
theorem C74_split (A B : Shape) (n : Nat) (arg : Int)
    (harg : arg = A.length ∨ arg = (A.length : Int) - (A.length + 1 + B.length : Nat)) (hpos : 0 < prod B) :
    ∃ s, splitSetup arg (A ++ n :: B) n = .ok s ∧ s.oshape = A ++ B ∧
      ∀ (x : Mem R) (ys : List (Mem R)), ys.length = n → ∀ c, c < n →
      ∃ y, (splitForward s x ys)[c]? = some y ∧ ∀ ka kb, InBounds A ka → InBounds B kb →
        y (ravel s.oshape (ka ++ kb)) = x (ravel (A ++ n :: B) (ka ++ c :: kb)) := by
  refine ⟨_, splitSetup_ok A B n arg harg hpos, rfl, ?_⟩
  intro x ys hl c hc
  have hz : ((List.range n).zip ys)[c]? = some (c, ys[c]'(by omega)) := by
    rw [List.getElem?_zip_eq_some]; simp [hc, hl]
  refine ⟨_, by simp only [splitForward, List.getElem?_map, hz]; rfl, ?_⟩
  intro ka kb hka hkb
  simp only
  rw [ravel_append _ _ _ _ hka.length, ravel_append _ _ _ _ hka.length]
  have e3 : ravel A ka * prod (n :: B) + ravel (n :: B) (c :: kb) = ravel A ka * (prod B * n) + c * prod B + ravel B kb := by
    have : prod (n :: B) = prod B * n := Nat.mul_comm _ _
    rw [this]; simp only [ravel]; omega
  rw [e3, slot_eq_chunk, bwdSet_chunk _ _ _ _ _ _ _ _ (ravel_lt hka) (ravel_lt hkb)]

theorem bwdAdd_swap_chunk [AddCommMonoid R] (outer total off inner : Nat) (hoff : off + inner ≤ total) (b c : Mem R)
    (o r : Nat) (ho : o < outer) (hr : r < total) :
    bwdAdd ((chunkPairs outer total off inner).map Prod.swap) b c (o * total + r) =
      if off ≤ r ∧ r < off + inner then c (o * total + r) + b (o * inner + (r - off)) else c (o * total + r) := by
  have hn : (((chunkPairs outer total off inner).map Prod.swap).map (·.2)).Nodup := by
    rw [List.map_map]
    apply List.Nodup.map_on
    · intro p hp q hq e
      obtain ⟨o1, i1, ho1, hi1, rfl⟩ := (mem_chunk _ _ _ _ _).mp hp
      obtain ⟨o2, i2, ho2, hi2, rfl⟩ := (mem_chunk _ _ _ _ _).mp hq
      simp only [Function.comp, Prod.swap, Nat.add_assoc] at e
      obtain ⟨e1, e2⟩ := divmod_unique total o1 o2 (off + i1) (off + i2) (by omega) (by omega) e
      have : i1 = i2 := by omega
      subst e1; subst this; rfl
    · have := List.nodup_range (n := outer * inner)
      rw [← chunk_small outer total off inner] at this
      exact this.of_map _
  by_cases h : off ≤ r ∧ r < off + inner
  · rw [if_pos h]
    exact bwdAdd_mem _ hn b c (o * inner + (r - off), o * total + r) (List.mem_map.mpr
      ⟨(o * total + r, o * inner + (r - off)), (mem_chunk _ _ _ _ _).mpr
        ⟨o, r - off, ho, by omega, by rw [Nat.add_assoc]; congr 2; omega⟩, rfl⟩)
  · rw [if_neg h, bwdAdd_eq]
    have : (((chunkPairs outer total off inner).map Prod.swap).map fun p => if p.2 = o * total + r then b p.1 else 0) =
        ((chunkPairs outer total off inner).map Prod.swap).map fun _ => (0 : R) := by
      apply List.map_congr_left
      intro p hp
      obtain ⟨q, hq, rfl⟩ := List.mem_map.mp hp
      obtain ⟨o', i', ho', hi', rfl⟩ := (mem_chunk _ _ _ _ _).mp hq
      rw [if_neg]
      intro e
      simp only [Prod.swap, Nat.add_assoc] at e
      obtain ⟨e1, e2⟩ := divmod_unique total o' o (off + i') r (by omega) hr e
      omega
    rw [this, List.map_map]; simp [Function.comp_def]

theorem splitBack_loop [AddCommMonoid R] (outer inner num : Nat) (accum : Bool) :
    ∀ (dys : List (Mem R)) (k n : Nat) (dx : Mem R), dys.length = n → k + n ≤ num → ∀ o, o < outer → ∀ c i, i < inner → c < num →
    (((List.range' k n).zip dys).foldl (fun dx p =>
      if accum then bwdAdd ((slotPairs outer inner num p.1).map Prod.swap) p.2 dx
      else fwd (slotPairs outer inner num p.1) p.2 dx) dx) (o * (inner * num) + c * inner + i) =
    if _h : k ≤ c ∧ c < k + n then
      (if accum then dx (o * (inner * num) + c * inner + i) else 0) + (dys.getD (c - k) zeros) (o * inner + i)
    else dx (o * (inner * num) + c * inner + i) := by
  intro dys
  induction dys with
  | nil =>
    intro k n dx hn hle o ho c i hi hc
    subst hn
    rw [dif_neg (by simp)]; rfl
  | cons dy dys ih =>
    intro k n dx hn hle o ho c i hi hc
    subst hn
    simp only [List.length_cons] at hle
    simp only [List.length_cons, List.range'_succ, List.zip_cons_cons, List.foldl_cons]
    rw [ih (k + 1) _ _ rfl (by omega) o ho c i hi hc]
    have hci : c * inner + i < inner * num := by
      calc c * inner + i < c * inner + inner := by omega
        _ = (c + 1) * inner := by rw [Nat.add_mul]; omega
        _ ≤ num * inner := Nat.mul_le_mul_right _ hc
        _ = inner * num := Nat.mul_comm _ _
    have hkn : k * inner + inner ≤ inner * num := by
      calc k * inner + inner = (k + 1) * inner := by rw [Nat.add_mul]; omega
        _ ≤ num * inner := Nat.mul_le_mul_right _ (by omega)
        _ = inner * num := Nat.mul_comm _ _
    have hin : (k * inner ≤ c * inner + i ∧ c * inner + i < k * inner + inner) ↔ c = k := by
      constructor
      · rintro ⟨h1, h2⟩
        have : c * inner + i = k * inner + (c * inner + i - k * inner) := by omega
        exact (divmod_unique inner c k i _ hi (by omega) this).1
      · rintro rfl; omega
    have hstep : (if accum then bwdAdd ((slotPairs outer inner num k).map Prod.swap) dy dx
        else fwd (slotPairs outer inner num k) dy dx) (o * (inner * num) + c * inner + i) =
        if c = k then (if accum then dx (o * (inner * num) + c * inner + i) else 0) + dy (o * inner + i)
        else dx (o * (inner * num) + c * inner + i) := by
      cases accum
      · simp only [Bool.false_eq_true, if_false, zero_add]
        rw [slot_eq_chunk, Nat.add_assoc, fwd_chunk _ _ _ _ hkn _ _ _ _ ho hci]
        by_cases e : c = k
        · rw [if_pos (hin.mpr e), if_pos e]; congr 2; subst e; omega
        · rw [if_neg (fun hh => e (hin.mp hh)), if_neg e]
      · simp only [if_true]
        rw [slot_eq_chunk, Nat.add_assoc, bwdAdd_swap_chunk _ _ _ _ hkn _ _ _ _ ho hci]
        by_cases e : c = k
        · rw [if_pos (hin.mpr e), if_pos e]; congr 3; subst e; omega
        · rw [if_neg (fun hh => e (hin.mp hh)), if_neg e]
    rw [hstep]
    by_cases e : c = k
    · subst e
      rw [dif_neg (by omega), if_pos rfl, dif_pos (by omega)]
      simp
    · rw [if_neg e]
      by_cases hr : k + 1 ≤ c ∧ c < k + 1 + dys.length
      · rw [dif_pos hr, dif_pos (by omega)]
        have : c - k = (c - (k + 1)) + 1 := by omega
        rw [this]; simp
      · rw [dif_neg hr, dif_neg (by omega)]

/-- **C74.** Backward of split puts the gradient of slice `c` back at slice `c`. -/
theorem C74_split_backward [AddCommMonoid R] (A B : Shape) (n : Nat) (arg : Int)
    (harg : arg = A.length ∨ arg = (A.length : Int) - (A.length + 1 + B.length : Nat)) (hpos : 0 < prod B) :
    ∃ s, splitSetup arg (A ++ n :: B) n = .ok s ∧ s.oshape = A ++ B ∧
      ∀ (accum : Bool) (dys : List (Mem R)) (dx : Mem R) (c : Nat) dy, dys.length = n → dys[c]? = some dy →
      ∀ ka kb, InBounds A ka → InBounds B kb →
        splitBackward s accum dys dx (ravel (A ++ n :: B) (ka ++ c :: kb)) =
          (if accum then dx (ravel (A ++ n :: B) (ka ++ c :: kb)) else 0) + dy (ravel s.oshape (ka ++ kb)) := by
  refine ⟨_, splitSetup_ok A B n arg harg hpos, rfl, ?_⟩
  intro accum dys dx c dy hl hy ka kb hka hkb
  have hc : c < n := by rw [← hl]; exact (List.getElem?_eq_some_iff.mp hy).1
  simp only
  rw [ravel_append _ _ _ _ hka.length, ravel_append _ _ _ _ hka.length]
  have e3 : ravel A ka * prod (n :: B) + ravel (n :: B) (c :: kb) = ravel A ka * (prod B * n) + c * prod B + ravel B kb := by
    have : prod (n :: B) = prod B * n := Nat.mul_comm _ _
    rw [this]; simp only [ravel]; omega
  rw [e3]
  have := splitBack_loop (prod A) (prod B) n accum dys 0 n dx hl (by omega) (ravel A ka) (ravel_lt hka) c (ravel B kb)
    (ravel_lt hkb) hc
  rw [splitBackward, List.range_eq_range', this, dif_pos (by omega)]
  simp [List.getD_eq_getElem?_getD, hy]

end

/-- **C74, refuted part.** Concatenate does not check that the inputs have the same number of dimensions:
concatenating arrays of shapes (2,3) and (2,3,5) along axis 0 is accepted with output shape (4,3), and
forward writes to offset 35 although the output has 12 elements. -/
theorem C74_refuted_ndim :
    ∃ s, catSetup 0 [[2, 3], [2, 3, 5]] = .ok s ∧ s.oshape = [4, 3] ∧
      (35, 29) ∈ chunkPairs s.outer s.total 6 (sizeFrom [2, 3, 5] s.axis) ∧
      catForward s [[2, 3], [2, 3, 5]] [fun _ => (0 : Nat), fun _ => 7] (fun _ => 1) 35 = 7 := by
  refine ⟨⟨0, [4, 3], 1, 36⟩, ?_, rfl, ?_, ?_⟩ <;> decide

/-! ### Non-vacuity -/

example : ∃ s, catSetup (-1) [[2, 1], [2, 2]] = .ok s ∧ s.oshape = [2, 3] ∧
    (List.range 6).map (catForward s [[2, 1], [2, 2]] [fun i => i, fun i => 10 + i] (fun _ => 0)) = [0, 10, 11, 1, 12, 13] := by
  refine ⟨⟨1, [2, 3], 2, 3⟩, ?_, rfl, ?_⟩ <;> decide

example : ∃ s, stackSetup 1 [[2, 2], [2, 2]] = .ok s ∧ s.oshape = [2, 2, 2] ∧
    (List.range 8).map (stackForward s [fun i => i, fun i => 10 + i] (fun _ => 0)) = [0, 1, 10, 11, 2, 3, 12, 13] := by
  refine ⟨⟨1, [2, 2, 2], 2, 2, 2⟩, ?_, rfl, ?_⟩ <;> decide

example : ∃ s, splitSetup (-1) [2, 3] 3 = .ok s ∧ s.oshape = [2] ∧
    (splitForward s (fun i => i) (List.replicate 3 (fun _ => 0))).map (fun y => (List.range 2).map y) =
      [[0, 3], [1, 4], [2, 5]] := by
  refine ⟨⟨1, [2], 3, 2, 1⟩, ?_, rfl, ?_⟩ <;> decide

end Verif.Fn
