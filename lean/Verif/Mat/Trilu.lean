import Verif.Mat.Diag
/-
C139: trilu. Models /repo/src/nbla/function/generic/trilu.cpp.
-/
namespace Verif.Mat
open Verif.ND Verif.Fn

/-! ### Model -/

/-- `retain_element` (trilu.cpp:43-44), on signed integers. -/
def retain (upper : Bool) (k : Int) (i j : Nat) : Bool :=
  (upper && decide ((i : Int) - j ≤ -k)) || (!upper && decide ((i : Int) - j ≥ -k))

/-- The positions of the triple loop (trilu.cpp:39-47, 79-85): index, row, column. -/
def triPos (batch rows cols : Nat) : List (Nat × Nat × Nat) :=
  (List.range batch).flatMap fun b => (List.range rows).flatMap fun i => (List.range cols).map fun j =>
    (b * rows * cols + i * cols + j, i, j)

/-- Trilu::setup_impl and set_trilu_mask (trilu.cpp:23-50): rows, columns and the mask. `size / (cols * rows)` with a zero divisor
is undefined behaviour. -/
def triSetup {R} [Zero R] [One R] (upper : Bool) (k : Int) (xsh : Shape) (m : Mem R) : Except String (Nat × Nat × Mem R) :=
  if ¬ xsh.length ≥ 2 then .error "Input must have at least 2 dimensions."
  else
    let cols := xsh.getD (xsh.length - 1) 0
    let rows := xsh.getD (xsh.length - 2) 0
    if cols * rows = 0 then .error "division by zero"
    else
      let batch := prod xsh / (cols * rows)
      .ok (rows, cols, (triPos batch rows cols).foldl (fun m p => put m p.1 (if retain upper k p.2.1 p.2.2 then 1 else 0)) m)

/-- Trilu::forward_impl (trilu.cpp:52-60). -/
def triForward {R} [Mul R] (size : Nat) (m x y : Mem R) : Mem R := (List.range size).foldl (fun y i => put y i (x i * m i)) y

/-- Trilu::backward_impl (trilu.cpp:62-87) with propagate_down[0]. -/
def triBackward {R} [Zero R] [Add R] [Mul R] (size rows cols : Nat) (m : Mem R) (accum : Bool) (dy dx : Mem R) : Mem R :=
  (triPos (size / (cols * rows)) rows cols).foldl (fun dx p => put dx p.1 ((if accum then dx p.1 else 0) + dy p.1 * m p.1)) dx

/-! ### Lemmas -/

theorem triPos_eq (batch rows cols : Nat) :
    triPos batch rows cols = (List.range (batch * (rows * cols))).map fun t => (t, t / cols % rows, t % cols) := by
  unfold triPos
  rw [← flat_pairs batch (rows * cols) (fun t => (t, t / cols % rows, t % cols))]
  apply List.flatMap_congr
  intro b _
  rw [← flat_pairs rows cols (fun u => (b * (rows * cols) + u, (b * (rows * cols) + u) / cols % rows, (b * (rows * cols) + u) % cols))]
  apply List.flatMap_congr
  intro i hi
  rw [List.mem_range] at hi
  apply List.map_congr_left
  intro j hj
  rw [List.mem_range] at hj
  have e : b * (rows * cols) + (i * cols + j) = (b * rows + i) * cols + j := by ring
  have h1 : ((b * rows + i) * cols + j) / cols = b * rows + i := by
    rw [Nat.mul_comm, Nat.mul_add_div (by omega), Nat.div_eq_of_lt hj, Nat.add_zero]
  have h2 : ((b * rows + i) * cols + j) % cols = j := by rw [Nat.mul_comm, Nat.mul_add_mod, Nat.mod_eq_of_lt hj]
  have h3 : (b * rows + i) % rows = i := by rw [Nat.mul_comm, Nat.mul_add_mod, Nat.mod_eq_of_lt hi]
  rw [e, h1, h2, h3]
  congr 1
  ring

theorem foldl_tri {R} (batch rows cols : Nat) (f : Nat → Nat → Nat → R → R) (m : Mem R) (k : Nat) :
    (triPos batch rows cols).foldl (fun m p => put m p.1 (f p.1 p.2.1 p.2.2 (m p.1))) m k =
      if k < batch * (rows * cols) then f k (k / cols % rows) (k % cols) (m k) else m k := by
  rw [triPos_eq, List.foldl_map]
  exact foldl_put1 _ (fun t v => f t (t / cols % rows) (t % cols) v) m k

theorem batch_eq (S : Shape) (K L : Nat) (h : L * K ≠ 0) : prod (S ++ [K, L]) / (L * K) = prod S := by
  have : prod (S ++ [K, L]) = prod S * (L * K) := by rw [prod_append]; simp only [prod, Nat.mul_one]; ring
  rw [this, Nat.mul_div_cancel _ (by omega)]

theorem tri_index (S : Shape) (K L : Nat) (s : List Nat) (a b : Nat) (hs : InBounds S s) (ha : a < K) (hb : b < L) :
    ravel (S ++ [K, L]) (s ++ [a, b]) < prod S * (K * L) ∧ ravel (S ++ [K, L]) (s ++ [a, b]) / L % K = a ∧
      ravel (S ++ [K, L]) (s ++ [a, b]) % L = b := by
  have h1 : ((ravel S s * K + a) * L + b) / L = ravel S s * K + a := by
    rw [Nat.mul_comm, Nat.mul_add_div (by omega), Nat.div_eq_of_lt hb, Nat.add_zero]
  have h2 : ((ravel S s * K + a) * L + b) % L = b := by rw [Nat.mul_comm, Nat.mul_add_mod, Nat.mod_eq_of_lt hb]
  have h3 : (ravel S s * K + a) % K = a := by rw [Nat.mul_comm, Nat.mul_add_mod, Nat.mod_eq_of_lt ha]
  refine ⟨?_, ?_, ?_⟩
  · have := ravel_lt (inb2 S K L s a b hs ha hb)
    simpa [prod_append, prod] using this
  · rw [ravel2 S K L s a b hs, h1, h3]
  · rw [ravel2 S K L s a b hs, h2]

theorem triSetup_ok {R} [Zero R] [One R] (upper : Bool) (k : Int) (S : Shape) (K L : Nat) (h : L * K ≠ 0) (m0 : Mem R) :
    ∃ m, triSetup upper k (S ++ [K, L]) m0 = .ok (K, L, m) ∧
      ∀ s a b, InBounds S s → a < K → b < L → m (ravel (S ++ [K, L]) (s ++ [a, b])) = if retain upper k a b then 1 else 0 := by
  have e1 : (S ++ [K, L]).getD (S.length + 2 - 1) 0 = L := by simp [List.getD_eq_getElem?_getD]
  have e2 : (S ++ [K, L]).getD (S.length + 2 - 2) 0 = K := by simp [List.getD_eq_getElem?_getD]
  unfold triSetup
  simp only [List.length_append, List.length_cons, List.length_nil, Nat.zero_add, Nat.reduceAdd, e1, e2]
  rw [if_neg (by omega), if_neg h]
  refine ⟨_, rfl, ?_⟩
  intro s a b hs ha hb
  obtain ⟨h1, h2, h3⟩ := tri_index S K L s a b hs ha hb
  rw [foldl_tri _ _ _ (fun _ i j _ => if retain upper k i j then (1 : R) else 0), batch_eq S K L h, if_pos h1, h2, h3]

/-! ### Theorems -/

/-- **C139 (forward), partial**: for every batch of non-empty matrices, `trilu(x, k, upper=True)` keeps the elements at row `a` and
column `b` with `b - a ≥ k`, `upper=False` those with `b - a ≤ k`; the others are zero. Missing: empty matrices (division by zero,
`C139_empty_wrong`), and elements `v` with `v * 0 ≠ 0` (infinities and NaN, `C139_nan_leaks`). -/
theorem C139_trilu_partial {R} [MulZeroOneClass R] (upper : Bool) (k : Int) (S : Shape) (K L : Nat) (h : L * K ≠ 0) (m0 x y : Mem R) :
    ∃ m, triSetup upper k (S ++ [K, L]) m0 = .ok (K, L, m) ∧
      ∀ s a b, InBounds S s → a < K → b < L →
        triForward (prod (S ++ [K, L])) m x y (ravel (S ++ [K, L]) (s ++ [a, b])) =
          if (upper = true ∧ k ≤ (b : Int) - a) ∨ (upper = false ∧ (b : Int) - a ≤ k)
          then x (ravel (S ++ [K, L]) (s ++ [a, b])) else 0 := by
  obtain ⟨m, hm, hv⟩ := triSetup_ok (R := R) upper k S K L h m0
  refine ⟨m, hm, ?_⟩
  intro s a b hs ha hb
  have hlt := ravel_lt (inb2 S K L s a b hs ha hb)
  unfold triForward
  rw [foldl_put1 _ (fun i _ => x i * m i), if_pos hlt, hv s a b hs ha hb]
  have hr : retain upper k a b = true ↔ (upper = true ∧ k ≤ (b : Int) - a) ∨ (upper = false ∧ (b : Int) - a ≤ k) := by
    unfold retain
    cases upper <;> simp <;> omega
  by_cases hc : retain upper k a b = true
  · rw [if_pos hc, if_pos (hr.mp hc), mul_one]
  · rw [if_neg hc, if_neg (fun c => hc (hr.mpr c)), mul_zero]

/-- **C139 (gradient).** The output gradient passes through exactly the kept elements, and is added to what is there when
accumulating. -/
theorem C139_trilu_grad {R} [NonAssocSemiring R] (upper : Bool) (k : Int) (S : Shape) (K L : Nat) (h : L * K ≠ 0) (m0 dy dx : Mem R) (accum : Bool) :
    ∃ m, triSetup upper k (S ++ [K, L]) m0 = .ok (K, L, m) ∧
      ∀ s a b, InBounds S s → a < K → b < L →
        triBackward (prod (S ++ [K, L])) K L m accum dy dx (ravel (S ++ [K, L]) (s ++ [a, b])) =
          (if accum then dx (ravel (S ++ [K, L]) (s ++ [a, b])) else 0) +
          if (upper = true ∧ k ≤ (b : Int) - a) ∨ (upper = false ∧ (b : Int) - a ≤ k)
          then dy (ravel (S ++ [K, L]) (s ++ [a, b])) else 0 := by
  obtain ⟨m, hm, hv⟩ := triSetup_ok (R := R) upper k S K L h m0
  refine ⟨m, hm, ?_⟩
  intro s a b hs ha hb
  obtain ⟨h1, h2, h3⟩ := tri_index S K L s a b hs ha hb
  unfold triBackward
  rw [foldl_tri _ _ _ (fun t _ _ v => (if accum then v else 0) + dy t * m t), batch_eq S K L h, if_pos h1, hv s a b hs ha hb]
  have hr : retain upper k a b = true ↔ (upper = true ∧ k ≤ (b : Int) - a) ∨ (upper = false ∧ (b : Int) - a ≤ k) := by
    unfold retain
    cases upper <;> simp <;> omega
  by_cases hc : retain upper k a b = true
  · rw [if_pos hc, if_pos (hr.mp hc), mul_one]
  · rw [if_neg hc, if_neg (fun c => hc (hr.mpr c)), mul_zero]

/-- **C139, refuted part.** A batch of matrices without rows divides by zero. -/
theorem C139_empty_wrong (m0 : Mem Int) : ∃ e, triSetup true 0 [2, 0, 3] m0 = .error e := ⟨_, rfl⟩

/-- **C139, refuted part.** An element `v` with `v * 0 ≠ 0` (NaN, infinity) that should be masked stays visible: the lower left
element of a 2 × 2 matrix with `upper`. -/
theorem C139_nan_leaks {R} [Mul R] [Zero R] [One R] (v : R) (hv : v * 0 ≠ 0) (x y m0 : Mem R) (hx : x 2 = v) :
    ∃ m, triSetup true 0 [2, 2] m0 = .ok (2, 2, m) ∧ triForward 4 m x y 2 ≠ 0 := by
  obtain ⟨m, hm, h⟩ := triSetup_ok (R := R) true 0 [] 2 2 (by decide) m0
  refine ⟨m, hm, ?_⟩
  have := h [] 1 0 trivial (by decide) (by decide)
  have e : m 2 = 0 := this
  unfold triForward
  rw [foldl_put1 _ (fun i _ => x i * m i), if_pos (by decide), e, hx]
  exact hv

example : ∃ m, triSetup true 1 [2, 2, 3] (fun _ => (9 : Int)) = .ok (2, 3, m) ∧
    (List.range 12).map (triForward 12 m (fun i => (i : Int) + 1) (fun _ => 9)) = [0, 2, 3, 0, 0, 6, 0, 8, 9, 0, 0, 12] := by
  refine ⟨_, rfl, ?_⟩
  decide

end Verif.Mat
