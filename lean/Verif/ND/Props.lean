import Verif.ND.Model
/-
C33: strides and multi-indices.
-/
namespace Verif.ND

/-! ### Specification -/

/-- Product of the extents. -/
def prod : Shape → Nat
  | [] => 1
  | d :: ds => d * prod ds

/-- A multi-index of an array of that shape. -/
def InBounds : Shape → List Nat → Prop
  | [], [] => True
  | d :: ds, i :: is => i < d ∧ InBounds ds is
  | _, _ => False

instance : (s : Shape) → (i : List Nat) → Decidable (InBounds s i)
  | [], [] => isTrue trivial
  | [], _ :: _ => isFalse id
  | _ :: _, [] => isFalse id
  | d :: ds, i :: is =>
    have := instDecidableInBounds ds is
    inferInstanceAs (Decidable (i < d ∧ InBounds ds is))

/-- Row-major position of a multi-index: the number of elements before it. -/
def ravel : Shape → List Nat → Nat
  | _ :: ds, i :: is => i * prod ds + ravel ds is
  | _, _ => 0

/-- Row-major (lexicographic) order. -/
def Lex : List Nat → List Nat → Prop
  | i :: is, j :: js => i < j ∨ (i = j ∧ Lex is js)
  | _, _ => False

/-! ### Lemmas -/

theorem foldl_mul (l : List Nat) (a : Nat) : l.foldl (· * ·) a = a * prod l := by
  induction l generalizing a with
  | nil => simp [prod]
  | cons d ds ih => simp only [List.foldl_cons, ih, prod, Nat.mul_assoc]

theorem prod_append (a b : Shape) : prod (a ++ b) = prod a * prod b := by
  induction a with
  | nil => simp [prod]
  | cons d ds ih => simp [prod, ih, Nat.mul_assoc]

theorem InBounds.length {s : Shape} {i : List Nat} (h : InBounds s i) : i.length = s.length := by
  induction s generalizing i with
  | nil => cases i with
    | nil => rfl
    | cons _ _ => exact h.elim
  | cons d ds ih => cases i with
    | nil => exact h.elim
    | cons _ _ => simp [ih h.2]

theorem ravel_lt {s : Shape} {i : List Nat} (h : InBounds s i) : ravel s i < prod s := by
  induction s generalizing i with
  | nil => cases i with
    | nil => simp [ravel, prod]
    | cons _ _ => exact h.elim
  | cons d ds ih => cases i with
    | nil => exact h.elim
    | cons k ks =>
      have := ih h.2
      simp only [ravel, prod]
      calc k * prod ds + ravel ds ks < k * prod ds + prod ds := by omega
        _ = (k + 1) * prod ds := by rw [Nat.add_mul]; omega
        _ ≤ d * prod ds := Nat.mul_le_mul_right _ h.1

theorem cStrides_length (s : Shape) : (cStrides s).length = s.length := by
  induction s with
  | nil => rfl
  | cons d ds ih =>
    cases ds with
    | nil => rfl
    | cons e es => simp only [cStrides, List.length_cons] at ih ⊢; omega

/-- The strides from the second on are those of the remaining shape; the first is its size. -/
theorem cStrides_cons (d : Nat) (ds : Shape) : cStrides (d :: ds) = prod ds :: cStrides ds := by
  induction ds generalizing d with
  | nil => rfl
  | cons e es ih =>
    rw [cStrides, ih e]
    simp [prod, Nat.mul_comm]

theorem suffixProducts_cons (x : Nat) (r : List Nat) :
    suffixProducts (x :: r) = prod (x :: r) :: suffixProducts r := by
  induction r generalizing x with
  | nil => simp [suffixProducts, prod]
  | cons y r ih =>
    rw [suffixProducts, ih y]
    simp [prod, Nat.mul_comm, Nat.mul_left_comm]

theorem suffixProducts_tail (l : List Nat) : suffixProducts (l ++ [1]) = cStrides (0 :: l) := by
  induction l with
  | nil => rfl
  | cons d ds ih =>
    rw [List.cons_append, suffixProducts_cons, ih, cStrides_cons, cStrides_cons, cStrides_cons]
    congr 1
    simp [prod, prod_append]

/-! ### Properties -/

/-- **C33.** The size of an array is the product of its extents, of a sub-array from `axis` on the
product of the extents from `axis` on. -/
theorem C33_size (s : Shape) (axis : Nat) : size s = prod s ∧ sizeFrom s axis = prod (s.drop axis) ∧
    innerSize s axis = prod (s.drop axis) ∧ outerSize s axis = prod (s.take axis) ∧
    outerSize s axis * innerSize s axis = size s := by
  have h : prod (s.take axis) * prod (s.drop axis) = prod s := by
    rw [← prod_append, List.take_append_drop]
  simp [size, sizeFrom, innerSize, outerSize, foldl_mul, h]

/-- **C33.** The stride of each axis is the product of the later extents. -/
theorem C33_strides (s : Shape) (k : Nat) (h : k < s.length) :
    (cStrides s)[k]? = some (prod (s.drop (k + 1))) := by
  induction s generalizing k with
  | nil => simp at h
  | cons d ds ih =>
    rw [cStrides_cons]
    cases k with
    | zero => simp
    | succ k =>
      rw [List.getElem?_cons_succ, ih k (by simpa using h)]
      rfl

/-- **C33.** `ndi::strides` and `get_c_contiguous_strides` agree. -/
theorem C33_ndi_strides (s : Shape) : ndiStrides s = cStrides s := by
  cases s with
  | nil => rfl
  | cons d ds =>
    have : min 1 (ds.length + 1) = 1 := by omega
    simp only [ndiStrides, List.drop_succ_cons, List.drop_zero, List.length_cons, this]
    rw [show List.replicate 1 1 = [1] from rfl, suffixProducts_tail, cStrides_cons, cStrides_cons]

/-- The offset computed with the strides is the row-major position. -/
theorem nd2flat_eq (s : Shape) (i : List Nat) : nd2flat i (cStrides s) = ravel s i := by
  induction s generalizing i with
  | nil => cases i <;> simp [cStrides, nd2flat, ravel]
  | cons d ds ih =>
    rw [cStrides_cons]
    cases i with
    | nil => simp [nd2flat, ravel]
    | cons k ks => simp [nd2flat, ravel, ih]

/-- **C33.** The strides map multi-indices into the array: the offset is the row-major position and is
below the size. -/
theorem C33_offset (s : Shape) (i : List Nat) (h : InBounds s i) :
    nd2flat i (cStrides s) = ravel s i ∧ nd2flat i (cStrides s) < size s := by
  rw [nd2flat_eq]
  refine ⟨rfl, ?_⟩
  rw [(C33_size s 0).1]; exact ravel_lt h

theorem flat2nd_ravel (s : Shape) (i : List Nat) (h : InBounds s i) :
    flat2nd (ravel s i) (cStrides s) = i := by
  induction s generalizing i with
  | nil => cases i with
    | nil => rfl
    | cons _ _ => exact h.elim
  | cons d ds ih => cases i with
    | nil => exact h.elim
    | cons k ks =>
      have hlt := ravel_lt h.2
      rw [cStrides_cons, flat2nd, ravel]
      have hpos : 0 < prod ds := by omega
      have hq : (k * prod ds + ravel ds ks) / prod ds = k := by
        rw [Nat.mul_comm, Nat.mul_add_div hpos, Nat.div_eq_of_lt hlt, Nat.add_zero]
      rw [hq]
      congr 1
      rw [Nat.add_sub_cancel_left]
      exact ih ks h.2

theorem flat2nd_spec (s : Shape) (n : Nat) (h : n < prod s) :
    InBounds s (flat2nd n (cStrides s)) ∧ ravel s (flat2nd n (cStrides s)) = n := by
  induction s generalizing n with
  | nil => simp [prod] at h; simp [cStrides, flat2nd, InBounds, ravel, h]
  | cons d ds ih =>
    rw [cStrides_cons, flat2nd]
    have hpos : 0 < prod ds := by
      rcases Nat.eq_zero_or_pos (prod ds) with h0 | h0
      · rw [prod, h0] at h; omega
      · exact h0
    have hm : n - n / prod ds * prod ds = n % prod ds := by
      have := Nat.div_add_mod n (prod ds)
      rw [Nat.mul_comm] at this; omega
    have hlt := Nat.mod_lt n hpos
    obtain ⟨h1, h2⟩ := ih (n % prod ds) hlt
    rw [hm]
    refine ⟨⟨?_, h1⟩, ?_⟩
    · rw [Nat.div_lt_iff_lt_mul hpos]; exact h
    · rw [ravel, h2, Nat.mul_comm]; exact Nat.div_add_mod n (prod ds)

/-- **C33.** Strided offsets and `flat2nd` are mutually inverse bijections between the multi-indices of
the array and the offsets below its size. -/
theorem C33_bijection (s : Shape) :
    (∀ i, InBounds s i → nd2flat i (cStrides s) < size s ∧
      flat2nd (nd2flat i (cStrides s)) (cStrides s) = i) ∧
    ∀ n, n < size s → InBounds s (flat2nd n (cStrides s)) ∧
      nd2flat (flat2nd n (cStrides s)) (cStrides s) = n := by
  refine ⟨fun i h => ⟨(C33_offset s i h).2, ?_⟩, fun n h => ?_⟩
  · rw [nd2flat_eq]; exact flat2nd_ravel s i h
  · rw [(C33_size s 0).1] at h
    rw [nd2flat_eq]; exact flat2nd_spec s n h

/-- **C33.** Memory order is row-major order. -/
theorem C33_row_major (s : Shape) (i j : List Nat) (hi : InBounds s i) (hj : InBounds s j) :
    nd2flat i (cStrides s) < nd2flat j (cStrides s) ↔ Lex i j := by
  rw [nd2flat_eq, nd2flat_eq]
  induction s generalizing i j with
  | nil =>
    cases i with
    | nil => simp [ravel, Lex]
    | cons _ _ => exact hi.elim
  | cons d ds ih =>
    cases i with
    | nil => exact hi.elim
    | cons a as => cases j with
      | nil => exact hj.elim
      | cons b bs =>
        simp only [ravel, Lex]
        have h1 := ravel_lt hi.2
        have h2 := ravel_lt hj.2
        rw [← ih as bs hi.2 hj.2]
        rcases Nat.lt_trichotomy a b with h | h | h
        · have : (a + 1) * prod ds ≤ b * prod ds := Nat.mul_le_mul_right _ h
          rw [Nat.add_mul] at this
          constructor
          · intro _; exact Or.inl h
          · intro _; omega
        · subst h
          constructor
          · intro hh; exact Or.inr ⟨rfl, by omega⟩
          · rintro (hh | ⟨_, hh⟩) <;> omega
        · have : (b + 1) * prod ds ≤ a * prod ds := Nat.mul_le_mul_right _ h
          rw [Nat.add_mul] at this
          constructor
          · intro hh; omega
          · rintro (hh | ⟨hh, _⟩) <;> omega

theorem ravel_zero (s : Shape) : ravel s (zeroIndex s.length) = 0 := by
  induction s with
  | nil => rfl
  | cons d ds ih => simp only [zeroIndex, List.length_cons, List.replicate_succ, ravel] at ih ⊢; simp [ih]

theorem zero_inBounds (s : Shape) (h : 0 < prod s) : InBounds s (zeroIndex s.length) := by
  induction s with
  | nil => trivial
  | cons d ds ih =>
    rw [prod] at h
    exact ⟨Nat.pos_of_mul_pos_right h, ih (Nat.pos_of_mul_pos_left h)⟩

/-- **C33.** `ndi::increment` moves a multi-index to the next memory position; it wraps to zero and
returns false exactly at the last one. -/
theorem C33_increment (s : Shape) (i : List Nat) (h : InBounds s i) :
    ((increment i s).1 = true ∧ InBounds s (increment i s).2 ∧
      ravel s (increment i s).2 = ravel s i + 1) ∨
    ((increment i s).1 = false ∧ (increment i s).2 = zeroIndex s.length ∧ ravel s i + 1 = prod s) := by
  induction s generalizing i with
  | nil => cases i with
    | nil => right; simp [increment, zeroIndex, ravel, prod]
    | cons _ _ => exact h.elim
  | cons d ds ih => cases i with
    | nil => exact h.elim
    | cons k ks =>
      rcases ih ks h.2 with ⟨h1, h2, h3⟩ | ⟨h1, h2, h3⟩
      · left
        have e : increment (k :: ks) (d :: ds) = (true, k :: (increment ks ds).2) := by
          rw [increment]
          cases hh : increment ks ds with
          | mk b r => rw [hh] at h1; simp only at h1; subst h1; rfl
        rw [e]
        exact ⟨rfl, ⟨h.1, h2⟩, by simp only [ravel, h3]; omega⟩
      · have e : increment (k :: ks) (d :: ds) =
            if k + 1 < d then (true, (k + 1) :: (increment ks ds).2) else (false, 0 :: (increment ks ds).2) := by
          rw [increment]
          cases hh : increment ks ds with
          | mk b r => rw [hh] at h1; simp only at h1; subst h1; rfl
        rw [e]
        have hpos : 0 < prod ds := by omega
        by_cases hk : k + 1 < d
        · left
          rw [if_pos hk]
          refine ⟨rfl, ⟨hk, ?_⟩, ?_⟩
          · rw [h2]; exact zero_inBounds ds hpos
          · simp only [ravel]
            rw [h2, ravel_zero, Nat.add_mul]; omega
        · right
          rw [if_neg hk]
          refine ⟨rfl, ?_, ?_⟩
          · rw [h2]; rfl
          · have : d = k + 1 := by have := h.1; omega
            simp only [ravel, prod]
            rw [this, Nat.add_mul]; omega

theorem visit_from (s : Shape) (n : Nat) (i : List Nat) (h : InBounds s i) (hn : ravel s i + n = prod s) :
    (visitLoop s n i).map (ravel s) = List.range' (ravel s i) n ∧
    ∀ j ∈ visitLoop s n i, InBounds s j := by
  induction n generalizing i with
  | zero => simp [visitLoop]
  | succ n ih =>
    rcases C33_increment s i h with ⟨h1, h2, h3⟩ | ⟨h1, h2, h3⟩
    · have e : visitLoop s (n + 1) i = i :: visitLoop s n (increment i s).2 := by
        rw [visitLoop]
        cases hh : increment i s with
        | mk b r => rw [hh] at h1; simp only at h1; subst h1; rfl
      obtain ⟨g1, g2⟩ := ih (increment i s).2 h2 (by omega)
      rw [e]
      constructor
      · rw [List.map_cons, g1, h3, List.range'_succ]
      · intro j hj
        rcases List.mem_cons.mp hj with hj | hj
        · rw [hj]; exact h
        · exact g2 j hj
    · have e : visitLoop s (n + 1) i = [i] := by
        rw [visitLoop]
        cases hh : increment i s with
        | mk b r => rw [hh] at h1; simp only at h1; subst h1; rfl
      have : n = 0 := by omega
      subst this
      rw [e]
      constructor
      · simp [List.range'_succ]
      · intro j hj
        rw [List.mem_singleton] at hj
        rw [hj]; exact h

/-- **C33.** The loop `do … while (increment)` from the zero index visits every multi-index of a
non-empty array once, in memory order: the k-th visited one is at offset k. -/
theorem C33_iterate (s : Shape) (h : 0 < size s) :
    (visitLoop s (size s) (zeroIndex s.length)).map (fun i => nd2flat i (cStrides s)) = List.range (size s) ∧
    ∀ j, j ∈ visitLoop s (size s) (zeroIndex s.length) ↔ InBounds s j := by
  have hs := (C33_size s 0).1
  rw [hs] at h ⊢
  obtain ⟨h1, h2⟩ := visit_from s (prod s) (zeroIndex s.length) (zero_inBounds s h) (by rw [ravel_zero]; omega)
  constructor
  · rw [List.range_eq_range', ← ravel_zero s, ← h1]
    exact List.map_congr_left fun i _ => nd2flat_eq s i
  · intro j
    refine ⟨h2 j, fun hj => ?_⟩
    have hm : ravel s j ∈ (visitLoop s (prod s) (zeroIndex s.length)).map (ravel s) := by
      rw [h1, ravel_zero, List.mem_range'_1]
      have := ravel_lt hj
      omega
    obtain ⟨k, hk, e⟩ := List.mem_map.mp hm
    have : k = j := by rw [← flat2nd_ravel s j hj, ← e, flat2nd_ravel s k (h2 k hk)]
    rw [← this]; exact hk

/-! ### Non-vacuity -/

example : cStrides [2, 3, 4] = [12, 4, 1] := by decide
example : InBounds [2, 3, 4] [1, 2, 3] ∧ nd2flat [1, 2, 3] (cStrides [2, 3, 4]) = 23 := by decide
example : visitLoop [2, 2] 4 [0, 0] = [[0, 0], [0, 1], [1, 0], [1, 1]] := by decide
example : increment [0, 2, 3] [2, 3, 4] = (true, [1, 0, 0]) := by decide

/-- **C33.** `expand` brings a shape or an index to rank `n` (if it is lower) by leading entries `v`, and the offset of the expanded
index in the expanded shape is that of the original one (shapes are expanded by 1, indices by 0). -/
theorem C33_expand (a : List Nat) (n v : Nat) :
    (expand a n v).length = max a.length n ∧ (∀ i < n - a.length, (expand a n v)[i]? = some v) ∧ (expand a n v).drop (n - a.length) = a ∧
    ∀ s : Shape, InBounds s a → InBounds (expand s n 1) (expand a n 0) ∧ ravel (expand s n 1) (expand a n 0) = ravel s a := by
  have e : max a.length n - a.length = n - a.length := by omega
  refine ⟨by simp [expand]; omega, fun i hi => ?_, by simp [expand, e], fun s hs => ?_⟩
  · simp only [expand, e]
    rw [List.getElem?_append_left (by simpa using hi)]
    simp [hi]
  · unfold expand
    rw [hs.length]
    induction (max s.length n - s.length) with
    | zero => exact ⟨hs, rfl⟩
    | succ k ih => simp [List.replicate_succ, InBounds, ravel, ih]

example : expand [2, 3] 4 1 = [1, 1, 2, 3] := by decide

end Verif.ND
