import Verif.Elem.Sort
/-
SearchSorted: models /repo/src/nbla/function/generic/searchsorted.cpp over the real numbers.
-/
namespace Verif.Elem
open Verif.Fn Verif.ND

/-! ### Model -/

/-- search (searchsorted.cpp:51-79): `fuel` bounds the recursion (end - start decreases); it is never exhausted (search_spec). -/
noncomputable def search (seq : Mem ℝ) (value : ℝ) (right : Bool) : Nat → Nat → Nat → Nat
  | 0, _, e => e
  | fuel + 1, s, e =>
    if value > seq e then e + 1
    else if right && decide (value = seq e) then e + 1
    else if value < seq s then s
    else if !right && decide (value = seq s) then s
    else if e - s ≤ 1 then e
    else
      let mid := (s + e + 1) / 2
      if (if right then value < seq mid else value ≤ seq mid) then search seq value right fuel s mid
      else search seq value right fuel mid e

/-- SearchSorted::setup_impl (searchsorted.cpp:24-49): rows, extent of the sequences, extent of the values, output shape. -/
def searchSetup (s v : Shape) : Except String (Nat × Nat × Nat × Shape) :=
  if s.length ≠ v.length then .error "Sequence and Values must have the same ndim"
  else if s.dropLast ≠ v.dropLast then .error "Sequence and Values must have same shape except at innermost dimension"
  else if s.length = 0 then .error "undefined behaviour"
  else if s.getLastD 0 = 0 then .error "division by zero"
  else .ok (prod s / s.getLastD 0, s.getLastD 0, v.getLastD 0, v)

/-- SearchSorted::forward_impl (searchsorted.cpp:81-101). -/
noncomputable def searchForward (rows ns nv : Nat) (right : Bool) (seq values : Mem ℝ) (y : Mem Nat) : Mem Nat :=
  (List.range rows).foldl (fun y i => forPut nv (fun j => i * nv + j)
    (fun j _ => search seq (values (i * nv + j)) right (ns + 1) (i * ns) ((i + 1) * ns - 1) - i * ns) y) y

/-! ### Lemmas -/

/-- Within a sorted range the result splits it: everything before is less (or equal), everything from it on is not. -/
theorem search_spec (seq : Mem ℝ) (value : ℝ) (right : Bool) (fuel s e : Nat) (hse : s ≤ e) (hf : e - s < fuel)
    (hsort : ∀ i j, s ≤ i → i ≤ j → j ≤ e → seq i ≤ seq j) :
    s ≤ search seq value right fuel s e ∧ search seq value right fuel s e ≤ e + 1 ∧
    ∀ i, s ≤ i → i ≤ e → (i < search seq value right fuel s e ↔ if right then seq i ≤ value else seq i < value) := by
  induction fuel generalizing s e with
  | zero => omega
  | succ fuel ih =>
    rw [search]
    by_cases h1 : value > seq e
    · rw [if_pos h1]
      refine ⟨by omega, by omega, fun i hi hie => ?_⟩
      have := hsort i e hi hie le_rfl
      constructor
      · intro _; cases right
        · exact lt_of_le_of_lt this h1
        · exact le_of_lt (lt_of_le_of_lt this h1)
      · intro _; omega
    rw [if_neg h1]
    by_cases h2 : (right && decide (value = seq e)) = true
    · rw [if_pos h2]
      simp only [Bool.and_eq_true, decide_eq_true_eq] at h2
      obtain ⟨rfl, rfl⟩ := h2
      refine ⟨by omega, by omega, fun i hi hie => ?_⟩
      exact ⟨fun _ => hsort i e hi hie le_rfl, fun _ => by omega⟩
    rw [if_neg h2]
    by_cases h3 : value < seq s
    · rw [if_pos h3]
      refine ⟨le_rfl, by omega, fun i hi hie => ?_⟩
      have := hsort s i le_rfl hi hie
      constructor
      · intro h; omega
      · intro h
        exfalso
        cases right
        · simp only [Bool.false_eq_true, if_false] at h; linarith
        · simp only [if_true] at h; linarith
    rw [if_neg h3]
    by_cases h4 : (!right && decide (value = seq s)) = true
    · rw [if_pos h4]
      simp only [Bool.and_eq_true, Bool.not_eq_true', decide_eq_true_eq] at h4
      obtain ⟨rfl, rfl⟩ := h4
      refine ⟨le_rfl, by omega, fun i hi hie => ?_⟩
      have := hsort s i le_rfl hi hie
      constructor
      · intro h; omega
      · intro h; simp only [Bool.false_eq_true, if_false] at h; linarith
    rw [if_neg h4]
    have hs : if right then seq s ≤ value else seq s < value := by
      cases right
      · simp only [Bool.not_false, Bool.true_and, decide_eq_true_eq] at h4
        exact lt_of_le_of_ne (not_lt.mp h3) fun h => h4 h.symm
      · exact not_lt.mp h3
    have he : if right then value < seq e else value ≤ seq e := by
      cases right
      · exact not_lt.mp h1
      · simp only [Bool.true_and, decide_eq_true_eq] at h2
        exact lt_of_le_of_ne (not_lt.mp h1) h2
    by_cases h5 : e - s ≤ 1
    · rw [if_pos h5]
      refine ⟨hse, by omega, fun i hi hie => ?_⟩
      constructor
      · intro hlt
        have : i = s := by omega
        subst this; exact hs
      · intro h
        by_contra hn
        have : i = e := by omega
        subst this
        cases right
        · simp only [Bool.false_eq_true, if_false] at h he; linarith
        · simp only [if_true] at h he; linarith
    rw [if_neg h5]
    simp only
    have hm1 : s < (s + e + 1) / 2 := by omega
    have hm2 : (s + e + 1) / 2 < e := by omega
    by_cases h6 : if right then value < seq ((s + e + 1) / 2) else value ≤ seq ((s + e + 1) / 2)
    · rw [if_pos h6]
      obtain ⟨g1, g2, g3⟩ := ih s ((s + e + 1) / 2) (by omega) (by omega) fun i j hi hij hj => hsort i j hi hij (by omega)
      refine ⟨g1, by omega, fun i hi hie => ?_⟩
      by_cases hi2 : i ≤ (s + e + 1) / 2
      · exact g3 i hi hi2
      · constructor
        · intro h
          exfalso
          have := (g3 ((s + e + 1) / 2) (by omega) le_rfl).mp (by omega)
          cases right
          · simp only [Bool.false_eq_true, if_false] at this h6; linarith
          · simp only [if_true] at this h6; linarith
        · intro h
          exfalso
          have := hsort ((s + e + 1) / 2) i (by omega) (by omega) hie
          cases right
          · simp only [Bool.false_eq_true, if_false] at h h6; linarith
          · simp only [if_true] at h h6; linarith
    · rw [if_neg h6]
      obtain ⟨g1, g2, g3⟩ := ih ((s + e + 1) / 2) e (by omega) (by omega) fun i j hi hij hj => hsort i j (by omega) hij hj
      refine ⟨by omega, g2, fun i hi hie => ?_⟩
      by_cases hi2 : (s + e + 1) / 2 ≤ i
      · exact g3 i hi2 hie
      · refine ⟨fun _ => ?_, fun _ => by omega⟩
        have := hsort i ((s + e + 1) / 2) hi (by omega) (by omega)
        cases right
        · simp only [Bool.false_eq_true, if_false, not_le] at h6 ⊢; linarith
        · simp only [if_true, not_lt] at h6 ⊢; linarith

/-- Loops over rows, each writing its own block. -/
theorem rowPut {R} (rows n : Nat) (g : Nat → Nat → R) (y : Mem R) :
    (∀ i j, i < rows → j < n → (List.range rows).foldl (fun y i => forPut n (fun j => i * n + j) (fun j _ => g i j) y) y (i * n + j) = g i j) ∧
    ∀ k, rows * n ≤ k → (List.range rows).foldl (fun y i => forPut n (fun j => i * n + j) (fun j _ => g i j) y) y k = y k := by
  have hf := fun (i : Nat) (y : Mem R) => forPut_spec n (fun j => i * n + j) (fun j _ => g i j) y fun a b _ _ e => by simpa using e
  induction rows with
  | zero => exact ⟨fun i j hi => absurd hi (by omega), fun k _ => rfl⟩
  | succ r ih =>
    rw [List.range_succ, List.foldl_append]
    simp only [List.foldl_cons, List.foldl_nil]
    refine ⟨?_, ?_⟩
    · intro i j hi hj
      by_cases h : i = r
      · subst h; exact (hf i _).1 j hj
      · rw [(hf r _).2 _ fun a ha e => ?_]
        · exact ih.1 i j (by omega) hj
        · have : (i + 1) * n ≤ r * n := Nat.mul_le_mul_right n (by omega)
          rw [Nat.succ_mul] at this
          omega
    · intro k hk
      rw [Nat.succ_mul] at hk
      rw [(hf r _).2 k fun a ha e => by omega]
      exact ih.2 k (by omega)

/-! ### C94 -/

/-- **C94.** For every row with a non-decreasing sequence and every value, the result is the number of elements of the sequence less than the
value (at most the value with right = true): the elements before that position, and only those, are less (at most). -/
theorem C94_searchsorted (rows ns nv : Nat) (right : Bool) (seq values : Mem ℝ) (y : Mem Nat) (hns : 0 < ns)
    (hsort : ∀ i, i < rows → ∀ a b, a ≤ b → b < ns → seq (i * ns + a) ≤ seq (i * ns + b)) :
    (∀ i j, i < rows → j < nv →
      searchForward rows ns nv right seq values y (i * nv + j) =
        ((List.range ns).filter fun a => decide (if right then seq (i * ns + a) ≤ values (i * nv + j) else seq (i * ns + a) < values (i * nv + j))).length ∧
      ∀ a, a < ns → (a < searchForward rows ns nv right seq values y (i * nv + j) ↔
        if right then seq (i * ns + a) ≤ values (i * nv + j) else seq (i * ns + a) < values (i * nv + j))) ∧
    ∀ k, rows * nv ≤ k → searchForward rows ns nv right seq values y k = y k := by
  have hr := rowPut rows nv (fun i j => search seq (values (i * nv + j)) right (ns + 1) (i * ns) ((i + 1) * ns - 1) - i * ns) y
  refine ⟨?_, hr.2⟩
  intro i j hi hj
  have e : searchForward rows ns nv right seq values y (i * nv + j) = search seq (values (i * nv + j)) right (ns + 1) (i * ns) ((i + 1) * ns - 1) - i * ns := hr.1 i j hi hj
  have hend : (i + 1) * ns - 1 = i * ns + (ns - 1) := by rw [Nat.succ_mul]; omega
  obtain ⟨g1, g2, g3⟩ := search_spec seq (values (i * nv + j)) right (ns + 1) (i * ns) ((i + 1) * ns - 1) (by omega) (by omega) (fun a b ha hab hb => by
    have := hsort i hi (a - i * ns) (b - i * ns) (by omega) (by omega)
    rwa [show i * ns + (a - i * ns) = a by omega, show i * ns + (b - i * ns) = b by omega] at this)
  have hsplit : ∀ a, a < ns → (a < searchForward rows ns nv right seq values y (i * nv + j) ↔
      if right then seq (i * ns + a) ≤ values (i * nv + j) else seq (i * ns + a) < values (i * nv + j)) := by
    intro a ha
    rw [e, ← g3 (i * ns + a) (by omega) (by omega)]
    omega
  refine ⟨?_, hsplit⟩
  have hle : searchForward rows ns nv right seq values y (i * nv + j) ≤ ns := by rw [e]; omega
  generalize searchForward rows ns nv right seq values y (i * nv + j) = r at hsplit hle
  have : (List.range ns).filter (fun a => decide (if right then seq (i * ns + a) ≤ values (i * nv + j) else seq (i * ns + a) < values (i * nv + j))) =
      (List.range ns).filter fun a => decide (0 ≤ a ∧ a < r) :=
    List.filter_congr fun a ha => by
      rw [decide_eq_decide, ← hsplit a (List.mem_range.mp ha)]
      simp
  rw [this]
  have hc : ∀ n, r ≤ n → ((List.range n).filter fun a => decide (0 ≤ a ∧ a < r)).length = r := by
    intro n
    induction n with
    | zero => intro h; simp; omega
    | succ n ih =>
      intro h
      rw [List.range_succ, List.filter_append, List.length_append]
      by_cases hrn : r ≤ n
      · rw [ih hrn]; simp [hrn]
      · have hr' : r = n + 1 := by omega
        subst hr'
        rw [List.filter_eq_self.mpr fun a ha => by have := List.mem_range.mp ha; simp; omega]
        simp
  exact (hc ns hle).symm

/-- **C94.** Setup accepts exactly sequences A ++ [ns] with ns > 0 (and no empty axis) and values A ++ [nv]; the output has the shape of the values. -/
theorem C94_setup (A : Shape) (ns nv : Nat) (hns : 0 < ns) : searchSetup (A ++ [ns]) (A ++ [nv]) = .ok (prod A, ns, nv, A ++ [nv]) := by
  have h0 : ns ≠ 0 := by omega
  simp [searchSetup, h0, prod_append, prod, Nat.mul_div_cancel _ hns]

theorem C94_setup_only (s v : Shape) (r : Nat × Nat × Nat × Shape) (h : searchSetup s v = .ok r) :
    ∃ A ns nv, 0 < ns ∧ s = A ++ [ns] ∧ v = A ++ [nv] ∧ r = (prod A, ns, nv, v) := by
  unfold searchSetup at h
  split_ifs at h with h1 h2 h3 h4
  have hs : s ≠ [] := by rintro rfl; simp at h3
  have hv : v ≠ [] := by rintro rfl; simp at h1; exact hs h1
  rw [not_not] at h2
  have e1 := List.dropLast_append_getLast hs
  have e2 := List.dropLast_append_getLast hv
  rw [List.getLastD_eq_getLast?, List.getLast?_eq_getLast_of_ne_nil hs] at h h4
  rw [List.getLastD_eq_getLast?, List.getLast?_eq_getLast_of_ne_nil hv] at h
  simp only [Option.getD_some, Except.ok.injEq] at h h4
  have hpos : 0 < s.getLast hs := Nat.pos_of_ne_zero h4
  refine ⟨s.dropLast, s.getLast hs, v.getLast hv, hpos, e1.symm, by rw [h2]; exact e2.symm, ?_⟩
  rw [← h]
  have hp : prod s = prod s.dropLast * s.getLast hs := by
    conv_lhs => rw [← e1]
    rw [prod_append]
    simp [prod]
  rw [hp, Nat.mul_div_cancel _ hpos]

example : ∀ i, i < 2 → ∀ a b, a ≤ b → b < 3 → (fun k : Nat => (k : ℝ)) (i * 3 + a) ≤ (fun k : Nat => (k : ℝ)) (i * 3 + b) := by
  intro i _ a b hab _
  simp only [Nat.cast_le]
  omega

end Verif.Elem
