import Verif.Elem.Reduce
/-
C85: values and gradients of Sum, Mean, Prod, Max, Min.
-/
namespace Verif.Elem
open Verif.Fn Verif.ND

/-! ### The permutation kept ++ reduced -/

theorem perm_kept (n : Nat) (red : List Nat) (hs : red.Pairwise (· < ·)) (hhi : ∀ a ∈ red, a < n) : PermAxes (keptAxes n red ++ red) n := by
  have hnd : red.Nodup := hs.imp fun h => by omega
  have hk : (keptAxes n red).Nodup := List.nodup_range.filter _
  have hlt : ∀ a ∈ keptAxes n red, a < n := fun a ha => List.mem_range.mp (List.mem_filter.mp ha).1
  have hnd' : (keptAxes n red ++ red).Nodup := by
    rw [List.nodup_append]
    refine ⟨hk, hnd, ?_⟩
    rintro a ha b hb rfl
    have := (List.mem_filter.mp ha).2
    simp at this
    exact this hb
  refine ⟨hnd', ?_, ?_⟩
  · intro a ha
    rcases List.mem_append.mp ha with h | h
    · exact hlt a h
    · exact hhi a h
  · have h1 : (keptAxes n red ++ red).Perm (List.range n) := by
      rw [List.perm_ext_iff_of_nodup hnd' List.nodup_range]
      intro a
      simp only [List.mem_append, keptAxes, List.mem_filter, List.mem_range, decide_eq_true_eq]
      constructor
      · rintro (⟨h, _⟩ | h)
        · exact h
        · exact hhi a h
      · intro h
        by_cases e : a ∈ red
        · exact Or.inr e
        · exact Or.inl ⟨h, e⟩
    simpa using h1.length_eq

theorem prod_perm {a b : Shape} (h : a.Perm b) : prod a = prod b := by
  induction h with
  | nil => rfl
  | cons x _ ih => simp only [prod, ih]
  | swap x y l => simp only [prod]; ring
  | trans _ _ ih1 ih2 => rw [ih1, ih2]

theorem prod_pick {axes : List Nat} {s : Shape} (h : PermAxes axes s.length) : prod (pick axes s) = prod s := by
  have h1 : (pick axes s).Perm ((List.range s.length).map (s.getD · 0)) := h.perm.map _
  rw [prod_perm h1]
  congr 1
  apply List.ext_getElem
  · simp
  · intro i h1 h2; simp [List.getD_eq_getElem?_getD, List.getElem?_eq_getElem h2]

theorem pick_append (a b i : List Nat) : pick (a ++ b) i = pick a i ++ pick b i := List.map_append

theorem inBounds_pick (s : Shape) (i axes : List Nat) (h : ∀ a ∈ axes, a < s.length) (hi : InBounds s i) : InBounds (pick axes s) (pick axes i) := by
  have hb := (inBounds_iff s i).mp hi
  rw [inBounds_iff]
  refine ⟨by simp [pick], ?_⟩
  intro k hk
  have hk' : k < axes.length := by simpa [pick] using hk
  have hm : axes.getD k 0 ∈ axes := by
    rw [List.getD_eq_getElem?_getD, List.getElem?_eq_getElem hk']; exact List.getElem_mem hk'
  unfold pick
  rw [getD_map_lt axes _ 0 0 _ hk', getD_map_lt axes _ 0 0 _ hk']
  exact hb.2 _ (h _ hm)

theorem kept_lt (n : Nat) (red : List Nat) : ∀ a ∈ keptAxes n red, a < n := fun _ ha => List.mem_range.mp (List.mem_filter.mp ha).1

/-- Offset of the input element `i` in the matrix the reduction works on: row and column. -/
theorem ravel_split (s : Shape) (red i : List Nat) (hi : InBounds s i) :
    ravel (pick (keptAxes s.length red ++ red) s) (pick (keptAxes s.length red ++ red) i) =
      ravel (pick (keptAxes s.length red) s) (pick (keptAxes s.length red) i) * prod (pick red s) + ravel (pick red s) (pick red i) := by
  rw [pick_append, pick_append, ravel_append _ _ _ _ (by simp [pick])]

theorem outer_eq (s : Shape) (red : List Nat) (hs : red.Pairwise (· < ·)) (hhi : ∀ a ∈ red, a < s.length) (hpos : 0 < prod s) :
    0 < prod (pick red s) ∧ size s / prod (pick red s) = prod (pick (keptAxes s.length red) s) ∧
      prod (pick (keptAxes s.length red) s) * prod (pick red s) = prod s := by
  have h := prod_pick (perm_kept s.length red hs hhi)
  rw [pick_append, prod_append] at h
  have hp : 0 < prod (pick red s) := Nat.pos_of_ne_zero fun e => by rw [e, Nat.mul_zero] at h; omega
  refine ⟨hp, ?_, h⟩
  rw [(C33_size s 0).1, ← h, Nat.mul_div_cancel _ hp]

/-- keep_dims does not move elements. -/
theorem ravel_keep (s : Shape) (red : List Nat) (keep : Bool) (i : List Nat) :
    ravel (outShape keep red s) (outIndex keep red s.length i) = ravel (outShape false red s) (outIndex false red s.length i) ∧
    prod (outShape keep red s) = prod (outShape false red s) := by
  cases keep
  · exact ⟨rfl, rfl⟩
  · simp only [outShape, outIndex, if_true, Bool.false_eq_true, if_false, keptAxes, pick]
    induction (List.range s.length) with
    | nil => exact ⟨rfl, rfl⟩
    | cons a L ih =>
      by_cases h : a ∈ red
      · have hd : decide (a ∉ red) = false := by simp [h]
        simp only [List.map_cons, if_pos h, List.filter_cons, hd, Bool.false_eq_true, if_false, ravel, prod, ih.1, ih.2]
        simp
      · have hd : decide (a ∉ red) = true := by simp [h]
        simp only [List.map_cons, if_neg h, List.filter_cons, hd, if_true, ravel, prod, ih.1, ih.2]
        exact ⟨trivial, trivial⟩

/-- The matrix the row loops see. -/
noncomputable def matrixOf (red : List Nat) (s : Shape) (x buf : Mem ℝ) : Mem ℝ :=
  if keptAxes s.length red ++ red ≠ List.range s.length then trForward (trState (keptAxes s.length red ++ red) s) x buf else x

theorem pick_range (s i : List Nat) (h : i.length = s.length) : pick (List.range s.length) i = i := by
  apply List.ext_getElem
  · simp [pick, h]
  · intro k h1 h2; simp [pick, List.getD_eq_getElem?_getD, List.getElem?_eq_getElem h2]

/-- **C85.** Row and column of every input element in the matrix: the row is the position of its result element, the column
its position within the reduced axes, in row-major order. -/
theorem C85_matrix (red : List Nat) (s : Shape) (hs : red.Pairwise (· < ·)) (hhi : ∀ a ∈ red, a < s.length) (x buf : Mem ℝ) (i : List Nat)
    (hi : InBounds s i) :
    matrixOf red s x buf (ravel (outShape false red s) (outIndex false red s.length i) * prod (pick red s) + ravel (pick red s) (pick red i)) =
      x (ravel s i) := by
  have hp := perm_kept s.length red hs hhi
  have e := ravel_split s red i hi
  show matrixOf red s x buf (ravel (pick (keptAxes s.length red) s) (pick (keptAxes s.length red) i) * _ + _) = _
  rw [← e, matrixOf]
  by_cases h : keptAxes s.length red ++ red ≠ List.range s.length
  · rw [if_pos h]
    obtain ⟨st, h1, h2, h3⟩ := C72_transpose_partial (R := ℝ) (keptAxes s.length red ++ red) s hp (inBounds_pos hi)
    have h4 := trSetup_ok _ s hp
    rw [h4] at h1
    have : trState (keptAxes s.length red ++ red) s = st := by injection h1 with h1; exact (Prod.mk.inj h1).2
    rw [this]
    have := h3 x buf i hi
    rw [h2] at this
    exact this
  · rw [if_neg h]
    have h := not_not.mp h
    rw [h, pick_range s i hi.length, pick_range s s rfl]

theorem reduceForward_eq (f : Nat → Mem ℝ → ℝ) (keep : Bool) (red : List Nat) (s : Shape) (hs : red.Pairwise (· < ·)) (hhi : ∀ a ∈ red, a < s.length)
    (hpos : 0 < prod s) (x buf y : Mem ℝ) :
    reduceForward f (readyObj keep red s) s x buf y =
      .ok (rowForward (f (prod (pick red s))) (prod (outShape false red s)) (prod (pick red s)) (matrixOf red s x buf) y) := by
  obtain ⟨h1, h2, _⟩ := outer_eq s red hs hhi hpos
  unfold reduceForward
  rw [if_neg (show ¬ (readyObj keep red s).reductionSize = 0 by show ¬ prod (pick red s) = 0; omega)]
  show (match (readyObj keep red s).fTranspose with | none => _ | some tr => _) = _
  unfold matrixOf
  by_cases h : keptAxes s.length red ++ red ≠ List.range s.length
  · simp only [readyObj, if_pos h]
    rw [trSetup_ok _ s (perm_kept s.length red hs hhi), h2]
    rfl
  · simp only [readyObj, if_neg h]
    rw [h2]
    rfl

theorem rowForward_eq (f : Mem ℝ → ℝ) (outer R : Nat) (x y : Mem ℝ) (o : Nat) :
    rowForward f outer R x y o = if o < outer then f (fun i => x (o * R + i)) else y o := by
  unfold rowForward
  induction outer with
  | zero => simp
  | succ n ih =>
    rw [List.range_succ, List.foldl_append]
    simp only [List.foldl_cons, List.foldl_nil]
    by_cases e : o = n
    · subst e; rw [put_same, if_pos (by omega)]
    · rw [put_other _ _ e, ih]
      have h1 : (o < n + 1) = (o < n) := by apply propext; omega
      simp only [h1]

/-- The fibre of `i`, in the order in which the row loop visits it. -/
theorem fiber_row (red : List Nat) (s : Shape) (hs : red.Pairwise (· < ·)) (hhi : ∀ a ∈ red, a < s.length) (x buf : Mem ℝ) (i : List Nat)
    (hi : InBounds s i) :
    ((fiber red s i).map fun i' => x (ravel s i')).Perm ((List.range (prod (pick red s))).map fun k =>
      matrixOf red s x buf (ravel (outShape false red s) (outIndex false red s.length i) * prod (pick red s) + k)) := by
  have hp := perm_kept s.length red hs hhi
  set K := keptAxes s.length red with hK
  -- the index with coordinates of i on kept axes and q on the reduced axes
  let mk := fun q : List Nat => unperm (K ++ red) s.length (pick K i ++ q)
  have hlen : ∀ q, q.length = red.length → (pick K i ++ q).length = s.length := by
    intro q hq
    rw [List.length_append, hq]
    have := hp.length
    simp only [List.length_append] at this
    simp [pick]; omega
  have hmk : ∀ q, InBounds (pick red s) q → InBounds s (mk q) ∧ pick K (mk q) = pick K i ∧ pick red (mk q) = q := by
    intro q hq
    have hql : q.length = red.length := by rw [hq.length]; simp [pick]
    have e := perm_unperm hp (pick K i ++ q) (hlen q hql)
    have e' : pick K (mk q) ++ pick red (mk q) = pick K i ++ q := by rw [← pick_append]; exact e
    have e1 := List.append_inj e' (by simp [pick])
    refine ⟨?_, e1.1, e1.2⟩
    have hl : (mk q).length = s.length := by simp [mk, unperm]
    rw [← inBounds_perm hp (mk q) hl]
    show InBounds (pick (K ++ red) s) (pick (K ++ red) (mk q))
    rw [pick_append, pick_append, e1.1, e1.2]
    rw [inBounds_iff]
    have b1 := (inBounds_iff _ _).mp (inBounds_pick s i K (kept_lt _ _) hi)
    have b2 := (inBounds_iff _ _).mp hq
    refine ⟨by simp only [List.length_append, b1.1, b2.1], ?_⟩
    intro k hk
    simp only [List.getD_eq_getElem?_getD] at b1 b2 ⊢
    by_cases hk1 : k < (pick K s).length
    · rw [List.getElem?_append_left (by rw [b1.1]; exact hk1), List.getElem?_append_left hk1]
      exact b1.2 k hk1
    · rw [List.getElem?_append_right (by rw [b1.1]; omega), List.getElem?_append_right (by omega), b1.1]
      simp only [List.length_append] at hk
      exact b2.2 _ (by omega)
  have hperm : (fiber red s i).Perm ((indices (pick red s)).map mk) := by
    rw [List.perm_ext_iff_of_nodup]
    · intro j
      simp only [fiber, List.mem_filter, mem_indices, decide_eq_true_eq, List.mem_map, outIndex, Bool.false_eq_true, if_false]
      constructor
      · rintro ⟨hj, e⟩
        refine ⟨pick red j, inBounds_pick s j red hhi hj, ?_⟩
        show unperm (K ++ red) s.length (pick K i ++ pick red j) = j
        rw [← e, ← pick_append]
        exact unperm_perm hp j hj.length
      · rintro ⟨q, hq, rfl⟩
        exact ⟨(hmk q hq).1, (hmk q hq).2.1⟩
    · exact ((indices_nodup s).of_map).filter _
    · refine (indices_nodup _).of_map.map_on ?_
      intro a ha b hb e
      rw [← (hmk a ((mem_indices _ _).mp ha)).2.2, ← (hmk b ((mem_indices _ _).mp hb)).2.2, e]
  refine (hperm.map _).trans ?_
  rw [List.map_map, ← indices_ravel, List.map_map]
  refine List.Perm.of_eq (List.map_congr_left ?_)
  intro q hq
  obtain ⟨h1, h2, h3⟩ := hmk q ((mem_indices _ _).mp hq)
  have := C85_matrix red s hs hhi x buf (mk q) h1
  simp only [outIndex, Bool.false_eq_true, if_false, h3] at this
  rw [show pick (keptAxes s.length red) (mk q) = pick K i from h2] at this
  simp only [Function.comp, outIndex, Bool.false_eq_true, if_false]
  exact this.symm

/-! ### Rows -/

theorem prodRow_eq (R : Nat) (row : Mem ℝ) : prodRow R row = ((List.range R).map row).prod := by
  unfold prodRow
  induction R with
  | zero => simp
  | succ R ih => rw [List.range_succ, List.foldl_append, ih, List.map_append, List.prod_append]; simp

theorem sum_range_list' (R : Nat) (row : Mem ℝ) : ∑ i ∈ Finset.range R, row i = ((List.range R).map row).sum := by
  induction R with
  | zero => simp
  | succ R ih => rw [List.range_succ, List.map_append, List.sum_append, Finset.sum_range_succ, ih]; simp

/-- The maximum loop: greatest of -1e8 and the elements; the position is that of the first greatest element. -/
theorem maxLoop_spec (R : Nat) (row : Mem ℝ) :
    (∀ i, i < R → row i ≤ (maxLoop R row).1) ∧ -100000000 ≤ (maxLoop R row).1 ∧
    (((maxLoop R row) = (-100000000, 0) ∧ ∀ i, i < R → row i ≤ -100000000) ∨
      ((maxLoop R row).2 < R ∧ row (maxLoop R row).2 = (maxLoop R row).1 ∧ -100000000 < (maxLoop R row).1 ∧
        ∀ i, i < (maxLoop R row).2 → row i < (maxLoop R row).1)) := by
  induction R with
  | zero => exact ⟨fun i h => absurd h (by omega), le_refl _, Or.inl ⟨rfl, fun i h => absurd h (by omega)⟩⟩
  | succ R ih =>
    have e : maxLoop (R + 1) row = if row R > (maxLoop R row).1 then (row R, R) else maxLoop R row := by
      unfold maxLoop; rw [List.range_succ, List.foldl_append]; rfl
    obtain ⟨h1, h2, h3⟩ := ih
    rw [e]
    by_cases h : row R > (maxLoop R row).1
    · rw [if_pos h]
      refine ⟨?_, by linarith, Or.inr ⟨by simp, rfl, by simp only; linarith, ?_⟩⟩
      · intro i hi
        by_cases e : i = R
        · subst e; exact le_refl _
        · exact (h1 i (by omega)).trans h.le
      · intro i hi
        exact lt_of_le_of_lt (h1 i hi) h
    · rw [if_neg h]
      have hR := not_lt.mp h
      refine ⟨?_, h2, ?_⟩
      · intro i hi
        by_cases e : i = R
        · subst e; exact hR
        · exact h1 i (by omega)
      · rcases h3 with ⟨a, b⟩ | ⟨a, b, c, d⟩
        · refine Or.inl ⟨a, ?_⟩
          intro i hi
          by_cases e : i = R
          · subst e; rw [a] at hR; exact hR
          · exact b i (by omega)
        · exact Or.inr ⟨by omega, b, c, d⟩

theorem minLoop_neg (R : Nat) (row : Mem ℝ) : (minLoop R row) = (-(maxLoop R fun i => -row i).1, (maxLoop R fun i => -row i).2) := by
  induction R with
  | zero => simp [minLoop, maxLoop]
  | succ R ih =>
    have e1 : minLoop (R + 1) row = if row R < (minLoop R row).1 then (row R, R) else minLoop R row := by
      unfold minLoop; rw [List.range_succ, List.foldl_append]; rfl
    have e2 : maxLoop (R + 1) (fun i => -row i) = if -row R > (maxLoop R fun i => -row i).1 then (-row R, R) else maxLoop R fun i => -row i := by
      unfold maxLoop; rw [List.range_succ, List.foldl_append]; rfl
    rw [e1, e2, ih]
    have hc : (row R < -(maxLoop R fun i => -row i).1) ↔ (-row R > (maxLoop R fun i => -row i).1) := by
      constructor <;> intro h <;> linarith
    by_cases h : -row R > (maxLoop R fun i => -row i).1
    · rw [if_pos h, if_pos (hc.mpr h)]; simp
    · rw [if_neg h, if_neg (fun h' => h (hc.mp h'))]

/-- The loop without the artificial start: if some element is above -1e8, the result is the greatest element and its first
position. -/
theorem maxLoop_greatest (R : Nat) (row : Mem ℝ) (i : Nat) (hi : i < R) (h : -100000000 < row i) :
    (maxLoop R row).2 < R ∧ row (maxLoop R row).2 = (maxLoop R row).1 ∧ (∀ k, k < R → row k ≤ (maxLoop R row).1) ∧
      ∀ k, k < (maxLoop R row).2 → row k < (maxLoop R row).1 := by
  obtain ⟨h1, h2, h3⟩ := maxLoop_spec R row
  rcases h3 with ⟨_, b⟩ | ⟨a, b, _, d⟩
  · have := b i hi; linarith
  · exact ⟨a, b, h1, d⟩

/-- A strict maximum above -1e8 is found. -/
theorem maxLoop_strict (R : Nat) (row : Mem ℝ) (i : Nat) (hi : i < R) (h : -100000000 < row i) (hst : ∀ k, k < R → k ≠ i → row k < row i) :
    maxLoop R row = (row i, i) := by
  obtain ⟨h1, h2, h3, h4⟩ := maxLoop_greatest R row i hi h
  have e : (maxLoop R row).2 = i := by
    by_contra hne
    have a := hst _ h1 hne
    have b := h3 i hi
    linarith
  have e2 : (maxLoop R row).1 = row i := by rw [← h2, e]
  exact Prod.ext e2 e

/-! ### Values -/

/-- **C85.** Sum, mean and product over the reduced axes: every element of the result is the sum (mean, product) of the input
elements that differ from its index only on the reduced axes. -/
theorem C85_values (keep : Bool) (red : List Nat) (s : Shape) (hs : red.Pairwise (· < ·)) (hhi : ∀ a ∈ red, a < s.length) (x buf y : Mem ℝ)
    (i : List Nat) (hi : InBounds s i) :
    (∃ r, reduceForward sumRow (readyObj keep red s) s x buf y = .ok r ∧
      r (ravel (outShape keep red s) (outIndex keep red s.length i)) = ((fiber red s i).map fun i' => x (ravel s i')).sum) ∧
    (∃ r, reduceForward meanRow (readyObj keep red s) s x buf y = .ok r ∧
      r (ravel (outShape keep red s) (outIndex keep red s.length i)) =
        ((fiber red s i).map fun i' => x (ravel s i')).sum / (fiber red s i).length) ∧
    ∃ r, reduceForward prodRow (readyObj keep red s) s x buf y = .ok r ∧
      r (ravel (outShape keep red s) (outIndex keep red s.length i)) = ((fiber red s i).map fun i' => x (ravel s i')).prod := by
  have hpos := inBounds_pos hi
  have hrow := fiber_row red s hs hhi x buf i hi
  have hlt : ravel (outShape false red s) (outIndex false red s.length i) < prod (outShape false red s) :=
    ravel_lt (inBounds_pick s i _ (kept_lt _ _) hi)
  have hlen : (fiber red s i).length = prod (pick red s) := by simpa using hrow.length_eq
  refine ⟨⟨_, reduceForward_eq _ keep red s hs hhi hpos x buf y, ?_⟩, ⟨_, reduceForward_eq _ keep red s hs hhi hpos x buf y, ?_⟩,
    ⟨_, reduceForward_eq _ keep red s hs hhi hpos x buf y, ?_⟩⟩
  · rw [(ravel_keep s red keep i).1, rowForward_eq, if_pos hlt, sumRow, sum_range_list', hrow.sum_eq]
  · rw [(ravel_keep s red keep i).1, rowForward_eq, if_pos hlt, meanRow, sum_range_list', hrow.sum_eq, hlen]
  · rw [(ravel_keep s red keep i).1, rowForward_eq, if_pos hlt, prodRow_eq, hrow.prod_eq]

/-- **C85 (partial: values above -1e8).** Max over the reduced axes is the greatest of the elements, and with_index returns the
position of the first greatest element of the row. What is missing is the same without the bound, which is false. -/
theorem C85_max_partial (keep : Bool) (red : List Nat) (s : Shape) (hs : red.Pairwise (· < ·)) (hhi : ∀ a ∈ red, a < s.length) (x buf y : Mem ℝ)
    (i : List Nat) (hi : InBounds s i) (hb : ∃ i' ∈ fiber red s i, -100000000 < x (ravel s i')) :
    ∃ r, reduceForward (fun R row => (maxLoop R row).1) (readyObj keep red s) s x buf y = .ok r ∧
      (∀ i' ∈ fiber red s i, x (ravel s i') ≤ r (ravel (outShape keep red s) (outIndex keep red s.length i))) ∧
      ∃ i' ∈ fiber red s i, x (ravel s i') = r (ravel (outShape keep red s) (outIndex keep red s.length i)) ∧
        ravel (pick red s) (pick red i') = (maxLoop (prod (pick red s)) fun k => matrixOf red s x buf
          (ravel (outShape false red s) (outIndex false red s.length i) * prod (pick red s) + k)).2 ∧
        ∀ i'' ∈ fiber red s i, ravel (pick red s) (pick red i'') < ravel (pick red s) (pick red i') → x (ravel s i'') < x (ravel s i') := by
  have hpos := inBounds_pos hi
  have hlt : ravel (outShape false red s) (outIndex false red s.length i) < prod (outShape false red s) :=
    ravel_lt (inBounds_pick s i _ (kept_lt _ _) hi)
  refine ⟨_, reduceForward_eq _ keep red s hs hhi hpos x buf y, ?_⟩
  rw [(ravel_keep s red keep i).1, rowForward_eq, if_pos hlt]
  set row := fun k => matrixOf red s x buf (ravel (outShape false red s) (outIndex false red s.length i) * prod (pick red s) + k) with hrow
  have hcol : ∀ i' ∈ fiber red s i, ravel (pick red s) (pick red i') < prod (pick red s) ∧ row (ravel (pick red s) (pick red i')) = x (ravel s i') := by
    intro i' hi'
    simp only [fiber, List.mem_filter, mem_indices, decide_eq_true_eq] at hi'
    refine ⟨ravel_lt (inBounds_pick s i' red hhi hi'.1), ?_⟩
    have := C85_matrix red s hs hhi x buf i' hi'.1
    rw [hi'.2] at this
    exact this
  have hcov : ∀ k, k < prod (pick red s) → ∃ i' ∈ fiber red s i, ravel (pick red s) (pick red i') = k := by
    intro k hk
    have hinj : ((fiber red s i).map fun i' => ravel (pick red s) (pick red i')).Nodup := by
      refine List.Nodup.map_on ?_ ((indices_nodup s).of_map.filter _)
      intro a ha b hb e
      simp only [fiber, List.mem_filter, mem_indices, decide_eq_true_eq] at ha hb
      have e1 := ravel_inj _ _ _ (inBounds_pick s a red hhi ha.1) (inBounds_pick s b red hhi hb.1) e
      have e2 : pick (keptAxes s.length red) a = pick (keptAxes s.length red) b := ha.2.trans hb.2.symm
      have hp := perm_kept s.length red hs hhi
      rw [← unperm_perm hp a ha.1.length, ← unperm_perm hp b hb.1.length]
      congr 1
      show pick (keptAxes s.length red ++ red) a = pick (keptAxes s.length red ++ red) b
      rw [pick_append, pick_append, e1, e2]
    have hsub : ((fiber red s i).map fun i' => ravel (pick red s) (pick red i')) ⊆ List.range (prod (pick red s)) := by
      intro k hk
      obtain ⟨i', hi', rfl⟩ := List.mem_map.mp hk
      exact List.mem_range.mpr (hcol i' hi').1
    have hlen : ((fiber red s i).map fun i' => ravel (pick red s) (pick red i')).length = prod (pick red s) := by
      have := (fiber_row red s hs hhi x buf i hi).length_eq
      simpa using this
    have := (hinj.subperm hsub).perm_of_length_le (by simp [hlen])
    have hk' := (this.mem_iff (a := k)).mpr (List.mem_range.mpr hk)
    obtain ⟨i', hi', e⟩ := List.mem_map.mp hk'
    exact ⟨i', hi', e⟩
  obtain ⟨i0, hi0, hgt⟩ := hb
  obtain ⟨c1, c2⟩ := hcol i0 hi0
  obtain ⟨g1, g2, g3, g4⟩ := maxLoop_greatest (prod (pick red s)) row _ c1 (by rw [c2]; exact hgt)
  refine ⟨?_, ?_⟩
  · intro i' hi'
    rw [← (hcol i' hi').2]
    exact g3 _ (hcol i' hi').1
  · obtain ⟨i', hi', e⟩ := hcov _ g1
    refine ⟨i', hi', ?_, e, ?_⟩
    · rw [← (hcol i' hi').2, e]; exact g2
    · intro i'' hi'' hlt'
      rw [← (hcol i'' hi'').2, ← (hcol i' hi').2, e, g2]
      exact g4 _ (by rw [← e]; exact hlt')

/-- **C85, refuted part.** The maximum of numbers below -1e8 is not found: the result is -1e8, which is greater than all of them
(and with_index reports position 0); dually for the minimum above 1e8. -/
theorem C85_max_refuted (R : Nat) (row : Mem ℝ) :
    ((∀ i, i < R → row i < -100000000) → maxLoop R row = (-100000000, 0)) ∧
    ((∀ i, i < R → 100000000 < row i) → minLoop R row = (100000000, 0)) := by
  have key : ∀ row : Mem ℝ, (∀ i, i < R → row i < -100000000) → maxLoop R row = (-100000000, 0) := by
    intro row h
    rcases (maxLoop_spec R row).2.2 with ⟨a, _⟩ | ⟨a, b, c, _⟩
    · exact a
    · have := h _ a; rw [b] at this; linarith
  refine ⟨key row, ?_⟩
  intro h
  rw [minLoop_neg, key _ fun i hi => by have := h i hi; linarith]
  norm_num

/-- The minimum is the negated maximum of the negated numbers, with the same position: everything said about max holds for
min. -/
theorem C85_min (R : Nat) (row : Mem ℝ) (i : Nat) (hi : i < R) (h : row i < 100000000) :
    (minLoop R row).2 < R ∧ row (minLoop R row).2 = (minLoop R row).1 ∧ (∀ k, k < R → (minLoop R row).1 ≤ row k) ∧
      ∀ k, k < (minLoop R row).2 → (minLoop R row).1 < row k := by
  rw [minLoop_neg]
  obtain ⟨h1, h2, h3, h4⟩ := maxLoop_greatest R (fun i => -row i) i hi (by linarith)
  refine ⟨h1, by simp only at h2 ⊢; linarith, ?_, ?_⟩
  · intro k hk; have := h3 k hk; simp only at this ⊢; linarith
  · intro k hk; have := h4 k hk; simp only at this ⊢; linarith

/-! ### Gradients -/

theorem rowBackward_spec (g : Nat → Nat → ℝ) (outer R : Nat) (accum : Bool) (dx : Mem ℝ) (o i : Nat) (ho : o < outer) (hi : i < R) :
    rowBackward g outer R accum dx (o * R + i) = (if accum then dx (o * R + i) else 0) + g o i := by
  have e : ∀ i j, i * R + j = off R 1 i j 0 := fun i j => by simp [off]
  have hs := (forSlices_spec outer R 1 (fun i0 _ => forPut R (fun j => i0 * R + j) (fun i v => (if accum then v else 0) + g i0 i))
    (fun i0 i1 _ v => (if accum then v else 0) + g i0 i1) dx
    (fun i0 i2 h0 h2 m i1 h1 => by
      obtain rfl : i2 = 0 := by omega
      rw [← e]
      exact (forPut_spec R _ _ m (fun a b _ _ h => by omega)).1 i1 h1)
    (fun i0 i2 h0 h2 m q hq => by
      obtain rfl : i2 = 0 := by omega
      exact (forPut_spec R _ _ m (fun a b _ _ h => by omega)).2 q fun a ha => by rw [e]; exact hq a ha)).1 o i 0 ho hi (by omega)
  rw [← e] at hs
  have e2 : rowBackward g outer R accum dx = forSlices outer 1 (fun i0 _ => forPut R (fun j => i0 * R + j) (fun i v => (if accum then v else 0) + g i0 i)) dx := by
    simp [rowBackward, forSlices, List.range_succ]
  rw [e2]
  exact hs

theorem indBackward_spec (ind : Nat → Nat) (outer R : Nat) (accum : Bool) (dy dx : Mem ℝ) (hind : ∀ o, o < outer → ind o < R) (o i : Nat) (ho : o < outer) (hi : i < R) :
    indBackward ind outer R accum dy dx (o * R + i) = (if accum then dx (o * R + i) else 0) + if i = ind o then dy o else 0 := by
  have e : ∀ i j, i * R + j = off R 1 i j 0 := fun i j => by simp [off]
  have hs := (forSlices_spec outer R 1 (fun i0 _ m => put m (i0 * R + ind i0) (m (i0 * R + ind i0) + dy i0))
    (fun i0 i1 _ v => v + if i1 = ind i0 then dy i0 else 0) (if accum then dx else fun i => if i < outer * R then 0 else dx i)
    (fun i0 i2 h0 h2 m i1 h1 => by
      obtain rfl : i2 = 0 := by omega
      rw [← e]
      by_cases h : i1 = ind i0
      · rw [if_pos h, h, put_same]
      · rw [if_neg h, add_zero, put_other _ _ (by omega)])
    (fun i0 i2 h0 h2 m q hq => by
      obtain rfl : i2 = 0 := by omega
      refine put_other _ _ fun he => hq (ind i0) (hind i0 h0) ?_
      rw [← e]; exact he.symm)).1 o i 0 ho hi (by omega)
  rw [← e] at hs
  have e2 : indBackward ind outer R accum dy dx = forSlices outer 1 (fun i0 _ m => put m (i0 * R + ind i0) (m (i0 * R + ind i0) + dy i0))
      (if accum then dx else fun i => if i < outer * R then 0 else dx i) := by
    simp [indBackward, forSlices, List.range_succ]
  rw [e2, hs]
  congr 1
  cases accum
  · have : o * R + i < outer * R := by
      have := Nat.mul_le_mul_right R (show o + 1 ≤ outer by omega)
      rw [Nat.succ_mul] at this; omega
    simp [this]
  · rfl

/-- Rowwise functions: gradient of the matrix from the gradient of one row. -/
theorem rows_vjp (f : Mem ℝ → ℝ) (outer R : Nat) (x y0 : Mem ℝ) (B : Mem ℝ → Mem ℝ) (g : Nat → Nat → ℝ)
    (hB : ∀ dy o i, o < outer → i < R → B dy (o * R + i) = dy o * g o i)
    (hf : ∀ o, o < outer → ∀ (c : ℝ → Mem ℝ) (v : Mem ℝ), (∀ k, k < R → c 0 k = x (o * R + k) ∧ HasDerivAt (fun t => c t k) (v k) 0) →
      HasDerivAt (fun t => f (c t)) (∑ k ∈ Finset.range R, v k * g o k) 0) :
    IsVJP (outer * R) outer (fun x => rowForward f outer R x y0) x B := by
  intro c v hc dy
  have hlt : ∀ i j, i < outer → j < R → i * R + j < outer * R := fun i j hi hj => by
    have := Nat.mul_le_mul_right R (show i + 1 ≤ outer by omega)
    rw [Nat.succ_mul] at this; omega
  have hw : ∀ o, o < outer → HasDerivAt (fun t => rowForward f outer R (c t) y0 o) (∑ k ∈ Finset.range R, v (o * R + k) * g o k) 0 := by
    intro o ho
    refine (hf o ho (fun t i => c t (o * R + i)) (fun i => v (o * R + i)) fun k hk => hc _ (hlt o k ho hk)).congr_of_eventuallyEq
      (Filter.Eventually.of_forall fun t => ?_)
    simp only [rowForward_eq, if_pos ho]
  refine (hasDerivAt_dot outer dy _ _ hw).congr_deriv ?_
  rw [dot, dot, sum_range_mul]
  refine Finset.sum_congr rfl fun i hi => ?_
  rw [Finset.mul_sum]
  refine Finset.sum_congr rfl fun j hj => ?_
  rw [hB _ _ _ (Finset.mem_range.mp hi) (Finset.mem_range.mp hj)]
  ring

theorem reduceBackward_eq (bw : Nat → Nat → Mem ℝ → Bool → Mem ℝ → Mem ℝ → Mem ℝ) (keep : Bool) (red : List Nat) (s : Shape)
    (hs : red.Pairwise (· < ·)) (hhi : ∀ a ∈ red, a < s.length) (hpos : 0 < prod s) (x buf gbuf : Mem ℝ) (accum : Bool) (dy dx : Mem ℝ) :
    reduceBackward bw (readyObj keep red s) s x buf gbuf accum dy dx = .ok (
      if keptAxes s.length red ++ red ≠ List.range s.length then
        callBackward (trBackward (trState (keptAxes s.length red ++ red) s)) accum
          (bw (prod (outShape false red s)) (prod (pick red s)) (matrixOf red s x buf) false dy gbuf) dx
      else bw (prod (outShape false red s)) (prod (pick red s)) (matrixOf red s x buf) accum dy dx) := by
  obtain ⟨h1, h2, _⟩ := outer_eq s red hs hhi hpos
  unfold reduceBackward
  rw [if_neg (show ¬ (readyObj keep red s).reductionSize = 0 by show ¬ prod (pick red s) = 0; omega)]
  show (match (readyObj keep red s).fTranspose with | none => _ | some tr => _) = _
  unfold matrixOf
  by_cases h : keptAxes s.length red ++ red ≠ List.range s.length
  · simp only [readyObj, if_pos h]
    rw [trSetup_ok _ s (perm_kept s.length red hs hhi), h2]
    rfl
  · simp only [readyObj, if_neg h]
    rw [h2]
    rfl

/-- From the row matrix to the array: the transpose is undone by its own backward. -/
theorem reduce_vjp (f : Nat → Mem ℝ → ℝ) (bw : Nat → Nat → Mem ℝ → Bool → Mem ℝ → Mem ℝ → Mem ℝ) (keep : Bool) (red : List Nat) (s : Shape)
    (hs : red.Pairwise (· < ·)) (hhi : ∀ a ∈ red, a < s.length) (hpos : 0 < prod s) (x buf gbuf y0 dx : Mem ℝ)
    (hbuf : ∀ dx, IsVJP (prod (outShape false red s) * prod (pick red s)) (prod (outShape false red s))
      (fun m => rowForward (f (prod (pick red s))) (prod (outShape false red s)) (prod (pick red s)) m y0) (matrixOf red s x buf)
      (fun dy => bw (prod (outShape false red s)) (prod (pick red s)) (matrixOf red s x buf) false dy dx))
    (hacc : ∀ dy dx dx' k, k < prod (outShape false red s) * prod (pick red s) →
      bw (prod (outShape false red s)) (prod (pick red s)) (matrixOf red s x buf) true dy dx k =
        dx k + bw (prod (outShape false red s)) (prod (pick red s)) (matrixOf red s x buf) false dy dx' k) :
    ∃ (F : Mem ℝ → Mem ℝ) (B : Bool → Mem ℝ → Mem ℝ),
      (∀ x, reduceForward f (readyObj keep red s) s x buf y0 = .ok (F x)) ∧
      (∀ a dy, reduceBackward bw (readyObj keep red s) s x buf gbuf a dy dx = .ok (B a dy)) ∧
      IsVJP (prod s) (prod (outShape keep red s)) F x (B false) ∧
      ∀ dy k, k < prod s → B true dy k = dx k + B false dy k := by
  obtain ⟨_, _, h3⟩ := outer_eq s red hs hhi hpos
  have h3 : prod (outShape false red s) * prod (pick red s) = prod s := h3
  refine ⟨_, _, fun x => reduceForward_eq f keep red s hs hhi hpos x buf y0, fun a dy => reduceBackward_eq bw keep red s hs hhi hpos x buf gbuf a dy dx, ?_, ?_⟩
  · rw [(ravel_keep s red keep []).2]
    by_cases h : keptAxes s.length red ++ red ≠ List.range s.length
    · simp only [if_pos h]
      obtain ⟨st, hst, hg⟩ := C72_transpose_grad_partial (R := ℝ) (keptAxes s.length red ++ red) s (perm_kept s.length red hs hhi) hpos buf
      have hst' := trSetup_ok _ s (perm_kept s.length red hs hhi)
      rw [hst'] at hst
      have e : trState (keptAxes s.length red ++ red) s = st := by injection hst with hst; exact (Prod.mk.inj hst).2
      have hmat : ∀ x, matrixOf red s x buf = trForward st x buf := fun x => by rw [matrixOf, if_pos h, e]
      have hos : prod st.oshape = prod s := by rw [← e]; exact prod_pick (perm_kept s.length red hs hhi)
      have hT : IsVJP (prod s) (prod s) (fun x => trForward st x buf) x (fun dy => callBackward (trBackward st) false dy dx) := by
        rw [hos] at hg
        exact C82_linear _ _ _ _ (hg.1 dx) x
      have hloc : ∀ z, (∀ k, k < prod s → z k = x k) → ∀ j, j < prod s → trForward st z buf j = trForward st x buf j := by
        intro z hz j hj
        obtain ⟨g1, _⟩ := tr_pairs (keptAxes s.length red ++ red) s (perm_kept s.length red hs hhi) hpos
        have hj' : j < prod (pick (keptAxes s.length red ++ red) s) := by rw [prod_pick (perm_kept s.length red hs hhi)]; exact hj
        obtain ⟨q, hq, rfl⟩ : ∃ q, InBounds (pick (keptAxes s.length red ++ red) s) q ∧ ravel (pick (keptAxes s.length red ++ red) s) q = j := by
          have : j ∈ (indices (pick (keptAxes s.length red ++ red) s)).map (ravel (pick (keptAxes s.length red ++ red) s)) := by rw [indices_ravel]; exact List.mem_range.mpr hj'
          obtain ⟨q, hq, e⟩ := List.mem_map.mp this
          exact ⟨q, (mem_indices _ _).mp hq, e⟩
        rw [← e]
        have a1 := g1.forward z buf q hq
        have a2 := g1.forward x buf q hq
        show fwd (trFwdPairs (trState (keptAxes s.length red ++ red) s)) z buf _ = fwd (trFwdPairs (trState (keptAxes s.length red ++ red) s)) x buf _
        rw [show ravel (pick (keptAxes s.length red ++ red) s) q = ravel ((keptAxes s.length red ++ red).map (s.getD · 0)) q from rfl, a1, a2]
        exact hz _ (ravel_lt (g1.bound q hq))
      have hR := hbuf gbuf
      rw [h3, hmat] at hR
      have := C82_chain (prod s) (prod s) _ (fun x => trForward st x buf) _ x _ _ hT hR hloc
      simp only [hmat, e]
      exact this
    · have hm : ∀ x, matrixOf red s x buf = x := fun x => by rw [matrixOf, if_neg h]
      have hb := hbuf dx
      simp only [if_neg h, hm] at hb ⊢
      rw [h3] at hb
      exact hb
  · intro dy k hk
    by_cases h : keptAxes s.length red ++ red ≠ List.range s.length
    · simp only [if_pos h]
      obtain ⟨st, hst, hg⟩ := C72_transpose_grad_partial (R := ℝ) (keptAxes s.length red ++ red) s (perm_kept s.length red hs hhi) hpos buf
      have hst' := trSetup_ok _ s (perm_kept s.length red hs hhi)
      rw [hst'] at hst
      have e : trState (keptAxes s.length red ++ red) s = st := by injection hst with hst; exact (Prod.mk.inj hst).2
      rw [e]
      exact hg.2 _ _ _ k
    · simp only [if_neg h]
      exact hacc dy dx dx k (by rw [h3]; exact hk)

/-- **C85.** Backward of sum and mean over any axes is the vector-Jacobian product, added to the old gradient when
accumulating. -/
theorem C85_sum_mean_backward (keep : Bool) (red : List Nat) (s : Shape) (hs : red.Pairwise (· < ·)) (hhi : ∀ a ∈ red, a < s.length)
    (hpos : 0 < prod s) (x buf gbuf y0 dx : Mem ℝ) :
    (∃ (F : Mem ℝ → Mem ℝ) (B : Bool → Mem ℝ → Mem ℝ), (∀ x, reduceForward sumRow (readyObj keep red s) s x buf y0 = .ok (F x)) ∧
      (∀ a dy, reduceBackward (fun outer R _ accum dy dx => rowBackward (sumGrad dy) outer R accum dx) (readyObj keep red s) s x buf gbuf a dy dx = .ok (B a dy)) ∧
      IsVJP (prod s) (prod (outShape keep red s)) F x (B false) ∧ ∀ dy k, k < prod s → B true dy k = dx k + B false dy k) ∧
    ∃ (F : Mem ℝ → Mem ℝ) (B : Bool → Mem ℝ → Mem ℝ), (∀ x, reduceForward meanRow (readyObj keep red s) s x buf y0 = .ok (F x)) ∧
      (∀ a dy, reduceBackward (fun outer R _ accum dy dx => rowBackward (meanGrad R dy) outer R accum dx) (readyObj keep red s) s x buf gbuf a dy dx = .ok (B a dy)) ∧
      IsVJP (prod s) (prod (outShape keep red s)) F x (B false) ∧ ∀ dy k, k < prod s → B true dy k = dx k + B false dy k := by
  have hdec : ∀ outer R k : Nat, k < outer * R → ∃ o i, o < outer ∧ i < R ∧ k = o * R + i := by
    intro outer R k hk
    have hR : 0 < R := Nat.pos_of_ne_zero (by rintro rfl; simp at hk)
    exact ⟨k / R, k % R, Nat.div_lt_of_lt_mul (by rwa [Nat.mul_comm]), Nat.mod_lt _ hR, by rw [Nat.mul_comm, Nat.div_add_mod]⟩
  refine ⟨reduce_vjp _ _ keep red s hs hhi hpos x buf gbuf y0 dx ?_ ?_, reduce_vjp _ _ keep red s hs hhi hpos x buf gbuf y0 dx ?_ ?_⟩
  · intro dx
    refine rows_vjp _ _ _ _ y0 _ (fun _ _ => 1) ?_ ?_
    · intro dy o i ho hi; rw [rowBackward_spec _ _ _ _ _ _ _ ho hi]; simp [sumGrad]
    · intro o ho c v hc
      simp only [mul_one]
      exact HasDerivAt.fun_sum fun k hk => (hc k (Finset.mem_range.mp hk)).2
  · intro dy dx dx' k hk
    obtain ⟨o, i, ho, hi, rfl⟩ := hdec _ _ _ hk
    rw [rowBackward_spec _ _ _ _ _ _ _ ho hi, rowBackward_spec _ _ _ _ _ _ _ ho hi]; simp
  · intro dx
    refine rows_vjp _ _ _ _ y0 _ (fun _ _ => 1 / (prod (pick red s) : ℝ)) ?_ ?_
    · intro dy o i ho hi; rw [rowBackward_spec _ _ _ _ _ _ _ ho hi]; simp [meanGrad]; ring
    · intro o ho c v hc
      have := (HasDerivAt.fun_sum fun k hk => (hc k (Finset.mem_range.mp hk)).2 : HasDerivAt (fun t => ∑ k ∈ Finset.range (prod (pick red s)), c t k) _ 0).div_const (prod (pick red s) : ℝ)
      refine this.congr_deriv ?_
      rw [Finset.sum_div]
      exact Finset.sum_congr rfl fun k _ => by ring
  · intro dy dx dx' k hk
    obtain ⟨o, i, ho, hi, rfl⟩ := hdec _ _ _ hk
    rw [rowBackward_spec _ _ _ _ _ _ _ ho hi, rowBackward_spec _ _ _ _ _ _ _ ho hi]; simp

theorem matrixOf_entry (red : List Nat) (s : Shape) (hs : red.Pairwise (· < ·)) (hhi : ∀ a ∈ red, a < s.length) (hpos : 0 < prod s) (x buf : Mem ℝ)
    (k : Nat) (hk : k < prod s) : ∃ j, j < prod s ∧ matrixOf red s x buf k = x j := by
  by_cases h : keptAxes s.length red ++ red ≠ List.range s.length
  · obtain ⟨g1, _⟩ := tr_pairs (keptAxes s.length red ++ red) s (perm_kept s.length red hs hhi) hpos
    have hj' : k < prod (pick (keptAxes s.length red ++ red) s) := by rw [prod_pick (perm_kept s.length red hs hhi)]; exact hk
    have : k ∈ (indices (pick (keptAxes s.length red ++ red) s)).map (ravel (pick (keptAxes s.length red ++ red) s)) := by
      rw [indices_ravel]; exact List.mem_range.mpr hj'
    obtain ⟨q, hq, e⟩ := List.mem_map.mp this
    have hq := (mem_indices _ _).mp hq
    subst e
    refine ⟨_, ravel_lt (g1.bound q hq), ?_⟩
    rw [matrixOf, if_pos h]
    exact g1.forward x buf q hq
  · exact ⟨k, hk, by rw [matrixOf, if_neg h]⟩

theorem prodRow_finset (R : Nat) (row : Mem ℝ) : prodRow R row = ∏ i ∈ Finset.range R, row i := by
  rw [prodRow_eq]
  induction R with
  | zero => simp
  | succ R ih => rw [List.range_succ, List.map_append, List.prod_append, ih, Finset.prod_range_succ]; simp

theorem row_split (outer R k : Nat) (hk : k < outer * R) : ∃ o i, o < outer ∧ i < R ∧ k = o * R + i := by
  have hR : 0 < R := Nat.pos_of_ne_zero (by rintro rfl; simp at hk)
  exact ⟨k / R, k % R, Nat.div_lt_of_lt_mul (by rwa [Nat.mul_comm]), Nat.mod_lt _ hR, by rw [Nat.mul_comm, Nat.div_add_mod]⟩

/-- **C85 (partial: no zero in the input).** Backward of prod over any axes, run with the output that forward computed, is the
vector-Jacobian product. What is missing is inputs with zeros, where it is false. -/
theorem C85_prod_backward_partial (keep : Bool) (red : List Nat) (s : Shape) (hs : red.Pairwise (· < ·)) (hhi : ∀ a ∈ red, a < s.length)
    (hpos : 0 < prod s) (x buf gbuf y0 dx y : Mem ℝ) (hx : ∀ k, k < prod s → x k ≠ 0)
    (hy : reduceForward prodRow (readyObj keep red s) s x buf y0 = .ok y) :
    ∃ (F : Mem ℝ → Mem ℝ) (B : Bool → Mem ℝ → Mem ℝ), (∀ x, reduceForward prodRow (readyObj keep red s) s x buf y0 = .ok (F x)) ∧
      (∀ a dy, reduceBackward (fun outer R m accum dy dx => rowBackward (prodGrad R m y dy) outer R accum dx) (readyObj keep red s) s x buf gbuf a dy dx = .ok (B a dy)) ∧
      IsVJP (prod s) (prod (outShape keep red s)) F x (B false) ∧ ∀ dy k, k < prod s → B true dy k = dx k + B false dy k := by
  obtain ⟨_, _, h3⟩ := outer_eq s red hs hhi hpos
  have h3 : prod (outShape false red s) * prod (pick red s) = prod s := h3
  rw [reduceForward_eq _ keep red s hs hhi hpos x buf y0] at hy
  injection hy with hy
  refine reduce_vjp _ _ keep red s hs hhi hpos x buf gbuf y0 dx ?_ ?_
  · intro dx
    have hne : ∀ o i, o < prod (outShape false red s) → i < prod (pick red s) → matrixOf red s x buf (o * prod (pick red s) + i) ≠ 0 := by
      intro o i ho hi
      have hlt : o * prod (pick red s) + i < prod s := by
        have := Nat.mul_le_mul_right (prod (pick red s)) (show o + 1 ≤ prod (outShape false red s) by omega)
        rw [Nat.succ_mul, h3] at this; omega
      obtain ⟨j, hj, e⟩ := matrixOf_entry red s hs hhi hpos x buf _ hlt
      rw [e]; exact hx j hj
    refine rows_vjp _ _ _ _ y0 _ (fun o i => ∏ j ∈ (Finset.range (prod (pick red s))).erase i, matrixOf red s x buf (o * prod (pick red s) + j)) ?_ ?_
    · intro dy o i ho hi
      rw [rowBackward_spec _ _ _ _ _ _ _ ho hi, prodGrad, if_neg (hne o i ho hi), ← hy, rowForward_eq, if_pos ho, prodRow_finset,
        ← Finset.mul_prod_erase _ _ (Finset.mem_range.mpr hi)]
      have := hne o i ho hi
      simp only [Bool.false_eq_true, if_false, zero_add]
      field_simp
    · intro o ho c v hc
      have := HasDerivAt.fun_finset_prod (u := Finset.range (prod (pick red s))) (f := fun k t => c t k) (f' := v) (x := 0)
        fun k hk => (hc k (Finset.mem_range.mp hk)).2
      simp only [prodRow_finset]
      refine this.congr_deriv ?_
      refine Finset.sum_congr rfl fun k hk => ?_
      rw [smul_eq_mul, mul_comm]
      congr 1
      exact Finset.prod_congr rfl fun j hj => (hc j (Finset.mem_range.mp (Finset.mem_of_mem_erase hj))).1
  · intro dy dx dx' k hk
    obtain ⟨o, i, ho, hi, rfl⟩ := row_split _ _ _ hk
    rw [rowBackward_spec _ _ _ _ _ _ _ ho hi, rowBackward_spec _ _ _ _ _ _ _ ho hi]; simp

/-- **C85, refuted part.** At an element that is the only zero of its row the derivative of the product is the (non-zero) product
of the others, but the gradient written is 0. -/
theorem C85_prod_refuted (R : Nat) (row y dy : Mem ℝ) (i : Nat) (hi : i < R) (h0 : row i = 0) (hne : ∀ k, k < R → k ≠ i → row k ≠ 0) :
    prodGrad R row y dy 0 i = 0 ∧ HasDerivAt (fun t => prodRow R (put row i t)) (∏ k ∈ (Finset.range R).erase i, row k) 0 ∧
      ∏ k ∈ (Finset.range R).erase i, row k ≠ 0 := by
  refine ⟨by simp [prodGrad, h0], ?_, ?_⟩
  · have e : (fun t => prodRow R (put row i t)) = fun t => t * ∏ k ∈ (Finset.range R).erase i, row k := by
      funext t
      rw [prodRow_finset, ← Finset.mul_prod_erase _ _ (Finset.mem_range.mpr hi), put_same]
      congr 1
      exact Finset.prod_congr rfl fun k hk => put_other _ _ (Finset.ne_of_mem_erase hk)
    rw [e]
    simpa using (hasDerivAt_id (0 : ℝ)).mul_const (∏ k ∈ (Finset.range R).erase i, row k)
  · rw [Finset.prod_ne_zero_iff]
    intro k hk
    exact hne k (Finset.mem_range.mp (Finset.mem_of_mem_erase hk)) (Finset.ne_of_mem_erase hk)

/-- Row and fibre: every column is an element of the fibre and back. -/
theorem fiber_cols (red : List Nat) (s : Shape) (hs : red.Pairwise (· < ·)) (hhi : ∀ a ∈ red, a < s.length) (x buf : Mem ℝ)
    (o k : Nat) (ho : o < prod (outShape false red s)) (hk : k < prod (pick red s)) :
    ∃ i', InBounds s i' ∧ ravel (outShape false red s) (outIndex false red s.length i') = o ∧ ravel (pick red s) (pick red i') = k ∧
      x (ravel s i') = matrixOf red s x buf (o * prod (pick red s) + k) := by
  have hp := perm_kept s.length red hs hhi
  have m1 : o ∈ (indices (outShape false red s)).map (ravel (outShape false red s)) := by rw [indices_ravel]; exact List.mem_range.mpr ho
  have m2 : k ∈ (indices (pick red s)).map (ravel (pick red s)) := by rw [indices_ravel]; exact List.mem_range.mpr hk
  obtain ⟨a, ha, ea⟩ := List.mem_map.mp m1
  obtain ⟨b, hb, eb⟩ := List.mem_map.mp m2
  have ha := (mem_indices _ _).mp ha
  have hb := (mem_indices _ _).mp hb
  have hab : InBounds (pick (keptAxes s.length red ++ red) s) (a ++ b) := by
    rw [pick_append]; exact (inBounds_append _ _ _ _ ha.length).mpr ⟨ha, hb⟩
  have hlen : (a ++ b).length = s.length := by
    have := hab.length
    rw [this, pick, List.length_map]; exact hp.length
  set z := unperm (keptAxes s.length red ++ red) s.length (a ++ b) with hz
  have hl : z.length = s.length := by simp [hz, unperm]
  have e : pick (keptAxes s.length red ++ red) z = a ++ b := perm_unperm hp (a ++ b) hlen
  have hin : InBounds s z := by
    rw [← inBounds_perm hp z hl]
    show InBounds (pick (keptAxes s.length red ++ red) s) (pick (keptAxes s.length red ++ red) z)
    rw [e]; exact hab
  have e' : pick (keptAxes s.length red) z ++ pick red z = a ++ b := by rw [← pick_append]; exact e
  have hl : (pick (keptAxes s.length red) z).length = a.length := by
    have := ha.length
    simp only [outShape, Bool.false_eq_true, if_false, pick, List.length_map] at this ⊢
    omega
  obtain ⟨e1, e2⟩ := List.append_inj e' hl
  refine ⟨z, hin, ?_, ?_, ?_⟩
  · show ravel _ (pick (keptAxes s.length red) z) = _
    rw [e1, ea]
  · rw [e2, eb]
  · have := C85_matrix red s hs hhi x buf _ hin
    rw [← this]
    show matrixOf red s x buf (ravel _ (pick (keptAxes s.length red) z) * _ + _) = _
    rw [e1, e2, ea, eb]

/-- A strict maximum stays where it is for small changes. -/
theorem maxLoop_deriv (R : Nat) (row : Mem ℝ) (i : Nat) (hi : i < R) (h : -100000000 < row i) (hst : ∀ k, k < R → k ≠ i → row k < row i)
    (c : ℝ → Mem ℝ) (v : Mem ℝ) (hc : ∀ k, k < R → c 0 k = row k ∧ HasDerivAt (fun t => c t k) (v k) 0) :
    HasDerivAt (fun t => (maxLoop R (c t)).1) (v i) 0 := by
  refine (hc i hi).2.congr_of_eventuallyEq ?_
  have e1 : ∀ᶠ t in nhds (0 : ℝ), -100000000 < c t i := by
    have := (hc i hi).2.continuousAt
    exact continuousAt_const.eventually_lt this (by rw [(hc i hi).1]; exact h)
  have e2 : ∀ᶠ t in nhds (0 : ℝ), ∀ k ∈ (Finset.range R).erase i, c t k < c t i := by
    rw [Filter.eventually_all_finset]
    intro k hk
    have hk' := Finset.mem_range.mp (Finset.mem_of_mem_erase hk)
    refine (hc k hk').2.continuousAt.eventually_lt (hc i hi).2.continuousAt ?_
    rw [(hc k hk').1, (hc i hi).1]
    exact hst k hk' (Finset.ne_of_mem_erase hk)
  filter_upwards [e1, e2] with t h1 h2
  rw [maxLoop_strict R (c t) i hi h1 fun k hk hne => h2 k (Finset.mem_erase.mpr ⟨hne, Finset.mem_range.mpr hk⟩)]

/-- Gradient of the rows of a max-like reduction whose value moves with one element. -/
theorem ind_vjp (loop : Nat → Mem ℝ → ℝ × Nat) (keep : Bool) (red : List Nat) (s : Shape) (hs : red.Pairwise (· < ·)) (hhi : ∀ a ∈ red, a < s.length)
    (hpos : 0 < prod s) (x buf gbuf y0 dx : Mem ℝ)
    (hrow : ∀ o, o < prod (outShape false red s) → ∃ k, k < prod (pick red s) ∧
      (loop (prod (pick red s)) fun i => matrixOf red s x buf (o * prod (pick red s) + i)).2 = k ∧
      ∀ (c : ℝ → Mem ℝ) (v : Mem ℝ), (∀ k, k < prod (pick red s) → c 0 k = matrixOf red s x buf (o * prod (pick red s) + k) ∧ HasDerivAt (fun t => c t k) (v k) 0) →
        HasDerivAt (fun t => (loop (prod (pick red s)) (c t)).1) (v k) 0) :
    ∃ (F : Mem ℝ → Mem ℝ) (B : Bool → Mem ℝ → Mem ℝ), (∀ x, reduceForward (fun R row => (loop R row).1) (readyObj keep red s) s x buf y0 = .ok (F x)) ∧
      (∀ a dy, reduceBackward (fun outer R m accum dy dx => indBackward (fun o => (loop R fun i => m (o * R + i)).2) outer R accum dy dx)
        (readyObj keep red s) s x buf gbuf a dy dx = .ok (B a dy)) ∧
      IsVJP (prod s) (prod (outShape keep red s)) F x (B false) ∧ ∀ dy k, k < prod s → B true dy k = dx k + B false dy k := by
  have hind : ∀ o, o < prod (outShape false red s) → (loop (prod (pick red s)) fun i => matrixOf red s x buf (o * prod (pick red s) + i)).2 < prod (pick red s) := by
    intro o ho
    obtain ⟨k, hk, e, _⟩ := hrow o ho
    rw [e]; exact hk
  refine reduce_vjp _ _ keep red s hs hhi hpos x buf gbuf y0 dx ?_ ?_
  · intro dx
    refine rows_vjp _ _ _ _ y0 _ (fun o i => if i = (loop (prod (pick red s)) fun i => matrixOf red s x buf (o * prod (pick red s) + i)).2 then 1 else 0) ?_ ?_
    · intro dy o i ho hi
      rw [indBackward_spec _ _ _ _ _ _ hind _ _ ho hi]
      simp
    · intro o ho c v hc
      obtain ⟨k, hk, e, hd⟩ := hrow o ho
      refine (hd c v hc).congr_deriv ?_
      rw [e]
      simp [hk]
  · intro dy dx dx' k hk
    obtain ⟨o, i, ho, hi, rfl⟩ := row_split _ _ _ hk
    rw [indBackward_spec _ _ _ _ _ _ hind _ _ ho hi, indBackward_spec _ _ _ _ _ _ hind _ _ ho hi]; simp

/-- Every fibre has one element that is `lt`-extreme: the row of the matrix too. -/
theorem strict_row (red : List Nat) (s : Shape) (hs : red.Pairwise (· < ·)) (hhi : ∀ a ∈ red, a < s.length) (x buf : Mem ℝ) (P : ℝ → Prop) (Q : ℝ → ℝ → Prop)
    (hx : ∀ i, InBounds s i → ∃ i' ∈ fiber red s i, P (x (ravel s i')) ∧ ∀ i'' ∈ fiber red s i, i'' ≠ i' → Q (x (ravel s i'')) (x (ravel s i')))
    (hR : 0 < prod (pick red s)) (o : Nat) (ho : o < prod (outShape false red s)) :
    ∃ k, k < prod (pick red s) ∧ P (matrixOf red s x buf (o * prod (pick red s) + k)) ∧ ∀ j, j < prod (pick red s) → j ≠ k →
      Q (matrixOf red s x buf (o * prod (pick red s) + j)) (matrixOf red s x buf (o * prod (pick red s) + k)) := by
  obtain ⟨i0, hi0, ho0, _, _⟩ := fiber_cols red s hs hhi x buf o 0 ho hR
  have hfib : ∀ i', InBounds s i' → ravel (outShape false red s) (outIndex false red s.length i') = o → i' ∈ fiber red s i0 := by
    intro i' hi' e
    simp only [fiber, List.mem_filter, mem_indices, decide_eq_true_eq]
    exact ⟨hi', ravel_inj _ _ _ (inBounds_pick s i' _ (kept_lt _ _) hi') (inBounds_pick s i0 _ (kept_lt _ _) hi0) (e.trans ho0.symm)⟩
  obtain ⟨m, hm, hP, hQ⟩ := hx i0 hi0
  have hm' := hm
  simp only [fiber, List.mem_filter, mem_indices, decide_eq_true_eq] at hm'
  have hval := C85_matrix red s hs hhi x buf m hm'.1
  rw [hm'.2, ho0] at hval
  refine ⟨ravel (pick red s) (pick red m), ravel_lt (inBounds_pick s m red hhi hm'.1), by rw [hval]; exact hP, ?_⟩
  intro j hj hne
  obtain ⟨i', hi', e1, e2, e3⟩ := fiber_cols red s hs hhi x buf o j ho hj
  rw [hval, ← e3]
  refine hQ i' (hfib i' hi' e1) ?_
  rintro rfl
  exact hne e2.symm

/-- **C85 (partial: one greatest element, above -1e8, in every reduced group).** Backward of max over any axes is the
vector-Jacobian product of forward. What is missing is ties, where no derivative exists, and values below -1e8. -/
theorem C85_max_backward_partial (keep : Bool) (red : List Nat) (s : Shape) (hs : red.Pairwise (· < ·)) (hhi : ∀ a ∈ red, a < s.length)
    (hpos : 0 < prod s) (x buf gbuf y0 dx : Mem ℝ)
    (hx : ∀ i, InBounds s i → ∃ i' ∈ fiber red s i, -100000000 < x (ravel s i') ∧ ∀ i'' ∈ fiber red s i, i'' ≠ i' → x (ravel s i'') < x (ravel s i')) :
    ∃ (F : Mem ℝ → Mem ℝ) (B : Bool → Mem ℝ → Mem ℝ), (∀ x, reduceForward (fun R row => (maxLoop R row).1) (readyObj keep red s) s x buf y0 = .ok (F x)) ∧
      (∀ a dy, reduceBackward (fun outer R m accum dy dx => indBackward (fun o => (maxLoop R fun i => m (o * R + i)).2) outer R accum dy dx)
        (readyObj keep red s) s x buf gbuf a dy dx = .ok (B a dy)) ∧
      IsVJP (prod s) (prod (outShape keep red s)) F x (B false) ∧ ∀ dy k, k < prod s → B true dy k = dx k + B false dy k := by
  obtain ⟨hR, _, _⟩ := outer_eq s red hs hhi hpos
  refine ind_vjp maxLoop keep red s hs hhi hpos x buf gbuf y0 dx ?_
  intro o ho
  obtain ⟨k, hk, h1, h2⟩ := strict_row red s hs hhi x buf (fun v => -100000000 < v) (fun a b => a < b) hx hR o ho
  refine ⟨k, hk, ?_, ?_⟩
  · rw [maxLoop_strict _ (fun i => matrixOf red s x buf (o * prod (pick red s) + i)) k hk h1 h2]
  · intro c v hc
    exact maxLoop_deriv _ (fun i => matrixOf red s x buf (o * prod (pick red s) + i)) k hk h1 h2 c v hc

/-- **C85 (partial: one least element, below 1e8, in every reduced group).** The same for min. -/
theorem C85_min_backward_partial (keep : Bool) (red : List Nat) (s : Shape) (hs : red.Pairwise (· < ·)) (hhi : ∀ a ∈ red, a < s.length)
    (hpos : 0 < prod s) (x buf gbuf y0 dx : Mem ℝ)
    (hx : ∀ i, InBounds s i → ∃ i' ∈ fiber red s i, x (ravel s i') < 100000000 ∧ ∀ i'' ∈ fiber red s i, i'' ≠ i' → x (ravel s i') < x (ravel s i'')) :
    ∃ (F : Mem ℝ → Mem ℝ) (B : Bool → Mem ℝ → Mem ℝ), (∀ x, reduceForward (fun R row => (minLoop R row).1) (readyObj keep red s) s x buf y0 = .ok (F x)) ∧
      (∀ a dy, reduceBackward (fun outer R m accum dy dx => indBackward (fun o => (minLoop R fun i => m (o * R + i)).2) outer R accum dy dx)
        (readyObj keep red s) s x buf gbuf a dy dx = .ok (B a dy)) ∧
      IsVJP (prod s) (prod (outShape keep red s)) F x (B false) ∧ ∀ dy k, k < prod s → B true dy k = dx k + B false dy k := by
  obtain ⟨hR, _, _⟩ := outer_eq s red hs hhi hpos
  refine ind_vjp minLoop keep red s hs hhi hpos x buf gbuf y0 dx ?_
  intro o ho
  obtain ⟨k, hk, h1, h2⟩ := strict_row red s hs hhi x buf (fun v => v < 100000000) (fun a b => b < a) hx hR o ho
  have h1' : -100000000 < -matrixOf red s x buf (o * prod (pick red s) + k) := by linarith
  have h2' : ∀ j, j < prod (pick red s) → j ≠ k → -matrixOf red s x buf (o * prod (pick red s) + j) < -matrixOf red s x buf (o * prod (pick red s) + k) :=
    fun j hj hne => by have := h2 j hj hne; linarith
  refine ⟨k, hk, ?_, ?_⟩
  · rw [minLoop_neg, maxLoop_strict _ (fun i => -matrixOf red s x buf (o * prod (pick red s) + i)) k hk h1' h2']
  · intro c v hc
    have := (maxLoop_deriv _ (fun i => -matrixOf red s x buf (o * prod (pick red s) + i)) k hk h1' h2' (fun t i => -c t i) (fun i => -v i)
      fun k hk => ⟨by rw [(hc k hk).1], (hc k hk).2.neg⟩).neg
    rw [neg_neg] at this
    refine this.congr_of_eventuallyEq (Filter.Eventually.of_forall fun t => ?_)
    simp only [minLoop_neg, Pi.neg_apply]

/-! ### The hypotheses are met -/

/-- Sum of a 2x3 array over the first axis: the axes are in range, the transpose is used. -/
example : ([0] : List Nat).Pairwise (· < ·) ∧ (∀ a ∈ ([0] : List Nat), a < [2, 3].length) ∧ readyObj true [0] [2, 3] = ⟨[0], true, some [1, 0], 2⟩ ∧
    outShape true [0] [2, 3] = [1, 3] ∧ fiber [0] [2, 3] [0, 1] = [[0, 1], [1, 1]] := by decide

/-- A 2x2 array with a strict maximum (and minimum) in every column. -/
example : ∀ i, InBounds [2, 2] i → ∃ i' ∈ fiber [0] [2, 2] i, (-100000000 : ℝ) < (fun k : Nat => (k : ℝ)) (ravel [2, 2] i') ∧
    ∀ i'' ∈ fiber [0] [2, 2] i, i'' ≠ i' → (fun k : Nat => (k : ℝ)) (ravel [2, 2] i'') < (fun k : Nat => (k : ℝ)) (ravel [2, 2] i') := by
  intro i hi
  have := (mem_indices [2, 2] i).mpr hi
  have e : indices [2, 2] = [[0, 0], [0, 1], [1, 0], [1, 1]] := by decide
  rw [e] at this
  have f0 : fiber [0] [2, 2] [0, 0] = [[0, 0], [1, 0]] := by decide
  have f1 : fiber [0] [2, 2] [0, 1] = [[0, 1], [1, 1]] := by decide
  have f2 : fiber [0] [2, 2] [1, 0] = [[0, 0], [1, 0]] := by decide
  have f3 : fiber [0] [2, 2] [1, 1] = [[0, 1], [1, 1]] := by decide
  simp only [List.mem_cons, List.not_mem_nil, or_false] at this
  rcases this with rfl | rfl | rfl | rfl
  · rw [f0]; exact ⟨[1, 0], by simp, by norm_num [ravel, prod], by simp [ravel, prod]⟩
  · rw [f1]; exact ⟨[1, 1], by simp, by norm_num [ravel, prod], by simp [ravel, prod]⟩
  · rw [f2]; exact ⟨[1, 0], by simp, by norm_num [ravel, prod], by simp [ravel, prod]⟩
  · rw [f3]; exact ⟨[1, 1], by simp, by norm_num [ravel, prod], by simp [ravel, prod]⟩

/-- The product is differentiated at an array without zeros. -/
example : ∀ k, k < prod [2, 3] → (fun k : Nat => (k : ℝ) + 1) k ≠ 0 := fun k _ => by positivity

end Verif.Elem
