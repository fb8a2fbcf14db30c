import Verif.Interp.Weighted
/-
One axis: the position the code computes, and the two samples it mixes. The kernels as weighted gathers.
-/
namespace Verif.Interp
open Verif.ND Verif.Fn Verif.Act Verif.Elem

/-! ### Specification -/

/-- The input coordinate of output coordinate `o`, the table of the documentation of F.interpolate (functions.py:797-811). -/
noncomputable def coord (align half : Bool) (i q o : Nat) : ℝ :=
  if align then (o : ℝ) * ((i : ℝ) - 1) / ((q : ℝ) - 1)
  else if half then ((o : ℝ) + 1 / 2) * i / q - 1 / 2
  else (o : ℝ) * i / q

/-- A coordinate outside of the array is moved to the nearest border. -/
noncomputable def clamp (i : Nat) (t : ℝ) : ℝ := max 0 (min t ((i : ℝ) - 1))

/-- The weight of a sample at distance `t` in linear interpolation. -/
noncomputable def hat (t : ℝ) : ℝ := max 0 (1 - |t|)

/-- Multilinear interpolation: the weight of sample `j` for output `o`, the product over the axes. -/
noncomputable def lerpWeight (align half : Bool) : (is qs o j : List Nat) → ℝ
  | i :: is, q :: qs, o :: os, j :: js => hat (clamp i (coord align half i q o) - j) * lerpWeight align half is qs os js
  | _, _, _, _ => 1

/-! ### Positions -/

section
variable {align half : Bool} {i q o : Nat}

theorem index_range (h : ¬ (align = true ∧ half = true)) (hi : 0 < i) (ho : o < q) :
    0 ≤ srcIndex (computeScale i q align) o half ∧ srcIndex (computeScale i q align) o half < i := by
  have hi' : (1 : ℝ) ≤ i := by exact_mod_cast hi
  have ho' : (o : ℝ) + 1 ≤ q := by exact_mod_cast ho
  have ho0 : (0 : ℝ) ≤ o := by positivity
  by_cases hq : q ≤ 1
  · have : computeScale i q align = 0 := by simp [computeScale, hq]
    rw [this]
    cases half
    · simp [srcIndex, hi]
    · refine ⟨by simp [srcIndex], ?_⟩
      simp only [srcIndex, if_true, zero_mul]
      rw [max_eq_left (by norm_num)]
      linarith
  · have hq2 : (2 : ℝ) ≤ q := by exact_mod_cast (by omega : 2 ≤ q)
    cases align
    · have e : computeScale i q false = (i : ℝ) / q := by simp [computeScale, hq]
      rw [e]
      have h1 : (i : ℝ) / q * q = i := by field_simp
      have h0 : 0 < (i : ℝ) / q := by positivity
      cases half
      · simp only [srcIndex, Bool.false_eq_true, if_false]
        refine ⟨by positivity, ?_⟩
        nlinarith
      · simp only [srcIndex, if_true]
        refine ⟨le_max_left _ _, max_lt (by linarith) ?_⟩
        nlinarith
    · have e : computeScale i q true = ((i : ℝ) - 1) / ((q : ℝ) - 1) := by simp [computeScale, hq]
      have hh : half = false := by simpa using h
      rw [e, hh]
      simp only [srcIndex, Bool.false_eq_true, if_false]
      have hd : (0 : ℝ) < q - 1 := by linarith
      have h0 : 0 ≤ ((i : ℝ) - 1) / ((q : ℝ) - 1) := div_nonneg (by linarith) hd.le
      have h1 : ((i : ℝ) - 1) / ((q : ℝ) - 1) * (q - 1) = i - 1 := by field_simp
      refine ⟨mul_nonneg h0 ho0, ?_⟩
      nlinarith

/-- Where the code computes the documented coordinate. -/
theorem index_coord (h : ¬ (align = true ∧ half = true)) (hi : 0 < i) (ho : o < q) (hx : half = true → q = 1 → i = 1) :
    min (srcIndex (computeScale i q align) o half) ((i : ℝ) - 1) = clamp i (coord align half i q o) := by
  have hi' : (1 : ℝ) ≤ i := by exact_mod_cast hi
  have ho0 : (0 : ℝ) ≤ o := by positivity
  have hr := index_range h hi ho
  by_cases hq : q ≤ 1
  · have hq1 : q = 1 := by omega
    have ho1 : o = 0 := by omega
    subst hq1; subst ho1
    cases half
    · have e : min (0 : ℝ) ((i : ℝ) - 1) = 0 := min_eq_left (by linarith)
      cases align <;> simp [clamp, coord, srcIndex, e]
    · have := hx rfl rfl
      subst this
      have ha : align = false := by simpa using h
      subst ha
      simp [clamp, coord, srcIndex, computeScale]
  · have hq2 : (2 : ℝ) ≤ q := by exact_mod_cast (by omega : 2 ≤ q)
    cases align
    · have e : computeScale i q false = (i : ℝ) / q := by simp [computeScale, hq]
      rw [e] at hr ⊢
      cases half
      · simp only [srcIndex, clamp, coord, Bool.false_eq_true, if_false] at hr ⊢
        have e2 : (i : ℝ) / q * o = o * i / q := by ring
        rw [e2] at hr ⊢
        rw [max_eq_right (le_min hr.1 (by linarith))]
      · simp only [srcIndex, clamp, coord, Bool.false_eq_true, if_false, if_true]
        have e2 : (i : ℝ) / q * (o + 1 / 2) - 1 / 2 = (o + 1 / 2) * i / q - 1 / 2 := by ring
        rw [e2, max_min_distrib_left, max_eq_right (show (0 : ℝ) ≤ i - 1 by linarith)]
    · have e : computeScale i q true = ((i : ℝ) - 1) / ((q : ℝ) - 1) := by simp [computeScale, hq]
      have hh : half = false := by simpa using h
      subst hh
      rw [e] at hr ⊢
      simp only [srcIndex, clamp, coord, Bool.false_eq_true, if_false, if_true] at hr ⊢
      have e2 : ((i : ℝ) - 1) / ((q : ℝ) - 1) * o = o * (i - 1) / (q - 1) := by ring
      rw [e2] at hr ⊢
      rw [max_eq_right (le_min hr.1 (by linarith))]

end

theorem floor_lt' {i : Nat} {f : ℝ} (h0 : 0 ≤ f) (h : f < i) : ⌊f⌋₊ < i := (Nat.floor_lt h0).mpr h

/-- One-dimensional linear interpolation between the two neighbours is the sum with hat weights. -/
theorem axis_lerp (i : Nat) (f : ℝ) (h0 : 0 ≤ f) (h : f < i) (g : Nat → ℝ) :
    (1 - (f - ⌊f⌋₊)) * g ⌊f⌋₊ + (f - ⌊f⌋₊) * g (min (⌊f⌋₊ + 1) (i - 1)) =
      ((List.range i).map fun j : Nat => hat (min f ((i : ℝ) - 1) - (j : ℝ)) * g j).sum := by
  have hlt := floor_lt' h0 h
  have hle := Nat.floor_le h0
  have hlt1 := Nat.lt_floor_add_one f
  generalize hx : ⌊f⌋₊ = a at *
  rw [← sum_range_list]
  by_cases hl : a + 1 < i
  · have hp : min f ((i : ℝ) - 1) = f := min_eq_left (by
      have : ((a : ℝ) + 1) + 1 ≤ i := by exact_mod_cast hl
      linarith)
    rw [hp, Nat.min_eq_left (by omega)]
    rw [Finset.sum_eq_add (a := a) (b := a + 1) (by omega)]
    · congr 2
      · rw [hat, abs_of_nonneg (by linarith), max_eq_right (by linarith)]
      · have e : ((a + 1 : ℕ) : ℝ) = (a : ℝ) + 1 := by push_cast; ring
        rw [hat, e, abs_of_nonpos (by linarith), max_eq_right (by linarith)]
        ring
    · intro j _ hj
      have : (1 : ℝ) ≤ |f - j| := by
        rcases Nat.lt_or_ge j a with hj' | hj'
        · have : (j : ℝ) + 1 ≤ a := by exact_mod_cast hj'
          exact le_trans (by linarith) (le_abs_self _)
        · have h2 : a + 2 ≤ j := by omega
          have : (a : ℝ) + 2 ≤ j := by exact_mod_cast h2
          exact le_trans (by linarith) (neg_le_abs _)
      rw [hat, max_eq_left (by linarith), zero_mul]
    · intro hh; exact absurd (Finset.mem_range.mpr hlt) hh
    · intro hh; exact absurd (Finset.mem_range.mpr hl) hh
  · have ha : a = i - 1 := by omega
    have hai : (a : ℝ) = i - 1 := by
      rw [ha, Nat.cast_sub (by omega)]; simp
    have hp : min f ((i : ℝ) - 1) = a := by rw [← hai]; exact min_eq_right hle
    rw [hp, Nat.min_eq_right (by omega), ← ha]
    rw [Finset.sum_eq_single a]
    · rw [hat]; simp; ring
    · intro j _ hj
      have : (1 : ℝ) ≤ |(a : ℝ) - j| := by
        rcases Nat.lt_or_ge j a with hj' | hj'
        · have : (j : ℝ) + 1 ≤ a := by exact_mod_cast hj'
          exact le_trans (by linarith) (le_abs_self _)
        · have h2 : a + 1 ≤ j := by omega
          have : (a : ℝ) + 1 ≤ j := by exact_mod_cast h2
          exact le_trans (by linarith) (neg_le_abs _)
      rw [hat, max_eq_left (by linarith), zero_mul]
    · intro hh; exact absurd (Finset.mem_range.mpr hlt) hh

/-! ### The kernels as weighted gathers -/

noncomputable def corsOf (align half : Bool) : (is qs o : List Nat) → List Cor
  | i :: is, q :: qs, o :: os => cor (computeScale i q align) i o half :: corsOf align half is qs os
  | _, _, _ => []

/-- Corners are inside. -/
theorem corners_lt {align half : Bool} (h : ¬ (align = true ∧ half = true)) (is qs o : List Nat) (hi : ∀ i ∈ is, 0 < i)
    (hl : is.length = qs.length) (ho : InBounds qs o) : ∀ c ∈ corners is (corsOf align half is qs o), c.1 < prod is := by
  induction is generalizing qs o with
  | nil =>
    intro c hc
    cases qs with
    | nil => cases o <;> simp [corsOf, corners] at hc <;> simp [hc, prod]
    | cons q qs => simp at hl
  | cons i is ih =>
    cases qs with
    | nil => simp at hl
    | cons q qs =>
      cases o with
      | nil => simp [InBounds] at ho
      | cons o os =>
        have hr := index_range h (hi i (by simp)) ho.1
        have hf := floor_lt' hr.1 hr.2
        have hip := hi i (by simp)
        have ih' := ih qs os (fun j hj => hi j (List.mem_cons_of_mem _ hj)) (by simpa using hl) ho.2
        intro c hc
        simp only [corsOf, corners, List.mem_append, List.mem_map] at hc
        have key : ∀ a p : Nat, a < i → p < prod is → a * prod is + p < prod (i :: is) := by
          intro a p ha hp
          show a * prod is + p < i * prod is
          have := Nat.mul_le_mul_right (prod is) (show a + 1 ≤ i by omega)
          rw [Nat.succ_mul] at this
          omega
        rcases hc with ⟨p, hp, rfl⟩ | ⟨p, hp, rfl⟩
        · exact key _ _ hf (ih' p hp)
        · refine key _ _ ?_ (ih' p hp)
          show min _ (i - 1) < i
          omega

/-- The weighted sum over the corners is multilinear interpolation. -/
theorem corners_lerp {align half : Bool} (h : ¬ (align = true ∧ half = true)) (is qs o : List Nat) (hi : ∀ i ∈ is, 0 < i)
    (hl : is.length = qs.length) (ho : InBounds qs o) (hx : ∀ p ∈ is.zip qs, half = true → p.2 = 1 → p.1 = 1) (s : Mem ℝ) :
    wsum (corners is (corsOf align half is qs o)) s =
      ((indices is).map fun j => lerpWeight align half is qs o j * s (ravel is j)).sum := by
  induction is generalizing qs o s with
  | nil =>
    cases qs with
    | nil => cases o <;> simp [corsOf, corners, wsum, indices, lerpWeight, ravel]
    | cons q qs => simp at hl
  | cons i is ih =>
    cases qs with
    | nil => simp at hl
    | cons q qs =>
      cases o with
      | nil => simp [InBounds] at ho
      | cons o os =>
        have hip := hi i (by simp)
        have hr := index_range h hip ho.1
        have hco := index_coord h hip ho.1 (hx (i, q) (by simp))
        have ih' := ih qs os (fun j hj => hi j (List.mem_cons_of_mem _ hj)) (by simpa using hl) ho.2
          (fun p hp => hx p (by simp [hp]))
        rw [corsOf, wsum_corners_cons, ih', ih', indices, List.map_flatMap]
        have ax := axis_lerp i _ hr.1 hr.2 fun a =>
          ((indices is).map fun j => lerpWeight align half is qs os j * s (a * prod is + ravel is j)).sum
        simp only [cor]
        rw [ax, hco]
        have := sum_flatMap (List.range i) (fun a => (indices is).map (a :: ·)) fun j =>
          lerpWeight align half (i :: is) (q :: qs) (o :: os) j * s (ravel (i :: is) j)
        simp only [List.map_flatMap] at this
        rw [this]
        congr 1
        apply List.map_congr_left
        intro a _
        rw [List.map_map, ← List.sum_map_mul_left]
        congr 1
        apply List.map_congr_left
        intro j _
        simp only [Function.comp, lerpWeight, ravel]
        ring

theorem corB_eq {s : ℝ} {i o : Nat} {half : Bool} (h : ⌊srcIndex s o half⌋₊ < i) : corB s i o half = cor s i o half := by
  simp only [corB, cor, Cor.mk.injEq, true_and, and_true]
  by_cases h2 : ⌊srcIndex s o half⌋₊ < i - 1
  · rw [if_pos h2, Nat.min_eq_left (by omega)]
  · rw [if_neg h2, Nat.min_eq_right (by omega)]; omega

theorem flatMap_congr' {α β} (l : List α) (f g : α → List β) (h : ∀ a ∈ l, f a = g a) : l.flatMap f = l.flatMap g := by
  induction l with
  | nil => rfl
  | cons a l ih =>
    rw [List.flatMap_cons, List.flatMap_cons, h a (by simp), ih fun b hb => h b (by simp [hb])]

theorem indices1 (w : Nat) : indices [w] = (List.range w).flatMap fun x => [[x]] := by
  simp [indices]

theorem indices2 (a w : Nat) : indices [a, w] = (List.range a).flatMap fun y => (List.range w).flatMap fun x => [[y, x]] := by
  rw [indices, indices1]
  simp only [List.map_flatMap, List.map_cons, List.map_nil]

theorem indices3 (d a w : Nat) : indices [d, a, w] =
    (List.range d).flatMap fun z => (List.range a).flatMap fun y => (List.range w).flatMap fun x => [[z, y, x]] := by
  rw [indices, indices2]
  simp only [List.map_flatMap, List.map_cons, List.map_nil]

section
variable (align half : Bool) (iw ih id ow oh od : Nat) (s : Mem ℝ)

theorem lin1_eq : lin1 s iw ow (computeScale iw ow align) half = gatherW [ow] (fun o => corners [iw] (corsOf align half [iw] [ow] o)) s := by
  simp only [lin1, gatherW, indices1, List.map_flatMap, List.map_cons, List.map_nil]
  refine flatMap_congr' _ _ _ fun x _ => ?_
  simp [corsOf, corners, wsum, ravel, prod]

theorem lin2_eq : lin2 s iw ih ow oh (computeScale iw ow align) (computeScale ih oh align) half =
    gatherW [oh, ow] (fun o => corners [ih, iw] (corsOf align half [ih, iw] [oh, ow] o)) s := by
  simp only [lin2, gatherW, indices2, List.map_flatMap, List.map_cons, List.map_nil]
  refine flatMap_congr' _ _ _ fun y _ => flatMap_congr' _ _ _ fun x _ => ?_
  simp [corsOf, corners, wsum, ravel, prod]
  ring

theorem lin3_eq : lin3 s iw ih id ow oh od (computeScale iw ow align) (computeScale ih oh align) (computeScale id od align) half =
    gatherW [od, oh, ow] (fun o => corners [id, ih, iw] (corsOf align half [id, ih, iw] [od, oh, ow] o)) s := by
  simp only [lin3, gatherW, indices3, List.map_flatMap, List.map_cons, List.map_nil]
  refine flatMap_congr' _ _ _ fun z _ => flatMap_congr' _ _ _ fun y _ => flatMap_congr' _ _ _ fun x _ => ?_
  simp [corsOf, corners, wsum, ravel, prod, mul_assoc, Nat.add_assoc]
  ring

variable (h : ¬ (align = true ∧ half = true))
include h

theorem lin1B_eq (hw : 0 < iw) : lin1B s iw ow (computeScale iw ow align) half =
    scatterW [ow] (fun o => corners [iw] (corsOf align half [iw] [ow] o)) s := by
  simp only [lin1B, scatterW, indices1, List.flatMap_assoc]
  refine flatMap_congr' _ _ _ fun x hx => ?_
  have r1 := index_range h hw (List.mem_range.mp hx)
  rw [corB_eq (floor_lt' r1.1 r1.2)]
  simp [corsOf, corners, ravel, prod]

theorem lin2B_eq (hw : 0 < iw) (hh : 0 < ih) : lin2B s iw ih ow oh (computeScale iw ow align) (computeScale ih oh align) half =
    scatterW [oh, ow] (fun o => corners [ih, iw] (corsOf align half [ih, iw] [oh, ow] o)) s := by
  simp only [lin2B, scatterW, indices2, List.flatMap_assoc]
  refine flatMap_congr' _ _ _ fun y hy => flatMap_congr' _ _ _ fun x hx => ?_
  have r1 := index_range h hw (List.mem_range.mp hx)
  have r2 := index_range h hh (List.mem_range.mp hy)
  rw [corB_eq (floor_lt' r1.1 r1.2), corB_eq (floor_lt' r2.1 r2.2)]
  simp [corsOf, corners, ravel, prod, mul_assoc]

theorem lin3B_eq (hw : 0 < iw) (hh : 0 < ih) (hd : 0 < id) :
    lin3B s iw ih id ow oh od (computeScale iw ow align) (computeScale ih oh align) (computeScale id od align) half =
    scatterW [od, oh, ow] (fun o => corners [id, ih, iw] (corsOf align half [id, ih, iw] [od, oh, ow] o)) s := by
  simp only [lin3B, scatterW, indices3, List.flatMap_assoc]
  refine flatMap_congr' _ _ _ fun z hz => flatMap_congr' _ _ _ fun y hy => flatMap_congr' _ _ _ fun x hx => ?_
  have r1 := index_range h hw (List.mem_range.mp hx)
  have r2 := index_range h hh (List.mem_range.mp hy)
  have r3 := index_range h hd (List.mem_range.mp hz)
  rw [corB_eq (floor_lt' r1.1 r1.2), corB_eq (floor_lt' r2.1 r2.2), corB_eq (floor_lt' r3.1 r3.2)]
  simp [corsOf, corners, ravel, prod, mul_assoc, Nat.add_assoc]

end

end Verif.Interp
