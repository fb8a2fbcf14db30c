import Mathlib.Data.List.GetD
import Verif.Fn.Loop
import Verif.Rand.Spec
/-
C130: RandomShift.
-/
namespace Verif.Rand
open Verif.ND Verif.Fn

theorem draws_length {G} (next : Gen G) (n : Nat) (g : G) : (draws next n g).1.length = n := by
  induction n generalizing g with
  | zero => rfl
  | succ n ih => simp [draws, ih]

theorem drawShift_range (s r : Nat) : -(s : Int) ≤ drawShift s r ∧ drawShift s r ≤ s := by
  unfold drawShift
  have := Nat.mod_lt r (show 0 < s * 2 + 1 by omega)
  omega

theorem zipWith_forall₂ (shifts rs : List Nat) (h : rs.length = shifts.length) :
    List.Forall₂ (fun (s : Nat) (v : Int) => -(s : Int) ≤ v ∧ v ≤ s) shifts (List.zipWith drawShift shifts rs) := by
  induction shifts generalizing rs with
  | nil => cases rs <;> simp
  | cons s ss ih => cases rs with
    | nil => simp at h
    | cons r rs =>
      simp only [List.zipWith_cons_cons]
      exact List.Forall₂.cons (drawShift_range s r) (ih rs (by simpa using h))

/-- C130: whatever the generator, RandomShift draws one pattern per sample and every drawn shift is within the
limits given by the user. -/
theorem C130_shift_range {G} (next : Gen G) (shifts : List Nat) (n : Nat) (g : G) :
    ShiftPats shifts n (drawShifts next shifts n g).1 := by
  induction n generalizing g with
  | zero => exact ⟨rfl, by simp [drawShifts]⟩
  | succ n ih =>
    obtain ⟨h1, h2⟩ := ih (draws next shifts.length g).2
    refine ⟨by simp only [drawShifts, List.length_cons, h1], ?_⟩
    intro p hp
    simp only [drawShifts, List.mem_cons] at hp
    rcases hp with rfl | hp
    · exact zipWith_forall₂ _ _ (draws_length next _ g)
    · exact h2 p hp

/-- C130: every shift within the limits can be drawn. -/
theorem C130_shift_reachable (s : Nat) (v : Int) (h1 : -(s : Int) ≤ v) (h2 : v ≤ s) :
    ∃ r, drawShift s r = v := by
  refine ⟨(v + s).toNat, ?_⟩
  unfold drawShift
  rw [Nat.mod_eq_of_lt (by omega)]
  omega

theorem draws_add {G} (next : Gen G) (a b : Nat) (g : G) :
    draws next (a + b) g = ((draws next a g).1 ++ (draws next b (draws next a g).2).1, (draws next b (draws next a g).2).2) := by
  induction a generalizing g with
  | zero => simp [draws]
  | succ a ih =>
    rw [show a + 1 + b = (a + b) + 1 by omega]
    simp only [draws, ih, List.cons_append]

/-- C130: the shifts of all samples are successive outputs of the generator, each used once: shift `id` of
sample `k` comes from output number `k * shifts.length + id`, and the generator is left after the last one. -/
theorem C130_shift_fresh {G} (next : Gen G) (shifts : List Nat) (n : Nat) (g : G) :
    (drawShifts next shifts n g).2 = (draws next (n * shifts.length) g).2 ∧
    ∀ k id, k < n → id < shifts.length →
      ((drawShifts next shifts n g).1.getD k []).getD id 0 =
        drawShift (shifts.getD id 0) ((draws next (n * shifts.length) g).1.getD (k * shifts.length + id) 0) := by
  induction n generalizing g with
  | zero => exact ⟨by simp [drawShifts, draws], by intro k id hk; omega⟩
  | succ n ih =>
    obtain ⟨h1, h2⟩ := ih (draws next shifts.length g).2
    have e : (n + 1) * shifts.length = shifts.length + n * shifts.length := by rw [Nat.add_mul, Nat.one_mul, Nat.add_comm]
    rw [e, draws_add]
    refine ⟨h1, ?_⟩
    intro k id hk hid
    cases k with
    | zero =>
      simp only [drawShifts, List.getD_cons_zero, Nat.zero_mul, Nat.zero_add]
      have hl := draws_length next shifts.length g
      rw [List.getD_append _ _ _ _ (by omega)]
      have h3 : (List.zipWith drawShift shifts (draws next shifts.length g).1).getD id 0 =
          drawShift (shifts.getD id 0) ((draws next shifts.length g).1.getD id 0) := by
        rw [List.getD_eq_getElem _ _ (by simp [hl, hid]), List.getElem_zipWith,
          List.getD_eq_getElem _ _ hid, List.getD_eq_getElem _ _ (by omega)]
      exact h3
    | succ k =>
      simp only [drawShifts, List.getD_cons_succ]
      rw [h2 k id (by omega) hid]
      have hl := draws_length next shifts.length g
      rw [List.getD_append_right _ _ _ _ (by rw [hl, Nat.add_mul]; omega)]
      congr 2
      rw [hl, Nat.add_mul]; omega

theorem tableEntry_lt (mode : Border) (size : Nat) (shift : Int) (i a : Nat) (hi : i < size)
    (h : tableEntry mode size shift i = some a) : a < size := by
  cases mode with
  | reflect =>
    simp only [tableEntry, Option.some.injEq] at h
    by_cases h1 : size > 1
    · rw [if_pos h1] at h
      have := Nat.mod_lt ((i : Int) + size * 2 + shift).natAbs (show 0 < size * 2 by omega)
      split at h <;> omega
    · rw [if_neg h1] at h
      split at h <;> omega
  | nearest => simp only [tableEntry, Option.some.injEq] at h; omega
  | constant =>
    simp only [tableEntry] at h
    split at h
    · cases h
    · simp only [Option.some.injEq] at h; omega

theorem tableEntry_spec (mode : Border) (size : Nat) (shift : Int) (i : Nat) (hi : i < size)
    (hr : mode = .reflect → -((i : Int) + size * 2) ≤ shift) :
    tableEntry mode size shift i = borderSpec mode size (i + shift) := by
  cases mode with
  | constant =>
    simp only [tableEntry, borderSpec]
    by_cases h : (i : Int) + shift < 0 ∨ (i : Int) + shift ≥ size
    · rw [if_pos h, if_neg (by omega)]
    · rw [if_neg h, if_pos (by omega)]
  | nearest =>
    simp only [tableEntry, borderSpec, Option.some.injEq]
    split
    · omega
    · split <;> omega
  | reflect =>
    have hr := hr rfl
    simp only [tableEntry, borderSpec, Option.some.injEq]
    by_cases h1 : size > 1
    · rw [if_pos h1]
      have e : ((i : Int) + size * 2 + shift).natAbs % (size * 2) = ((i + shift) % (2 * size : Int)).toNat := by
        have h2 : (((i : Int) + size * 2 + shift).natAbs : Int) = (i : Int) + size * 2 + shift := by omega
        have h3 : ((((i : Int) + size * 2 + shift).natAbs % (size * 2) : Nat) : Int) = (i + shift) % (2 * size : Int) := by
          rw [Int.natCast_emod, h2]
          have : ((size * 2 : Nat) : Int) = 2 * size := by push_cast; ring
          rw [this, show (i : Int) + size * 2 + shift = (i + shift) + (2 * size) by ring, Int.add_emod_right]
        omega
      rw [e]
      generalize ((i + shift) % (2 * size : Int)).toNat = a
      by_cases h : a < size
      · rw [if_neg (by omega), if_pos h]
      · rw [if_pos (by omega), if_neg h, Nat.mul_comm]
    · rw [if_neg h1]
      have : size = 1 := by omega
      subst this
      have h2 := Int.emod_nonneg ((i : Int) + shift) (show (2 * (1 : Nat) : Int) ≠ 0 by decide)
      have h3 := Int.emod_lt_of_pos ((i : Int) + shift) (show (0 : Int) < 2 * (1 : Nat) by decide)
      generalize ((i : Int) + shift) % (2 * (1 : Nat) : Int) = a at h2 h3
      rw [if_neg (by omega)]
      split <;> omega

theorem axisShift_spec (pat : List Int) (ndim d : Nat) (hd : d < ndim) : axisShift pat ndim d = - shiftOf pat ndim d := by
  unfold axisShift shiftOf
  by_cases h : pat.length + d ≥ ndim
  · rw [if_pos h]
    by_cases h2 : ndim - 1 - d < pat.length
    · rw [List.getD_eq_getElem _ _ (by omega : pat.length + d - ndim < pat.length),
        List.getD_eq_getElem _ _ (by simpa using h2), List.getElem_reverse]
      congr 2
      omega
    · omega
  · rw [if_neg h, List.getD_eq_default]
    · rfl
    · simp only [List.length_reverse]; omega

/-- C130 (memory safety, gradient). For every border mode, shape, base axis and drawn shifts: forward reads and
writes only inside the arrays and writes every element once, and backward adds to each element of x the
gradients of exactly those outputs that forward copied from it. -/
theorem C130_shift_gathers (mode : Border) (sh : Shape) (base : Nat) (pats : List (List Int)) (hp : pats ≠ []) :
    GathersC sh sh (pick base pats.length
      (fun k d i => tableEntry mode (sh.getD d 0) (axisShift (pats.getD k []) sh.length d) i) sh 0 0)
      (shiftPairs mode sh base pats) := by
  apply walk_gathers
  · exact List.length_pos_of_ne_nil hp
  · rfl
  · intro k d i a _ _ hi h
    exact tableEntry_lt _ _ _ _ _ hi h

theorem C130_shift_grad {R} [CommSemiring R] (mode : Border) (c : R) (sh : Shape) (base : Nat) (pats : List (List Int))
    (hp : pats ≠ []) (y : Mem R) :
    GradAffine (prod sh) (prod sh) (fun x => shiftForward mode c sh base pats x y)
      (callBackward (shiftBackward mode sh base pats)) := by
  apply (C130_shift_gathers mode sh base pats hp).gradAffine
  intro accum dy dx
  cases accum <;> rfl

/-- C130. With at most one sample axis, element `j` of the output is the element of x found by moving back along
every axis by the shift drawn for the sample of `j`, the border mode saying what is read outside of the array.
What is missing: in reflect mode shifts of more than twice the extent of the axis are excluded (see
`C130_reflect_large_shift`); two or more sample axes are treated in C132. -/
theorem C130_shift_forward_partial {R} (mode : Border) (c : R) (sh : Shape) (base : Nat) (hb : base ≤ 1)
    (hlen : base < sh.length) (hne : 0 < prod sh) (shifts : List Nat) (pats : List (List Int))
    (hp : ShiftPats shifts (nPatterns sh base) pats)
    (hr : mode = .reflect → ∀ d, d < sh.length → ∀ p ∈ pats, shiftOf p sh.length d ≤ 2 * sh.getD d 0)
    (x y : Mem R) (j : List Nat) (hj : InBounds sh j) :
    shiftForward mode c sh base pats x y (ravel sh j) =
      readC c x ((mapAxes (fun d i => borderSpec mode (sh.getD d 0)
        ((i : Int) - shiftOf (pats.getD (patternOf base j d) []) sh.length d)) 0 j).map (ravel sh)) := by
  have hn : 0 < pats.length := by rw [hp.1]; exact nPatterns_pos sh base hne
  have hps : pats ≠ [] := List.length_pos_iff.mp hn
  unfold shiftForward
  rw [(C130_shift_gathers mode sh base pats hps).forward c x y j hj]
  have hhead : base = 1 → sh.headD 0 ≤ pats.length := by
    rintro rfl
    cases sh with
    | nil => simp
    | cons s rest => rw [hp.1, nPatterns_one s rest hne]; simp
  rw [pick_one base pats.length hb _ sh hn hhead j hj]
  congr 2
  apply mapAxes_congr
  intro e i _ hi he
  have hjl := (inBounds_iff sh j).mp hj
  have he' : e < sh.length := by rw [Nat.zero_add] at he; omega
  have hi' : i < sh.getD e 0 := by rw [hi]; exact hjl.2 e he'
  rw [tableEntry_spec _ _ _ _ hi', axisShift_spec _ _ _ he', sub_eq_add_neg]
  intro hm
  rw [axisShift_spec _ _ _ he']
  have hkl : patternOf base j e < pats.length := by
    unfold patternOf
    split
    · exact hn
    · rename_i hc
      have hb1 : base = 1 := by omega
      have h0 := hjl.2 0 (by omega)
      have := hhead hb1
      cases sh with
      | nil => simp at hlen
      | cons s rest => simp only [List.headD_cons, List.getD_cons_zero] at *; omega
  have := hr hm e he' (pats.getD (patternOf base j e) []) (by
    rw [List.getD_eq_getElem _ _ hkl]; exact List.getElem_mem hkl)
  omega

/-- C130, refuted for large reflected shifts: an axis of 2 elements shifted by 5 reads 1 at position 0 although
the mirrored extension has element 0 there. -/
theorem C130_reflect_large_shift :
    shiftForward .reflect 0 [2] 0 [[5]] (fun i => (i : Int)) (fun _ => 7) 0 = 1 ∧
      borderSpec .reflect 2 ((0 : Int) - 5) = some 0 := by
  decide


/-- Two rows of three elements, row 0 shifted right by one, row 1 left by one, constant border 9: the hypotheses
of C130 hold and the result is the expected one. -/
example : ShiftPats [1] (nPatterns [2, 3] 1) [[1], [-1]] ∧ 0 < prod [2, 3] ∧
    (indices [2, 3]).map (fun j => shiftForward .constant 9 [2, 3] 1 [[1], [-1]] (fun i => (i : Int)) (fun _ => 7) (ravel [2, 3] j)) =
      [9, 0, 1, 4, 5, 9] := by
  refine ⟨⟨by decide, ?_⟩, by decide, by decide⟩
  intro p hp
  simp only [List.mem_cons, List.not_mem_nil, or_false] at hp
  rcases hp with rfl | rfl <;> simp

/-- Reflect and nearest on one row of three, shifted right by two. -/
example : (indices [1, 3]).map (fun j => shiftForward .reflect 9 [1, 3] 1 [[2]] (fun i => (i : Int)) (fun _ => 7) (ravel [1, 3] j)) = [1, 0, 0] ∧
    (indices [1, 3]).map (fun j => shiftForward .nearest 9 [1, 3] 1 [[2]] (fun i => (i : Int)) (fun _ => 7) (ravel [1, 3] j)) = [0, 0, 0] := by
  decide

/-- A generator that counts: limits 1 and 2, two patterns. -/
example : (drawShifts (fun g : Nat => (g, g + 1)) [1, 2] 2 0).1 = [[-1, -1], [1, 1]] := by decide

end Verif.Rand
