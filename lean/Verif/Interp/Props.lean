import Verif.Interp.Axis
import Mathlib.Tactic.NormNum.Basic
/-
F.interpolate: property theorems. Vocabulary: ND/Props (InBounds, ravel, prod), Fn/Base (GradOK, callBackward) and the
specification part of Interp/Axis (coord, clamp, hat, lerpWeight).
-/
namespace Verif.Interp
open Verif.ND Verif.Fn Verif.Act Verif.Elem

/-! ### Specification -/

/-- The input coordinate in mode "nearest": the table, or the formula for half_pixel_for_nn (functions.py:814-819). -/
noncomputable def coordNN (align half hpnn : Bool) (i q o : Nat) : ℝ :=
  if hpnn then ((o : ℝ) + 1 / 2) * i / q else coord align half i q o

/-- The sample at or just before the input coordinate, on each axis. -/
noncomputable def sampleBefore (align half hpnn : Bool) : (is qs o : List Nat) → List Nat
  | i :: is, q :: qs, o :: os => ⌊clamp i (coordNN align half hpnn i q o)⌋₊ :: sampleBefore align half hpnn is qs os
  | _, _, _ => []

/-! ### Nearest: the kernels -/

noncomputable def nears (align half hpnn : Bool) : (is qs o : List Nat) → List Nat
  | i :: is, q :: qs, o :: os => near (computeScaleNN i q align hpnn) i o half hpnn :: nears align half hpnn is qs os
  | _, _, _ => []

theorem nears_inBounds (align half hpnn : Bool) (is qs o : List Nat) (hi : ∀ i ∈ is, 0 < i)
    (hl : is.length = qs.length) (ho : InBounds qs o) : InBounds is (nears align half hpnn is qs o) := by
  induction is generalizing qs o with
  | nil =>
    cases qs with
    | nil => cases o <;> simp [nears, InBounds]
    | cons q qs => simp at hl
  | cons i is ih =>
    cases qs with
    | nil => simp at hl
    | cons q qs =>
      cases o with
      | nil => simp [InBounds] at ho
      | cons o os =>
        have := hi i (by simp)
        exact ⟨by unfold near; omega, ih qs os (fun j hj => hi j (List.mem_cons_of_mem _ hj)) (by simpa using hl) ho.2⟩

theorem near_eq {align half hpnn : Bool} {i q o : Nat} (h : ¬ (align = true ∧ half = true)) (hi : 0 < i) (ho : o < q)
    (hx : half = true → hpnn = false → q = 1 → i = 1) :
    near (computeScaleNN i q align hpnn) i o half hpnn = ⌊clamp i (coordNN align half hpnn i q o)⌋₊ := by
  have hi' : (1 : ℝ) ≤ i := by exact_mod_cast hi
  have key : ∀ f : ℝ, 0 ≤ f → min ⌊f⌋₊ (i - 1) = ⌊min f ((i : ℝ) - 1)⌋₊ := by
    intro f hf
    have e : ((i : ℝ) - 1) = ((i - 1 : ℕ) : ℝ) := by rw [Nat.cast_sub (by omega)]; simp
    rw [e]
    rcases le_total f ((i - 1 : ℕ) : ℝ) with hc | hc
    · rw [min_eq_left hc, Nat.min_eq_left]
      have := Nat.floor_le_floor hc
      rwa [Nat.floor_natCast] at this
    · rw [min_eq_right hc, Nat.floor_natCast, Nat.min_eq_right]
      exact Nat.le_floor hc
  cases hpnn
  · have hr := index_range h hi ho
    have hc := index_coord h hi ho (fun a => hx a rfl)
    simp only [near, computeScaleNN, srcIndexNN, coordNN, Bool.false_eq_true, if_false]
    rw [key _ hr.1, hc]
  · simp only [near, computeScaleNN, srcIndexNN, coordNN, if_true]
    have hq : 0 < q := by omega
    have e : (i : ℝ) / q * (o + 1 / 2) = (o + 1 / 2) * i / q := by ring
    have h0 : 0 ≤ ((o : ℝ) + 1 / 2) * i / q := by positivity
    rw [e, key _ h0, clamp, max_eq_right (le_min h0 (by linarith))]

theorem nears_eq {align half hpnn : Bool} (h : ¬ (align = true ∧ half = true)) (is qs o : List Nat) (hi : ∀ i ∈ is, 0 < i)
    (hl : is.length = qs.length) (ho : InBounds qs o)
    (hx : ∀ p ∈ is.zip qs, half = true → hpnn = false → p.2 = 1 → p.1 = 1) :
    nears align half hpnn is qs o = sampleBefore align half hpnn is qs o := by
  induction is generalizing qs o with
  | nil => cases qs <;> simp [nears, sampleBefore]
  | cons i is ih =>
    cases qs with
    | nil => simp at hl
    | cons q qs =>
      cases o with
      | nil => simp [InBounds] at ho
      | cons o os =>
        rw [nears, sampleBefore, near_eq h (hi i (by simp)) ho.1 (hx (i, q) (by simp)),
          ih qs os (fun j hj => hi j (List.mem_cons_of_mem _ hj)) (by simpa using hl) ho.2 (fun p hp => hx p (by simp [hp]))]

section
variable (align half hpnn : Bool) (iw ih id ow oh od : Nat) (s : Mem ℝ)

theorem nn1_eq : nn1 s iw ow (computeScaleNN iw ow align hpnn) half hpnn =
    gatherW [ow] (fun o => [(ravel [iw] (nears align half hpnn [iw] [ow] o), 1)]) s ∧
    nn1B s iw ow (computeScaleNN iw ow align hpnn) half hpnn =
    scatterW [ow] (fun o => [(ravel [iw] (nears align half hpnn [iw] [ow] o), 1)]) s := by
  constructor
  · simp only [nn1, gatherW, indices1, List.map_flatMap, List.map_cons, List.map_nil]
    refine flatMap_congr' _ _ _ fun x _ => ?_
    simp [nears, wsum, ravel, prod]
  · simp only [nn1B, scatterW, indices1, List.flatMap_assoc]
    refine flatMap_congr' _ _ _ fun x _ => ?_
    simp [nears, ravel, prod]

theorem nn2_eq : nn2 s iw ih ow oh (computeScaleNN iw ow align hpnn) (computeScaleNN ih oh align hpnn) half hpnn =
    gatherW [oh, ow] (fun o => [(ravel [ih, iw] (nears align half hpnn [ih, iw] [oh, ow] o), 1)]) s ∧
    nn2B s iw ih ow oh (computeScaleNN iw ow align hpnn) (computeScaleNN ih oh align hpnn) half hpnn =
    scatterW [oh, ow] (fun o => [(ravel [ih, iw] (nears align half hpnn [ih, iw] [oh, ow] o), 1)]) s := by
  constructor
  · simp only [nn2, gatherW, indices2, List.map_flatMap, List.map_cons, List.map_nil]
    refine flatMap_congr' _ _ _ fun y _ => flatMap_congr' _ _ _ fun x _ => ?_
    simp [nears, wsum, ravel, prod]
  · simp only [nn2B, scatterW, indices2, List.flatMap_assoc]
    refine flatMap_congr' _ _ _ fun y _ => flatMap_congr' _ _ _ fun x _ => ?_
    simp [nears, ravel, prod]

theorem nn3_eq : nn3 s iw ih id ow oh od (computeScaleNN iw ow align hpnn) (computeScaleNN ih oh align hpnn)
      (computeScaleNN id od align hpnn) half hpnn =
    gatherW [od, oh, ow] (fun o => [(ravel [id, ih, iw] (nears align half hpnn [id, ih, iw] [od, oh, ow] o), 1)]) s ∧
    nn3B s iw ih id ow oh od (computeScaleNN iw ow align hpnn) (computeScaleNN ih oh align hpnn)
      (computeScaleNN id od align hpnn) half hpnn =
    scatterW [od, oh, ow] (fun o => [(ravel [id, ih, iw] (nears align half hpnn [id, ih, iw] [od, oh, ow] o), 1)]) s := by
  constructor
  · simp only [nn3, gatherW, indices3, List.map_flatMap, List.map_cons, List.map_nil]
    refine flatMap_congr' _ _ _ fun z _ => flatMap_congr' _ _ _ fun y _ => flatMap_congr' _ _ _ fun x _ => ?_
    simp [nears, wsum, ravel, prod, mul_assoc, Nat.add_assoc]
  · simp only [nn3B, scatterW, indices3, List.flatMap_assoc]
    refine flatMap_congr' _ _ _ fun z _ => flatMap_congr' _ _ _ fun y _ => flatMap_congr' _ _ _ fun x _ => ?_
    simp [nears, ravel, prod, mul_assoc, Nat.add_assoc]

end

/-! ### The whole function -/

theorem dim1 (outer : Shape) (a : Nat) : dimFromEnd (outer ++ [a]) 1 = a := by
  simp [dimFromEnd]

theorem dim2 (outer : Shape) (a b : Nat) : dimFromEnd (outer ++ [a, b]) 1 = b ∧ dimFromEnd (outer ++ [a, b]) 2 = a := by
  simp [dimFromEnd]

theorem dim3 (outer : Shape) (a b c : Nat) : dimFromEnd (outer ++ [a, b, c]) 1 = c ∧ dimFromEnd (outer ++ [a, b, c]) 2 = b ∧
    dimFromEnd (outer ++ [a, b, c]) 3 = a := by
  simp [dimFromEnd]

theorem size_div (outer is : Shape) (d : Nat) (hd : d = prod is) (h : 0 < prod is) : size (outer ++ is) / d = prod outer := by
  rw [size_eq, prod_append, hd, Nat.mul_div_cancel _ h]

/-- Both passes from one table of weights. -/
theorem kernels (c : Cfg) (outer is qs : Shape) (hq : c.outputSize = qs) (hl : is.length = qs.length)
    (hk : 1 ≤ is.length ∧ is.length ≤ 3) (hcl : c.channelLast = false) (hi : ∀ i ∈ is, 0 < i)
    (hm : c.mode = "linear" ∧ ¬ (c.alignCorners = true ∧ c.halfPixel = true) ∨ c.mode = "nearest") (T : List Nat → List (Nat × ℝ))
    (hT : c.mode = "linear" → T = fun o => corners is (corsOf c.alignCorners c.halfPixel is qs o))
    (hT' : c.mode = "nearest" → T = fun o => [(ravel is (nears c.alignCorners c.halfPixel c.halfPixelForNN is qs o), 1)]) :
    forward c (outer ++ is) (outer ++ qs) =
      .ok (fun x y => puts (outerLoop (prod outer) (prod is) (prod qs) (gatherW qs T) x) y) ∧
    backward c (outer ++ is) (outer ++ qs) =
      .ok (fun _ gy gx => adds (outerLoop (prod outer) (prod qs) (prod is) (scatterW qs T) gy) gx) := by
  have hne : ¬ ("nearest" = "linear") := by decide
  rcases is with _ | ⟨a, _ | ⟨b, _ | ⟨d, _ | ⟨e, is⟩⟩⟩⟩
  · simp at hk
  · rcases qs with _ | ⟨a', _ | ⟨b', qs⟩⟩ <;> simp at hl
    have ha := hi a (by simp)
    have e1 : prod [a] = a := by simp [prod]
    have e2 : prod [a'] = a' := by simp [prod]
    have hs := size_div outer [a] a e1.symm (by simpa [prod] using ha)
    rcases hm with ⟨hm, hah⟩ | hm
    · have hT := hT hm
      constructor <;>
      · simp only [forward, backward, hcl, hq, hm, dim1, hs, List.length_cons, List.length_nil, Bool.false_eq_true, if_false,
          if_true, Except.ok.injEq, Nat.reduceAdd, lin1_eq, lin1B_eq _ _ _ _ _ hah ha, e1, e2, hT]
    · have hT' := hT' hm
      constructor <;>
      · simp only [forward, backward, hcl, hq, hm, hne, dim1, hs, List.length_cons, List.length_nil, Bool.false_eq_true, if_false,
          if_true, Except.ok.injEq, Nat.reduceAdd, nn1_eq, e1, e2, hT']
  · rcases qs with _ | ⟨a', _ | ⟨b', _ | ⟨d', qs⟩⟩⟩ <;> simp at hl
    have ha := hi a (by simp)
    have hb := hi b (by simp)
    have e1 : b * a = prod [a, b] := by simp [prod]; ring
    have e2 : b' * a' = prod [a', b'] := by simp [prod]; ring
    have hs := size_div outer [a, b] (b * a) e1 (by rw [← e1]; positivity)
    rcases hm with ⟨hm, hah⟩ | hm
    · have hT := hT hm
      constructor <;>
      · simp only [forward, backward, hcl, hq, hm, dim2, hs, List.length_cons, List.length_nil, Bool.false_eq_true, if_false,
          if_true, Except.ok.injEq, Nat.reduceAdd, Nat.reduceEqDiff, OfNat.ofNat_ne_one, lin2_eq,
          lin2B_eq _ _ _ _ _ _ _ hah hb ha, hT]
        simp only [e1, e2]
    · have hT' := hT' hm
      constructor <;>
      · simp only [forward, backward, hcl, hq, hm, hne, dim2, hs, List.length_cons, List.length_nil, Bool.false_eq_true, if_false,
          if_true, Except.ok.injEq, Nat.reduceAdd, Nat.reduceEqDiff, OfNat.ofNat_ne_one, nn2_eq, hT']
        simp only [e1, e2]
  · rcases qs with _ | ⟨a', _ | ⟨b', _ | ⟨d', _ | ⟨e', qs⟩⟩⟩⟩ <;> simp at hl
    have ha := hi a (by simp)
    have hb := hi b (by simp)
    have hd := hi d (by simp)
    have e0 : a * d * b = prod [a, b, d] := by simp [prod]; ring
    have e1 : d * b * a = prod [a, b, d] := by simp [prod]; ring
    have e2 : d' * b' * a' = prod [a', b', d'] := by simp [prod]; ring
    have hs := size_div outer [a, b, d] (d * b * a) e1 (by rw [← e1]; positivity)
    have hs0 := size_div outer [a, b, d] (a * d * b) e0 (by rw [← e1]; positivity)
    rcases hm with ⟨hm, hah⟩ | hm
    · have hT := hT hm
      constructor <;>
      · simp only [forward, backward, hcl, hq, hm, dim3, hs, hs0, List.length_cons, List.length_nil, Bool.false_eq_true, if_false,
          if_true, Except.ok.injEq, Nat.reduceAdd, Nat.reduceEqDiff, OfNat.ofNat_ne_one, lin3_eq,
          lin3B_eq _ _ _ _ _ _ _ _ _ hah hd hb ha, hT]
        simp only [e1, e2]
    · have hT' := hT' hm
      constructor <;>
      · simp only [forward, backward, hcl, hq, hm, hne, dim3, hs, hs0, List.length_cons, List.length_nil, Bool.false_eq_true, if_false,
          if_true, Except.ok.injEq, Nat.reduceAdd, Nat.reduceEqDiff, OfNat.ofNat_ne_one, nn3_eq, hT']
        simp only [e1, e2]
  · simp at hk; omega

end Verif.Interp
