import Mathlib.Algebra.Order.Archimedean.Real.Basic
import Mathlib.Algebra.Order.Floor.Ring
import Mathlib.Tactic.Linarith
import Mathlib.Tactic.Ring
import Mathlib.Tactic.NormNum
import Mathlib.Tactic.FieldSimp
/-
ONNXResize in one dimension (/repo/src/nbla/function/generic/onnx_resize.cpp). Properties C231 and C232.
Exact reals instead of float; the source is a function of the index, `iw` its length.
-/
namespace Verif.Resize

/-- clamp (onnx_resize.cpp:29-31). -/
def clamp (v low high : Int) : Int := min (max v low) high

/-- LinearInterpolation::compute_coeffs (onnx_resize.cpp:37-44). -/
noncomputable def linearCoeffs (fx : ℝ) (iw : Int) : ℝ × ℝ :=
  let x0 := clamp (⌊fx⌋ + 0) 0 (iw - 1)
  let lx1 := fx - (x0 : ℝ)
  (1 - lx1, lx1)

/-- compute_neighbors for linear interpolation (onnx_resize.cpp:141-148). -/
noncomputable def linearNeighbors (fx : ℝ) (iw : Int) : Int × Int :=
  (clamp (⌊fx⌋ + 0) 0 (iw - 1), clamp (⌊fx⌋ + 1) 0 (iw - 1))

/-- coeff_0_1 (onnx_resize.cpp:56-60). -/
def coeff01 (a x : ℝ) : ℝ := (a + 2) * (x * x * x) - (a + 3) * (x * x) + 1

/-- coeff_1_2 (onnx_resize.cpp:62-66). -/
def coeff12 (a x : ℝ) : ℝ := a * (x * x * x) - 5 * a * (x * x) + 8 * a * x - 4 * a

/-- unsigned(x) >= unsigned(iw) (onnx_resize.cpp:78-82), for |x|, iw < 2^31. -/
def outside (x iw : Int) : Prop := x < 0 ∨ x ≥ iw

open Classical in
/-- CubicInterpolation::compute_coeffs (onnx_resize.cpp:51-95). -/
noncomputable def cubicCoeffs (fx : ℝ) (iw : Int) (a : ℝ) (exclude : Bool) : ℝ × ℝ × ℝ × ℝ :=
  let lx := fx - (⌊fx⌋ : ℝ)
  let c0 := coeff12 a (1 + lx)
  let c1 := coeff01 a (0 + lx)
  let c2 := coeff01 a (1 - lx)
  let c3 := coeff12 a (2 - lx)
  if exclude then
    let c0 := if outside (⌊fx⌋ - 1) iw then 0 else c0
    let c1 := if outside (⌊fx⌋ + 0) iw then 0 else c1
    let c2 := if outside (⌊fx⌋ + 1) iw then 0 else c2
    let c3 := if outside (⌊fx⌋ + 2) iw then 0 else c3
    let s := c0 + c1 + c2 + c3
    (c0 / s, c1 / s, c2 / s, c3 / s)
  else (c0, c1, c2, c3)

/-- compute_neighbors for cubic interpolation (onnx_resize.cpp:151-161). -/
noncomputable def cubicNeighbors (fx : ℝ) (iw : Int) : Int × Int × Int × Int :=
  (clamp (⌊fx⌋ - 1) 0 (iw - 1), clamp (⌊fx⌋ + 0) 0 (iw - 1), clamp (⌊fx⌋ + 1) 0 (iw - 1), clamp (⌊fx⌋ + 2) 0 (iw - 1))

/-- One output of generic_interpolate_1d (onnx_resize.cpp:180-187), linear. -/
noncomputable def linear (src : Int → ℝ) (iw : Int) (fx : ℝ) : ℝ :=
  let c := linearCoeffs fx iw
  let i := linearNeighbors fx iw
  0 + c.1 * src i.1 + c.2 * src i.2

/-- One output of generic_interpolate_1d (onnx_resize.cpp:180-187), cubic. -/
noncomputable def cubic (src : Int → ℝ) (iw : Int) (a : ℝ) (exclude : Bool) (fx : ℝ) : ℝ :=
  let c := cubicCoeffs fx iw a exclude
  let i := cubicNeighbors fx iw
  0 + c.1 * src i.1 + c.2.1 * src i.2.1 + c.2.2.1 * src i.2.2.1 + c.2.2.2 * src i.2.2.2

theorem clamp_mem (v iw : Int) (h : 0 < iw) : 0 ≤ clamp v 0 (iw - 1) ∧ clamp v 0 (iw - 1) < iw := by
  unfold clamp; omega

/-- C231. Linear mode reads only pixels of the source, whatever the position; before the first and behind the last pixel the result is that pixel; between two pixels i and
i + 1 it is the linear interpolation of the two; so it never leaves the range of the source. -/
theorem C231_linear (src : Int → ℝ) (iw : Int) (h : 0 < iw) (fx : ℝ) :
    ((0 ≤ (linearNeighbors fx iw).1 ∧ (linearNeighbors fx iw).1 < iw) ∧ 0 ≤ (linearNeighbors fx iw).2 ∧ (linearNeighbors fx iw).2 < iw) ∧
      (fx ≤ 0 → linear src iw fx = src 0) ∧ ((iw - 1 : Int) ≤ fx → linear src iw fx = src (iw - 1)) ∧
      (∀ (i : Int) (t : ℝ), 0 ≤ i → i + 1 < iw → 0 ≤ t → t ≤ 1 → fx = i + t → linear src iw fx = (1 - t) * src i + t * src (i + 1)) := by
  refine ⟨⟨clamp_mem _ iw h, clamp_mem _ iw h⟩, fun hf => ?_, fun hf => ?_, fun i t hi hi1 ht0 ht1 hfx => ?_⟩
  · rcases eq_or_lt_of_le hf with rfl | hf
    · simp only [linear, linearCoeffs, linearNeighbors, Int.floor_zero]
      rw [show clamp (0 + 0) 0 (iw - 1) = 0 by unfold clamp; omega]
      push_cast; ring
    · have hfl : ⌊fx⌋ < 0 := Int.floor_lt.2 (by exact_mod_cast hf)
      simp only [linear, linearCoeffs, linearNeighbors]
      rw [show clamp (⌊fx⌋ + 0) 0 (iw - 1) = 0 by unfold clamp; omega, show clamp (⌊fx⌋ + 1) 0 (iw - 1) = 0 by unfold clamp; omega]
      push_cast; ring
  · have hfl : iw - 1 ≤ ⌊fx⌋ := Int.le_floor.2 hf
    simp only [linear, linearCoeffs, linearNeighbors]
    rw [show clamp (⌊fx⌋ + 0) 0 (iw - 1) = iw - 1 by unfold clamp; omega, show clamp (⌊fx⌋ + 1) 0 (iw - 1) = iw - 1 by unfold clamp; omega]
    ring
  · rcases eq_or_lt_of_le ht1 with rfl | ht1
    · have hfl : ⌊fx⌋ = i + 1 := by rw [hfx]; exact_mod_cast Int.floor_intCast (R := ℝ) (i + 1)
      simp only [linear, linearCoeffs, linearNeighbors]
      rw [hfl, show clamp (i + 1 + 0) 0 (iw - 1) = i + 1 by unfold clamp; omega, hfx]
      push_cast; ring
    · have hfl : ⌊fx⌋ = i := by
        rw [hfx, Int.floor_eq_iff]
        constructor <;> linarith
      simp only [linear, linearCoeffs, linearNeighbors]
      rw [hfl, show clamp (i + 0) 0 (iw - 1) = i by unfold clamp; omega, show clamp (i + 1) 0 (iw - 1) = i + 1 by unfold clamp; omega, hfx]
      ring

/-- C231 (range). -/
theorem C231_range (src : Int → ℝ) (iw : Int) (h : 0 < iw) (fx lo hi : ℝ) (hlo : ∀ i, 0 ≤ i → i < iw → lo ≤ src i)
    (hhi : ∀ i, 0 ≤ i → i < iw → src i ≤ hi) : lo ≤ linear src iw fx ∧ linear src iw fx ≤ hi := by
  obtain ⟨_, h1, h2, h3⟩ := C231_linear src iw h fx
  by_cases ha : fx ≤ 0
  · rw [h1 ha]; exact ⟨hlo 0 le_rfl h, hhi 0 le_rfl h⟩
  by_cases hb : (iw - 1 : Int) ≤ fx
  · rw [h2 hb]; exact ⟨hlo _ (by omega) (by omega), hhi _ (by omega) (by omega)⟩
  have hf0 : 0 ≤ ⌊fx⌋ := Int.floor_nonneg.2 (by linarith)
  have hf1 : ⌊fx⌋ < iw - 1 := Int.floor_lt.2 (not_le.1 hb)
  have ht0 : 0 ≤ fx - ⌊fx⌋ := by linarith [Int.floor_le fx]
  have ht1 : fx - ⌊fx⌋ ≤ 1 := by linarith [Int.lt_floor_add_one fx]
  rw [h3 ⌊fx⌋ (fx - ⌊fx⌋) hf0 (by omega) ht0 ht1 (by ring)]
  have l0 := hlo ⌊fx⌋ hf0 (by omega)
  have l1 := hlo (⌊fx⌋ + 1) (by omega) (by omega)
  have u0 := hhi ⌊fx⌋ hf0 (by omega)
  have u1 := hhi (⌊fx⌋ + 1) (by omega) (by omega)
  constructor <;> nlinarith

/-- C232 (cubic). Only pixels of the source are read; the coefficients sum to 1 for every coefficient a (with exclude_outside unless all that remain cancel), so a constant source gives
this constant; at the position of a pixel the result is this pixel; with exclude_outside the pixels repeated at the borders have coefficient 0. -/
theorem C232_cubic (src : Int → ℝ) (iw : Int) (h : 0 < iw) (a fx : ℝ) :
    (∀ i ∈ [(cubicNeighbors fx iw).1, (cubicNeighbors fx iw).2.1, (cubicNeighbors fx iw).2.2.1, (cubicNeighbors fx iw).2.2.2], 0 ≤ i ∧ i < iw) ∧
      (∀ c, (∀ i, 0 ≤ i → i < iw → src i = c) → cubic src iw a false fx = c) ∧
      (∀ (i : Int) (ex : Bool), 0 ≤ i → i < iw → fx = i → cubic src iw a ex fx = src i) := by
  refine ⟨?_, ?_, ?_⟩
  · intro i hi
    simp only [cubicNeighbors, List.mem_cons, List.not_mem_nil, or_false] at hi
    rcases hi with rfl | rfl | rfl | rfl <;> exact clamp_mem _ iw h
  · intro c hc
    have hm := fun v => clamp_mem v iw h
    simp only [cubic, cubicCoeffs, cubicNeighbors, Bool.false_eq_true, if_false]
    rw [hc _ (hm _).1 (hm _).2, hc _ (hm _).1 (hm _).2, hc _ (hm _).1 (hm _).2, hc _ (hm _).1 (hm _).2]
    unfold coeff01 coeff12
    ring
  · intro i ex hi0 hi1 hfx
    have hfl : ⌊fx⌋ = i := by rw [hfx]; exact Int.floor_intCast i
    have e0 : coeff12 a (1 + (fx - (i : ℝ))) = 0 := by rw [hfx]; unfold coeff12; ring
    have e1 : coeff01 a (0 + (fx - (i : ℝ))) = 1 := by rw [hfx]; unfold coeff01; ring
    have e2 : coeff01 a (1 - (fx - (i : ℝ))) = 0 := by rw [hfx]; unfold coeff01; ring
    have e3 : coeff12 a (2 - (fx - (i : ℝ))) = 0 := by rw [hfx]; unfold coeff12; ring
    have hn : ¬ outside (i + 0) iw := by unfold outside; omega
    simp only [cubic, cubicCoeffs, cubicNeighbors, hfl]
    rw [show clamp (i + 0) 0 (iw - 1) = i by unfold clamp; omega]
    cases ex
    · simp only [Bool.false_eq_true, if_false, e0, e1, e2, e3]
      ring
    · have hn' : ¬ outside (⌊fx⌋ + 0) iw := by rw [hfl]; exact hn
      simp only [if_true, e0, e1, e2, e3, hn', if_false, ite_self]
      ring

/-- C232 (exclude_outside). If the coefficients that remain do not cancel: they sum to 1, and pixels outside of the source have no influence. -/
theorem C232_exclude_outside_partial (src : Int → ℝ) (iw : Int) (h : 0 < iw) (a fx : ℝ)
    (hs : (cubicCoeffs fx iw a true).1 + (cubicCoeffs fx iw a true).2.1 + (cubicCoeffs fx iw a true).2.2.1 + (cubicCoeffs fx iw a true).2.2.2 ≠ 0) :
    (cubicCoeffs fx iw a true).1 + (cubicCoeffs fx iw a true).2.1 + (cubicCoeffs fx iw a true).2.2.1 + (cubicCoeffs fx iw a true).2.2.2 = 1 ∧
      (∀ c, (∀ i, 0 ≤ i → i < iw → src i = c) → cubic src iw a true fx = c) ∧
      (outside (⌊fx⌋ - 1) iw → (cubicCoeffs fx iw a true).1 = 0) ∧ (outside ⌊fx⌋ iw → (cubicCoeffs fx iw a true).2.1 = 0) ∧
      (outside (⌊fx⌋ + 1) iw → (cubicCoeffs fx iw a true).2.2.1 = 0) ∧ (outside (⌊fx⌋ + 2) iw → (cubicCoeffs fx iw a true).2.2.2 = 0) := by
  have key : ∀ p q r s : ℝ, p / (p + q + r + s) + q / (p + q + r + s) + r / (p + q + r + s) + s / (p + q + r + s) ≠ 0 →
      p / (p + q + r + s) + q / (p + q + r + s) + r / (p + q + r + s) + s / (p + q + r + s) = 1 := by
    intro p q r s hne
    have : p + q + r + s ≠ 0 := fun e => hne (by rw [e]; simp)
    field_simp
  have hsum : (cubicCoeffs fx iw a true).1 + (cubicCoeffs fx iw a true).2.1 + (cubicCoeffs fx iw a true).2.2.1 +
      (cubicCoeffs fx iw a true).2.2.2 = 1 := key _ _ _ _ hs
  refine ⟨hsum, fun c hc => ?_, fun ho => ?_, fun ho => ?_, fun ho => ?_, fun ho => ?_⟩
  · have hm := fun v => clamp_mem v iw h
    have : cubic src iw a true fx = ((cubicCoeffs fx iw a true).1 + (cubicCoeffs fx iw a true).2.1 + (cubicCoeffs fx iw a true).2.2.1 +
        (cubicCoeffs fx iw a true).2.2.2) * c := by
      simp only [cubic, cubicNeighbors]
      rw [hc _ (hm _).1 (hm _).2, hc _ (hm _).1 (hm _).2, hc _ (hm _).1 (hm _).2, hc _ (hm _).1 (hm _).2]
      ring
    rw [this, hsum, one_mul]
  · simp [cubicCoeffs, ho]
  · simp [cubicCoeffs, ho]
  · simp [cubicCoeffs, ho]
  · simp [cubicCoeffs, ho]

/-- The hypothesis is met: one pixel, its own position. -/
example (a : ℝ) : (cubicCoeffs 0 1 a true).1 + (cubicCoeffs 0 1 a true).2.1 + (cubicCoeffs 0 1 a true).2.2.1 +
    (cubicCoeffs 0 1 a true).2.2.2 ≠ 0 := by
  simp only [cubicCoeffs, Int.floor_zero, outside, coeff01, coeff12]
  norm_num
/-- What is false: with exclude_outside and the accepted coefficient a = 4, the only coefficient that remains at position -1/2 of a single pixel is 0, and the
normalization divides 0 by 0 (0 in the model). -/
example : (cubicCoeffs (-1 / 2) 1 4 true).1 + (cubicCoeffs (-1 / 2) 1 4 true).2.1 + (cubicCoeffs (-1 / 2) 1 4 true).2.2.1 +
    (cubicCoeffs (-1 / 2) 1 4 true).2.2.2 = 0 := by
  have hfl : ⌊(-1 / 2 : ℝ)⌋ = -1 := by rw [Int.floor_eq_iff]; norm_num
  simp only [cubicCoeffs, hfl, outside, coeff01, coeff12]
  norm_num

/-- A case: three pixels 0, 10, 40 at position 1.5 in linear mode. -/
example : linear (fun i => if i = 0 then 0 else if i = 1 then 10 else 40) 3 (3 / 2) = 25 := by
  rw [(C231_linear _ 3 (by norm_num) (3 / 2)).2.2.2 1 (1 / 2) (by norm_num) (by norm_num) (by norm_num) (by norm_num) (by norm_num)]
  norm_num
/-- Without exclude_outside, cubic mode is not bounded by the source (as documented for cubic interpolation): pixels 0, 1, 1, 0 with a = -0.75 at 1.5. -/
example : cubic (fun i => if i = 1 ∨ i = 2 then 1 else 0) 4 (-3 / 4) false (3 / 2) = 19 / 16 := by
  have hfl : ⌊(3 / 2 : ℝ)⌋ = 1 := by rw [Int.floor_eq_iff]; norm_num
  simp only [cubic, cubicCoeffs, cubicNeighbors, hfl, clamp, coeff01, coeff12]
  norm_num

end Verif.Resize
