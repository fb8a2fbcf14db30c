import Verif.Resize.Model
import Mathlib.Algebra.Order.Round
/-
ONNXResize in one dimension, nearest mode and the coordinate modes (/repo/src/nbla/function/generic/onnx_resize.cpp). Properties C233 and C234.
Exact reals instead of float; the source is a function of the index, `iw` its length.
-/
namespace Verif.Resize

/-- std::round: halfway cases away from zero (used in onnx_resize.cpp:330,341). -/
noncomputable def stdRound (x : ℝ) : Int := if x < 0 then ⌈x - 1 / 2⌉ else ⌊x + 1 / 2⌋

/-- ResizeNearestMode (include/nbla/function/onnx_resize.hpp). -/
inductive NearestMode | roundPreferFloor | roundPreferCeil | floor | ceil
  deriving DecidableEq

open Classical in
/-- get_nearest_index (onnx_resize.cpp:327-344). -/
noncomputable def nearestIndex (m : NearestMode) (fx : ℝ) : Int :=
  match m with
  | .roundPreferCeil => stdRound fx
  | .floor => ⌊fx⌋
  | .ceil => ⌈fx⌉
  | .roundPreferFloor => if fx = ⌊fx⌋ + 1 / 2 then ⌊fx⌋ else stdRound fx

/-- ResizeCoordTransformMode (include/nbla/function/onnx_resize.hpp). -/
inductive CoordMode | halfPixel | pytorchHalfPixel | alignCorners | asymmetric | tfHalfPixelForNn | tfCropAndResize
  deriving DecidableEq

open Classical in
/-- get_src_index (onnx_resize.cpp:95-141). `s`, `e`: start and end of the axis in roi. -/
noncomputable def srcIndex (m : CoordMode) (scale : ℝ) (x dst src : Int) (s e : ℝ) : ℝ :=
  let handle := fun (v : ℝ) => if scale = 1 then (x : ℝ) else v
  match m with
  | .halfPixel => handle ((x + 1 / 2) / scale - 1 / 2)
  | .pytorchHalfPixel => handle (if (dst : ℝ) > 1 then (x + 1 / 2) / scale - 1 / 2 else 0)
  | .alignCorners => handle (if (dst : ℝ) = 1 then 0 else x * (src - 1) / (dst - 1))
  | .asymmetric => handle (x / scale)
  | .tfHalfPixelForNn => handle ((x + 1 / 2) / scale)
  | .tfCropAndResize => handle (if (dst : ℝ) > 1 then s * (src - 1) + x * (e - s) * (src - 1) / (dst - 1) else 1 / 2 * (s + e) * (src - 1))

open Classical in
/-- One output of nearest_interpolate_1d (onnx_resize.cpp:346-363). -/
noncomputable def nearest1d (src : Int → ℝ) (nm : NearestMode) (cm : CoordMode) (iw ow : Int) (sx s e ext : ℝ) (ox : Int) : ℝ :=
  let fx := srcIndex cm sx ox ow iw s e
  let ix := clamp (nearestIndex nm fx) 0 (iw - 1)
  if cm = .tfCropAndResize ∧ (fx < 0 ∨ fx > ((iw - 1 : Int) : ℝ)) then ext else src ix

/-- Specification: pixel `p` is nearest to `fx`; among equally near pixels the larger one. -/
def NearestUp (fx : ℝ) (iw p : Int) : Prop :=
  0 ≤ p ∧ p < iw ∧ (∀ j : Int, 0 ≤ j → j < iw → |fx - p| ≤ |fx - j|) ∧ ∀ j : Int, 0 ≤ j → j < iw → |fx - j| = |fx - p| → j ≤ p
/-- Specification: pixel `p` is nearest to `fx`; among equally near pixels the smaller one. -/
def NearestDown (fx : ℝ) (iw p : Int) : Prop :=
  0 ≤ p ∧ p < iw ∧ (∀ j : Int, 0 ≤ j → j < iw → |fx - p| ≤ |fx - j|) ∧ ∀ j : Int, 0 ≤ j → j < iw → |fx - j| = |fx - p| → p ≤ j
/-- Specification: the last pixel that is not behind `fx`, the first pixel if there is none. -/
def LastBelow (fx : ℝ) (iw p : Int) : Prop :=
  0 ≤ p ∧ p < iw ∧ ((p : ℝ) ≤ fx ∨ p = 0) ∧ ∀ j : Int, 0 ≤ j → j < iw → (j : ℝ) ≤ fx → j ≤ p
/-- Specification: the first pixel that is not before `fx`, the last pixel if there is none. -/
def FirstAbove (fx : ℝ) (iw p : Int) : Prop :=
  0 ≤ p ∧ p < iw ∧ (fx ≤ (p : ℝ) ∨ p = iw - 1) ∧ ∀ j : Int, 0 ≤ j → j < iw → fx ≤ (j : ℝ) → p ≤ j

/-- Distances compare like positions relative to the midpoint. -/
theorem dist_le (fx p j : ℝ) (h : (p ≤ j ∧ fx ≤ (p + j) / 2) ∨ (j ≤ p ∧ (p + j) / 2 ≤ fx)) : |fx - p| ≤ |fx - j| := by
  rcases h with ⟨h1, h2⟩ | ⟨h1, h2⟩
  · rw [← abs_neg (fx - j)]
    exact abs_le_abs (by linarith) (by linarith)
  · rw [← abs_neg (fx - j)]
    rw [abs_neg]
    exact abs_le_abs (by linarith) (by linarith)

theorem dist_lt (fx p j : ℝ) (h : (p < j ∧ fx < (p + j) / 2) ∨ (j < p ∧ (p + j) / 2 < fx)) : |fx - p| < |fx - j| := by
  rcases h with ⟨h1, h2⟩ | ⟨h1, h2⟩
  · have : fx - j < 0 := by linarith
    rw [abs_of_neg this, abs_lt]; constructor <;> linarith
  · have : 0 < fx - j := by linarith
    rw [abs_of_pos this, abs_lt]; constructor <;> linarith

/-- A pixel with the rounding bounds (or at the border) is the nearest one, ties up. -/
theorem nearestUp_of (fx : ℝ) (iw r : Int) (h : 0 < iw) (hlo : (r : ℝ) - 1 / 2 ≤ fx ∨ r ≤ 0) (hhi : fx < r + 1 / 2 ∨ (r < 0 ∧ fx ≤ r + 1 / 2)) :
    NearestUp fx iw (clamp r 0 (iw - 1)) := by
  have hm := clamp_mem r iw h
  have lo : clamp r 0 (iw - 1) = 0 ∨ (clamp r 0 (iw - 1) : ℝ) - 1 / 2 ≤ fx := by
    by_cases hr : r ≤ 0
    · left; unfold clamp; omega
    · right
      have hle : clamp r 0 (iw - 1) ≤ r := by unfold clamp; omega
      have hle' : ((clamp r 0 (iw - 1) : Int) : ℝ) ≤ r := by exact_mod_cast hle
      rcases hlo with hlo | hlo
      · linarith
      · exact absurd hlo hr
  have hi : clamp r 0 (iw - 1) = iw - 1 ∨ fx < (clamp r 0 (iw - 1) : ℝ) + 1 / 2 := by
    by_cases hr : iw - 1 ≤ r
    · left; unfold clamp; omega
    · right
      have hle : r ≤ clamp r 0 (iw - 1) := by unfold clamp; omega
      have hle' : (r : ℝ) ≤ ((clamp r 0 (iw - 1) : Int) : ℝ) := by exact_mod_cast hle
      rcases hhi with hhi | ⟨hr0, hhi⟩
      · linarith
      · have h1 : r + 1 ≤ clamp r 0 (iw - 1) := by unfold clamp; omega
        have h1' : (r : ℝ) + 1 ≤ ((clamp r 0 (iw - 1) : Int) : ℝ) := by exact_mod_cast h1
        linarith
  generalize clamp r 0 (iw - 1) = p at *
  have strict : ∀ j : Int, p < j → j < iw → |fx - p| < |fx - j| := fun j hj hjw => by
    have hj' : (p : ℝ) + 1 ≤ j := by exact_mod_cast hj
    have : fx < p + 1 / 2 := hi.resolve_left (by omega)
    exact dist_lt _ _ _ (Or.inl ⟨by linarith, by linarith⟩)
  refine ⟨hm.1, hm.2, fun j hj0 hjw => ?_, fun j hj0 hjw he => ?_⟩
  · rcases lt_trichotomy p j with hj | rfl | hj
    · exact (strict j hj hjw).le
    · exact le_rfl
    · have hj' : (j : ℝ) + 1 ≤ p := by exact_mod_cast hj
      have : (p : ℝ) - 1 / 2 ≤ fx := lo.resolve_left (by omega)
      exact dist_le _ _ _ (Or.inr ⟨by linarith, by linarith⟩)
  · by_contra hc
    have := strict j (by omega) hjw
    rw [he] at this
    exact lt_irrefl _ this

/-- The same, ties down. -/
theorem nearestDown_of (fx : ℝ) (iw r : Int) (h : 0 < iw) (hlo : (r : ℝ) - 1 / 2 < fx) (hhi : fx ≤ r + 1 / 2) :
    NearestDown fx iw (clamp r 0 (iw - 1)) := by
  have hm := clamp_mem r iw h
  have lo : clamp r 0 (iw - 1) = 0 ∨ (clamp r 0 (iw - 1) : ℝ) - 1 / 2 < fx := by
    by_cases hr : r ≤ 0
    · left; unfold clamp; omega
    · right
      have hle : clamp r 0 (iw - 1) ≤ r := by unfold clamp; omega
      have hle' : ((clamp r 0 (iw - 1) : Int) : ℝ) ≤ r := by exact_mod_cast hle
      linarith
  have hi : clamp r 0 (iw - 1) = iw - 1 ∨ fx ≤ (clamp r 0 (iw - 1) : ℝ) + 1 / 2 := by
    by_cases hr : iw - 1 ≤ r
    · left; unfold clamp; omega
    · right
      have hle : r ≤ clamp r 0 (iw - 1) := by unfold clamp; omega
      have hle' : (r : ℝ) ≤ ((clamp r 0 (iw - 1) : Int) : ℝ) := by exact_mod_cast hle
      linarith
  generalize clamp r 0 (iw - 1) = p at *
  have strict : ∀ j : Int, j < p → 0 ≤ j → |fx - p| < |fx - j| := fun j hj hj0 => by
    have hj' : (j : ℝ) + 1 ≤ p := by exact_mod_cast hj
    have : (p : ℝ) - 1 / 2 < fx := lo.resolve_left (by omega)
    exact dist_lt _ _ _ (Or.inr ⟨by linarith, by linarith⟩)
  refine ⟨hm.1, hm.2, fun j hj0 hjw => ?_, fun j hj0 hjw he => ?_⟩
  · rcases lt_trichotomy p j with hj | rfl | hj
    · have hj' : (p : ℝ) + 1 ≤ j := by exact_mod_cast hj
      have : fx ≤ p + 1 / 2 := hi.resolve_left (by omega)
      exact dist_le _ _ _ (Or.inl ⟨by linarith, by linarith⟩)
    · exact le_rfl
    · exact (strict j hj hj0).le
  · by_contra hc
    have := strict j (by omega) hj0
    rw [he] at this
    exact lt_irrefl _ this

/-- C233. For every position the nearest mode reads a pixel of the source: with round_prefer_ceil the nearest one, of two equally near ones the second; with
round_prefer_floor the nearest one, of two equally near ones the first; with floor the last pixel not behind the position; with ceil the first pixel not before it. -/
theorem C233_nearest (iw : Int) (h : 0 < iw) (fx : ℝ) :
    NearestUp fx iw (clamp (nearestIndex .roundPreferCeil fx) 0 (iw - 1)) ∧
      NearestDown fx iw (clamp (nearestIndex .roundPreferFloor fx) 0 (iw - 1)) ∧
      LastBelow fx iw (clamp (nearestIndex .floor fx) 0 (iw - 1)) ∧
      FirstAbove fx iw (clamp (nearestIndex .ceil fx) 0 (iw - 1)) := by
  refine ⟨?_, ?_, ?_, ?_⟩
  · simp only [nearestIndex, stdRound]
    split
    · rename_i hn
      have h1 := Int.le_ceil (fx - 1 / 2)
      have h2 := Int.ceil_lt_add_one (fx - 1 / 2)
      have h3 : ⌈fx - 1 / 2⌉ ≤ 0 := Int.ceil_le.2 (by push_cast; linarith)
      refine nearestUp_of fx iw _ h (Or.inr h3) ?_
      rcases h3.lt_or_eq with h4 | h4
      · exact Or.inr ⟨h4, by linarith⟩
      · left; rw [h4]; push_cast; linarith
    · have h1 := Int.floor_le (fx + 1 / 2)
      have h2 := Int.lt_floor_add_one (fx + 1 / 2)
      exact nearestUp_of fx iw _ h (Or.inl (by linarith)) (Or.inl (by linarith))
  · simp only [nearestIndex, stdRound]
    have f1 := Int.floor_le fx
    have f2 := Int.lt_floor_add_one fx
    split
    · rename_i he
      exact nearestDown_of fx iw _ h (by linarith) (by linarith)
    · rename_i he
      split
      · have h1 := Int.le_ceil (fx - 1 / 2)
        have h2 := Int.ceil_lt_add_one (fx - 1 / 2)
        exact nearestDown_of fx iw _ h (by linarith) (by linarith)
      · have h1 := Int.floor_le (fx + 1 / 2)
        have h2 := Int.lt_floor_add_one (fx + 1 / 2)
        refine nearestDown_of fx iw _ h ?_ (by linarith)
        rcases h1.lt_or_eq with h3 | h3
        · linarith
        · exfalso
          apply he
          have : fx = ((⌊fx + 1 / 2⌋ - 1 : Int) : ℝ) + 1 / 2 := by push_cast; linarith
          have hfl : ⌊fx⌋ = ⌊fx + 1 / 2⌋ - 1 := by
            rw [Int.floor_eq_iff]; constructor <;> linarith
          rw [hfl]; exact this
  · have hm := clamp_mem ⌊fx⌋ iw h
    refine ⟨hm.1, hm.2, ?_, fun j hj0 hjw hj => ?_⟩
    · simp only [nearestIndex]
      by_cases hn : ⌊fx⌋ < 0
      · right; unfold clamp; omega
      · left
        have : clamp ⌊fx⌋ 0 (iw - 1) ≤ ⌊fx⌋ := by unfold clamp; omega
        exact Int.le_floor.1 this
    · have : j ≤ ⌊fx⌋ := Int.le_floor.2 hj
      simp only [nearestIndex]; unfold clamp; omega
  · have hm := clamp_mem ⌈fx⌉ iw h
    refine ⟨hm.1, hm.2, ?_, fun j hj0 hjw hj => ?_⟩
    · simp only [nearestIndex]
      by_cases hn : iw - 1 < ⌈fx⌉
      · right; unfold clamp; omega
      · left
        have : ⌈fx⌉ ≤ clamp ⌈fx⌉ 0 (iw - 1) := by unfold clamp; omega
        exact Int.ceil_le.1 this
    · have : ⌈fx⌉ ≤ j := Int.ceil_le.2 hj
      simp only [nearestIndex]; unfold clamp; omega

/-- C233 (output). The output is the extrapolation value exactly for a crop position outside of the source; otherwise it is the chosen pixel. -/
theorem C233_output (src : Int → ℝ) (nm : NearestMode) (cm : CoordMode) (iw ow : Int) (sx s e ext : ℝ) (ox : Int) :
    (cm = .tfCropAndResize → (srcIndex cm sx ox ow iw s e < 0 ∨ (iw : ℝ) - 1 < srcIndex cm sx ox ow iw s e) →
        nearest1d src nm cm iw ow sx s e ext ox = ext) ∧
      (cm ≠ .tfCropAndResize ∨ (0 ≤ srcIndex cm sx ox ow iw s e ∧ srcIndex cm sx ox ow iw s e ≤ (iw : ℝ) - 1) →
        nearest1d src nm cm iw ow sx s e ext ox = src (clamp (nearestIndex nm (srcIndex cm sx ox ow iw s e)) 0 (iw - 1))) := by
  constructor
  · intro hc ho
    have : cm = .tfCropAndResize ∧ (srcIndex cm sx ox ow iw s e < 0 ∨ srcIndex cm sx ox ow iw s e > ((iw - 1 : Int) : ℝ)) :=
      ⟨hc, ho.imp id (fun h => by push_cast; exact h)⟩
    simp only [nearest1d, if_pos this]
  · intro hc
    have : ¬ (cm = .tfCropAndResize ∧ (srcIndex cm sx ox ow iw s e < 0 ∨ srcIndex cm sx ox ow iw s e > ((iw - 1 : Int) : ℝ))) := by
      rintro ⟨h1, h2⟩
      rcases hc with hc | ⟨hc1, hc2⟩
      · exact hc h1
      · rcases h2 with h2 | h2
        · linarith
        · push_cast at h2; linarith
    simp only [nearest1d, if_neg this]

/-- C234 (partial). The coordinate modes: with scale 1 the position is the output index in every mode. With align_corners and more than one output the first output is
at the first and the last at the last pixel, and all are inside. With half_pixel (and pytorch_half_pixel, more than one output) the centre of output x covers
the same fraction of the axis as its position, so the mapping is symmetric under flipping the axis. With asymmetric the position is x / scale.
With tf_crop_and_resize and a scale other than 1 the first and the last output are at the two ends of the region. Missing: with scale 1 the region is ignored. -/
theorem C234_coordinates_partial (scale : ℝ) (x dst src : Int) (s e : ℝ) (hs : 0 < scale) :
    (scale = 1 → ∀ m, srcIndex m scale x dst src s e = x) ∧
      (1 < dst → 0 < src → (scale = 1 → dst = src) →
        srcIndex .alignCorners scale 0 dst src s e = 0 ∧ srcIndex .alignCorners scale (dst - 1) dst src s e = src - 1 ∧
        (0 ≤ x → x < dst → 0 ≤ srcIndex .alignCorners scale x dst src s e ∧ srcIndex .alignCorners scale x dst src s e ≤ src - 1)) ∧
      (∀ m, (m = .halfPixel ∨ (m = .pytorchHalfPixel ∧ 1 < dst)) → scale * src = dst →
        (srcIndex m scale x dst src s e + 1 / 2) * dst = (x + 1 / 2) * src ∧
        srcIndex m scale (dst - 1 - x) dst src s e = (src - 1) - srcIndex m scale x dst src s e) ∧
      srcIndex .asymmetric scale x dst src s e * scale = x ∧
      (scale ≠ 1 → srcIndex .tfHalfPixelForNn scale x dst src s e * scale = x + 1 / 2) ∧
      (scale ≠ 1 → 1 < dst → srcIndex .tfCropAndResize scale 0 dst src s e = s * (src - 1) ∧
        srcIndex .tfCropAndResize scale (dst - 1) dst src s e = e * (src - 1)) := by
  refine ⟨fun h m => ?_, fun hd hsrc h1 => ?_, fun m hm hsc => ?_, ?_, fun h => ?_, fun h hd => ?_⟩
  · cases m <;> simp [srcIndex, h]
  · have hd' : (1 : ℝ) < dst := by exact_mod_cast hd
    have hsrc' : (1 : ℝ) ≤ src := by exact_mod_cast hsrc
    by_cases hq : scale = 1
    · have he := h1 hq
      subst he
      simp only [srcIndex, if_pos hq]
      refine ⟨by simp, by push_cast; ring, fun h0 hx => ?_⟩
      have hx' : (x : ℝ) + 1 ≤ dst := by exact_mod_cast hx
      exact ⟨by exact_mod_cast h0, by linarith⟩
    · simp only [srcIndex, if_neg hq, if_neg hd'.ne']
      have hne : (dst : ℝ) - 1 ≠ 0 := by linarith
      refine ⟨by simp, by push_cast; field_simp, fun h0 hx => ?_⟩
      have h0' : (0 : ℝ) ≤ x := by exact_mod_cast h0
      have hx' : (x : ℝ) + 1 ≤ dst := by exact_mod_cast hx
      refine ⟨div_nonneg (mul_nonneg h0' (by linarith)) (by linarith), ?_⟩
      rw [div_le_iff₀ (by linarith)]
      nlinarith
  · have hm' : ∀ y : Int, srcIndex m scale y dst src s e = if scale = 1 then (y : ℝ) else (y + 1 / 2) / scale - 1 / 2 := by
      intro y
      rcases hm with rfl | ⟨rfl, hd⟩
      · simp [srcIndex]
      · have hd' : (1 : ℝ) < dst := by exact_mod_cast hd
        simp [srcIndex, hd']
    rw [hm', hm', ← hsc]
    by_cases hq : scale = 1
    · rw [if_pos hq, if_pos hq]
      subst hq
      constructor
      · ring
      · push_cast; rw [← hsc]; ring
    · rw [if_neg hq, if_neg hq]
      constructor
      · field_simp; ring
      · push_cast; rw [← hsc]; field_simp; ring
  · simp only [srcIndex]
    split
    · rename_i hq; rw [hq, mul_one]
    · field_simp
  · simp only [srcIndex, if_neg h]; field_simp
  · have hd' : (1 : ℝ) < dst := by exact_mod_cast hd
    have hne : (dst : ℝ) - 1 ≠ 0 := by linarith
    simp only [srcIndex, if_neg h, gt_iff_lt, if_pos hd']
    refine ⟨by simp, ?_⟩
    push_cast; field_simp; ring

/-- A case: 2 pixels to 4 with half_pixel; output 0 lies at -1/4, output 3 at 5/4. -/
example : srcIndex .halfPixel 2 0 4 2 0 0 = -1 / 4 ∧ srcIndex .halfPixel 2 3 4 2 0 0 = 5 / 4 := by
  simp only [srcIndex]; norm_num
/-- The missing part of C234: with scale 1, cropping the right half of 5 pixels still starts at pixel 0. -/
example : srcIndex .tfCropAndResize 1 0 5 5 (1 / 2) 1 = 0 := by
  simp only [srcIndex]; norm_num
/-- At -1/2, std::round alone would give -1, with round_prefer_ceil; the clamp makes it pixel 0. -/
example : stdRound (-1 / 2) = -1 := by
  simp only [stdRound]
  rw [if_pos (by norm_num), show (-1 / 2 - 1 / 2 : ℝ) = ((-1 : Int) : ℝ) by norm_num, Int.ceil_intCast]

end Verif.Resize
