import Verif.WarpFlow.Props
import Verif.PatchCorr.Props
/-
RoiAlign (/repo/src/nbla/function/generic/roi_align.cpp). Simplifications: real numbers; conversions to int do not overflow; the
quotient 1 / 0 multiplied by the empty sum (NaN in floating point) is an arbitrary parameter `nan`; the nested loops are the list
of multi-indices of the output in row-major order; the batch indices of all boxes are checked before the first box is computed (the
code checks each box before computing it; after the exception the output is not used).
-/
namespace Verif.Roi
open Verif.ND Verif.Fn Verif.Act Verif.Elem Verif.Interp Verif.Warp

/-! ### Model -/

/-- The arguments. -/
structure Cfg where
  outSize : List ℤ
  scale : List ℝ
  ratio : ℤ
  channelLast : Bool

/-- RoiAlign::setup_impl (roi_align.cpp:25-57). -/
noncomputable def setup (c : Cfg) (ish bsh : Shape) : Except String Shape :=
  if ish.length ≠ 4 then .error "input variable must be 4-D."
  else if bsh.length ≠ 2 then .error "boxes variable must be 2-D."
  else if bsh.getD 1 0 ≠ 5 then .error "boxes shape must be [K, 5]"
  else if c.outSize.length ≠ 2 then .error "output_size must be (height, width) tuple"
  else if ¬ c.outSize.getD 0 0 > 0 then .error "output height must be greater zero"
  else if ¬ c.outSize.getD 1 0 > 0 then .error "output width must be greater zero"
  else if c.scale.length ≠ 2 then .error "spatial_scale must be an (y, x) tuple"
  else if !c.channelLast then .ok [bsh.getD 0 0, ish.getD 1 0, (c.outSize.getD 0 0).toNat, (c.outSize.getD 1 0).toNat]
  else .ok [bsh.getD 0 0, (c.outSize.getD 0 0).toNat, (c.outSize.getD 1 0).toNat, ish.getD 3 0]

/-- The extents (roi_align.cpp:85-94), the scale and the sampling ratio. -/
structure Dim where
  (N C H W K oh ow : Nat)
  (sy sx : ℝ)
  ratio : ℤ
  channelLast : Bool

def Dim.ish (d : Dim) : Shape := [d.N, d.C, d.H, d.W]
def Dim.bsh (d : Dim) : Shape := [d.K, 5]
def Dim.osh (d : Dim) : Shape := [d.K, d.C, d.oh, d.ow]

/-- clamp (roi_align.cpp:61-63). -/
noncomputable def clampT (x low high : ℝ) : ℝ := max low (min high x)

/-- sampling_grid (roi_align.cpp:65-69). -/
noncomputable def samplingGrid (ratio : ℤ) (step : ℝ) : ℤ := if ratio > 0 then ratio else ⌈step⌉

/-- static_cast<int>(roi.batch_index) (roi_align.cpp:102): the conversion cuts off the fraction. -/
noncomputable def truncI (r : ℝ) : ℤ := if 0 ≤ r then ⌊r⌋ else ⌈r⌉

/-- `roi_x1 = roi.x1 * spatial_scale - 0.5` etc. (roi_align.cpp:98-101). -/
noncomputable def roi (v scale : ℝ) : ℝ := v * scale - 1 / 2

/-- `step_size_x = (roi_x2 - roi_x1) / output_cols` (roi_align.cpp:106-107). -/
noncomputable def stepSize (b1 b2 scale : ℝ) (o : Nat) : ℝ := (roi b2 scale - roi b1 scale) / o

/-- `grid_size_x` (roi_align.cpp:109-110). -/
noncomputable def gridSize (ratio : ℤ) (b1 b2 scale : ℝ) (o : Nat) : ℤ := samplingGrid ratio (stepSize b1 b2 scale o)

/-- `xxf = xf + xx * step_size_xx + half_step_xx` (roi_align.cpp:112-115, 126-133, 145). -/
noncomputable def place (ratio : ℤ) (b1 b2 scale : ℝ) (o i t : Nat) : ℝ :=
  let step := stepSize b1 b2 scale o
  let stepp := step / gridSize ratio b1 b2 scale o
  roi b1 scale + i * step + t * stepp + 1 / 2 * stepp

/-- `xxf < -1 || xxf > image_cols` (roi_align.cpp:135-136, 147-148). -/
def skip (v : ℝ) (S : Nat) : Prop := v < -1 ∨ v > S

/-- `x_lo`, `x_hi`, `lx` (roi_align.cpp:138-142, 150-154), for extents of at least 1. -/
noncomputable def lo (v : ℝ) (S : Nat) : Nat := ⌊clampT v 0 ((S : ℝ) - 1)⌋.toNat
noncomputable def hi (v : ℝ) (S : Nat) : Nat := min (lo v S + 1) (S - 1)
noncomputable def frac (v : ℝ) (S : Nat) : ℝ := clampT v 0 ((S : ℝ) - 1) - ⌊clampT v 0 ((S : ℝ) - 1)⌋

/-- The fields of Box (roi_align.cpp:59, 97). -/
def bIndex (boxes : Mem ℝ) (k : Nat) : ℝ := boxes (k * 5)
def bx1 (boxes : Mem ℝ) (k : Nat) : ℝ := boxes (k * 5 + 1)
def by1 (boxes : Mem ℝ) (k : Nat) : ℝ := boxes (k * 5 + 2)
def bx2 (boxes : Mem ℝ) (k : Nat) : ℝ := boxes (k * 5 + 3)
def by2 (boxes : Mem ℝ) (k : Nat) : ℝ := boxes (k * 5 + 4)

noncomputable def gx (d : Dim) (boxes : Mem ℝ) (k : Nat) : ℤ := gridSize d.ratio (bx1 boxes k) (bx2 boxes k) d.sx d.ow
noncomputable def gy (d : Dim) (boxes : Mem ℝ) (k : Nat) : ℤ := gridSize d.ratio (by1 boxes k) (by2 boxes k) d.sy d.oh

/-- `channel_data` at box k, channel c (roi_align.cpp:120, 169). -/
noncomputable def base (d : Dim) (boxes : Mem ℝ) (k c : Nat) : Nat :=
  (truncI (bIndex boxes k)).toNat * d.C * (d.H * d.W) + c * (d.H * d.W)

open Classical in
/-- The reads of the two sampling loops with their weights (roi_align.cpp:132-165) at loop position n = k, c, y = i, x = j. -/
noncomputable def contribsAt (d : Dim) (boxes : Mem ℝ) (k c i j : Nat) : List (Nat × ℝ) :=
  let b := base d boxes k c
  (List.range (gy d boxes k).toNat).flatMap fun yy =>
    let v := place d.ratio (by1 boxes k) (by2 boxes k) d.sy d.oh i yy
    if skip v d.H then [] else
      (List.range (gx d boxes k).toNat).flatMap fun xx =>
        let u := place d.ratio (bx1 boxes k) (bx2 boxes k) d.sx d.ow j xx
        if skip u d.W then [] else
          [(b + (lo v d.H * d.W + lo u d.W), (1 - frac v d.H) * (1 - frac u d.W)), (b + (lo v d.H * d.W + hi u d.W), (1 - frac v d.H) * frac u d.W),
            (b + (hi v d.H * d.W + lo u d.W), frac v d.H * (1 - frac u d.W)), (b + (hi v d.H * d.W + hi u d.W), frac v d.H * frac u d.W)]

/-- The same at loop position o = [n, c, y, x]. -/
noncomputable def contribs (d : Dim) (boxes : Mem ℝ) (o : List Nat) : List (Nat × ℝ) :=
  contribsAt d boxes (o.getD 0 0) (o.getD 1 0) (o.getD 2 0) (o.getD 3 0)

/-- `output_value * inverse_grid_count` (roi_align.cpp:117-118, 130, 166). -/
noncomputable def pixel (d : Dim) (nan : ℝ) (boxes data : Mem ℝ) (o : List Nat) : ℝ :=
  let g := gx d boxes (o.getD 0 0) * gy d boxes (o.getD 0 0)
  if g = 0 then nan else (contribs d boxes o).foldl (fun acc p => acc + p.2 * data p.1) 0 * (1 / g)

open Classical in
/-- RoiAlign::forward_impl (roi_align.cpp:71-172). -/
noncomputable def forward (d : Dim) (nan : ℝ) (boxes data out : Mem ℝ) : Except String (Mem ℝ) :=
  if d.channelLast then .error "Argument channel_last=true is not supported in CPU context."
  else if ∀ k < d.K, truncI (bIndex boxes k) ≥ 0 ∧ truncI (bIndex boxes k) < d.N then
    .ok (puts ((indices d.osh).map fun o => (ravel d.osh o, pixel d nan boxes data o)) out)
  else .error "Batch index must be within the number of input samples."

/-- The writes of RoiAlign::backward_impl at one loop position (roi_align.cpp:229-277); `1 / 0` is never used, the loops being empty. -/
noncomputable def back (d : Dim) (boxes dy : Mem ℝ) (o : List Nat) : List (Nat × ℝ) :=
  let g := gx d boxes (o.getD 0 0) * gy d boxes (o.getD 0 0)
  let grad := dy (ravel d.osh o) * (1 / g)
  (contribs d boxes o).map fun p => (p.1, p.2 * grad)

/-- RoiAlign::backward_impl (roi_align.cpp:174-283), after the zeroing (callBackward) and the checks of forward. -/
noncomputable def backward (d : Dim) (boxes : Mem ℝ) (_accum : Bool) (dy dx : Mem ℝ) : Mem ℝ :=
  adds ((indices d.osh).flatMap fun o => back d boxes dy o) dx

/-! ### Specification -/

/-- The number r, cut off to an integer, is b. -/
def CutsTo (r : ℝ) (b : Nat) : Prop := ((b : ℝ) ≤ r ∧ r < b + 1) ∨ (b = 0 ∧ -1 < r ∧ r < 0)

open Classical in
/-- The image (b, c) at the real place (y, x): nothing more than a pixel outside, else linear interpolation at the nearest place on
the image. -/
noncomputable def sampleAt (d : Dim) (data : Mem ℝ) (b c : Nat) (y x : ℝ) : ℝ :=
  if -1 ≤ y ∧ y ≤ d.H ∧ -1 ≤ x ∧ x ≤ d.W then
    ∑ p ∈ Finset.range d.H, ∑ q ∈ Finset.range d.W, tri (clamp y d.H - p) * tri (clamp x d.W - q) * data (ravel d.ish [b, c, p, q])
  else 0

/-- The size of one bin of box k. -/
noncomputable def binH (d : Dim) (boxes : Mem ℝ) (k : Nat) : ℝ := (boxes (ravel d.bsh [k, 4]) - boxes (ravel d.bsh [k, 2])) * d.sy / d.oh
noncomputable def binW (d : Dim) (boxes : Mem ℝ) (k : Nat) : ℝ := (boxes (ravel d.bsh [k, 3]) - boxes (ravel d.bsh [k, 1])) * d.sx / d.ow

/-- The number of samples per bin along an axis. -/
noncomputable def samples (d : Dim) (bin : ℝ) : ℤ := if 0 < d.ratio then d.ratio else ⌈bin⌉

/-! ### Proofs -/

theorem bin_step (a b s : ℝ) (o : Nat) : stepSize a b s o = (b - a) * s / o := by
  unfold stepSize roi; ring

theorem gx_samples (d : Dim) (boxes : Mem ℝ) (k : Nat) : gx d boxes k = samples d (binW d boxes k) := by
  unfold gx gridSize samplingGrid samples binW
  rw [bin_step]
  simp [bx1, bx2, ravel, Dim.bsh, prod]

theorem gy_samples (d : Dim) (boxes : Mem ℝ) (k : Nat) : gy d boxes k = samples d (binH d boxes k) := by
  unfold gy gridSize samplingGrid samples binH
  rw [bin_step]
  simp [by1, by2, ravel, Dim.bsh, prod]

theorem trunc_cuts (r : ℝ) (b : Nat) : truncI r = b ↔ CutsTo r b := by
  unfold truncI CutsTo
  split
  · rename_i h
    rw [Int.floor_eq_iff]
    push_cast
    constructor
    · exact fun h => .inl h
    · rintro (h' | h')
      · exact h'
      · linarith [h'.2.2]
  · rename_i h
    push Not at h
    rw [Int.ceil_eq_iff]
    push_cast
    constructor
    · rintro ⟨h1, h2⟩
      have : b = 0 := by
        by_contra hb
        have : (1 : ℝ) ≤ b := by exact_mod_cast Nat.one_le_iff_ne_zero.mpr hb
        linarith
      subst this
      exact .inr ⟨rfl, by push_cast at h1; linarith, h⟩
    · rintro (h' | h')
      · have : (0 : ℝ) ≤ b := by positivity
        linarith [h'.1]
      · obtain ⟨rfl, h1, h2⟩ := h'
        constructor <;> push_cast <;> linarith

theorem clampT_eq (v : ℝ) (S : Nat) : clampT v 0 ((S : ℝ) - 1) = clamp v S := rfl

theorem clamp_mem (v : ℝ) (S : Nat) (hS : 1 ≤ S) : 0 ≤ clamp v S ∧ clamp v S ≤ (S : ℝ) - 1 := by
  have : (1 : ℝ) ≤ S := by exact_mod_cast hS
  exact ⟨le_max_left _ _, max_le (by linarith) (min_le_left _ _)⟩

theorem floor_clamp (v : ℝ) (S : Nat) (hS : 1 ≤ S) : 0 ≤ ⌊clamp v S⌋ ∧ ⌊clamp v S⌋ ≤ (S : ℤ) - 1 := by
  obtain ⟨h0, h1⟩ := clamp_mem v S hS
  refine ⟨Int.floor_nonneg.mpr h0, ?_⟩
  have := Int.floor_le (clamp v S)
  have : (⌊clamp v S⌋ : ℝ) ≤ ((S : ℤ) - 1 : ℤ) := by push_cast; linarith
  exact_mod_cast this

theorem lo_lt (v : ℝ) (S : Nat) (hS : 1 ≤ S) : lo v S < S := by
  unfold lo
  rw [clampT_eq]
  have := floor_clamp v S hS
  omega

theorem hi_lt (v : ℝ) (S : Nat) (hS : 1 ≤ S) : hi v S < S := by
  unfold hi; omega

/-- Interpolation along one axis. -/
theorem axis (v : ℝ) (S : Nat) (hS : 1 ≤ S) (f : Nat → ℝ) :
    ∑ j ∈ Finset.range S, tri (clamp v S - j) * f j = (1 - frac v S) * f (lo v S) + frac v S * f (hi v S) := by
  obtain ⟨h0, h1⟩ := clamp_mem v S hS
  obtain ⟨f0, f1⟩ := floor_clamp v S hS
  have hl := WarpFlow.lin1 S hS (clamp v S) f
  have hcc : clamp (clamp v S) S = clamp v S := by
    conv_lhs => rw [Warp.clamp]
    rw [min_eq_right h1, max_eq_right h0]
  rw [hcc, WarpFlow.clampIdx_in _ S f0 f1] at hl
  have e2 : WarpFlow.clampIdx (⌊clamp v S⌋ + 1) S = hi v S := by
    unfold WarpFlow.clampIdx hi lo
    rw [clampT_eq]
    omega
  have e3 : ((⌊clamp v S⌋.toNat : ℕ) : ℝ) = (⌊clamp v S⌋ : ℝ) := by
    have : ((⌊clamp v S⌋.toNat : ℕ) : ℤ) = ⌊clamp v S⌋ := Int.toNat_of_nonneg f0
    exact_mod_cast this
  rw [hl, e2, e3]
  unfold frac lo
  rw [clampT_eq]
  ring

theorem base_ravel (d : Dim) (boxes : Mem ℝ) (k c p q : Nat) :
    base d boxes k c + (p * d.W + q) = ravel d.ish [(truncI (bIndex boxes k)).toNat, c, p, q] := by
  simp [base, ravel, Dim.ish, prod]; ring

theorem wsum_flatMap {α} (l : List α) (f : α → List (Nat × ℝ)) (x : Mem ℝ) : wsum (l.flatMap f) x = (l.map fun a => wsum (f a) x).sum := by
  unfold wsum
  rw [Interp.sum_flatMap]

theorem foldl_wsum (l : List (Nat × ℝ)) (x : Mem ℝ) : l.foldl (fun acc p => acc + p.2 * x p.1) 0 = wsum l x := by
  unfold wsum
  rw [List.sum_eq_foldl, List.foldl_map]

/-- The two sampling loops. -/
theorem contribs_sum (d : Dim) (hH : 1 ≤ d.H) (hW : 1 ≤ d.W) (boxes data : Mem ℝ) (k c i j : Nat) :
    wsum (contribs d boxes [k, c, i, j]) data = ∑ yy ∈ Finset.range (gy d boxes k).toNat, ∑ xx ∈ Finset.range (gx d boxes k).toNat,
      sampleAt d data (truncI (bIndex boxes k)).toNat c (place d.ratio (by1 boxes k) (by2 boxes k) d.sy d.oh i yy)
        (place d.ratio (bx1 boxes k) (bx2 boxes k) d.sx d.ow j xx) := by
  rw [show contribs d boxes [k, c, i, j] = contribsAt d boxes k c i j from rfl]
  simp only [contribsAt, wsum_flatMap, PatchCorr.sum_range_list]
  refine Finset.sum_congr rfl fun yy _ => ?_
  generalize place d.ratio (by1 boxes k) (by2 boxes k) d.sy d.oh i yy = v
  by_cases hv : skip v d.H
  · rw [if_pos hv, Finset.sum_eq_zero]
    · rfl
    · intro xx _
      rw [sampleAt, if_neg]
      rintro ⟨h1, h2, -, -⟩
      rcases hv with h | h <;> linarith
  rw [if_neg hv, wsum_flatMap, PatchCorr.sum_range_list]
  refine Finset.sum_congr rfl fun xx _ => ?_
  generalize place d.ratio (bx1 boxes k) (bx2 boxes k) d.sx d.ow j xx = u
  by_cases hu : skip u d.W
  · rw [if_pos hu, sampleAt, if_neg]
    · rfl
    · rintro ⟨-, -, h1, h2⟩
      rcases hu with h | h <;> linarith
  rw [if_neg hu, sampleAt, if_pos (by
    unfold skip at hv hu; push Not at hv hu; exact ⟨hv.1, hv.2, hu.1, hu.2⟩)]
  have row := fun p : Nat => axis u d.W hW fun q => data (ravel d.ish [(truncI (bIndex boxes k)).toNat, c, p, q])
  have outer := axis v d.H hH fun p => ∑ q ∈ Finset.range d.W, tri (clamp u d.W - q) * data (ravel d.ish [(truncI (bIndex boxes k)).toNat, c, p, q])
  simp only [row] at outer
  have e : ∀ p : Nat, ∑ q ∈ Finset.range d.W, tri (clamp v d.H - p) * tri (clamp u d.W - q) * data (ravel d.ish [(truncI (bIndex boxes k)).toNat, c, p, q]) =
      tri (clamp v d.H - p) * ((1 - frac u d.W) * data (ravel d.ish [(truncI (bIndex boxes k)).toNat, c, p, lo u d.W]) +
        frac u d.W * data (ravel d.ish [(truncI (bIndex boxes k)).toNat, c, p, hi u d.W])) := by
    intro p
    rw [← row p, Finset.mul_sum]
    exact Finset.sum_congr rfl fun q _ => by ring
  simp only [e]
  rw [outer]
  simp only [wsum, List.map_cons, List.map_nil, List.sum_cons, List.sum_nil, base_ravel]
  ring

theorem place_eq (d : Dim) (b1 b2 s : ℝ) (o i t : Nat) (g : ℤ) (hg : gridSize d.ratio b1 b2 s o = g) :
    place d.ratio b1 b2 s o i t = b1 * s - 1 / 2 + (i + (t + 1 / 2) / g) * ((b2 - b1) * s / o) := by
  unfold place
  simp only [hg, bin_step, roi]
  ring

/-- C208: the element (k, c, i, j) of the output is the average of the image channel (b, c) over the sampling points of the bin
(i, j) of box k, where b is the batch index of the box: `samples` points per axis, evenly spread over the bin. -/
theorem C208_roi_align_partial (d : Dim) (hH : 1 ≤ d.H) (hW : 1 ≤ d.W) (nan : ℝ) (boxes data out res : Mem ℝ)
    (hf : forward d nan boxes data out = .ok res) (k c i j : Nat) (hk : k < d.K) (hc : c < d.C) (hi : i < d.oh) (hj : j < d.ow)
    (hgx : 0 < samples d (binW d boxes k)) (hgy : 0 < samples d (binH d boxes k)) :
    ∃ b < d.N, CutsTo (boxes (ravel d.bsh [k, 0])) b ∧
      res (ravel d.osh [k, c, i, j]) =
        (∑ yy ∈ Finset.range (samples d (binH d boxes k)).toNat, ∑ xx ∈ Finset.range (samples d (binW d boxes k)).toNat,
          sampleAt d data b c
            (boxes (ravel d.bsh [k, 2]) * d.sy - 1 / 2 + (i + (yy + 1 / 2) / samples d (binH d boxes k)) * binH d boxes k)
            (boxes (ravel d.bsh [k, 1]) * d.sx - 1 / 2 + (j + (xx + 1 / 2) / samples d (binW d boxes k)) * binW d boxes k)) /
          (samples d (binH d boxes k) * samples d (binW d boxes k)) := by
  unfold forward at hf
  split at hf; · cases hf
  split at hf
  swap; · cases hf
  rename_i hcl hb
  injection hf with hf
  obtain ⟨h0, h1⟩ := hb k hk
  have eb : boxes (ravel d.bsh [k, 0]) = bIndex boxes k := by simp [bIndex, ravel, Dim.bsh, prod]
  refine ⟨(truncI (bIndex boxes k)).toNat, by omega, ?_, ?_⟩
  · rw [eb, ← trunc_cuts]; omega
  have ho : InBounds d.osh [k, c, i, j] := ⟨hk, hc, hi, hj, trivial⟩
  rw [← hf, forward_at _ _ out _ ho]
  unfold pixel
  simp only [List.getD_cons_zero]
  rw [if_neg (by rw [gx_samples, gy_samples]; exact (mul_pos hgx hgy).ne'), foldl_wsum, contribs_sum d hH hW, gx_samples, gy_samples]
  rw [mul_one_div]
  congr 1
  · refine Finset.sum_congr rfl fun yy _ => Finset.sum_congr rfl fun xx _ => ?_
    rw [place_eq d _ _ _ _ _ _ _ (gx_samples d boxes k), place_eq d _ _ _ _ _ _ _ (gy_samples d boxes k)]
    simp [bx1, by1, bx2, by2, ravel, Dim.bsh, prod, binH, binW]
  · push_cast; ring

/-- C208, what is missing: when the sampling ratio is not positive, a box with no area has no sampling points and its output is
1 / 0 times the empty sum (NaN); one that is turned over on an axis gives zero or NaN, too. -/
theorem C208_empty_box (d : Dim) (nan : ℝ) (boxes data out res : Mem ℝ) (hf : forward d nan boxes data out = .ok res) (k c i j : Nat)
    (hk : k < d.K) (hc : c < d.C) (hi : i < d.oh) (hj : j < d.ow) :
    (samples d (binW d boxes k) = 0 ∨ samples d (binH d boxes k) = 0 → res (ravel d.osh [k, c, i, j]) = nan) ∧
    (samples d (binW d boxes k) ≠ 0 → samples d (binH d boxes k) ≠ 0 → samples d (binW d boxes k) < 0 ∨ samples d (binH d boxes k) < 0 →
      res (ravel d.osh [k, c, i, j]) = 0) := by
  unfold forward at hf
  split at hf; · cases hf
  split at hf
  swap; · cases hf
  injection hf with hf
  have ho : InBounds d.osh [k, c, i, j] := ⟨hk, hc, hi, hj, trivial⟩
  rw [← hf, forward_at _ _ out _ ho]
  unfold pixel
  simp only [List.getD_cons_zero, gx_samples, gy_samples]
  constructor
  · intro h
    rw [if_pos (by rcases h with h | h <;> simp [h])]
  · intro h1 h2 h
    rw [if_neg (mul_ne_zero h1 h2)]
    have : contribs d boxes [k, c, i, j] = [] := by
      simp only [contribs, List.getD_cons_zero, contribsAt, gx_samples, gy_samples]
      rcases h with h | h
      · rw [show (samples d (binW d boxes k)).toNat = 0 by omega]
        simp
      · rw [show (samples d (binH d boxes k)).toNat = 0 by omega]
        simp
    rw [this]; simp

/-- A box without width meets the condition of C208_empty_box. -/
example (boxes : Mem ℝ) (h : boxes 1 = boxes 3) (d : Dim) (hr : d.ratio = 0) : samples d (binW d boxes 0) = 0 := by
  simp [samples, hr, binW, ravel, Dim.bsh, prod, h]

/-- C208: forward fails exactly if channel_last is set or the batch index of some box is not that of an image. -/
theorem C208_checked (d : Dim) (nan : ℝ) (boxes data out : Mem ℝ) :
    (∃ res, forward d nan boxes data out = .ok res) ↔ d.channelLast = false ∧ ∀ k < d.K, ∃ b < d.N, CutsTo (boxes (ravel d.bsh [k, 0])) b := by
  have key : (∀ k < d.K, truncI (bIndex boxes k) ≥ 0 ∧ truncI (bIndex boxes k) < d.N) ↔
      ∀ k < d.K, ∃ b < d.N, CutsTo (boxes (ravel d.bsh [k, 0])) b := by
    refine forall_congr' fun k => forall_congr' fun hk => ?_
    have eb : boxes (ravel d.bsh [k, 0]) = bIndex boxes k := by simp [bIndex, ravel, Dim.bsh, prod]
    rw [eb]
    constructor
    · rintro ⟨h0, h1⟩
      exact ⟨(truncI (bIndex boxes k)).toNat, by omega, (trunc_cuts _ _).mp (by omega)⟩
    · rintro ⟨b, hb, h⟩
      rw [← trunc_cuts] at h
      omega
  rw [← key]
  unfold forward
  cases d.channelLast
  · rw [if_neg (by simp)]
    constructor
    · rintro ⟨res, h⟩
      refine ⟨rfl, ?_⟩
      by_contra hn
      rw [if_neg hn] at h; cases h
    · rintro ⟨-, h⟩
      rw [if_pos h]
      exact ⟨_, rfl⟩
  · rw [if_pos rfl]
    constructor
    · rintro ⟨res, h⟩; cases h
    · rintro ⟨h, -⟩; cases h

/-- C208: what is accepted by setup, and the output shape that is made. -/
theorem C208_setup (c : Cfg) (ish bsh osh : Shape) :
    setup c ish bsh = .ok osh ↔ ∃ N A B D K, ish = [N, A, B, D] ∧ bsh = [K, 5] ∧ ∃ oh ow : Nat, c.outSize = [(oh : ℤ), (ow : ℤ)] ∧ 0 < oh ∧ 0 < ow ∧
      (∃ sy sx, c.scale = [sy, sx]) ∧ osh = if c.channelLast then [K, oh, ow, D] else [K, A, oh, ow] := by
  unfold setup
  constructor
  · intro h
    by_cases h1 : ish.length ≠ 4
    · rw [if_pos h1] at h; cases h
    rw [if_neg h1] at h
    by_cases h2 : bsh.length ≠ 2
    · rw [if_pos h2] at h; cases h
    rw [if_neg h2] at h
    by_cases h3 : bsh.getD 1 0 ≠ 5
    · rw [if_pos h3] at h; cases h
    rw [if_neg h3] at h
    by_cases h4 : c.outSize.length ≠ 2
    · rw [if_pos h4] at h; cases h
    rw [if_neg h4] at h
    by_cases h5 : ¬ c.outSize.getD 0 0 > 0
    · rw [if_pos h5] at h; cases h
    rw [if_neg h5] at h
    by_cases h6 : ¬ c.outSize.getD 1 0 > 0
    · rw [if_pos h6] at h; cases h
    rw [if_neg h6] at h
    by_cases h7 : c.scale.length ≠ 2
    · rw [if_pos h7] at h; cases h
    rw [if_neg h7] at h
    rw [not_not] at h1 h2 h3 h4 h5 h6 h7
    obtain ⟨os, sc, ra, cl⟩ := c
    simp only at *
    match ish, h1, bsh, h2, os, h4, sc, h7 with
    | [N, A, B, D], _, [K, f], _, [oh, ow], _, [sy, sx], _ =>
      simp only [List.getD_cons_zero, List.getD_cons_succ] at h h3 h5 h6
      subst h3
      refine ⟨N, A, B, D, K, rfl, rfl, oh.toNat, ow.toNat, ?_, by omega, by omega, ⟨sy, sx, rfl⟩, ?_⟩
      · rw [Int.toNat_of_nonneg (by omega), Int.toNat_of_nonneg (by omega)]
      · cases cl
        · rw [if_pos (by simp)] at h; injection h with h; rw [← h]; rfl
        · rw [if_neg (by simp)] at h; injection h with h; rw [← h]; rfl
  · rintro ⟨N, A, B, D, K, rfl, rfl, oh, ow, e1, h1, h2, ⟨sy, sx, e2⟩, rfl⟩
    rw [e1, e2]
    rw [if_neg (by simp), if_neg (by simp), if_neg (by simp), if_neg (by simp), if_neg (by simp; omega), if_neg (by simp; omega), if_neg (by simp)]
    cases c.channelLast
    · rw [if_pos (by simp)]; simp
    · rw [if_neg (by simp)]; simp

theorem contribs_lt (d : Dim) (hH : 1 ≤ d.H) (hW : 1 ≤ d.W) (boxes : Mem ℝ) (k c i j : Nat) (hb : (truncI (bIndex boxes k)).toNat < d.N) (hc : c < d.C) :
    ∀ e ∈ contribs d boxes [k, c, i, j], e.1 < prod d.ish := by
  intro e he
  simp only [contribs, List.getD_cons_zero, List.getD_cons_succ, contribsAt, List.mem_flatMap] at he
  obtain ⟨yy, -, he⟩ := he
  split at he
  · simp at he
  rw [List.mem_flatMap] at he
  obtain ⟨xx, -, he⟩ := he
  split at he
  · simp at he
  simp only [base_ravel, List.mem_cons, List.not_mem_nil, or_false] at he
  rcases he with rfl | rfl | rfl | rfl <;>
    exact ravel_lt ⟨hb, hc, by first | exact lo_lt _ _ hH | exact hi_lt _ _ hH, by first | exact lo_lt _ _ hW | exact hi_lt _ _ hW, trivial⟩

/-- C209: backward is the transpose of forward as a map of the image (with valid boxes none of which has an empty sampling grid). -/
theorem C209_gradient_partial (d : Dim) (hH : 1 ≤ d.H) (hW : 1 ≤ d.W) (nan : ℝ) (boxes out : Mem ℝ) (hcl : d.channelLast = false)
    (hb : ∀ k < d.K, ∃ b < d.N, CutsTo (boxes (ravel d.bsh [k, 0])) b)
    (hg : ∀ k < d.K, samples d (binW d boxes k) ≠ 0 ∧ samples d (binH d boxes k) ≠ 0) :
    ∃ fw : Mem ℝ → Mem ℝ, (∀ data, forward d nan boxes data out = .ok (fw data)) ∧
      GradOK (prod d.ish) (prod d.osh) fw (callBackward (backward d boxes)) := by
  have hb' : ∀ k < d.K, truncI (bIndex boxes k) ≥ 0 ∧ truncI (bIndex boxes k) < d.N := by
    intro k hk
    obtain ⟨b, hbn, h⟩ := hb k hk
    have eb : boxes (ravel d.bsh [k, 0]) = bIndex boxes k := by simp [bIndex, ravel, Dim.bsh, prod]
    rw [eb, ← trunc_cuts] at h
    omega
  refine ⟨fun data => puts ((indices d.osh).map fun o => (ravel d.osh o, pixel d nan boxes data o)) out, fun data => ?_, ?_⟩
  · unfold forward
    rw [if_neg (by simp [hcl]), if_pos hb']
  have e : (fun data => puts ((indices d.osh).map fun o => (ravel d.osh o, pixel d nan boxes data o)) out) =
      fun data => puts ((indices d.osh).map fun o => (ravel d.osh o, wsum (contribs d boxes o) data *
        (1 / (gx d boxes (o.getD 0 0) * gy d boxes (o.getD 0 0) : ℤ)))) out := by
    funext data
    congr 1
    apply List.map_congr_left
    intro o ho
    obtain ⟨k, c, i, j, rfl, hk, -⟩ := inBounds4 ((mem_indices _ _).mp ho)
    simp only [pixel, List.getD_cons_zero]
    rw [if_neg (by rw [gx_samples, gy_samples]; exact mul_ne_zero (hg k hk).1 (hg k hk).2), foldl_wsum]
  rw [e]
  refine weighted_grad1 (prod d.ish) d.osh (fun o => (contribs d boxes o).map fun p =>
    (p.1, p.2 * (1 / (gx d boxes (o.getD 0 0) * gy d boxes (o.getD 0 0) : ℤ)))) ?_ out _ _ ?_ ?_
  · intro o ho e he
    obtain ⟨k, c, i, j, rfl, hk, hc, -⟩ := inBounds4 ho
    rw [List.mem_map] at he
    obtain ⟨p, hp, rfl⟩ := he
    have := hb' k hk
    exact contribs_lt d hH hW boxes k c i j (by omega) hc p hp
  · intro x o
    unfold wsum
    rw [List.map_map, ← List.sum_map_mul_right]
    congr 1
    apply List.map_congr_left
    intro p _
    simp only [Function.comp]; ring
  · intro dy o
    unfold back
    rw [List.map_map]
    apply List.map_congr_left
    intro p _
    simp only [Function.comp]
    rw [Prod.mk.injEq]
    exact ⟨rfl, by ring⟩

/-- C209: backward writes nothing outside of the gradient of the image. -/
theorem C209_inside (d : Dim) (hH : 1 ≤ d.H) (hW : 1 ≤ d.W) (boxes dy g : Mem ℝ) (a : Bool)
    (hb : ∀ k < d.K, ∃ b < d.N, CutsTo (boxes (ravel d.bsh [k, 0])) b) (p : Nat) (hp : prod d.ish ≤ p) : backward d boxes a dy g p = g p := by
  refine WarpFlow.adds_outside _ _ _ fun e he => ?_
  rw [List.mem_flatMap] at he
  obtain ⟨o, ho, he⟩ := he
  obtain ⟨k, c, i, j, rfl, hk, hc, -⟩ := inBounds4 ((mem_indices _ _).mp ho)
  unfold back at he
  rw [List.mem_map] at he
  obtain ⟨q, hq, rfl⟩ := he
  obtain ⟨b, hbn, h⟩ := hb k hk
  have eb : boxes (ravel d.bsh [k, 0]) = bIndex boxes k := by simp [bIndex, ravel, Dim.bsh, prod]
  rw [eb, ← trunc_cuts] at h
  have := contribs_lt d hH hW boxes k c i j (by omega) hc q hq
  simp only []
  omega

/-- Non-vacuous: one box of 4 x 4 in an image of 8 x 8, 2 x 2 bins, adaptive sampling with two samples per axis. -/
example : ∃ (d : Dim) (boxes : Mem ℝ), d.K = 1 ∧ d.N = 1 ∧ d.H = 8 ∧ samples d (binW d boxes 0) = 2 ∧ samples d (binH d boxes 0) = 2 ∧
    CutsTo (boxes (ravel d.bsh [0, 0])) 0 := by
  refine ⟨⟨1, 1, 8, 8, 1, 2, 2, 1, 1, 0, false⟩, fun k => if k = 3 ∨ k = 4 then 4 else 0, rfl, rfl, rfl, ?_, ?_, ?_⟩
  · norm_num [samples, binW, ravel, Dim.bsh, prod]
  · norm_num [samples, binH, ravel, Dim.bsh, prod]
  · left; norm_num [ravel, Dim.bsh, prod]

end Verif.Roi
