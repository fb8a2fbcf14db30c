import Verif.Warp.Grad
/-
WarpByFlow (/repo/src/nbla/function/generic/warp_by_flow.cpp). Simplifications: real numbers; the nested loops over n, c, y, x are
the list of multi-indices in row-major order, and the pointers that move along (`out`, `grad`, `flow_x`, ...) are written as
positions; array extents are at least 1 wherever a pixel is computed, so the clamped indices are natural numbers.
-/
namespace Verif.WarpFlow
open Verif.ND Verif.Fn Verif.Act Verif.Elem Verif.Interp Verif.Warp Filter Topology

/-! ### Model -/

/-- WarpByFlow::setup_impl (warp_by_flow.cpp:24-49). -/
def setup (dsh fsh : Shape) : Except String Shape :=
  if dsh.length ≠ 4 then .error "The input data must have the four dimensions NCHW."
  else if dsh.length ≠ fsh.length then .error "The data and flow input shapes must be same length."
  else if fsh.getD 0 0 ≠ dsh.getD 0 0 then .error "The data and flow input batch size must be identical."
  else if fsh.getD 1 0 ≠ 2 then .error "The flow variable must have two channels for a 2D warp."
  else if fsh.getD 2 0 ≠ dsh.getD 2 0 then .error "The data and flow height dimension must be identical."
  else if fsh.getD 3 0 ≠ dsh.getD 3 0 then .error "The data and flow width dimension must be identical."
  else .ok dsh

/-- clamp_to_index (warp_by_flow.cpp:51-54). -/
def clampIdx (v : ℤ) (S : Nat) : Nat := (max 0 (min ((S : ℤ) - 1) v)).toNat

/-- The extents. -/
structure Dim where
  (N C H W : Nat)

def Dim.dsh (d : Dim) : Shape := [d.N, d.C, d.H, d.W]
def Dim.fsh (d : Dim) : Shape := [d.N, 2, d.H, d.W]

/-- `flow_x`, `flow_y` at loop position o = [n, c, y, x] (warp_by_flow.cpp:77-82). -/
def fx (d : Dim) (o : List Nat) : Nat := (d.H * d.W) * (o.getD 0 0 * 2) + (o.getD 2 0 * d.W + o.getD 3 0)
def fy (d : Dim) (o : List Nat) : Nat := (d.H * d.W) * (o.getD 0 0 * 2 + 1) + (o.getD 2 0 * d.W + o.getD 3 0)
/-- `data_c` (warp_by_flow.cpp:79). -/
def base (d : Dim) (o : List Nat) : Nat := (d.H * d.W) * (o.getD 0 0 * d.C + o.getD 1 0)

/-- The body of the loops of forward_impl (warp_by_flow.cpp:82-97). -/
noncomputable def pixel (d : Dim) (data flow : Mem ℝ) (o : List Nat) : ℝ :=
  let xf := (o.getD 3 0 : ℝ) + flow (fx d o)
  let yf := (o.getD 2 0 : ℝ) + flow (fy d o)
  let xl := clampIdx ⌊xf⌋ d.W
  let yt := clampIdx ⌊yf⌋ d.H
  let xr := clampIdx (⌊xf⌋ + 1) d.W
  let yb := clampIdx (⌊yf⌋ + 1) d.H
  let tl := data (base d o + (yt * d.W + xl))
  let tr := data (base d o + (yt * d.W + xr))
  let bl := data (base d o + (yb * d.W + xl))
  let br := data (base d o + (yb * d.W + xr))
  let alpha := xf - xl
  let beta := yf - yt
  let interp_upper := alpha * (tr - tl) + tl
  let interp_lower := alpha * (br - bl) + bl
  beta * (interp_lower - interp_upper) + interp_upper

/-- WarpByFlow::forward_impl (warp_by_flow.cpp:56-101). -/
noncomputable def forward (d : Dim) (data flow out : Mem ℝ) : Mem ℝ :=
  puts ((indices d.dsh).map fun o => (ravel d.dsh o, pixel d data flow o)) out

/-- The body of the loops of the data part of backward_impl (warp_by_flow.cpp:136-149). -/
noncomputable def backData (d : Dim) (flow gout : Mem ℝ) (o : List Nat) : List (Nat × ℝ) :=
  let xf := (o.getD 3 0 : ℝ) + flow (fx d o)
  let yf := (o.getD 2 0 : ℝ) + flow (fy d o)
  let xl := clampIdx ⌊xf⌋ d.W
  let yt := clampIdx ⌊yf⌋ d.H
  let xr := clampIdx (⌊xf⌋ + 1) d.W
  let yb := clampIdx (⌊yf⌋ + 1) d.H
  let grad := gout (ravel d.dsh o)
  [(base d o + (yt * d.W + xl), (1 - xf + xl) * (1 - yf + yt) * grad), (base d o + (yb * d.W + xl), (1 - xf + xl) * (yf - yt) * grad),
    (base d o + (yt * d.W + xr), (xf - xl) * (1 - yf + yt) * grad), (base d o + (yb * d.W + xr), (xf - xl) * (yf - yt) * grad)]

/-- The data part of backward_impl (warp_by_flow.cpp:119-152), after the zeroing of the gradient unless accumulating (callBackward). -/
noncomputable def backwardData (d : Dim) (flow : Mem ℝ) (_accum : Bool) (gout gdata : Mem ℝ) : Mem ℝ :=
  adds ((indices d.dsh).flatMap fun o => backData d flow gout o) gdata

/-- The body of the loops of the flow part of backward_impl (warp_by_flow.cpp:174-191). -/
noncomputable def backFlow (d : Dim) (data flow gout : Mem ℝ) (o : List Nat) : List (Nat × ℝ) :=
  let xf := (o.getD 3 0 : ℝ) + flow (fx d o)
  let yf := (o.getD 2 0 : ℝ) + flow (fy d o)
  let xl := clampIdx ⌊xf⌋ d.W
  let yt := clampIdx ⌊yf⌋ d.H
  let xr := clampIdx (⌊xf⌋ + 1) d.W
  let yb := clampIdx (⌊yf⌋ + 1) d.H
  let tl := data (base d o + (yt * d.W + xl))
  let tr := data (base d o + (yt * d.W + xr))
  let bl := data (base d o + (yb * d.W + xl))
  let br := data (base d o + (yb * d.W + xr))
  let g1 := ((yb : ℝ) - yf) * (tr - tl) + (1 - (yb : ℝ) + yf) * (br - bl)
  let g2 := ((xr : ℝ) - xf) * (bl - tl) + (1 - (xr : ℝ) + xf) * (br - tr)
  [(fx d o, gout (ravel d.dsh o) * g1), (fy d o, gout (ravel d.dsh o) * g2)]

/-- The flow part of backward_impl (warp_by_flow.cpp:154-191). -/
noncomputable def backwardFlow (d : Dim) (data flow : Mem ℝ) (_accum : Bool) (gout gflow : Mem ℝ) : Mem ℝ :=
  adds ((indices d.dsh).flatMap fun o => backFlow d data flow gout o) gflow

/-! ### Proofs -/

theorem clampIdx_lt (v : ℤ) (S : Nat) (hS : 1 ≤ S) : clampIdx v S < S := by
  unfold clampIdx
  rcases max_cases (0 : ℤ) (min ((S : ℤ) - 1) v) with ⟨h, _⟩ | ⟨h, _⟩ <;> rw [h]
  · show (0 : ℤ).toNat < S
    simp only [Int.toNat_zero]; omega
  · have := min_le_left ((S : ℤ) - 1) v
    omega

theorem clampIdx_neg (v : ℤ) (S : Nat) (hS : 1 ≤ S) (h : v ≤ 0) : clampIdx v S = 0 := by
  unfold clampIdx
  rw [min_eq_right (by omega), max_eq_left h]; rfl

theorem clampIdx_big (v : ℤ) (S : Nat) (hS : 1 ≤ S) (h : (S : ℤ) - 1 ≤ v) : clampIdx v S = S - 1 := by
  unfold clampIdx
  rw [min_eq_left h, max_eq_right (by omega)]; omega

theorem clampIdx_in (v : ℤ) (S : Nat) (h0 : 0 ≤ v) (h : v ≤ (S : ℤ) - 1) : clampIdx v S = v.toNat := by
  unfold clampIdx
  rw [min_eq_right h, max_eq_right h0]

/-- Interpolation along one axis, the array being continued by its end values. -/
theorem lin1 (S : Nat) (hS : 1 ≤ S) (s : ℝ) (f : Nat → ℝ) :
    ∑ j ∈ Finset.range S, tri (clamp s S - j) * f j =
      (s - clampIdx ⌊s⌋ S) * (f (clampIdx (⌊s⌋ + 1) S) - f (clampIdx ⌊s⌋ S)) + f (clampIdx ⌊s⌋ S) := by
  have hS' : (1 : ℝ) ≤ S := by exact_mod_cast hS
  set F : ℤ → ℝ := fun i => if 0 ≤ i ∧ i < S then f i.toNat else 0 with hF
  have e : ∑ j ∈ Finset.range S, tri (clamp s S - j) * f j = ∑ j ∈ Finset.range S, tri (clamp s S - j) * F j := by
    refine Finset.sum_congr rfl fun j hj => ?_
    rw [Finset.mem_range] at hj
    rw [hF]; simp only []; rw [if_pos ⟨by omega, by omega⟩]; simp
  rw [e, interp1 S (clamp s S) F fun i hi => by rw [hF]; simp only []; rw [if_neg hi]]
  by_cases h0 : s < 0
  · have hc : clamp s S = 0 := by rw [clamp, min_eq_right (by linarith), max_eq_left h0.le]
    have hf : ⌊s⌋ < 0 := Int.floor_lt.mpr (by simpa using h0)
    rw [hc, clampIdx_neg ⌊s⌋ S hS (by omega), clampIdx_neg (⌊s⌋ + 1) S hS (by omega), Int.floor_zero, hF]
    simp only []
    rw [if_pos ⟨le_refl _, by omega⟩]; simp
  · by_cases h1 : (S : ℝ) - 1 < s
    · have hc : clamp s S = (S : ℝ) - 1 := by rw [clamp, min_eq_left h1.le, max_eq_right (by linarith)]
      have hf : (S : ℤ) - 1 ≤ ⌊s⌋ := Int.le_floor.mpr (by push_cast; exact h1.le)
      have hfl : ⌊(S : ℝ) - 1⌋ = (S : ℤ) - 1 := by
        rw [show (S : ℝ) - 1 = (((S : ℤ) - 1 : ℤ) : ℝ) by push_cast; ring, Int.floor_intCast]
      rw [hc, clampIdx_big ⌊s⌋ S hS hf, clampIdx_big (⌊s⌋ + 1) S hS (by omega), hfl, hF]
      simp only []
      rw [if_pos ⟨by omega, by omega⟩, show ((S : ℤ) - 1).toNat = S - 1 by omega]; push_cast; ring
    · push Not at h0 h1
      have hc : clamp s S = s := by rw [clamp, min_eq_right h1, max_eq_right h0]
      have f0 : 0 ≤ ⌊s⌋ := Int.floor_nonneg.mpr h0
      have f1 : ⌊s⌋ ≤ (S : ℤ) - 1 := by
        have := Int.floor_le s
        have : (⌊s⌋ : ℝ) ≤ ((S : ℤ) - 1 : ℤ) := by push_cast; linarith
        exact_mod_cast this
      have ecast : ((⌊s⌋.toNat : ℕ) : ℝ) = (⌊s⌋ : ℝ) := by
        have : ((⌊s⌋.toNat : ℕ) : ℤ) = ⌊s⌋ := Int.toNat_of_nonneg f0
        exact_mod_cast this
      rw [hc, clampIdx_in _ S f0 f1, ecast]
      by_cases f2 : ⌊s⌋ + 1 ≤ (S : ℤ) - 1
      · rw [clampIdx_in _ S (by omega) f2, hF]
        simp only []
        rw [if_pos ⟨f0, by omega⟩, if_pos ⟨by omega, by omega⟩]; ring
      · have f3 : ⌊s⌋ = (S : ℤ) - 1 := by omega
        have f4 : s = ⌊s⌋ := by
          have := Int.floor_le s
          have e : (⌊s⌋ : ℝ) = (S : ℝ) - 1 := by rw [f3]; push_cast; ring
          linarith
        have f5 : s - ⌊s⌋ = 0 := by linarith
        rw [f5, hF]
        simp only []
        rw [if_pos ⟨f0, by omega⟩]; ring

theorem fx_ravel (d : Dim) (n c y x : Nat) : fx d [n, c, y, x] = ravel d.fsh [n, 0, y, x] := by
  simp [fx, ravel, Dim.fsh, prod]; ring

theorem fy_ravel (d : Dim) (n c y x : Nat) : fy d [n, c, y, x] = ravel d.fsh [n, 1, y, x] := by
  simp [fy, ravel, Dim.fsh, prod]; ring

theorem base_ravel (d : Dim) (n c y x i j : Nat) : base d [n, c, y, x] + (i * d.W + j) = ravel d.dsh [n, c, i, j] := by
  simp [base, ravel, Dim.dsh, prod]; ring

/-- C202: every output pixel (n, c, y, x) is the image (n, c) interpolated linearly along both axes at the place
(y + flow[n,1,y,x], x + flow[n,0,y,x]), places outside of the image being moved to the nearest place on it. -/
theorem C202_warp_by_flow (d : Dim) (data flow out : Mem ℝ) (n c y x : Nat) (hn : n < d.N) (hc : c < d.C) (hy : y < d.H) (hx : x < d.W) :
    forward d data flow out (ravel d.dsh [n, c, y, x]) =
      ∑ i ∈ Finset.range d.H, ∑ j ∈ Finset.range d.W,
        tri (clamp (y + flow (ravel d.fsh [n, 1, y, x])) d.H - i) * tri (clamp (x + flow (ravel d.fsh [n, 0, y, x])) d.W - j) *
          data (ravel d.dsh [n, c, i, j]) := by
  have ho : InBounds d.dsh [n, c, y, x] := ⟨hn, hc, hy, hx, trivial⟩
  rw [forward, forward_at d.dsh _ out _ ho]
  simp only [pixel, List.getD_cons_zero, List.getD_cons_succ, fx_ravel, fy_ravel, base_ravel]
  generalize (x : ℝ) + flow (ravel d.fsh [n, 0, y, x]) = sx
  generalize (y : ℝ) + flow (ravel d.fsh [n, 1, y, x]) = sy
  have row := fun i : Nat => lin1 d.W (by omega) sx fun j => data (ravel d.dsh [n, c, i, j])
  have outer := lin1 d.H (by omega) sy fun i => ∑ j ∈ Finset.range d.W, tri (clamp sx d.W - j) * data (ravel d.dsh [n, c, i, j])
  simp only [row] at outer
  rw [← outer]
  refine Finset.sum_congr rfl fun i _ => ?_
  rw [← row i, Finset.mul_sum]
  exact Finset.sum_congr rfl fun j _ => by ring

/-- C202: setup accepts exactly an image (N, C, H, W) with a flow (N, 2, H, W), and the output has the shape of the image. -/
theorem C202_setup (dsh fsh osh : Shape) :
    setup dsh fsh = .ok osh ↔ ∃ N C H W, dsh = [N, C, H, W] ∧ fsh = [N, 2, H, W] ∧ osh = [N, C, H, W] := by
  unfold setup
  constructor
  · intro h
    split at h; · cases h
    rename_i h1
    split at h; · cases h
    rename_i h2
    split at h; · cases h
    rename_i h3
    split at h; · cases h
    rename_i h4
    split at h; · cases h
    rename_i h5
    split at h; · cases h
    rename_i h6
    simp only [Except.ok.injEq] at h
    subst h
    match dsh, fsh, not_not.mp h1, not_not.mp h2 with
    | [N, C, H, W], [N', F, H', W'], _, _ =>
      simp only [List.getD_cons_zero, List.getD_cons_succ, ne_eq, not_not] at h3 h4 h5 h6
      subst h3 h4 h5 h6
      exact ⟨_, _, _, _, rfl, rfl, rfl⟩
  · rintro ⟨N, C, H, W, rfl, rfl, rfl⟩
    simp

/-- C203: the gradient of the image. For every flow, backward computes the transpose of forward (which is linear in the image),
whatever the gradient buffer held; with accumulation it adds that to the old gradient. -/
theorem C203_image_gradient (d : Dim) (flow out : Mem ℝ) :
    GradOK (prod d.dsh) (prod d.dsh) (fun data => forward d data flow out) (callBackward (backwardData d flow)) := by
  refine weighted_grad1 (prod d.dsh) d.dsh (fun o => (backData d flow (fun _ => 1) o)) ?_ out _ _ ?_ ?_
  · intro o ho e he
    obtain ⟨n, c, y, x, rfl, hn, hc, hy, hx⟩ := inBounds4 ho
    simp only [backData, base_ravel, List.mem_cons, List.not_mem_nil, or_false] at he
    have hl : ∀ v w, ravel d.dsh [n, c, clampIdx v d.H, clampIdx w d.W] < prod d.dsh := fun v w =>
      ravel_lt ⟨hn, hc, clampIdx_lt _ _ (by omega), clampIdx_lt _ _ (by omega), trivial⟩
    rcases he with rfl | rfl | rfl | rfl <;> exact hl _ _
  · intro x o
    simp only [pixel, backData, wsum, List.map_cons, List.map_nil, List.sum_cons, List.sum_nil]
    ring
  · intro dy o
    simp only [backData, List.map_cons, List.map_nil, mul_one]

/-- A place is not (exactly) the centre of one of the S pixels. -/
def OffCentre (s : ℝ) (S : Nat) : Prop := ∀ m : Nat, m < S → s ≠ m

/-- Away from pixel centres the two neighbours stay the same. -/
theorem clampIdx_local (s : ℝ) (S : Nat) (hS : 1 ≤ S) (h : OffCentre s S) :
    ∀ᶠ s' in 𝓝 s, clampIdx ⌊s'⌋ S = clampIdx ⌊s⌋ S ∧ clampIdx (⌊s'⌋ + 1) S = clampIdx (⌊s⌋ + 1) S := by
  by_cases h0 : s < 0
  · filter_upwards [gt_mem_nhds h0] with s' h'
    have a : ⌊s⌋ < 0 := Int.floor_lt.mpr (by simpa using h0)
    have b : ⌊s'⌋ < 0 := Int.floor_lt.mpr (by simpa using h')
    rw [clampIdx_neg _ S hS (by omega), clampIdx_neg _ S hS (by omega), clampIdx_neg _ S hS (by omega), clampIdx_neg _ S hS (by omega)]
    exact ⟨rfl, rfl⟩
  · by_cases h1 : (S : ℝ) - 1 < s
    · filter_upwards [lt_mem_nhds h1] with s' h'
      have a : (S : ℤ) - 1 ≤ ⌊s⌋ := Int.le_floor.mpr (by push_cast; exact h1.le)
      have b : (S : ℤ) - 1 ≤ ⌊s'⌋ := Int.le_floor.mpr (by push_cast; exact h'.le)
      rw [clampIdx_big _ S hS a, clampIdx_big _ S hS b, clampIdx_big _ S hS (by omega), clampIdx_big _ S hS (by omega)]
      exact ⟨rfl, rfl⟩
    · push Not at h0 h1
      have f0 : 0 ≤ ⌊s⌋ := Int.floor_nonneg.mpr h0
      have f1 : ⌊s⌋ ≤ (S : ℤ) - 1 := by
        have := Int.floor_le s
        have : (⌊s⌋ : ℝ) ≤ ((S : ℤ) - 1 : ℤ) := by push_cast; linarith
        exact_mod_cast this
      have hne := h ⌊s⌋.toNat (by omega)
      have ecast : ((⌊s⌋.toNat : ℕ) : ℝ) = (⌊s⌋ : ℝ) := by
        have : ((⌊s⌋.toNat : ℕ) : ℤ) = ⌊s⌋ := Int.toNat_of_nonneg f0
        exact_mod_cast this
      rw [ecast] at hne
      have l1 : (⌊s⌋ : ℝ) < s := lt_of_le_of_ne (Int.floor_le s) (Ne.symm hne)
      filter_upwards [lt_mem_nhds l1, gt_mem_nhds (Int.lt_floor_add_one s)] with s' a b
      have : ⌊s'⌋ = ⌊s⌋ := Int.floor_eq_iff.mpr ⟨a.le, b⟩
      rw [this]; exact ⟨rfl, rfl⟩

/-- The right neighbour is the next pixel or the same one. -/
theorem clampIdx_next (v : ℤ) (S : Nat) (hS : 1 ≤ S) : clampIdx (v + 1) S = clampIdx v S + 1 ∨ clampIdx (v + 1) S = clampIdx v S := by
  by_cases a : v + 1 ≤ 0
  · right; rw [clampIdx_neg _ S hS a, clampIdx_neg _ S hS (by omega)]
  · by_cases b : (S : ℤ) - 1 ≤ v
    · right; rw [clampIdx_big _ S hS (by omega), clampIdx_big _ S hS b]
    · left; rw [clampIdx_in _ S (by omega) (by omega), clampIdx_in _ S (by omega) (by omega)]; omega

/-- C204: the gradient of the flow. For every image, and every flow that moves no pixel exactly onto the centre of a pixel (there
the output has a kink), backward computes the vector-Jacobian product with respect to the flow, also for pixels moved out of the
image; with accumulation it adds that to the old gradient. -/
theorem C204_flow_gradient_partial (d : Dim) (data flow out : Mem ℝ)
    (hoff : ∀ n y x, n < d.N → y < d.H → x < d.W → OffCentre (x + flow (ravel d.fsh [n, 0, y, x])) d.W ∧
      OffCentre (y + flow (ravel d.fsh [n, 1, y, x])) d.H) :
    (∀ dg, IsVJP (prod d.fsh) (prod d.dsh) (fun flow => forward d data flow out) flow
      (fun dy => callBackward (backwardFlow d data flow) false dy dg)) ∧
    ∀ dy dg dg' k, callBackward (backwardFlow d data flow) true dy dg k = dg k + callBackward (backwardFlow d data flow) false dy dg' k := by
  constructor
  swap
  · intro dy dg dg' k
    simp only [callBackward, Bool.false_eq_true, if_false, if_true, backwardFlow]
    rw [adds_eq, adds_eq _ zeros]; simp [zeros]
  intro dg
  simp only [callBackward, Bool.false_eq_true, if_false, backwardFlow, forward]
  refine sites_vjp (prod d.fsh) d.dsh (fun g o => pixel d data g o) flow out (fun o => backFlow d data flow (fun _ => 1) o) ?_ _ ?_ ?_
  · intro o ho e he
    obtain ⟨n, c, y, x, rfl, hn, hc, hy, hx⟩ := inBounds4 ho
    simp only [backFlow, List.mem_cons, List.not_mem_nil, or_false, fx_ravel, fy_ravel] at he
    rcases he with rfl | rfl
    · exact ravel_lt ⟨hn, by omega, hy, hx, trivial⟩
    · exact ravel_lt ⟨hn, by omega, hy, hx, trivial⟩
  · intro dy o
    simp only [backFlow, List.map_cons, List.map_nil, one_mul]
  · intro o ho c v hc
    obtain ⟨n, ch, y, x, rfl, hn, hch, hy, hx⟩ := inBounds4 ho
    obtain ⟨o0, o1⟩ := hoff n y x hn hy hx
    have l0 : ravel d.fsh [n, 0, y, x] < prod d.fsh := ravel_lt ⟨hn, by omega, hy, hx, trivial⟩
    have l1 : ravel d.fsh [n, 1, y, x] < prod d.fsh := ravel_lt ⟨hn, by omega, hy, hx, trivial⟩
    obtain ⟨c0, d0⟩ := hc _ l0
    obtain ⟨c1, d1⟩ := hc _ l1
    simp only [pixel, backFlow, fx_ravel, fy_ravel, base_ravel, List.getD_cons_zero, List.getD_cons_succ, List.map_cons, List.map_nil, List.sum_cons,
      List.sum_nil, one_mul]
    have q0 := d0.const_add (x : ℝ)
    have q1 := d1.const_add (y : ℝ)
    have ev0 := q0.continuousAt.eventually (by simp only [c0]; exact clampIdx_local _ d.W (by omega) o0)
    have ev1 := q1.continuousAt.eventually (by simp only [c1]; exact clampIdx_local _ d.H (by omega) o1)
    rw [← c0, ← c1] at *
    generalize hX : (x : ℝ) + c 0 (ravel d.fsh [n, 0, y, x]) = X at *
    generalize hY : (y : ℝ) + c 0 (ravel d.fsh [n, 1, y, x]) = Y at *
    generalize v (ravel d.fsh [n, 0, y, x]) = vx at *
    generalize v (ravel d.fsh [n, 1, y, x]) = vy at *
    have nx := clampIdx_next ⌊X⌋ d.W (by omega)
    have ny := clampIdx_next ⌊Y⌋ d.H (by omega)
    generalize clampIdx (⌊X⌋ + 1) d.W = xr at *
    generalize clampIdx (⌊Y⌋ + 1) d.H = yb at *
    generalize clampIdx ⌊X⌋ d.W = xl at *
    generalize clampIdx ⌊Y⌋ d.H = yt at *
    generalize htl : data (ravel d.dsh [n, ch, yt, xl]) = tl at *
    generalize htr : data (ravel d.dsh [n, ch, yt, xr]) = tr at *
    generalize hbl : data (ravel d.dsh [n, ch, yb, xl]) = bl at *
    generalize hbr : data (ravel d.dsh [n, ch, yb, xr]) = br at *
    have qa := q0.sub_const (xl : ℝ)
    have qb := q1.sub_const (yt : ℝ)
    have up := (qa.mul_const (tr - tl)).add_const tl
    have lo := (qa.mul_const (br - bl)).add_const bl
    have val := (qb.mul (lo.sub up)).add up
    refine (val.congr_of_eventuallyEq ?_).congr_deriv ?_
    · filter_upwards [ev0, ev1] with t h0 h1
      simp only [h0.1, h0.2, h1.1, h1.2, htl, htr, hbl, hbr]
      rfl
    · simp only [Pi.sub_apply, hX, hY]
      rcases nx with e | e <;> rcases ny with e' | e'
      · rw [e, e']; push_cast; ring
      · subst e'
        have a : tl = bl := by rw [← htl, ← hbl]
        have b : tr = br := by rw [← htr, ← hbr]
        rw [e, a, b]; push_cast; ring
      · subst e
        have a : tl = tr := by rw [← htl, ← htr]
        have b : bl = br := by rw [← hbl, ← hbr]
        rw [e', a, b]; push_cast; ring
      · subst e e'
        have a : tl = bl := by rw [← htl, ← hbl]
        have b : tr = br := by rw [← htr, ← hbr]
        have f : tl = tr := by rw [← htl, ← htr]
        rw [← b, ← a, ← f]; ring

theorem adds_outside (l : List (Nat × ℝ)) (m : Mem ℝ) (k : Nat) (h : ∀ p ∈ l, p.1 ≠ k) : adds l m k = m k := by
  rw [adds_eq]
  have : (l.map fun p => if p.1 = k then p.2 else 0) = l.map fun _ => (0 : ℝ) := List.map_congr_left fun p hp => if_neg (h p hp)
  rw [this]; simp

/-- C203, C204: backward writes nothing outside of the two gradient arrays. -/
theorem C203_inside (d : Dim) (data flow gout g : Mem ℝ) (a : Bool) (k : Nat) :
    (prod d.dsh ≤ k → backwardData d flow a gout g k = g k) ∧ (prod d.fsh ≤ k → backwardFlow d data flow a gout g k = g k) := by
  constructor
  · intro hk
    refine adds_outside _ _ _ fun e he => ?_
    rw [List.mem_flatMap] at he
    obtain ⟨o, ho, he⟩ := he
    obtain ⟨n, c, y, x, rfl, hn, hc, hy, hx⟩ := inBounds4 ((mem_indices _ _).mp ho)
    simp only [backData, base_ravel, List.mem_cons, List.not_mem_nil, or_false] at he
    have hl : ∀ v w, ravel d.dsh [n, c, clampIdx v d.H, clampIdx w d.W] < prod d.dsh := fun v w =>
      ravel_lt ⟨hn, hc, clampIdx_lt _ _ (by omega), clampIdx_lt _ _ (by omega), trivial⟩
    rcases he with rfl | rfl | rfl | rfl <;> exact ne_of_lt (lt_of_lt_of_le (hl _ _) hk)
  · intro hk
    refine adds_outside _ _ _ fun e he => ?_
    rw [List.mem_flatMap] at he
    obtain ⟨o, ho, he⟩ := he
    obtain ⟨n, c, y, x, rfl, hn, hc, hy, hx⟩ := inBounds4 ((mem_indices _ _).mp ho)
    simp only [backFlow, fx_ravel, fy_ravel, List.mem_cons, List.not_mem_nil, or_false] at he
    have hl : ∀ b < 2, ravel d.fsh [n, b, y, x] < prod d.fsh := fun b hb => ravel_lt ⟨hn, hb, hy, hx, trivial⟩
    rcases he with rfl | rfl
    · exact ne_of_lt (lt_of_lt_of_le (hl 0 (by omega)) hk)
    · exact ne_of_lt (lt_of_lt_of_le (hl 1 (by omega)) hk)

/-- C204, what is missing: at a pixel centre the output has a kink. Moving the left pixel of the image (0, 1) from its place to the
right raises its value, moving it to the left does not: the derivative does not exist. -/
theorem C204_kink (out : Mem ℝ) (t : ℝ) (h : |t| ≤ 1) :
    forward ⟨1, 1, 1, 2⟩ (fun k => if k = 1 then 1 else 0) (fun k => if k = 0 then t else 0) out 0 = max 0 t := by
  have h1 := C202_warp_by_flow ⟨1, 1, 1, 2⟩ (fun k => if k = 1 then 1 else 0) (fun k => if k = 0 then t else 0) out 0 0 0 0 (by decide) (by decide)
    (by decide) (by decide)
  rw [show ravel (Dim.dsh ⟨1, 1, 1, 2⟩) [0, 0, 0, 0] = 0 from rfl] at h1
  rw [h1]
  obtain ⟨ha, hb⟩ := abs_le.mp h
  simp only [Finset.sum_range_succ, Finset.sum_range_zero, zero_add, Dim.dsh, Dim.fsh, ravel, prod]
  simp [clamp, Warp.tri]
  rcases le_total t 0 with g | g
  · rw [max_eq_left g, min_eq_right (by linarith), max_eq_left g]; norm_num
  · rw [max_eq_right g, min_eq_right (by linarith), max_eq_right g, abs_of_nonpos (by linarith), max_eq_right (by linarith)]; ring

/-- Non-vacuous: half a pixel to the right is off centre. -/
example : OffCentre (3 + 1 / 2) 5 := by
  intro m hm h
  have : (7 : ℝ) = 2 * m := by linarith
  have : 7 = 2 * m := by exact_mod_cast this
  omega

end Verif.WarpFlow
