import Verif.Warp.Props
/-
Gradients of WarpByGrid with respect to the image and the grid; which shapes it accepts.
-/
namespace Verif.Warp
open Verif.ND Verif.Fn Verif.Act Verif.Elem Verif.Interp Filter Topology

/-! ### The gradient of the image -/

/-- Weighted gathers without an outer loop. -/
theorem weighted_grad1 (A : Nat) (qs : Shape) (cs : List Nat → List (Nat × ℝ)) (hcs : ∀ o, InBounds qs o → ∀ c ∈ cs o, c.1 < A)
    (y : Mem ℝ) (f : Mem ℝ → List Nat → ℝ) (bk : Mem ℝ → List Nat → List (Nat × ℝ)) (hf : ∀ x o, f x o = wsum (cs o) x)
    (hbk : ∀ dy o, bk dy o = (cs o).map fun c => (c.1, c.2 * dy (ravel qs o))) :
    GradOK A (prod qs) (fun x => puts ((indices qs).map fun o => (ravel qs o, f x o)) y)
      (callBackward fun _ dy dx => adds ((indices qs).flatMap fun o => bk dy o) dx) := by
  have h := weighted_grad 1 A qs cs hcs y
  simp only [outerLoop, List.range_one, List.flatMap_cons, List.flatMap_nil, List.append_nil, zero_mul, zero_add, one_mul, Prod.mk.eta,
    List.map_id', gatherW, scatterW] at h
  simp only [hf, hbk]
  exact h

/-- One corner: its position and weight, if it is on the image. -/
def corner2 (n : Dim2) (b c : Nat) (h w : ℤ) (wt : ℝ) : List (Nat × ℝ) :=
  if (h ≥ 0 ∧ h < n.Hi) ∧ (w ≥ 0 ∧ w < n.Wi) then [(ravel n.ish [b, c, h.toNat, w.toNat], wt)] else []

def corner3 (n : Dim3) (b c : Nat) (d h w : ℤ) (wt : ℝ) : List (Nat × ℝ) :=
  if (d ≥ 0 ∧ d < n.Di) ∧ (h ≥ 0 ∧ h < n.Hi) ∧ (w ≥ 0 ∧ w < n.Wi) then [(ravel n.ish [b, c, d.toNat, h.toNat, w.toNat], wt)] else []

theorem wsum_append (a b : List (Nat × ℝ)) (x : Mem ℝ) : wsum (a ++ b) x = wsum a x + wsum b x := by
  simp [wsum]

theorem wsum_corner2 (n : Dim2) (b c : Nat) (h w : ℤ) (wt : ℝ) (x : Mem ℝ) : wsum (corner2 n b c h w wt) x = wt * pixel2 n x b c h w := by
  unfold corner2 pixel2; split <;> simp [wsum]

theorem wsum_corner3 (n : Dim3) (b c : Nat) (d h w : ℤ) (wt : ℝ) (x : Mem ℝ) :
    wsum (corner3 n b c d h w wt) x = wt * pixel3 n x b c d h w := by
  unfold corner3 pixel3; split <;> simp [wsum]

theorem back2_corner (n : Dim2) (g p q : ℝ) (b c : Nat) (h w : ℤ) :
    back2 n g p q b c h w = (corner2 n b c h w (p * q)).map fun e => (e.1, e.2 * g) := by
  unfold back2 corner2; split <;> simp; ring

theorem back3_corner (n : Dim3) (g p q r : ℝ) (b c : Nat) (d h w : ℤ) :
    back3 n g p q r b c d h w = (corner3 n b c d h w (p * q * r)).map fun e => (e.1, e.2 * g) := by
  unfold back3 corner3; split <;> simp; ring

theorem corner2_lt (n : Dim2) (b c : Nat) (h w : ℤ) (wt : ℝ) (hb : b < n.B) (hc : c < n.C) : ∀ e ∈ corner2 n b c h w wt, e.1 < prod n.ish := by
  intro e he
  unfold corner2 at he
  split at he
  · rename_i hin
    simp only [List.mem_singleton] at he
    rw [he]
    exact ravel_lt ⟨hb, hc, by omega, by omega, trivial⟩
  · cases he

theorem corner3_lt (n : Dim3) (b c : Nat) (d h w : ℤ) (wt : ℝ) (hb : b < n.B) (hc : c < n.C) :
    ∀ e ∈ corner3 n b c d h w wt, e.1 < prod n.ish := by
  intro e he
  unfold corner3 at he
  split at he
  · rename_i hin
    simp only [List.mem_singleton] at he
    rw [he]
    exact ravel_lt ⟨hb, hc, by omega, by omega, by omega, trivial⟩
  · cases he

/-- The corners of an output pixel. -/
noncomputable def cs2 (lin : Bool) (p : Pad) (ac : Bool) (n : Dim2) (grid : Mem ℝ) (o : List Nat) : List (Nat × ℝ) :=
  let b := o.getD 0 0
  let c := o.getD 1 0
  let xf := src p ac (grid (gidx2 n o + 0)) n.Wi
  let yf := src p ac (grid (gidx2 n o + 1)) n.Hi
  if lin then
    corner2 n b c ⌊yf⌋ ⌊xf⌋ ((1 - (yf - ⌊yf⌋)) * (1 - (xf - ⌊xf⌋))) ++ corner2 n b c ⌊yf⌋ (⌊xf⌋ + 1) ((1 - (yf - ⌊yf⌋)) * (xf - ⌊xf⌋)) ++
      corner2 n b c (⌊yf⌋ + 1) ⌊xf⌋ ((yf - ⌊yf⌋) * (1 - (xf - ⌊xf⌋))) ++ corner2 n b c (⌊yf⌋ + 1) (⌊xf⌋ + 1) ((yf - ⌊yf⌋) * (xf - ⌊xf⌋))
  else corner2 n b c (round yf) (round xf) (1 * 1)

/-- The corners of an output voxel. -/
noncomputable def cs3 (lin : Bool) (p : Pad) (ac : Bool) (n : Dim3) (grid : Mem ℝ) (o : List Nat) : List (Nat × ℝ) :=
  let b := o.getD 0 0
  let c := o.getD 1 0
  let xf := src p ac (grid (gidx3 n o + 0)) n.Wi
  let yf := src p ac (grid (gidx3 n o + 1)) n.Hi
  let zf := src p ac (grid (gidx3 n o + 2)) n.Di
  let px0 := xf - ⌊xf⌋
  let py0 := yf - ⌊yf⌋
  let pz0 := zf - ⌊zf⌋
  if lin then
    corner3 n b c ⌊zf⌋ ⌊yf⌋ ⌊xf⌋ ((1 - pz0) * (1 - py0) * (1 - px0)) ++ corner3 n b c ⌊zf⌋ ⌊yf⌋ (⌊xf⌋ + 1) ((1 - pz0) * (1 - py0) * px0) ++
      corner3 n b c ⌊zf⌋ (⌊yf⌋ + 1) ⌊xf⌋ ((1 - pz0) * py0 * (1 - px0)) ++ corner3 n b c ⌊zf⌋ (⌊yf⌋ + 1) (⌊xf⌋ + 1) ((1 - pz0) * py0 * px0) ++
      corner3 n b c (⌊zf⌋ + 1) ⌊yf⌋ ⌊xf⌋ (pz0 * (1 - py0) * (1 - px0)) ++ corner3 n b c (⌊zf⌋ + 1) ⌊yf⌋ (⌊xf⌋ + 1) (pz0 * (1 - py0) * px0) ++
      corner3 n b c (⌊zf⌋ + 1) (⌊yf⌋ + 1) ⌊xf⌋ (pz0 * py0 * (1 - px0)) ++ corner3 n b c (⌊zf⌋ + 1) (⌊yf⌋ + 1) (⌊xf⌋ + 1) (pz0 * py0 * px0)
  else corner3 n b c (round zf) (round yf) (round xf) (1 * 1 * 1)

/-- Number of elements of input, grid and output of a kernel. -/
def Kern.xsize : Kern → Nat
  | .two n => prod n.ish
  | .three n => prod n.ish
  | .none => 0
def Kern.gsize : Kern → Nat
  | .two n => prod n.gsh
  | .three n => prod n.gsh
  | .none => 0
def Kern.ysize : Kern → Nat
  | .two n => prod n.osh
  | .three n => prod n.osh
  | .none => 0

/-- C194: the gradient of the image. In both modes, with every padding, for two and three dimensions and every grid (also far
outside of the image): backward computes the transpose of forward (which is linear in the image), whatever the gradient buffer
held; with accumulation it adds that to the old gradient. -/
theorem C194_image_gradient (ac : Bool) (s : Setup) (grid y : Mem ℝ) :
    GradOK s.kern.xsize s.kern.ysize (fun x => forward ac s x grid y) (callBackward (backwardData ac s grid)) := by
  obtain ⟨p, lin, kern, osh⟩ := s
  cases kern with
  | none =>
    simp only [forward, Kern.xsize, Kern.ysize]
    refine ⟨fun dx x dy => by simp [dot, callBackward], fun dy dx dx' k => by simp [callBackward, backwardData, zeros]⟩
  | two n =>
    simp only [forward, Kern.xsize, Kern.ysize]
    refine weighted_grad1 (prod n.ish) n.osh (cs2 lin p ac n grid) ?_ y _ _ ?_ ?_
    · intro o ho
      obtain ⟨b, c, h, w, rfl, hb, hc, -, -⟩ := inBounds4 ho
      have hl : ∀ h w wt, ∀ e ∈ corner2 n b c h w wt, e.1 < prod n.ish := fun h w wt => corner2_lt n b c h w wt hb hc
      cases lin
      · exact hl _ _ _
      · intro e he
        simp only [cs2, if_true, List.getD_cons_zero, List.getD_cons_succ, List.mem_append] at he
        rcases he with ((he | he) | he) | he <;> exact hl _ _ _ e he
    · intro x o
      cases lin
      · simp only [Bool.false_eq_true, if_false, nearest2, cs2, wsum_corner2]; ring
      · simp only [if_true, linear2, cs2, wsum_append, wsum_corner2]; ring
    · intro dy o
      cases lin
      · simp only [Bool.false_eq_true, if_false, nearestData2, cs2, back2_corner]
      · simp only [if_true, linearData2, cs2, back2_corner, List.map_append]
  | three n =>
    simp only [forward, Kern.xsize, Kern.ysize]
    refine weighted_grad1 (prod n.ish) n.osh (cs3 lin p ac n grid) ?_ y _ _ ?_ ?_
    · intro o ho
      obtain ⟨b, c, d, h, w, rfl, hb, hc, -, -, -⟩ := inBounds5 ho
      have hl : ∀ d h w wt, ∀ e ∈ corner3 n b c d h w wt, e.1 < prod n.ish := fun d h w wt => corner3_lt n b c d h w wt hb hc
      cases lin
      · exact hl _ _ _ _
      · intro e he
        simp only [cs3, if_true, List.getD_cons_zero, List.getD_cons_succ, List.mem_append] at he
        rcases he with ((((((he | he) | he) | he) | he) | he) | he) | he <;> exact hl _ _ _ _ e he
    · intro x o
      cases lin
      · simp only [Bool.false_eq_true, if_false, nearest3, cs3, wsum_corner3]; ring
      · simp only [if_true, linear3, cs3, wsum_append, wsum_corner3]; ring
    · intro dy o
      cases lin
      · simp only [Bool.false_eq_true, if_false, nearestData3, cs3, back3_corner]
      · simp only [if_true, linearData3, cs3, back3_corner, List.map_append]

/-! ### The gradient of the grid -/

theorem hasDerivAt_list_sum {α} (l : List α) (f : α → ℝ → ℝ) (d : α → ℝ) (h : ∀ a ∈ l, HasDerivAt (f a) (d a) 0) :
    HasDerivAt (fun t => (l.map fun a => f a t).sum) (l.map d).sum 0 := by
  induction l with
  | nil => simpa using hasDerivAt_const (0 : ℝ) (0 : ℝ)
  | cons a l ih =>
    simp only [List.map_cons, List.sum_cons]
    exact (h a List.mem_cons_self).add (ih fun b hb => h b (List.mem_cons_of_mem _ hb))

/-- A loop whose outputs depend on a few elements each, with the partial derivatives D. -/
theorem sites_vjp (m : Nat) (qs : Shape) (φ : Mem ℝ → List Nat → ℝ) (grid y : Mem ℝ) (D : List Nat → List (Nat × ℝ))
    (hD : ∀ o, InBounds qs o → ∀ e ∈ D o, e.1 < m) (bk : Mem ℝ → List Nat → List (Nat × ℝ))
    (hbk : ∀ dy o, bk dy o = (D o).map fun e => (e.1, dy (ravel qs o) * e.2))
    (hφ : ∀ o, InBounds qs o → ∀ (c : ℝ → Mem ℝ) (v : Mem ℝ), (∀ k, k < m → c 0 k = grid k ∧ HasDerivAt (fun t => c t k) (v k) 0) →
      HasDerivAt (fun t => φ (c t) o) ((D o).map fun e => v e.1 * e.2).sum 0) :
    IsVJP m (prod qs) (fun g => puts ((indices qs).map fun o => (ravel qs o, φ g o)) y) grid
      (fun dy => adds ((indices qs).flatMap fun o => bk dy o) zeros) := by
  intro c v hc dy
  have hf : ∀ g, ((indices qs).map fun o => (ravel qs o, φ g o)).map Prod.fst = List.range (prod qs) := by
    intro g
    rw [List.map_map]
    have : (Prod.fst ∘ fun o => (ravel qs o, φ g o)) = ravel qs := rfl
    rw [this, indices_ravel]
  have e1 : (fun t => dot (prod qs) dy (puts ((indices qs).map fun o => (ravel qs o, φ (c t) o)) y)) =
      fun t => ((indices qs).map fun o => dy (ravel qs o) * φ (c t) o).sum := by
    funext t
    rw [dot_puts _ _ _ _ (hf _), List.map_map]; rfl
  rw [e1]
  have e2 : dot m v (adds ((indices qs).flatMap fun o => bk dy o) zeros) =
      ((indices qs).map fun o => dy (ravel qs o) * ((D o).map fun e => v e.1 * e.2).sum).sum := by
    have : dot m v (adds ((indices qs).flatMap fun o => bk dy o) zeros) = dot m (adds ((indices qs).flatMap fun o => bk dy o) zeros) v :=
      Finset.sum_congr rfl fun i _ => mul_comm _ _
    rw [this, dot_adds, Interp.sum_flatMap]
    · congr 1
      apply List.map_congr_left
      intro o _
      rw [hbk, List.map_map, ← List.sum_map_mul_left]
      congr 1
      apply List.map_congr_left
      intro e _
      simp only [Function.comp]; ring
    · intro p hp
      simp only [List.mem_flatMap, hbk, List.mem_map] at hp
      obtain ⟨o, ho, e, he, rfl⟩ := hp
      exact hD o ((mem_indices _ _).mp ho) e he
  rw [e2]
  exact hasDerivAt_list_sum _ _ _ fun o ho => (hφ o ((mem_indices _ _).mp ho) c v hc).const_mul _

/-- The partial derivatives of an output pixel. -/
noncomputable def D2 (p : Pad) (ac : Bool) (n : Dim2) (x grid : Mem ℝ) (o : List Nat) : List (Nat × ℝ) :=
  linearGrid2 p ac n x grid (fun _ => 1) o

noncomputable def D3 (p : Pad) (ac : Bool) (n : Dim3) (x grid : Mem ℝ) (o : List Nat) : List (Nat × ℝ) :=
  linearGrid3 p ac n x grid (fun _ => 1) o

/-- All coordinates of the grid are smooth: x along the width, y along the height, z along the depth. -/
def SmoothGrid (ac : Bool) (grid : Mem ℝ) : Kern → Prop
  | .two n => ∀ b h w, b < n.B → h < n.Ho → w < n.Wo →
      Smooth ac (grid (ravel n.gsh [b, h, w, 0])) n.Wi ∧ Smooth ac (grid (ravel n.gsh [b, h, w, 1])) n.Hi
  | .three n => ∀ b d h w, b < n.B → d < n.Do → h < n.Ho → w < n.Wo →
      Smooth ac (grid (ravel n.gsh [b, d, h, w, 0])) n.Wi ∧ Smooth ac (grid (ravel n.gsh [b, d, h, w, 1])) n.Hi ∧
      Smooth ac (grid (ravel n.gsh [b, d, h, w, 2])) n.Di
  | .none => True

/-- The sizes: at least one pixel along every axis, and as many coordinates per grid point as there are axes. -/
def Sizes : Kern → Prop
  | .two n => 1 ≤ n.Hi ∧ 1 ≤ n.Wi ∧ 2 ≤ n.L
  | .three n => 1 ≤ n.Di ∧ 1 ≤ n.Hi ∧ 1 ≤ n.Wi ∧ 3 ≤ n.L
  | .none => True

/-- C195: the gradient of the grid. In the linear mode, for every image and every grid whose points do not fall on pixel centres:
backward computes the vector-Jacobian product with respect to the grid, with every padding, also where the grid leaves the image;
with accumulation it adds to the old gradient. -/
theorem C195_grid_gradient_partial (ac : Bool) (s : Setup) (hl : s.lin = true) (hsz : Sizes s.kern) (x grid y : Mem ℝ)
    (hsm : SmoothGrid ac grid s.kern) :
    ∃ bw, backwardGrid ac s x grid = some bw ∧
      (∀ dg, IsVJP s.kern.gsize s.kern.ysize (fun g => forward ac s x g y) grid (fun dy => callBackward bw false dy dg)) ∧
      ∀ dy dg dg' k, callBackward bw true dy dg k = dg k + callBackward bw false dy dg' k := by
  obtain ⟨p, lin, kern, osh⟩ := s
  simp only at hl; subst hl
  have acc : ∀ (l : Mem ℝ → List (Nat × ℝ)) dy dg dg' k,
      callBackward (fun _ dy dg => adds (l dy) dg) true dy dg k = dg k + callBackward (fun _ dy dg => adds (l dy) dg) false dy dg' k := by
    intro l dy dg dg' k
    simp only [callBackward, Bool.false_eq_true, if_false, if_true]
    rw [adds_eq, adds_eq _ zeros]; simp [zeros]
  cases kern with
  | none =>
    refine ⟨_, rfl, fun dg c v _ dy => ?_, fun dy dg dg' k => by simp [callBackward, zeros]⟩
    simp only [Kern.gsize, Kern.ysize, dot, Finset.range_zero, Finset.sum_empty]
    exact hasDerivAt_const _ _
  | two n =>
    obtain ⟨z1, z2, z3⟩ := hsz
    refine ⟨_, rfl, fun dg => ?_, acc _⟩
    simp only [forward, if_true, Kern.gsize, Kern.ysize, callBackward, Bool.false_eq_true, if_false]
    refine sites_vjp (prod n.gsh) n.osh (fun g o => linear2 p ac n x g o) grid y (D2 p ac n x grid) ?_ _ ?_ ?_
    · intro o ho e he
      obtain ⟨b, c, h, w, rfl, hb, hc, hh, hw⟩ := inBounds4 ho
      simp only [D2, linearGrid2, List.mem_cons, List.not_mem_nil, or_false] at he
      have e0 : gidx2 n [b, c, h, w] + 0 = ravel n.gsh [b, h, w, 0] := by simp [gidx2]
      have e1 : gidx2 n [b, c, h, w] + 1 = ravel n.gsh [b, h, w, 1] := by simp [gidx2, ravel, Dim2.gsh, prod]; ring
      rcases he with rfl | rfl
      · simp only []; rw [e0]; exact ravel_lt ⟨hb, hh, hw, by omega, trivial⟩
      · simp only []; rw [e1]; exact ravel_lt ⟨hb, hh, hw, by omega, trivial⟩
    · intro dy o
      simp only [D2, linearGrid2, List.map_cons, List.map_nil, one_mul, mul_assoc]
    · intro o ho c v hc
      obtain ⟨b, ch, h, w, rfl, hb, hch, hh, hw⟩ := inBounds4 ho
      have e0 : gidx2 n [b, ch, h, w] + 0 = ravel n.gsh [b, h, w, 0] := by simp [gidx2]
      have e1 : gidx2 n [b, ch, h, w] + 1 = ravel n.gsh [b, h, w, 1] := by simp [gidx2, ravel, Dim2.gsh, prod]; ring
      obtain ⟨s0, s1⟩ := hsm b h w hb hh hw
      have l0 : ravel n.gsh [b, h, w, 0] < prod n.gsh := ravel_lt ⟨hb, hh, hw, by omega, trivial⟩
      have l1 : ravel n.gsh [b, h, w, 1] < prod n.gsh := ravel_lt ⟨hb, hh, hw, by omega, trivial⟩
      obtain ⟨c0, d0⟩ := hc _ l0
      obtain ⟨c1, d1⟩ := hc _ l1
      obtain ⟨fx, dx⟩ := src_path p ac n.Wi z2 (fun t => c t (ravel n.gsh [b, h, w, 0])) _ d0 (by simp only [c0]; exact s0)
      obtain ⟨fy, dy⟩ := src_path p ac n.Hi z1 (fun t => c t (ravel n.gsh [b, h, w, 1])) _ d1 (by simp only [c1]; exact s1)
      simp only [c0] at fx dx
      simp only [c1] at fy dy
      simp only [D2, linearGrid2, linear2, e0, e1, List.map_cons, List.map_nil, List.sum_cons, List.sum_nil, List.getD_cons_zero, List.getD_cons_succ]
      change HasDerivAt _ _ _
      simp only [src] at fx fy dx dy ⊢
      generalize hX : findex p ac (unnormalize ac (grid (ravel n.gsh [b, h, w, 0])) n.Wi) n.Wi = X at fx ⊢
      generalize hY : findex p ac (unnormalize ac (grid (ravel n.gsh [b, h, w, 1])) n.Hi) n.Hi = Y at fy ⊢
      generalize gradCoef p ac (unnormalize ac (grid (ravel n.gsh [b, h, w, 0])) n.Wi) n.Wi = κx at dx ⊢
      generalize gradCoef p ac (unnormalize ac (grid (ravel n.gsh [b, h, w, 1])) n.Hi) n.Hi = κy at dy ⊢
      generalize v (ravel n.gsh [b, h, w, 0]) = vx at dx ⊢
      generalize v (ravel n.gsh [b, h, w, 1]) = vy at dy ⊢
      have qx := dx.sub_const (⌊X⌋ : ℝ)
      have qy := dy.sub_const (⌊Y⌋ : ℝ)
      have qx' := qx.const_sub 1
      have qy' := qy.const_sub 1
      have val : HasDerivAt _ _ (0 : ℝ) :=
        (((((qy'.const_mul (pixel2 n x b ch ⌊Y⌋ ⌊X⌋)).mul qx').add ((qy'.const_mul (pixel2 n x b ch ⌊Y⌋ (⌊X⌋ + 1))).mul qx)).add
          ((qy.const_mul (pixel2 n x b ch (⌊Y⌋ + 1) ⌊X⌋)).mul qx')).add ((qy.const_mul (pixel2 n x b ch (⌊Y⌋ + 1) (⌊X⌋ + 1))).mul qx))
      refine (val.congr_of_eventuallyEq ?_).congr_deriv ?_
      · filter_upwards [fx, fy] with t ht ht'
        rw [ht, ht']
        rfl
      · simp only [c0, c1, hX, hY]; ring
  | three n =>
    obtain ⟨z0, z1, z2, z3⟩ := hsz
    refine ⟨_, rfl, fun dg => ?_, acc _⟩
    simp only [forward, if_true, Kern.gsize, Kern.ysize, callBackward, Bool.false_eq_true, if_false]
    refine sites_vjp (prod n.gsh) n.osh (fun g o => linear3 p ac n x g o) grid y (D3 p ac n x grid) ?_ _ ?_ ?_
    · intro o ho e he
      obtain ⟨b, c, d, h, w, rfl, hb, hc, hd, hh, hw⟩ := inBounds5 ho
      simp only [D3, linearGrid3, List.mem_cons, List.not_mem_nil, or_false] at he
      have e0 : gidx3 n [b, c, d, h, w] + 0 = ravel n.gsh [b, d, h, w, 0] := by simp [gidx3]
      have e1 : gidx3 n [b, c, d, h, w] + 1 = ravel n.gsh [b, d, h, w, 1] := by simp [gidx3, ravel, Dim3.gsh, prod]; ring
      have e2 : gidx3 n [b, c, d, h, w] + 2 = ravel n.gsh [b, d, h, w, 2] := by simp [gidx3, ravel, Dim3.gsh, prod]; ring
      rcases he with rfl | rfl | rfl
      · simp only []; rw [e0]; exact ravel_lt ⟨hb, hd, hh, hw, by omega, trivial⟩
      · simp only []; rw [e1]; exact ravel_lt ⟨hb, hd, hh, hw, by omega, trivial⟩
      · simp only []; rw [e2]; exact ravel_lt ⟨hb, hd, hh, hw, by omega, trivial⟩
    · intro dy o
      simp only [D3, linearGrid3, List.map_cons, List.map_nil, one_mul, mul_assoc]
    · intro o ho c v hc
      obtain ⟨b, ch, d, h, w, rfl, hb, hch, hd, hh, hw⟩ := inBounds5 ho
      have e0 : gidx3 n [b, ch, d, h, w] + 0 = ravel n.gsh [b, d, h, w, 0] := by simp [gidx3]
      have e1 : gidx3 n [b, ch, d, h, w] + 1 = ravel n.gsh [b, d, h, w, 1] := by simp [gidx3, ravel, Dim3.gsh, prod]; ring
      have e2 : gidx3 n [b, ch, d, h, w] + 2 = ravel n.gsh [b, d, h, w, 2] := by simp [gidx3, ravel, Dim3.gsh, prod]; ring
      obtain ⟨s0, s1, s2⟩ := hsm b d h w hb hd hh hw
      have l0 : ravel n.gsh [b, d, h, w, 0] < prod n.gsh := ravel_lt ⟨hb, hd, hh, hw, by omega, trivial⟩
      have l1 : ravel n.gsh [b, d, h, w, 1] < prod n.gsh := ravel_lt ⟨hb, hd, hh, hw, by omega, trivial⟩
      have l2 : ravel n.gsh [b, d, h, w, 2] < prod n.gsh := ravel_lt ⟨hb, hd, hh, hw, by omega, trivial⟩
      obtain ⟨c0, d0⟩ := hc _ l0
      obtain ⟨c1, d1⟩ := hc _ l1
      obtain ⟨c2, d2⟩ := hc _ l2
      obtain ⟨fx, dx⟩ := src_path p ac n.Wi z2 (fun t => c t (ravel n.gsh [b, d, h, w, 0])) _ d0 (by simp only [c0]; exact s0)
      obtain ⟨fy, dy⟩ := src_path p ac n.Hi z1 (fun t => c t (ravel n.gsh [b, d, h, w, 1])) _ d1 (by simp only [c1]; exact s1)
      obtain ⟨fz, dz⟩ := src_path p ac n.Di z0 (fun t => c t (ravel n.gsh [b, d, h, w, 2])) _ d2 (by simp only [c2]; exact s2)
      simp only [c0] at fx dx
      simp only [c1] at fy dy
      simp only [c2] at fz dz
      simp only [D3, linearGrid3, linear3, e0, e1, e2, List.map_cons, List.map_nil, List.sum_cons, List.sum_nil, List.getD_cons_zero, List.getD_cons_succ]
      change HasDerivAt _ _ _
      simp only [src] at fx fy fz dx dy dz ⊢
      generalize hX : findex p ac (unnormalize ac (grid (ravel n.gsh [b, d, h, w, 0])) n.Wi) n.Wi = X at fx ⊢
      generalize hY : findex p ac (unnormalize ac (grid (ravel n.gsh [b, d, h, w, 1])) n.Hi) n.Hi = Y at fy ⊢
      generalize hZ : findex p ac (unnormalize ac (grid (ravel n.gsh [b, d, h, w, 2])) n.Di) n.Di = Z at fz ⊢
      generalize gradCoef p ac (unnormalize ac (grid (ravel n.gsh [b, d, h, w, 0])) n.Wi) n.Wi = κx at dx ⊢
      generalize gradCoef p ac (unnormalize ac (grid (ravel n.gsh [b, d, h, w, 1])) n.Hi) n.Hi = κy at dy ⊢
      generalize gradCoef p ac (unnormalize ac (grid (ravel n.gsh [b, d, h, w, 2])) n.Di) n.Di = κz at dz ⊢
      generalize v (ravel n.gsh [b, d, h, w, 0]) = vx at dx ⊢
      generalize v (ravel n.gsh [b, d, h, w, 1]) = vy at dy ⊢
      generalize v (ravel n.gsh [b, d, h, w, 2]) = vz at dz ⊢
      have qx := dx.sub_const (⌊X⌋ : ℝ)
      have qy := dy.sub_const (⌊Y⌋ : ℝ)
      have qz := dz.sub_const (⌊Z⌋ : ℝ)
      have qx' := qx.const_sub 1
      have qy' := qy.const_sub 1
      have qz' := qz.const_sub 1
      have val : HasDerivAt _ _ (0 : ℝ) :=
        ((((((((((qz'.const_mul (pixel3 n x b ch ⌊Z⌋ ⌊Y⌋ ⌊X⌋)).mul qy').mul qx').add
          (((qz'.const_mul (pixel3 n x b ch ⌊Z⌋ ⌊Y⌋ (⌊X⌋ + 1))).mul qy').mul qx)).add
          (((qz'.const_mul (pixel3 n x b ch ⌊Z⌋ (⌊Y⌋ + 1) ⌊X⌋)).mul qy).mul qx')).add
          (((qz'.const_mul (pixel3 n x b ch ⌊Z⌋ (⌊Y⌋ + 1) (⌊X⌋ + 1))).mul qy).mul qx)).add
          (((qz.const_mul (pixel3 n x b ch (⌊Z⌋ + 1) ⌊Y⌋ ⌊X⌋)).mul qy').mul qx')).add
          (((qz.const_mul (pixel3 n x b ch (⌊Z⌋ + 1) ⌊Y⌋ (⌊X⌋ + 1))).mul qy').mul qx)).add
          (((qz.const_mul (pixel3 n x b ch (⌊Z⌋ + 1) (⌊Y⌋ + 1) ⌊X⌋)).mul qy).mul qx')).add
          (((qz.const_mul (pixel3 n x b ch (⌊Z⌋ + 1) (⌊Y⌋ + 1) (⌊X⌋ + 1))).mul qy).mul qx))
      refine (val.congr_of_eventuallyEq ?_).congr_deriv ?_
      · filter_upwards [fx, fy, fz] with t ht ht' ht''
        rw [ht, ht', ht'']
        rfl
      · simp only [Pi.mul_apply, c0, c1, c2, hX, hY, hZ]; ring

/-- C195, what the code refuses: in the nearest mode (a step function of the grid) backward for the grid raises an error. -/
theorem C195_nearest_refused (ac : Bool) (s : Setup) (hl : s.lin = false) (n : Dim2) (hn : s.kern = .two n) (x grid : Mem ℝ) :
    backwardGrid ac s x grid = none := by
  simp only [backwardGrid, hn, hl, Bool.false_eq_true, if_false]

end Verif.Warp
