import Verif.Warp.Grad
import Verif.Elem.BatchMatmulProps
import Verif.Interp.Axis
/-
AffineGrid: model /repo/src/nbla/function/generic/affine_grid.cpp, what it computes, its gradient, and its composition with
WarpByGrid. The matrix product is the model of BatchMatmul (Verif.Elem). 0/0 of the floating point numbers is the parameter
`nan`: the theorems must hold for whatever it is.
-/
namespace Verif.Warp
open Verif.ND Verif.Fn Verif.Act Verif.Elem Verif.Interp Filter Topology

/-! ### Model -/

/-- A quotient; a division by zero gives `nan`. -/
noncomputable def fdiv (nan a b : ℝ) : ℝ := if b = 0 then nan else a / b

/-- The coordinate of pixel i of S (affine_grid.cpp:37-40, 63-68). -/
noncomputable def coord (nan : ℝ) (ac : Bool) (i S : Nat) : ℝ :=
  let y := fdiv nan (2 * i) ((S : ℝ) - 1) - 1
  if ac then y else y * (((S : ℝ) - 1) / S)

/-- generate_target_grid_2d (affine_grid.cpp:24-48): `idx++` three times per point. -/
noncomputable def target2 (nan : ℝ) (ac : Bool) (B H W : Nat) (m : Mem ℝ) : Mem ℝ :=
  puts ((indices [B, H, W]).flatMap fun o =>
    let idx := ravel [B, H, W] o * 3
    [(idx + 0, coord nan ac (o.getD 2 0) W), (idx + 1, coord nan ac (o.getD 1 0) H), (idx + 2, 1)]) m

/-- generate_target_grid_3d (affine_grid.cpp:50-78). -/
noncomputable def target3 (nan : ℝ) (ac : Bool) (B D H W : Nat) (m : Mem ℝ) : Mem ℝ :=
  puts ((indices [B, D, H, W]).flatMap fun o =>
    let idx := ravel [B, D, H, W, 4] [o.getD 0 0, o.getD 1 0, o.getD 2 0, o.getD 3 0, 0]
    [(idx + 0, coord nan ac (o.getD 3 0) W), (idx + 1, coord nan ac (o.getD 2 0) H), (idx + 2, coord nan ac (o.getD 1 0) D), (idx + 3, 1)]) m

/-- AffineGrid::setup_impl (affine_grid.cpp:80-106): the shape of the grid. -/
def affineSetup (size : List Nat) (tsh : Shape) : Except String Shape :=
  let B := tsh.getD 0 0
  match size with
  | [H, W] => if tsh.getD 1 0 = 2 ∧ tsh.getD 2 0 = 3 then .ok [B, H, W, 2] else .error "Shape of theta must be (B, 2, 3) for 2D."
  | [D, H, W] => if tsh.getD 1 0 = 3 ∧ tsh.getD 2 0 = 4 then .ok [B, D, H, W, 3] else .error "Shape of theta must be (B, 3, 4) for 3D."
  | _ => .error "2D or 3D is only supported."

/-- Initial contents of temporaries. -/
structure Tmp where
  (grid bufa bufb bufg : Mem ℝ)

/-- AffineGrid::forward_impl (affine_grid.cpp:108-156). -/
noncomputable def affineForward (nan : ℝ) (ac : Bool) (size : List Nat) (tsh : Shape) (t : Tmp) (theta y : Mem ℝ) : Except String (Mem ℝ) :=
  let B := tsh.getD 0 0
  match size with
  | [H, W] =>
    match bmmSetup false true [B, H * W, 3] tsh with
    | .error e => .error e
    | .ok (f, _) => bmmForward f [B, H * W, 3] tsh t.bufa t.bufb (target2 nan ac B H W t.grid) theta y
  | [D, H, W] =>
    match bmmSetup false true [B, D * H * W, 4] tsh with
    | .error e => .error e
    | .ok (f, _) => bmmForward f [B, D * H * W, 4] tsh t.bufa t.bufb (target3 nan ac B D H W t.grid) theta y
  | _ => .ok y

/-- AffineGrid::backward_impl (affine_grid.cpp:158-214). -/
noncomputable def affineBackward (nan : ℝ) (ac : Bool) (size : List Nat) (tsh : Shape) (t : Tmp) (accum : Bool) (dy dtheta : Mem ℝ) : Except String (Mem ℝ) :=
  let B := tsh.getD 0 0
  match size with
  | [H, W] =>
    match bmmSetup false true [B, H * W, 3] tsh with
    | .error e => .error e
    | .ok (f, _) => bmmBackwardB f [B, H * W, 3] tsh t.bufg t.bufa (target2 nan ac B H W t.grid) accum dy dtheta
  | [D, H, W] =>
    match bmmSetup false true [B, D * H * W, 4] tsh with
    | .error e => .error e
    | .ok (f, _) => bmmBackwardB f [B, D * H * W, 4] tsh t.bufg t.bufa (target3 nan ac B D H W t.grid) accum dy dtheta
  | _ => .ok dtheta

/-! ### Specification -/

/-- The normalised coordinate of pixel i of S: the corner pixels' centres, respectively the outer edges of the corner pixels,
are -1 and 1. -/
noncomputable def normalised (ac : Bool) (i S : Nat) : ℝ := if ac then 2 * i / ((S : ℝ) - 1) - 1 else (2 * i + 1) / S - 1

/-! ### Proofs -/

theorem coord_normalised (nan : ℝ) (ac : Bool) (i S : Nat) (hS : 2 ≤ S) : coord nan ac i S = normalised ac i S := by
  have h2 : (2 : ℝ) ≤ S := by exact_mod_cast hS
  have h1 : (S : ℝ) - 1 ≠ 0 := by linarith
  have h0 : (S : ℝ) ≠ 0 := by linarith
  cases ac
  · simp only [coord, normalised, fdiv, if_neg h1, Bool.false_eq_true, if_false]
    field_simp; ring
  · simp only [coord, normalised, fdiv, if_neg h1, if_true]

/-- A coordinate, with 1 after the last one. -/
theorem points_at (qs : Shape) (c : Nat) (vals : List Nat → Nat → ℝ) (m : Mem ℝ) (o : List Nat) (ho : InBounds qs o) (j : Nat) (hj : j < c) :
    puts ((indices qs).flatMap fun o => (List.range c).map fun j => (ravel qs o * c + j, vals o j)) m (ravel qs o * c + j) = vals o j := by
  refine (puts_spec _ m).1 ?_ (ravel qs o * c + j, vals o j) ?_
  · intro p hp q hq e
    simp only [List.mem_flatMap, List.mem_map, List.mem_range] at hp hq
    obtain ⟨o1, h1, j1, hj1, rfl⟩ := hp
    obtain ⟨o2, h2, j2, hj2, rfl⟩ := hq
    simp only at e
    have ej : j1 = j2 := by
      have a := congrArg (· % c) e
      simpa [Nat.mul_comm _ c, Nat.mul_add_mod, Nat.mod_eq_of_lt hj1, Nat.mod_eq_of_lt hj2] using a
    subst ej
    have eo : ravel qs o1 = ravel qs o2 := by
      have a : ravel qs o1 * c = ravel qs o2 * c := by omega
      exact Nat.eq_of_mul_eq_mul_right (by omega) a
    rw [ravel_inj _ _ _ ((mem_indices _ _).mp h1) ((mem_indices _ _).mp h2) eo]
  · simp only [List.mem_flatMap, List.mem_map, List.mem_range]
    exact ⟨o, (mem_indices _ _).mpr ho, j, hj, rfl⟩

/-- The four numbers of a point. -/
noncomputable def pt (cs : List ℝ) (j : Nat) : ℝ := (cs ++ [1]).getD j 0

theorem target2_at (nan : ℝ) (ac : Bool) (B H W : Nat) (m : Mem ℝ) (b h w : Nat) (hb : b < B) (hh : h < H) (hw : w < W) (j : Nat) (hj : j < 3) :
    target2 nan ac B H W m (ravel [B, H * W, 3] [b, h * W + w, j]) = pt [coord nan ac w W, coord nan ac h H] j := by
  have e : target2 nan ac B H W m = puts ((indices [B, H, W]).flatMap fun o => (List.range 3).map fun j =>
      (ravel [B, H, W] o * 3 + j, pt [coord nan ac (o.getD 2 0) W, coord nan ac (o.getD 1 0) H] j)) m := rfl
  have := points_at [B, H, W] 3 (fun o j => pt [coord nan ac (o.getD 2 0) W, coord nan ac (o.getD 1 0) H] j) m [b, h, w] ⟨hb, hh, hw, trivial⟩ j hj
  rw [← e] at this
  simp only [List.getD_cons_zero, List.getD_cons_succ] at this
  rw [← this]
  congr 1
  simp [ravel, prod]; ring

theorem target3_at (nan : ℝ) (ac : Bool) (B D H W : Nat) (m : Mem ℝ) (b d h w : Nat) (hb : b < B) (hd : d < D) (hh : h < H) (hw : w < W)
    (j : Nat) (hj : j < 4) :
    target3 nan ac B D H W m (ravel [B, D * H * W, 4] [b, (d * H + h) * W + w, j]) = pt [coord nan ac w W, coord nan ac h H, coord nan ac d D] j := by
  have e : target3 nan ac B D H W m = puts ((indices [B, D, H, W]).flatMap fun o => (List.range 4).map fun j =>
      (ravel [B, D, H, W] o * 4 + j, pt [coord nan ac (o.getD 3 0) W, coord nan ac (o.getD 2 0) H, coord nan ac (o.getD 1 0) D] j)) m := by
    unfold target3
    congr 1
    apply flatMap_congr'
    intro o ho
    obtain ⟨i0, i1, i2, i3, rfl, -⟩ := inBounds4 ((mem_indices _ _).mp ho)
    have e : ravel [B, D, H, W, 4] [i0, i1, i2, i3, 0] = ravel [B, D, H, W] [i0, i1, i2, i3] * 4 := by simp [ravel, prod]; ring
    simp only [List.getD_cons_zero, List.getD_cons_succ, e]
    rfl
  have := points_at [B, D, H, W] 4 (fun o j => pt [coord nan ac (o.getD 3 0) W, coord nan ac (o.getD 2 0) H, coord nan ac (o.getD 1 0) D] j) m
    [b, d, h, w] ⟨hb, hd, hh, hw, trivial⟩ j hj
  rw [← e] at this
  simp only [List.getD_cons_zero, List.getD_cons_succ] at this
  rw [← this]
  congr 1
  simp [ravel, prod]; ring

/-- The product with the transposed matrices: points (B, N, c) and matrices (B, d, c). -/
theorem bmmT (B N c d : Nat) (bufa bufb a b y : Mem ℝ) :
    ∃ f r, bmmSetup false true [B, N, c] [B, d, c] = .ok (f, [B, N, d]) ∧
      bmmForward f [B, N, c] [B, d, c] bufa bufb a b y = .ok r ∧
      ∀ s p i, s < B → p < N → i < d → r (ravel [B, N, d] [s, p, i]) =
        ∑ k ∈ Finset.range c, a (ravel [B, N, c] [s, p, k]) * b (ravel [B, d, c] [s, i, k]) := by
  have hset : bmmSetup false true ([B] ++ [N, c]) ([B] ++ [d, c]) = .ok (⟨false, true, N, c, d, c, [B], false, false⟩, [B] ++ [N, d]) := by
    by_cases h1 : B = 1
    · subst h1; simp [bmmSetup, bmmBatch]
    · simp [bmmSetup, bmmBatch, h1]
  obtain ⟨O, r, hr, hO, hout, hv⟩ := C87_bmm false true [B] [B] N c d c _ _ hset bufa bufb a b y
  have hO' : O = [B] := by
    have := hout
    simp only [Bool.false_eq_true, if_false, if_true] at this
    exact (List.append_cancel_right this).symm
  subst hO'
  refine ⟨_, r, hset, hr, fun s p i hs hp hi => ?_⟩
  have := (hv [s] p i ⟨hs, trivial⟩ (by simpa using hp) (by simpa using hi)).2.2
  rw [bcIndex_self [B] [s] ⟨hs, trivial⟩] at this
  simpa [matElem] using this

/-- C197: the grid. For an accepted theta and sizes of at least 2, the point of the grid belonging to pixel (h, w) is the affine
map theta[b] applied to the normalised coordinates (x, y) of that pixel: row i gives theta[b,i,0] x + theta[b,i,1] y + theta[b,i,2]. -/
theorem C197_affine_grid2_partial (nan : ℝ) (ac : Bool) (B H W : Nat) (hH : 2 ≤ H) (hW : 2 ≤ W) (t : Tmp) (theta y : Mem ℝ) :
    affineSetup [H, W] [B, 2, 3] = .ok [B, H, W, 2] ∧
    ∃ r, affineForward nan ac [H, W] [B, 2, 3] t theta y = .ok r ∧
      ∀ b h w i, b < B → h < H → w < W → i < 2 → r (ravel [B, H, W, 2] [b, h, w, i]) =
        theta (ravel [B, 2, 3] [b, i, 0]) * normalised ac w W + theta (ravel [B, 2, 3] [b, i, 1]) * normalised ac h H +
          theta (ravel [B, 2, 3] [b, i, 2]) := by
  refine ⟨by simp [affineSetup], ?_⟩
  obtain ⟨f, r, h1, h2, h3⟩ := bmmT B (H * W) 3 2 t.bufa t.bufb (target2 nan ac B H W t.grid) theta y
  refine ⟨r, by simp only [affineForward, List.getD_cons_zero, h1]; exact h2, fun b h w i hb hh hw hi => ?_⟩
  have hp : h * W + w < H * W := by
    calc h * W + w < h * W + W := by omega
      _ = (h + 1) * W := by ring
      _ ≤ H * W := Nat.mul_le_mul_right W hh
  have e : ravel [B, H, W, 2] [b, h, w, i] = ravel [B, H * W, 2] [b, h * W + w, i] := by simp [ravel, prod]; ring
  rw [e, h3 b _ i hb hp hi]
  simp only [Finset.sum_range_succ, Finset.sum_range_zero, zero_add]
  rw [target2_at nan ac B H W t.grid b h w hb hh hw 0 (by omega), target2_at nan ac B H W t.grid b h w hb hh hw 1 (by omega),
    target2_at nan ac B H W t.grid b h w hb hh hw 2 (by omega)]
  simp only [pt, List.cons_append, List.nil_append, List.getD_cons_zero, List.getD_cons_succ, coord_normalised nan ac _ _ hW, coord_normalised nan ac _ _ hH]
  ring

/-- C197: volumes. -/
theorem C197_affine_grid3_partial (nan : ℝ) (ac : Bool) (B D H W : Nat) (hD : 2 ≤ D) (hH : 2 ≤ H) (hW : 2 ≤ W) (t : Tmp) (theta y : Mem ℝ) :
    affineSetup [D, H, W] [B, 3, 4] = .ok [B, D, H, W, 3] ∧
    ∃ r, affineForward nan ac [D, H, W] [B, 3, 4] t theta y = .ok r ∧
      ∀ b d h w i, b < B → d < D → h < H → w < W → i < 3 → r (ravel [B, D, H, W, 3] [b, d, h, w, i]) =
        theta (ravel [B, 3, 4] [b, i, 0]) * normalised ac w W + theta (ravel [B, 3, 4] [b, i, 1]) * normalised ac h H +
          theta (ravel [B, 3, 4] [b, i, 2]) * normalised ac d D + theta (ravel [B, 3, 4] [b, i, 3]) := by
  refine ⟨by simp [affineSetup], ?_⟩
  obtain ⟨f, r, h1, h2, h3⟩ := bmmT B (D * H * W) 4 3 t.bufa t.bufb (target3 nan ac B D H W t.grid) theta y
  refine ⟨r, by simp only [affineForward, List.getD_cons_zero, h1]; exact h2, fun b d h w i hb hd hh hw hi => ?_⟩
  have hp : (d * H + h) * W + w < D * H * W := by
    have h1 : d * H + h + 1 ≤ D * H := by
      calc d * H + h + 1 ≤ d * H + H := by omega
        _ = (d + 1) * H := by ring
        _ ≤ D * H := Nat.mul_le_mul_right H hd
    calc (d * H + h) * W + w < (d * H + h) * W + W := by omega
      _ = (d * H + h + 1) * W := by ring
      _ ≤ D * H * W := Nat.mul_le_mul_right W h1
  have e : ravel [B, D, H, W, 3] [b, d, h, w, i] = ravel [B, D * H * W, 3] [b, (d * H + h) * W + w, i] := by simp [ravel, prod]; ring
  rw [e, h3 b _ i hb hp hi]
  simp only [Finset.sum_range_succ, Finset.sum_range_zero, zero_add]
  rw [target3_at nan ac B D H W t.grid b d h w hb hd hh hw 0 (by omega), target3_at nan ac B D H W t.grid b d h w hb hd hh hw 1 (by omega),
    target3_at nan ac B D H W t.grid b d h w hb hd hh hw 2 (by omega), target3_at nan ac B D H W t.grid b d h w hb hd hh hw 3 (by omega)]
  simp only [pt, List.cons_append, List.nil_append, List.getD_cons_zero, List.getD_cons_succ, coord_normalised nan ac _ _ hW,
    coord_normalised nan ac _ _ hH, coord_normalised nan ac _ _ hD]
  ring

/-- C197, what is missing: with a single pixel along an axis the code divides zero by zero, and the grid is not a number: the
x coordinate of the only column is whatever 0/0 is, minus 1 (align_corners). -/
theorem C197_single_pixel_refuted (nan : ℝ) (t : Tmp) (y : Mem ℝ) :
    ∃ r, affineForward nan true [2, 1] [1, 2, 3] t (fun k => if k = 0 ∨ k = 4 then 1 else 0) y = .ok r ∧ r 0 = nan - 1 := by
  obtain ⟨f, r, h1, h2, h3⟩ := bmmT 1 (2 * 1) 3 2 t.bufa t.bufb (target2 nan true 1 2 1 t.grid) (fun k => if k = 0 ∨ k = 4 then 1 else 0) y
  refine ⟨r, by simp only [affineForward, List.getD_cons_zero, h1]; exact h2, ?_⟩
  have := h3 0 (0 * 1 + 0) 0 (by omega) (by omega) (by omega)
  simp only [Finset.sum_range_succ, Finset.sum_range_zero, zero_add] at this
  have tg := fun j hj => target2_at nan true 1 2 1 t.grid 0 0 0 (by omega) (by omega) (by omega) j hj
  simp only [zero_mul, zero_add] at tg this
  rw [tg 0 (by omega), tg 1 (by omega), tg 2 (by omega)] at this
  have e : ravel [1, 2 * 1, 2] [0, 0, 0] = 0 := by simp [ravel]
  rw [e] at this
  rw [this]
  simp [pt, coord, fdiv, ravel, prod]

/-- C198: the gradient of theta. For every accepted theta (one matrix per image) and every size, backward computes the
vector-Jacobian product of forward, whatever the gradient buffer held; with accumulation it adds to the old gradient. -/
theorem C198_affine_grid_gradient (nan : ℝ) (ac : Bool) (size : List Nat) (B d : Nat) (hd : size.length = d) (hd2 : d = 2 ∨ d = 3)
    (t : Tmp) (theta y : Mem ℝ) (osh : Shape) (hs : affineSetup size [B, d, d + 1] = .ok osh) :
    ∃ (F : Mem ℝ → Mem ℝ) (G : Bool → Mem ℝ → Mem ℝ → Mem ℝ),
      (∀ theta, affineForward nan ac size [B, d, d + 1] t theta y = .ok (F theta)) ∧
      (∀ acc dy dt, affineBackward nan ac size [B, d, d + 1] t acc dy dt = .ok (G acc dy dt)) ∧
      (∀ dt, IsVJP (prod [B, d, d + 1]) (prod osh) F theta (fun dy => G false dy dt)) ∧
      ∀ dy dt dt' k, k < prod [B, d, d + 1] → G true dy dt k = dt k + G false dy dt' k := by
  have core : ∀ (N c dd : Nat) (a : Mem ℝ), ∃ (f : Bmm) (F : Mem ℝ → Mem ℝ) (G : Bool → Mem ℝ → Mem ℝ → Mem ℝ),
      bmmSetup false true [B, N, c] [B, dd, c] = .ok (f, [B, N, dd]) ∧
      (∀ theta, bmmForward f [B, N, c] [B, dd, c] t.bufa t.bufb a theta y = .ok (F theta)) ∧
      (∀ acc dy dt, bmmBackwardB f [B, N, c] [B, dd, c] t.bufg t.bufa a acc dy dt = .ok (G acc dy dt)) ∧
      (∀ dt, IsVJP (prod [B, dd, c]) (prod [B, N, dd]) F theta (fun dy => G false dy dt)) ∧
      ∀ dy dt dt' k, k < prod [B, dd, c] → G true dy dt k = dt k + G false dy dt' k := by
    intro N c dd a
    obtain ⟨f, r, h1, -, -⟩ := bmmT B N c dd t.bufa t.bufb a theta y
    obtain ⟨F, GA, GB, f1, f2, f3, f4, f5, f6⟩ := C87_bmm_grad false true [B] [B] N c dd c f ([B] ++ [N, dd]) h1 t.bufa t.bufb t.bufg a theta y
    refine ⟨f, fun th => F a th, GB, h1, fun th => f1 a th, f3, fun dt cc v hc dy => ?_, f6⟩
    have := f4 zeros dt (fun _ => a) cc (fun _ => 0) v (fun k _ => ⟨rfl, hasDerivAt_const _ _⟩) hc dy
    refine this.congr_deriv ?_
    simp [dot]
  match size, hd, hs with
  | [H, W], hd, hs =>
    simp only [List.length_cons, List.length_nil] at hd
    simp only [zero_add, Nat.reduceAdd] at hd
    subst hd
    simp only [affineSetup, List.getD_cons_zero, List.getD_cons_succ, and_self, if_true, Except.ok.injEq] at hs
    obtain ⟨f, F, G, h1, h2, h3, h4, h5⟩ := core (H * W) 3 2 (target2 nan ac B H W t.grid)
    refine ⟨F, G, fun th => ?_, fun acc dy dt => ?_, ?_, h5⟩
    · simp only [affineForward, List.getD_cons_zero, h1]; exact h2 th
    · simp only [affineBackward, List.getD_cons_zero, h1]; exact h3 acc dy dt
    · have e : prod osh = prod [B, H * W, 2] := by rw [← hs]; simp only [prod]; ring
      rw [e]; exact h4
  | [D, H, W], hd, hs =>
    simp only [List.length_cons, List.length_nil] at hd
    simp only [zero_add, Nat.reduceAdd] at hd
    subst hd
    simp only [affineSetup, List.getD_cons_zero, List.getD_cons_succ, and_self, if_true, Except.ok.injEq] at hs
    obtain ⟨f, F, G, h1, h2, h3, h4, h5⟩ := core (D * H * W) 4 3 (target3 nan ac B D H W t.grid)
    refine ⟨F, G, fun th => ?_, fun acc dy dt => ?_, ?_, h5⟩
    · simp only [affineForward, List.getD_cons_zero, h1]; exact h2 th
    · simp only [affineBackward, List.getD_cons_zero, h1]; exact h3 acc dy dt
    · have e : prod osh = prod [B, D * H * W, 3] := by rw [← hs]; simp only [prod]; ring
      rw [e]; exact h4
  | [], hd, _ => simp at hd; omega
  | [_], hd, _ => simp at hd; omega
  | _ :: _ :: _ :: _ :: _, hd, _ => simp at hd; omega

/-! ### The identity -/

theorem unnormalize_normalised (ac : Bool) (i S : Nat) (hS : 2 ≤ S) : unnormalize ac (normalised ac i S) S = i := by
  have h2 : (2 : ℝ) ≤ S := by exact_mod_cast hS
  have h1 : (S : ℝ) - 1 ≠ 0 := by linarith
  have h0 : (S : ℝ) ≠ 0 := by linarith
  cases ac
  · simp only [unnormalize, normalised, Bool.false_eq_true, if_false]; field_simp; ring
  · simp only [unnormalize, normalised, if_true]; field_simp; ring

theorem findex_pixel (p : Pad) (ac : Bool) (i S : Nat) (hi : i < S) : findex p ac i S = i := by
  have h0 : (0 : ℝ) ≤ i := by positivity
  have h1 : (i : ℝ) ≤ (S : ℝ) - 1 := by
    have : (i : ℝ) + 1 ≤ S := by exact_mod_cast hi
    linarith
  have hr : repeatPad i S = i := by rw [repeatPad, if_neg (not_lt.mpr h0), if_neg (not_lt.mpr h1)]
  cases p with
  | zero => rfl
  | repeat' => exact hr
  | reflect =>
    cases ac
    · simp only [findex, reflectPad, Bool.false_eq_true, if_false]
      have : reflect (2 * (i : ℝ)) (-1) (2 * (S : ℤ) - 1) = 2 * i := by
        unfold reflect
        simp only []
        rw [if_neg (by push_cast; linarith), if_neg (by push_cast; linarith)]
      rw [this, show 2 * (i : ℝ) * (1 / 2) = i by ring, hr]
    · simp only [findex, reflectPad, if_true]
      unfold reflect
      simp only []
      rw [if_neg (by push_cast; linarith), if_neg (by push_cast; linarith)]

theorem round_nat (i : Nat) : round (i : ℝ) = i := by
  rw [round, if_pos (by positivity)]
  rw [Int.floor_eq_iff]
  constructor <;> push_cast <;> linarith

/-- C199: warping an image with the identity. affine_grid of the identity matrices, with the size of the image (at least 2 by 2),
followed by warp_by_grid with the same align_corners, gives the image back exactly, in both modes and with every padding. -/
theorem C199_identity2 (nan : ℝ) (k : Cfg) (B C H W : Nat) (hH : 2 ≤ H) (hW : 2 ≤ W) (t : Tmp) (theta y : Mem ℝ)
    (hid : ∀ b i j, b < B → i < 2 → j < 3 → theta (ravel [B, 2, 3] [b, i, j]) = if i = j then 1 else 0)
    (s : Setup) (hs : setup k [B, C, H, W] [B, H, W, 2] = .ok s) (x z : Mem ℝ) :
    s.osh = [B, C, H, W] ∧ ∃ grid, affineForward nan k.ac [H, W] [B, 2, 3] t theta y = .ok grid ∧
      ∀ j, j < prod [B, C, H, W] → forward k.ac s x grid z j = x j := by
  obtain ⟨-, grid, hg, hv⟩ := C197_affine_grid2_partial nan k.ac B H W hH hW t theta y
  have hk : s.kern = .two ⟨B, C, H, W, H, W, 2⟩ ∧ s.osh = [B, C, H, W] := by
    unfold setup at hs
    simp only [] at hs
    split at hs; · cases hs
    split at hs; · cases hs
    split at hs; · cases hs
    split at hs; · cases hs
    split at hs; · cases hs
    simp at hs
    subst hs
    exact ⟨rfl, rfl⟩
  refine ⟨hk.2, grid, hg, fun j hj => ?_⟩
  obtain ⟨o, ho, rfl⟩ := exists_ravel _ _ hj
  obtain ⟨b, c, h, w, rfl, hb, hc, hh, hw⟩ := inBounds4 ho
  have e0 := hv b h w 0 hb hh hw (by omega)
  have e1 := hv b h w 1 hb hh hw (by omega)
  simp only [hid b 0 0 hb (by omega) (by omega), hid b 0 1 hb (by omega) (by omega), hid b 0 2 hb (by omega) (by omega)] at e0
  simp only [hid b 1 0 hb (by omega) (by omega), hid b 1 1 hb (by omega) (by omega), hid b 1 2 hb (by omega) (by omega)] at e1
  norm_num at e0 e1
  have px : src s.pad k.ac (grid (gidx2 ⟨B, C, H, W, H, W, 2⟩ [b, c, h, w] + 0)) W = w := by
    have : gidx2 ⟨B, C, H, W, H, W, 2⟩ [b, c, h, w] + 0 = ravel [B, H, W, 2] [b, h, w, 0] := by simp [gidx2, Dim2.gsh]
    rw [this, e0, src, unnormalize_normalised _ _ _ hW, findex_pixel _ _ _ _ hw]
  have py : src s.pad k.ac (grid (gidx2 ⟨B, C, H, W, H, W, 2⟩ [b, c, h, w] + 1)) H = h := by
    have : gidx2 ⟨B, C, H, W, H, W, 2⟩ [b, c, h, w] + 1 = ravel [B, H, W, 2] [b, h, w, 1] := by simp [gidx2, ravel, Dim2.gsh, prod]; ring
    rw [this, e1, src, unnormalize_normalised _ _ _ hH, findex_pixel _ _ _ _ hh]
  simp only [forward, hk.1]
  refine (forward_at _ _ z _ ho).trans ?_
  have pix := pixel2_nat ⟨B, C, H, W, H, W, 2⟩ x b c h w hh hw
  cases s.lin
  · simp only [Bool.false_eq_true, if_false, nearest2]
    rw [px, py, round_nat, round_nat]
    exact pix
  · simp only [if_true, linear2]
    rw [px, py, Int.floor_natCast, Int.floor_natCast]
    simp only [List.getD_cons_zero, List.getD_cons_succ, Int.cast_natCast, sub_self, sub_zero, mul_one, mul_zero, add_zero]
    exact pix

/-- C199: warping a volume with the identity. -/
theorem C199_identity3 (nan : ℝ) (k : Cfg) (B C D H W : Nat) (hD : 2 ≤ D) (hH : 2 ≤ H) (hW : 2 ≤ W) (t : Tmp) (theta y : Mem ℝ)
    (hid : ∀ b i j, b < B → i < 3 → j < 4 → theta (ravel [B, 3, 4] [b, i, j]) = if i = j then 1 else 0)
    (s : Setup) (hs : setup k [B, C, D, H, W] [B, D, H, W, 3] = .ok s) (x z : Mem ℝ) :
    s.osh = [B, C, D, H, W] ∧ ∃ grid, affineForward nan k.ac [D, H, W] [B, 3, 4] t theta y = .ok grid ∧
      ∀ j, j < prod [B, C, D, H, W] → forward k.ac s x grid z j = x j := by
  obtain ⟨-, grid, hg, hv⟩ := C197_affine_grid3_partial nan k.ac B D H W hD hH hW t theta y
  have hk : s.kern = .three ⟨B, C, D, H, W, D, H, W, 3⟩ ∧ s.osh = [B, C, D, H, W] := by
    unfold setup at hs
    simp only [] at hs
    split at hs; · cases hs
    split at hs; · cases hs
    split at hs; · cases hs
    split at hs; · cases hs
    split at hs; · cases hs
    simp at hs
    subst hs
    exact ⟨rfl, rfl⟩
  refine ⟨hk.2, grid, hg, fun j hj => ?_⟩
  obtain ⟨o, ho, rfl⟩ := exists_ravel _ _ hj
  obtain ⟨b, c, d, h, w, rfl, hb, hc, hd, hh, hw⟩ := inBounds5 ho
  have e0 := hv b d h w 0 hb hd hh hw (by omega)
  have e1 := hv b d h w 1 hb hd hh hw (by omega)
  have e2 := hv b d h w 2 hb hd hh hw (by omega)
  simp only [hid b 0 0 hb (by omega) (by omega), hid b 0 1 hb (by omega) (by omega), hid b 0 2 hb (by omega) (by omega), hid b 0 3 hb (by omega) (by omega)] at e0
  simp only [hid b 1 0 hb (by omega) (by omega), hid b 1 1 hb (by omega) (by omega), hid b 1 2 hb (by omega) (by omega), hid b 1 3 hb (by omega) (by omega)] at e1
  simp only [hid b 2 0 hb (by omega) (by omega), hid b 2 1 hb (by omega) (by omega), hid b 2 2 hb (by omega) (by omega), hid b 2 3 hb (by omega) (by omega)] at e2
  norm_num at e0 e1 e2
  have px : src s.pad k.ac (grid (gidx3 ⟨B, C, D, H, W, D, H, W, 3⟩ [b, c, d, h, w] + 0)) W = w := by
    have : gidx3 ⟨B, C, D, H, W, D, H, W, 3⟩ [b, c, d, h, w] + 0 = ravel [B, D, H, W, 3] [b, d, h, w, 0] := by simp [gidx3, Dim3.gsh]
    rw [this, e0, src, unnormalize_normalised _ _ _ hW, findex_pixel _ _ _ _ hw]
  have py : src s.pad k.ac (grid (gidx3 ⟨B, C, D, H, W, D, H, W, 3⟩ [b, c, d, h, w] + 1)) H = h := by
    have : gidx3 ⟨B, C, D, H, W, D, H, W, 3⟩ [b, c, d, h, w] + 1 = ravel [B, D, H, W, 3] [b, d, h, w, 1] := by simp [gidx3, ravel, Dim3.gsh, prod]; ring
    rw [this, e1, src, unnormalize_normalised _ _ _ hH, findex_pixel _ _ _ _ hh]
  have pz : src s.pad k.ac (grid (gidx3 ⟨B, C, D, H, W, D, H, W, 3⟩ [b, c, d, h, w] + 2)) D = d := by
    have : gidx3 ⟨B, C, D, H, W, D, H, W, 3⟩ [b, c, d, h, w] + 2 = ravel [B, D, H, W, 3] [b, d, h, w, 2] := by simp [gidx3, ravel, Dim3.gsh, prod]; ring
    rw [this, e2, src, unnormalize_normalised _ _ _ hD, findex_pixel _ _ _ _ hd]
  simp only [forward, hk.1]
  refine (forward_at _ _ z _ ho).trans ?_
  have pix := pixel3_nat ⟨B, C, D, H, W, D, H, W, 3⟩ x b c d h w hd hh hw
  cases s.lin
  · simp only [Bool.false_eq_true, if_false, nearest3]
    rw [px, py, pz, round_nat, round_nat, round_nat]
    exact pix
  · simp only [if_true, linear3]
    rw [px, py, pz, Int.floor_natCast, Int.floor_natCast, Int.floor_natCast]
    simp only [List.getD_cons_zero, List.getD_cons_succ, Int.cast_natCast, sub_self, sub_zero, mul_one, mul_zero, add_zero]
    exact pix

/-! ### Which shapes WarpByGrid accepts -/

/-- C196: with image and grid of matching number of axes, setup accepts exactly the modes and paddings it lists, equal batch
sizes and 2 or 3 numbers per grid point (channel_last being refused when it runs), and gives the output the channels of the
image and the extents of the grid. -/
theorem C196_setup2_partial (k : Cfg) (B C H W B' Ho Wo L : Nat) :
    ((∃ s, setup k [B, C, H, W] [B', Ho, Wo, L] = .ok s) ↔
      (k.mode = "linear" ∨ k.mode = "nearest") ∧ (k.padding = "zero" ∨ k.padding = "repeat" ∨ k.padding = "reflect") ∧
        k.channelLast = false ∧ B = B' ∧ (L = 2 ∨ L = 3)) ∧
    ∀ s, setup k [B, C, H, W] [B', Ho, Wo, L] = .ok s → s.osh = [B, C, Ho, Wo] ∧ s.kern = .two ⟨B, C, H, W, Ho, Wo, L⟩ := by
  unfold setup padOf
  simp only [List.length_cons, List.length_nil, List.getD_cons_zero, List.getD_cons_succ]
  by_cases h1 : k.mode = "linear" ∨ k.mode = "nearest"
  swap
  · rw [if_pos (by tauto)]; exact ⟨⟨fun ⟨s, h⟩ => (by cases h), fun h => absurd h.1 h1⟩, fun s h => (by cases h)⟩
  rw [if_neg (by tauto)]
  by_cases h2 : B = B'
  swap
  · rw [if_pos h2]; exact ⟨⟨fun ⟨s, h⟩ => (by cases h), fun h => absurd h.2.2.2.1 h2⟩, fun s h => (by cases h)⟩
  rw [if_neg (not_not.mpr h2)]
  by_cases h3 : L = 2 ∨ L = 3
  swap
  · rw [if_pos h3]; exact ⟨⟨fun ⟨s, h⟩ => (by cases h), fun h => absurd h.2.2.2.2 h3⟩, fun s h => (by cases h)⟩
  rw [if_neg (not_not.mpr h3)]
  have fin : ∀ p : Pad, ((∃ s, (if k.channelLast = true then (.error "channel_last is not supported" : Except String Setup)
      else .ok ⟨p, decide (k.mode = "linear"), .two ⟨B, C, H, W, Ho, Wo, L⟩, [B, C, Ho, Wo]⟩) = .ok s) ↔ k.channelLast = false) ∧
      ∀ s, (if k.channelLast = true then (.error "channel_last is not supported" : Except String Setup)
      else .ok ⟨p, decide (k.mode = "linear"), .two ⟨B, C, H, W, Ho, Wo, L⟩, [B, C, Ho, Wo]⟩) = .ok s →
        s.osh = [B, C, Ho, Wo] ∧ s.kern = .two ⟨B, C, H, W, Ho, Wo, L⟩ := by
    intro p
    cases k.channelLast
    · simp only [Bool.false_eq_true, if_false]
      exact ⟨⟨fun _ => trivial, fun _ => ⟨_, rfl⟩⟩, fun s h => by cases h; exact ⟨rfl, rfl⟩⟩
    · simp only [if_true]
      exact ⟨⟨fun ⟨s, h⟩ => (by cases h), fun h => (by cases h)⟩, fun s h => (by cases h)⟩
  by_cases p1 : k.padding = "zero"
  · rw [if_pos p1]
    have := fin .zero
    simp only [if_true] at this ⊢
    exact ⟨this.1.trans (by tauto), this.2⟩
  rw [if_neg p1]
  by_cases p2 : k.padding = "repeat"
  · rw [if_pos p2]
    have := fin .repeat'
    simp only [if_true] at this ⊢
    exact ⟨this.1.trans (by tauto), this.2⟩
  rw [if_neg p2]
  by_cases p3 : k.padding = "reflect"
  · rw [if_pos p3]
    have := fin .reflect
    simp only [if_true] at this ⊢
    exact ⟨this.1.trans (by tauto), this.2⟩
  rw [if_neg p3]
  exact ⟨⟨fun ⟨s, h⟩ => (by cases h), fun h => absurd h.2.1 (by tauto)⟩, fun s h => (by cases h)⟩

/-- C196, what fails: nothing ties the number of coordinates per grid point to the number of axes. A volume with a grid of 2
numbers per point is accepted, and the output is computed from memory beyond the end of the grid. -/
theorem C196_reads_outside_refuted :
    ∃ (s : Setup) (grid grid' x : Mem ℝ), setup ⟨"linear", "zero", true, false⟩ [1, 1, 2, 1, 1] [1, 1, 1, 1, 2] = .ok s ∧ s.osh = [1, 1, 1, 1, 1] ∧
      (∀ j, j < prod [1, 1, 1, 1, 2] → grid j = grid' j) ∧ ∀ y, forward true s x grid y 0 ≠ forward true s x grid' y 0 := by
  refine ⟨⟨.zero, true, .three ⟨1, 1, 2, 1, 1, 1, 1, 1, 2⟩, [1, 1, 1, 1, 1]⟩, fun k => if k = 2 then -1 else 0, fun k => if k = 2 then 1 else 0,
    fun k => if k = 0 then 5 else 7, by simp [setup, padOf], rfl, ?_, ?_⟩
  · intro j hj
    have : j < 2 := by simpa [prod] using hj
    simp [show j ≠ 2 by omega]
  · intro y
    have at0 : ∀ g : Mem ℝ, forward true ⟨.zero, true, .three ⟨1, 1, 2, 1, 1, 1, 1, 1, 2⟩, [1, 1, 1, 1, 1]⟩ (fun k => if k = 0 then 5 else 7) g y 0 =
        linear3 .zero true ⟨1, 1, 2, 1, 1, 1, 1, 1, 2⟩ (fun k => if k = 0 then 5 else 7) g [0, 0, 0, 0, 0] := by
      intro g
      simp only [forward, if_true]
      exact forward_at _ _ y [0, 0, 0, 0, 0] (by decide)
    rw [at0, at0]
    norm_num [linear3, gidx3, ravel, Dim3.gsh, Dim3.ish, prod, src, findex, unnormalize, pixel3]

/-- C196, what fails: a grid of 3 axes is accepted too; the output is a scalar which no kernel writes. -/
theorem C196_no_kernel_refuted :
    ∃ s : Setup, setup ⟨"linear", "zero", true, false⟩ [1, 1, 2, 2] [1, 4, 2] = .ok s ∧ s.osh = [] ∧
      ∀ ac x grid y, forward ac s x grid y = y := by
  exact ⟨⟨.zero, true, .none, []⟩, by simp [setup, padOf], rfl, fun _ _ _ _ => rfl⟩

/-- Non-vacuous: the hypotheses of the identity theorem are met. -/
example : ∃ s, setup ⟨"nearest", "reflect", false, false⟩ [2, 3, 4, 5] [2, 4, 5, 2] = .ok s :=
  ((C196_setup2_partial ⟨"nearest", "reflect", false, false⟩ 2 3 4 5 2 4 5 2).1).mpr (by simp)

/-- Non-vacuous: a grid point at place 1/2 (align_corners, two pixels) is smooth. -/
example : Smooth true 0 2 := by
  left
  intro m h
  norm_num [unnormalize] at h
  have : (1 : ℝ) = 2 * m := by linarith
  have : (1 : ℤ) = 2 * m := by exact_mod_cast this
  omega

end Verif.Warp
