import Verif.Elem.Patches
/-
Convolution and Deconvolution: models /repo/src/nbla/function/generic/{convolution,deconvolution}.cpp over the real numbers.
Simplifications: those of Patches; channel_last = false (the CPU functions reject true).
-/
namespace Verif.Elem
open Verif.Fn Verif.ND

/-! ### Model -/

/-- The members set by setup: outer_size_, group_, channels_g_, channels_i_, channels_o_ and the spatial axes. -/
structure Conv where
  outer : Nat
  group : Nat
  cg : Nat
  chI : Nat
  chO : Nat
  ws : List Win
deriving DecidableEq, Repr

namespace Conv
/-- row_w_ = row_y_. -/
def M (c : Conv) : Nat := c.chO / c.group
/-- col_w_ = row_col_ = inner_size_k_. -/
def R (c : Conv) : Nat := c.cg * prod (kers c.ws)
/-- col_col_ = col_y_ = inner_size_o_ / channels_o_. -/
def O (c : Conv) : Nat := prod (outs c.ws)
/-- inner_size_i_ / channels_i_. -/
def P (c : Conv) : Nat := prod (inps c.ws)
/-- inner_size_i_. -/
def I (c : Conv) : Nat := c.chI * c.P
/-- inner_size_o_. -/
def Y (c : Conv) : Nat := c.chO * c.O

/-- `y_n = w * col`, all groups (convolution.cpp:174-179 with =; deconvolution.cpp:265-275 with = or +=). -/
noncomputable def yOfCol (c : Conv) (acc : Bool) (w col : Mem ℝ) (n : Nat) (y : Mem ℝ) : Mem ℝ :=
  (List.range c.group).foldl (fun m g => matMul acc c.M c.O c.R (at_ (n * c.Y + g * (c.M * c.O)) c.O)
    (at_ (g * (c.M * c.R)) c.R) (at_ (g * (c.R * c.O)) c.O) w col m) y

/-- `col = wᵀ * y_n`, all groups (convolution.cpp:239-244, deconvolution.cpp:187-192). -/
noncomputable def colOfY (c : Conv) (w y : Mem ℝ) (n : Nat) (col : Mem ℝ) : Mem ℝ :=
  (List.range c.group).foldl (fun m g => matMul false c.R c.O c.M (at_ (g * (c.R * c.O)) c.O)
    (fun r i => at_ (g * (c.M * c.R)) c.R i r) (at_ (n * c.Y + g * (c.M * c.O)) c.O) w y m) col

/-- `dw += y_n * colᵀ`, all groups (convolution.cpp:255-261, deconvolution.cpp:281-287). -/
noncomputable def dwOfCol (c : Conv) (col y : Mem ℝ) (n : Nat) (dw : Mem ℝ) : Mem ℝ :=
  (List.range c.group).foldl (fun m g => matMul true c.M c.R c.O (at_ (g * (c.M * c.R)) c.R)
    (at_ (n * c.Y + g * (c.M * c.O)) c.O) (fun o r => at_ (g * (c.R * c.O)) c.O r o) y col m) dw

end Conv

/-- `m.colwise() += b` on the rows × cols matrix of sample n (convolution.cpp:181-184, deconvolution.cpp:201-204). -/
def addBias (rows cols : Nat) (b : Option (Mem ℝ)) (n : Nat) (m : Mem ℝ) : Mem ℝ :=
  match b with
  | none => m
  | some b => forMat rows cols (at_ (n * (rows * cols)) cols) (fun i _ old => old + b i) m

/-- `db += m.rowwise().sum()` (convolution.cpp:263-267, deconvolution.cpp:290-294). -/
noncomputable def rowSums (rows cols : Nat) (dy : Mem ℝ) (n : Nat) (db : Mem ℝ) : Mem ℝ :=
  forPut rows (fun i => i) (fun i old => old + ∑ o ∈ Finset.range cols, dy (at_ (n * (rows * cols)) cols i o)) db

/-- The buffers of a backward pass. -/
structure CState where
  col : Mem ℝ
  dx : Mem ℝ
  dw : Mem ℝ
  db : Mem ℝ

/-- `if (!accum) grad()->zero()` on a gradient of n elements (convolution.cpp:211-227, deconvolution.cpp:235-246). -/
noncomputable def startGrad (n : Nat) (accum : Bool) (d : Mem ℝ) : Mem ℝ := if accum then d else fun k => if k < n then 0 else d k

namespace Conv

/-- One sample of Convolution::forward_impl (convolution.cpp:167-185); state (col, y). -/
noncomputable def fwdStep (c : Conv) (x w : Mem ℝ) (b : Option (Mem ℝ)) (n : Nat) (s : Mem ℝ × Mem ℝ) : Mem ℝ × Mem ℝ :=
  let col := unfold c.chI c.ws x (n * c.I) s.1
  (col, addBias c.chO c.O b n (c.yOfCol false w col n s.2))

/-- Convolution::forward_impl (convolution.cpp:149-187). -/
noncomputable def forward (c : Conv) (x w : Mem ℝ) (b : Option (Mem ℝ)) (col y : Mem ℝ) : Mem ℝ :=
  ((List.range c.outer).foldl (fun s n => c.fwdStep x w b n s) (col, y)).2

/-- One sample of Convolution::backward_impl (convolution.cpp:232-268). -/
noncomputable def bwdStep (c : Conv) (p0 p1 p2 : Bool) (x w dy : Mem ℝ) (n : Nat) (s : CState) : CState :=
  let s1 := if p0 then
      let col := c.colOfY w dy n s.col
      { s with col := col, dx := foldPatches c.chI c.ws col (n * c.I) s.dx }
    else s
  let s2 := if p1 then
      let col := unfold c.chI c.ws x (n * c.I) s1.col
      { s1 with col := col, dw := c.dwOfCol col dy n s1.dw }
    else s1
  if p2 then { s2 with db := rowSums c.chO c.O dy n s2.db } else s2

/-- Convolution::backward_impl (convolution.cpp:189-271): p0 p1 p2 is propagate_down, a0 a1 a2 is accum. -/
noncomputable def backward (c : Conv) (p0 p1 p2 a0 a1 a2 : Bool) (x w dy : Mem ℝ) (s : CState) : CState :=
  (List.range c.outer).foldl (fun s n => c.bwdStep p0 p1 p2 x w dy n s)
    { s with
      dx := if p0 then startGrad (c.outer * c.I) a0 s.dx else s.dx
      dw := if p1 then startGrad (c.chO * c.R) a1 s.dw else s.dw
      db := if p2 then startGrad c.chO a2 s.db else s.db }

/-- One sample of Deconvolution::forward_impl (deconvolution.cpp:183-206); `y` is the input, state (col, x). -/
noncomputable def deStep (c : Conv) (y w : Mem ℝ) (b : Option (Mem ℝ)) (n : Nat) (s : Mem ℝ × Mem ℝ) : Mem ℝ × Mem ℝ :=
  let col := c.colOfY w y n s.1
  let x := forPut c.I (fun i => n * c.I + i) (fun _ _ => 0) s.2
  (col, addBias c.chI c.P b n (foldPatches c.chI c.ws col (n * c.I) x))

/-- Deconvolution::forward_impl (deconvolution.cpp:162-208). -/
noncomputable def deForward (c : Conv) (y w : Mem ℝ) (b : Option (Mem ℝ)) (col x : Mem ℝ) : Mem ℝ :=
  ((List.range c.outer).foldl (fun s n => c.deStep y w b n s) (col, x)).2

/-- One sample of Deconvolution::backward_impl (deconvolution.cpp:253-295); the state's dx is the gradient of the input. -/
noncomputable def deBwdStep (c : Conv) (p0 p1 p2 a0 : Bool) (y w dx : Mem ℝ) (n : Nat) (s : CState) : CState :=
  let s1 := if p0 || p1 then { s with col := unfold c.chI c.ws dx (n * c.I) s.col } else s
  let s2 := if p0 then { s1 with dx := c.yOfCol a0 w s1.col n s1.dx } else s1
  let s3 := if p1 then { s2 with dw := c.dwOfCol s2.col y n s2.dw } else s2
  if p2 then { s3 with db := rowSums c.chI c.P dx n s3.db } else s3

/-- Deconvolution::backward_impl (deconvolution.cpp:210-298). -/
noncomputable def deBackward (c : Conv) (p0 p1 p2 a0 a1 a2 : Bool) (y w dx : Mem ℝ) (s : CState) : CState :=
  (List.range c.outer).foldl (fun s n => c.deBwdStep p0 p1 p2 a0 y w dx n s)
    { s with
      dw := if p1 then startGrad (c.chO * c.R) a1 s.dw else s.dw
      db := if p2 then startGrad c.chI a2 s.db else s.db }

/-! ### Lemmas -/

/-- What setup guarantees. -/
structure WF (c : Conv) : Prop where
  hg : 0 < c.group
  hi : c.chI = c.group * c.cg
  ho : c.chO = c.group * c.M
  ne : c.ws ≠ []

theorem WF.rows {c : Conv} (h : c.WF) : c.chI * prod (kers c.ws) = c.group * c.R := by
  rw [h.hi, R, Nat.mul_assoc]

theorem y_inj (c : Conv) {n g i o g' i' o' : Nat} (hi : i < c.M) (ho : o < c.O) (hi' : i' < c.M) (ho' : o' < c.O)
    (h : at_ (n * c.Y + g * (c.M * c.O)) c.O i o = at_ (n * c.Y + g' * (c.M * c.O)) c.O i' o') : g = g' ∧ i = i' ∧ o = o' :=
  atT_inj false c.M c.O hi ho hi' ho' (by unfold atT at_ at *; simp only [Bool.false_eq_true, if_false]; omega)

theorem yPos (c : Conv) (h : c.WF) {n g i o : Nat} : at_ (n * c.Y + g * (c.M * c.O)) c.O i o = n * c.Y + ((g * c.M + i) * c.O + o) := by
  unfold at_; ring

theorem row_of (c : Conv) (h : c.WF) {j : Nat} (hj : j < c.chO) : j / c.M < c.group ∧ j % c.M < c.M ∧ j = j / c.M * c.M + j % c.M := by
  have hM : 0 < c.M := Nat.pos_of_ne_zero fun e => by rw [h.ho, e] at hj; simp at hj
  refine ⟨Nat.div_lt_of_lt_mul (by rw [Nat.mul_comm, ← h.ho]; exact hj), Nat.mod_lt _ hM, ?_⟩
  rw [Nat.mul_comm, Nat.div_add_mod]

theorem row_in (c : Conv) (h : c.WF) {g i : Nat} (hg : g < c.group) (hi : i < c.M) : g * c.M + i < c.chO := by
  rw [h.ho]; exact row_lt hg hi

/-- Element (j, o) of `y_n = w * col`: row j of the weights times column o of the group's part of the column matrix. -/
theorem yOfCol_spec (c : Conv) (h : c.WF) (acc : Bool) (w col : Mem ℝ) (n : Nat) (y : Mem ℝ) :
    (∀ j o, j < c.chO → o < c.O → c.yOfCol acc w col n y (n * c.Y + (j * c.O + o)) = (if acc then y (n * c.Y + (j * c.O + o)) else 0) +
      ∑ r ∈ Finset.range c.R, w (j * c.R + r) * col ((j / c.M * c.R + r) * c.O + o)) ∧
    ∀ k, (k < n * c.Y ∨ n * c.Y + c.Y ≤ k) → c.yOfCol acc w col n y k = y k := by
  have hb := batch_spec c.group c.M c.O (fun g => at_ (n * c.Y + g * (c.M * c.O)) c.O)
    (fun g i o old => (if acc then old else 0) + ∑ r ∈ Finset.range c.R, w (at_ (g * (c.M * c.R)) c.R i r) * col (at_ (g * (c.R * c.O)) c.O r o)) y
    (fun g i o g' i' o' _ hi ho _ hi' ho' e => c.y_inj hi ho hi' ho' e)
  refine ⟨?_, ?_⟩
  · intro j o hj ho
    obtain ⟨h1, h2, h3⟩ := c.row_of h hj
    have e : n * c.Y + (j * c.O + o) = at_ (n * c.Y + j / c.M * (c.M * c.O)) c.O (j % c.M) o := by rw [c.yPos h, ← h3]
    rw [e]
    refine Eq.trans (hb.1 _ _ _ h1 h2 ho) ?_
    congr 1
    refine Finset.sum_congr rfl fun r _ => ?_
    congr 2
    · unfold at_
      conv_rhs => rw [h3]
      ring
    · unfold at_; ring
  · intro k hk
    refine hb.2 k fun g i o hg hi ho e => ?_
    rw [c.yPos h] at e
    have := row_lt (Q := c.O) (c.row_in h hg hi) ho
    unfold Y at *
    omega

theorem colOfY_spec (c : Conv) (h : c.WF) (w y : Mem ℝ) (n : Nat) (col : Mem ℝ) (g r o : Nat) (hg : g < c.group) (hr : r < c.R) (ho : o < c.O) :
    c.colOfY w y n col ((g * c.R + r) * c.O + o) = ∑ i ∈ Finset.range c.M, w ((g * c.M + i) * c.R + r) * y (n * c.Y + ((g * c.M + i) * c.O + o)) := by
  have hb := (batch_spec c.group c.R c.O (fun g => at_ (g * (c.R * c.O)) c.O)
    (fun g r o old => (if false then old else 0) + ∑ i ∈ Finset.range c.M, w (at_ (g * (c.M * c.R)) c.R i r) * y (at_ (n * c.Y + g * (c.M * c.O)) c.O i o)) col
    (fun g i o g' i' o' _ hi ho _ hi' ho' e => atT_inj false c.R c.O hi ho hi' ho' e)).1 g r o hg hr ho
  have e : (g * c.R + r) * c.O + o = at_ (g * (c.R * c.O)) c.O r o := by unfold at_; ring
  rw [e]
  refine Eq.trans hb ?_
  simp only [Bool.false_eq_true, if_false, zero_add]
  refine Finset.sum_congr rfl fun i _ => ?_
  rw [c.yPos h]
  congr 2
  unfold at_; ring

theorem dwOfCol_spec (c : Conv) (h : c.WF) (col y : Mem ℝ) (n : Nat) (dw : Mem ℝ) :
    (∀ j r, j < c.chO → r < c.R → c.dwOfCol col y n dw (j * c.R + r) = dw (j * c.R + r) +
      ∑ o ∈ Finset.range c.O, y (n * c.Y + (j * c.O + o)) * col ((j / c.M * c.R + r) * c.O + o)) ∧
    ∀ k, c.chO * c.R ≤ k → c.dwOfCol col y n dw k = dw k := by
  have hb := batch_spec c.group c.M c.R (fun g => at_ (g * (c.M * c.R)) c.R)
    (fun g i r old => (if true then old else 0) + ∑ o ∈ Finset.range c.O, y (at_ (n * c.Y + g * (c.M * c.O)) c.O i o) * col (at_ (g * (c.R * c.O)) c.O r o)) dw
    (fun g i o g' i' o' _ hi ho _ hi' ho' e => atT_inj false c.M c.R hi ho hi' ho' e)
  refine ⟨?_, ?_⟩
  · intro j r hj hr
    obtain ⟨h1, h2, h3⟩ := c.row_of h hj
    have e : j * c.R + r = at_ (j / c.M * (c.M * c.R)) c.R (j % c.M) r := by
      unfold at_
      conv_lhs => rw [h3]
      ring
    rw [e]
    refine Eq.trans (hb.1 _ _ _ h1 h2 hr) ?_
    simp only [if_true]
    congr 1
    refine Finset.sum_congr rfl fun o _ => ?_
    rw [c.yPos h, ← h3]
    congr 2
    unfold at_; ring
  · intro k hk
    refine hb.2 k fun g i r hg hi hr e => ?_
    have := row_lt (Q := c.R) (c.row_in h hg hi) hr
    have e2 : at_ (g * (c.M * c.R)) c.R i r = (g * c.M + i) * c.R + r := by unfold at_; ring
    rw [e2] at e
    omega

end Conv

theorem addBias_spec (rows cols : Nat) (b : Option (Mem ℝ)) (n : Nat) (m : Mem ℝ) :
    (∀ i o, i < rows → o < cols → addBias rows cols b n m (n * (rows * cols) + (i * cols + o)) = m (n * (rows * cols) + (i * cols + o)) + b.elim 0 (· i)) ∧
    ∀ k, (k < n * (rows * cols) ∨ n * (rows * cols) + rows * cols ≤ k) → addBias rows cols b n m k = m k := by
  cases b with
  | none => exact ⟨fun i o _ _ => by simp [addBias], fun k _ => rfl⟩
  | some b =>
    have hb := forMat_spec rows cols (at_ (n * (rows * cols)) cols) (fun i _ old => old + b i) m (fun i j i' j' _ hj _ hj' e => at_inj hj hj' e)
    refine ⟨fun i o hi ho => hb.1 i o hi ho, fun k hk => hb.2 k fun i o hi ho e => ?_⟩
    have := row_lt (Q := cols) hi ho
    unfold at_ at e
    omega

theorem rowSums_spec (rows cols : Nat) (dy : Mem ℝ) (n : Nat) (db : Mem ℝ) (k : Nat) :
    rowSums rows cols dy n db k = db k + if k < rows then ∑ o ∈ Finset.range cols, dy (n * (rows * cols) + (k * cols + o)) else 0 := by
  have h := forPut_spec rows (fun i => i) (fun i old => old + ∑ o ∈ Finset.range cols, dy (at_ (n * (rows * cols)) cols i o)) db (fun i j _ _ e => e)
  by_cases hk : k < rows
  · rw [if_pos hk]; exact h.1 k hk
  · rw [if_neg hk, add_zero]; exact h.2 k fun i hi e => hk (by omega)

end Verif.Elem
