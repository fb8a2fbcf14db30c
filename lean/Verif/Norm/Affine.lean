/-
The affine part shared by layer and group normalization: `y * gamma + beta` with broadcast parameters, computed in place
(layer_normalization.cpp:117-137, group_normalization.cpp:152-180), and its backward.

Simplification: exact reals.
-/
import Verif.Norm.Tensor
import Verif.Elem.Quantize2

namespace Verif.Norm
open Verif.Fn Verif.Elem Verif.BatchNorm Verif.ND

/-! ### Model -/

/-- transform_binary (base_transform_binary.hpp:278-299) with y as input 0 and as output: input 0 is read from the buffer that
is being written. -/
def binaryInplace (op : ℝ → ℝ → ℝ) (s0 s1 : Shape) (n : Nat) (x1 y : Mem ℝ) : Mem ℝ :=
  (List.range n).foldl (fun m i => put m i (op (m (binaryOff s0 s1 false i)) (x1 (binaryOff s0 s1 true i)))) y

/-- add2.cpp:28-49: with equal shapes a plain loop, else BcAdd2 (bc_add2.hpp:34). -/
def add2Inplace (s0 s1 : Shape) (x1 y : Mem ℝ) : Mem ℝ :=
  if s0 = s1 then (List.range (prod s0)).foldl (fun m i => put m i (m i + x1 i)) y
  else binaryInplace (· + ·) s0 s1 (prod s0) x1 y

/-- add2.cpp:50-77: gradient of input 0 or 1 (`side`). -/
def add2Backward (s0 s1 : Shape) (side accum : Bool) (x0 x1 y dy dx : Mem ℝ) : Mem ℝ :=
  if s0 = s1 then (List.range (prod s0)).foldl (fun d i => put d i (if accum then d i + dy i else dy i)) dx
  else binaryBackward (fun dy _ _ _ => dy) s0 s1 (prod s0) (prod (if side then s1 else s0)) side x0 x1 y accum dy dx

/-- layer_normalization.cpp:130-136, group_normalization.cpp:174-180. -/
def affineForward (sh psh : Shape) (gamma beta : Option (Mem ℝ)) (u : Mem ℝ) : Mem ℝ :=
  let y := match gamma with
    | none => u
    | some g => binaryInplace (· * ·) sh psh (prod sh) g u
  match beta with
  | none => y
  | some b => add2Inplace sh psh b y

/-- layer_normalization.cpp:190-200, group_normalization.cpp:247-257: from the gradient `dy` of the output, the gradient of the
normalised array `u`, and those of beta and gamma into their buffers. The data read by Mul2's backward is `u`; Add2's backward
reads no data. -/
def affineBackward (sh psh : Shape) (gamma beta : Option (Mem ℝ)) (u dy : Mem ℝ) (ab ag : Bool) (db dg : Mem ℝ) : Mem ℝ × Mem ℝ × Mem ℝ :=
  let d1 := match beta with
    | none => dy
    | some b => add2Backward sh psh false false u b u dy zeros
  let db' := match beta with
    | none => db
    | some b => add2Backward sh psh true ab u b u dy db
  match gamma with
  | none => (d1, db', dg)
  | some g => (binaryBackward (fun dy _ x1 _ => dy * x1) sh psh (prod sh) (prod sh) false u g u false d1 zeros, db',
      binaryBackward (fun dy x0 _ _ => dy * x0) sh psh (prod sh) (prod psh) true u g u ag d1 dg)

/-! ### Proofs -/

/-- Parameters fit: same rank, each extent 1 or that of x. -/
def Fits (sh psh : Shape) : Prop := binarySetup sh psh = .ok sh

theorem binaryOff_at {sh psh : Shape} (h : Fits sh psh) {j : List Nat} (hj : InBounds sh j) :
    binaryOff sh psh false (ravel sh j) = ravel sh j ∧ binaryOff sh psh true (ravel sh j) = ravel psh (bcast psh j) ∧ InBounds psh (bcast psh j) := by
  have hf := C81_forward (fun a b : Nat × Nat => (a.1, b.2)) sh psh sh h (fun i => (i, i)) (fun i => (i, i)) (fun i => (i, i)) j hj
  rw [binaryForward_lt, if_pos (ravel_lt hj)] at hf
  simp only [Prod.mk.injEq] at hf
  exact ⟨by rw [hf.1.1, bcast_self sh j hj], hf.1.2, hf.2.2⟩

theorem foldl_upd (n : Nat) (f : Nat → ℝ → ℝ) (y : Mem ℝ) (q : Nat) :
    (List.range n).foldl (fun m i => put m i (f i (m i))) y q = if q < n then f q (y q) else y q := by
  induction n with
  | zero => simp
  | succ n ih =>
    rw [List.range_succ, List.foldl_append]
    simp only [List.foldl_cons, List.foldl_nil]
    by_cases e : q = n
    · subst e
      rw [put_same, if_pos (by omega)]
      rw [ih, if_neg (by omega)]
    · rw [put_other _ _ e, ih]
      by_cases h : q < n
      · rw [if_pos h, if_pos (by omega)]
      · rw [if_neg h, if_neg (by omega)]

theorem binaryInplace_eq {sh psh : Shape} (h : Fits sh psh) (op : ℝ → ℝ → ℝ) (x1 y : Mem ℝ) :
    binaryInplace op sh psh (prod sh) x1 y = binaryForward op sh psh (prod sh) y x1 y := by
  have e : binaryInplace op sh psh (prod sh) x1 y =
      (List.range (prod sh)).foldl (fun m i => put m i (op (m i) (x1 (binaryOff sh psh true i)))) y := by
    unfold binaryInplace
    refine List.foldl_ext _ _ _ fun m i hi => ?_
    obtain ⟨j, hj, rfl⟩ := exists_ravel _ _ (List.mem_range.1 hi)
    rw [(binaryOff_at h hj).1]
  rw [e]
  funext q
  rw [foldl_upd (prod sh) (fun i v => op v (x1 (binaryOff sh psh true i)))]
  rw [binaryForward_lt]
  by_cases hq : q < prod sh
  · rw [if_pos hq, if_pos hq]
    obtain ⟨j, hj, rfl⟩ := exists_ravel _ _ hq
    rw [(binaryOff_at h hj).1]
  · rw [if_neg hq, if_neg hq]

theorem add2Inplace_eq {sh psh : Shape} (h : Fits sh psh) (x1 y : Mem ℝ) :
    add2Inplace sh psh x1 y = binaryForward (· + ·) sh psh (prod sh) y x1 y := by
  unfold add2Inplace
  by_cases e : sh = psh
  · rw [if_pos e]
    subst e
    funext q
    rw [foldl_upd (prod sh) (fun i v => v + x1 i), binaryForward_lt]
    by_cases hq : q < prod sh
    · rw [if_pos hq, if_pos hq]
      obtain ⟨j, hj, rfl⟩ := exists_ravel _ _ hq
      obtain ⟨o1, o2, -⟩ := binaryOff_at h hj
      rw [o1, o2, bcast_self sh j hj]
    · rw [if_neg hq, if_neg hq]
  · rw [if_neg e]; exact binaryInplace_eq h _ x1 y

/-- The value of the affine part. -/
theorem affine_at {sh psh : Shape} (h : Fits sh psh) (gamma beta : Option (Mem ℝ)) (u : Mem ℝ) {j : List Nat} (hj : InBounds sh j) :
    affineForward sh psh gamma beta u (ravel sh j) =
      scaleOf gamma (ravel psh (bcast psh j)) * u (ravel sh j) + biasOf beta (ravel psh (bcast psh j)) := by
  obtain ⟨o1, o2, -⟩ := binaryOff_at h hj
  have hq := ravel_lt hj
  unfold affineForward
  cases gamma with
  | none =>
    cases beta with
    | none => simp [scaleOf, biasOf]
    | some b =>
      simp only
      rw [add2Inplace_eq h, binaryForward_lt, if_pos hq, o1, o2]
      simp [scaleOf, biasOf]
  | some g =>
    cases beta with
    | none =>
      simp only
      rw [binaryInplace_eq h, binaryForward_lt, if_pos hq, o1, o2]
      simp [scaleOf, biasOf, mul_comm]
    | some b =>
      simp only
      rw [add2Inplace_eq h, binaryForward_lt, if_pos hq, o1, o2, binaryInplace_eq h, binaryForward_lt, if_pos hq, o1, o2]
      simp [scaleOf, biasOf, mul_comm]

/-- Sum over the elements of an array that use parameter `q`. -/
theorem binaryBackward_at (g : ℝ → ℝ → ℝ → ℝ → ℝ) {sh psh : Shape} (side accum : Bool) (x0 x1 y dy dx : Mem ℝ) (k : Nat)
    (hk : k < prod (if side then psh else sh)) :
    binaryBackward g sh psh (prod sh) (prod (if side then psh else sh)) side x0 x1 y accum dy dx k =
      (if accum then dx k else 0) + binaryBackward g sh psh (prod sh) (prod (if side then psh else sh)) side x0 x1 y false dy zeros k := by
  have e : ∀ (d0 d1 : Mem ℝ), d0 k = d1 k + 0 → (List.range (prod sh)).foldl (fun d i => put d (binaryOff sh psh side i) (d (binaryOff sh psh side i) +
      g (dy i) (x0 (binaryOff sh psh false i)) (x1 (binaryOff sh psh true i)) (y i))) d0 k = _ := fun d0 d1 _ => rfl
  have key : ∀ (l : List Nat) (d0 : Mem ℝ), l.foldl (fun d i => put d (binaryOff sh psh side i) (d (binaryOff sh psh side i) +
      g (dy i) (x0 (binaryOff sh psh false i)) (x1 (binaryOff sh psh true i)) (y i))) d0 k =
      d0 k + (l.map fun i => if binaryOff sh psh side i = k then g (dy i) (x0 (binaryOff sh psh false i)) (x1 (binaryOff sh psh true i)) (y i) else 0).sum := by
    intro l
    induction l with
    | nil => intro d0; simp
    | cons i l ih =>
      intro d0
      rw [List.foldl_cons, ih, List.map_cons, List.sum_cons]
      by_cases e : binaryOff sh psh side i = k
      · rw [if_pos e, e, put_same]; ring
      · rw [if_neg e, put_other _ _ (Ne.symm e)]; ring
  unfold binaryBackward
  rw [key, key]
  cases accum
  · simp [hk, zeros]
  · simp [hk, zeros]

theorem sum_self {sh : Shape} {j : List Nat} (hj : InBounds sh j) (f : Mem ℝ) :
    ((indices sh).map fun i => if bcast sh i = j then f (ravel sh i) else 0).sum = f (ravel sh j) := by
  have e3 : ((indices sh).map fun i => if bcast sh i = j then f (ravel sh i) else 0) =
      (indices sh).map fun i => (fun q => if q = ravel sh j then f q else 0) (ravel sh i) := by
    refine List.map_congr_left fun i hi => ?_
    have hi := (mem_indices _ _).1 hi
    rw [bcast_self sh i hi]
    by_cases e : i = j
    · subst e; simp
    · have : ravel sh i ≠ ravel sh j := fun h => e (ravel_inj _ _ _ hi hj h)
      simp [e, this]
  rw [e3, ← sum_indices sh (fun q => if q = ravel sh j then f q else 0)]
  simp [ravel_lt hj]

theorem add2Backward_eq {sh psh : Shape} (h : Fits sh psh) (side accum : Bool) (x0 x1 y dy dx : Mem ℝ) (k : Nat)
    (hk : k < prod (if side then psh else sh)) :
    add2Backward sh psh side accum x0 x1 y dy dx k =
      binaryBackward (fun dy _ _ _ => dy) sh psh (prod sh) (prod (if side then psh else sh)) side x0 x1 y accum dy dx k := by
  unfold add2Backward
  by_cases e : sh = psh
  · rw [if_pos e]
    subst e
    have hk' : k < prod sh := by simpa using hk
    rw [foldl_upd (prod sh) (fun i v => if accum then v + dy i else dy i), if_pos hk']
    obtain ⟨j, hj, rfl⟩ := exists_ravel _ _ hk'
    have hb := C81_backward (fun dy (_ _ _ : ℝ) => dy) sh sh sh h side accum x0 x1 y dy dx j (by simpa using hj)
    simp only [ite_self] at hb ⊢
    rw [hb]
    have e2 : ((indices sh).map fun i => if bcast sh i = j then dy (ravel sh i) else 0).sum = dy (ravel sh j) := sum_self hj dy
    rw [e2]
    cases accum <;> simp
  · rw [if_neg e]

/-- The affine part as a function of u, gamma, beta: backward is its vector-Jacobian product. -/
theorem affine_vjp {sh psh : Shape} (h : Fits sh psh) (hasScale hasBias : Bool) (u gamma beta dy db dg : Mem ℝ)
    (cu cg cb : ℝ → Mem ℝ) (vu vg vb : Mem ℝ)
    (hu : ∀ k < prod sh, cu 0 k = u k ∧ HasDerivAt (fun t => cu t k) (vu k) 0)
    (hg : ∀ k < prod psh, cg 0 k = gamma k ∧ HasDerivAt (fun t => cg t k) (vg k) 0)
    (hb : ∀ k < prod psh, cb 0 k = beta k ∧ HasDerivAt (fun t => cb t k) (vb k) 0) :
    let G := affineBackward sh psh (given hasScale gamma) (given hasBias beta) u dy false false db dg
    HasDerivAt (fun t => dot (prod sh) dy (affineForward sh psh (given hasScale (cg t)) (given hasBias (cb t)) (cu t)))
      (dot (prod sh) vu G.1 + (if hasScale then dot (prod psh) vg G.2.2 else 0) + (if hasBias then dot (prod psh) vb G.2.1 else 0)) 0 := by
  intro G
  -- derivative of y1 = u * gamma
  have mulD : ∀ (k : Nat), k < prod sh → HasDerivAt (fun t => binaryForward (· * ·) sh psh (prod sh) (cu t) (cg t) (cu t) k)
      (vu k * gamma (binaryOff sh psh true k) + u k * vg (binaryOff sh psh true k)) 0 := by
    intro k hk
    obtain ⟨j, hj, rfl⟩ := exists_ravel _ _ hk
    obtain ⟨o1, o2, o3⟩ := binaryOff_at h hj
    have a1 := hu _ hk
    have a2 := hg _ (ravel_lt o3)
    rw [← o2] at a2
    have := a1.2.mul a2.2
    rw [a1.1, a2.1] at this
    refine (this.congr_of_eventuallyEq (Filter.Eventually.of_forall fun t => ?_))
    simp only [binaryForward_lt, if_pos hk, o1]
    rfl
  have mulV : ∀ (w : Mem ℝ), dot (prod sh) w (fun k => vu k * gamma (binaryOff sh psh true k) + u k * vg (binaryOff sh psh true k)) =
      dot (prod sh) vu (binaryBackward (fun dy _ x1 _ => dy * x1) sh psh (prod sh) (prod sh) false u gamma u false w zeros) +
      dot (prod psh) vg (binaryBackward (fun dy x0 _ _ => dy * x0) sh psh (prod sh) (prod psh) true u gamma u false w dg) := by
    intro w
    rw [binary_dot sh psh _ _ false _ u gamma u w zeros vu (fun i hi => by
        obtain ⟨j, hj, rfl⟩ := exists_ravel _ _ hi; rw [(binaryOff_at h hj).1]; exact hi),
      binary_dot sh psh _ _ true _ u gamma u w dg vg (fun i hi => by
        obtain ⟨j, hj, rfl⟩ := exists_ravel _ _ hi; obtain ⟨-, o2, o3⟩ := binaryOff_at h hj; rw [o2]; exact ravel_lt o3), ← Finset.sum_add_distrib]
    refine Finset.sum_congr rfl fun i hi => ?_
    obtain ⟨j, hj, rfl⟩ := exists_ravel _ _ (Finset.mem_range.1 hi)
    rw [(binaryOff_at h hj).1]
    ring
  -- derivative of y2 = y1 + beta
  have addD : ∀ (c : ℝ → Mem ℝ) (v : Mem ℝ), (∀ k < prod sh, HasDerivAt (fun t => c t k) (v k) 0) →
      ∀ k, k < prod sh → HasDerivAt (fun t => binaryForward (· + ·) sh psh (prod sh) (c t) (cb t) (c t) k) (v k + vb (binaryOff sh psh true k)) 0 := by
    intro c v hv k hk
    obtain ⟨j, hj, rfl⟩ := exists_ravel _ _ hk
    obtain ⟨o1, o2, o3⟩ := binaryOff_at h hj
    have a2 := hb _ (ravel_lt o3)
    rw [← o2] at a2
    refine ((hv _ hk).add a2.2).congr_of_eventuallyEq (Filter.Eventually.of_forall fun t => ?_)
    simp only [binaryForward_lt, if_pos hk, o1]
    rfl
  have d1 : ∀ k < prod sh, add2Backward sh psh false false u beta u dy zeros k = dy k := by
    intro k hk
    rw [add2Backward_eq h false false u beta u dy zeros k (by simpa using hk)]
    obtain ⟨j, hj, rfl⟩ := exists_ravel _ _ hk
    have hb := C81_backward (fun dy (_ _ _ : ℝ) => dy) sh psh sh h false false u beta u dy zeros j (by simpa using hj)
    simp only [Bool.false_eq_true, if_false, zero_add] at hb ⊢
    rw [hb]
    exact sum_self hj dy
  have addV : dot (prod sh) dy (fun k => vb (binaryOff sh psh true k)) = dot (prod psh) vb (add2Backward sh psh true false u beta u dy db) := by
    have : dot (prod psh) vb (add2Backward sh psh true false u beta u dy db) =
        dot (prod psh) vb (binaryBackward (fun dy _ _ _ => dy) sh psh (prod sh) (prod psh) true u beta u false dy db) :=
      dot_congr fun i hi => by
        have := add2Backward_eq h true false u beta u dy db i (by simpa using hi)
        simp only [if_true] at this
        rw [this]
    rw [this, binary_dot sh psh _ _ true _ u beta u dy db vb (fun i hi => by
        obtain ⟨j, hj, rfl⟩ := exists_ravel _ _ hi; obtain ⟨-, o2, o3⟩ := binaryOff_at h hj; rw [o2]; exact ravel_lt o3)]
    exact Finset.sum_congr rfl fun i _ => mul_comm _ _
  cases hasScale <;> cases hasBias <;>
    simp only [given, Bool.false_eq_true, if_false, if_true, affineForward, affineBackward, G, add_zero]
  · refine (hasDerivAt_dot _ dy _ vu fun i hi => (hu i hi).2).congr_deriv (Finset.sum_congr rfl fun i _ => mul_comm _ _)
  · simp only [add2Inplace_eq h]
    refine (hasDerivAt_dot _ dy _ _ (addD cu vu fun k hk => (hu k hk).2)).congr_deriv ?_
    rw [← addV]
    have : dot (prod sh) vu (add2Backward sh psh false false u beta u dy zeros) = dot (prod sh) dy vu :=
      dot_congr fun i hi => by rw [d1 i hi, mul_comm]
    rw [this]
    unfold dot
    rw [← Finset.sum_add_distrib]
    exact Finset.sum_congr rfl fun i _ => by ring
  · simp only [binaryInplace_eq h]
    refine (hasDerivAt_dot _ dy _ _ mulD).congr_deriv ?_
    rw [mulV]
  · simp only [add2Inplace_eq h, binaryInplace_eq h]
    refine (hasDerivAt_dot _ dy _ _ (addD _ _ mulD)).congr_deriv ?_
    rw [← addV]
    have e0 : dot (prod sh) dy (fun k => vu k * gamma (binaryOff sh psh true k) + u k * vg (binaryOff sh psh true k)) =
        dot (prod sh) (add2Backward sh psh false false u beta u dy zeros) (fun k => vu k * gamma (binaryOff sh psh true k) + u k * vg (binaryOff sh psh true k)) :=
      dot_congr fun i hi => by rw [d1 i hi]
    have e1 : dot (prod sh) dy (fun k => vu k * gamma (binaryOff sh psh true k) + u k * vg (binaryOff sh psh true k) + vb (binaryOff sh psh true k)) =
        dot (prod sh) dy (fun k => vu k * gamma (binaryOff sh psh true k) + u k * vg (binaryOff sh psh true k)) +
        dot (prod sh) dy (fun k => vb (binaryOff sh psh true k)) := by
      unfold dot
      rw [← Finset.sum_add_distrib]
      exact Finset.sum_congr rfl fun i _ => by ring
    rw [e1, e0, mulV]

/-- Composition with a function whose gradient is known for every linear loss. -/
theorem compose_grad (n : Nat) (F : Mem ℝ → Mem ℝ) (S : Mem ℝ → ℝ) (x : Mem ℝ) (bw : Mem ℝ → Mem ℝ)
    (hF : ∀ dy, IsGradX n (fun x => dot n dy (F x) + S x) x (bw dy)) (cx : ℝ → Mem ℝ) (vx : Mem ℝ)
    (hx : ∀ k < n, cx 0 k = x k ∧ HasDerivAt (fun t => cx t k) (vx k) 0)
    (A : ℝ → Mem ℝ → ℝ) (du : Mem ℝ) (P : ℝ)
    (hA : ∀ vu : Mem ℝ, (∀ k < n, HasDerivAt (fun t => F (cx t) k) (vu k) 0) → HasDerivAt (fun t => A t (F (cx t))) (dot n vu du + P) 0) :
    HasDerivAt (fun t => A t (F (cx t)) + S (cx t)) (dot n vx (bw du) + P) 0 := by
  have h0 := hF zeros cx vx hx
  have e0 : ∀ t, dot n zeros (F (cx t)) + S (cx t) = S (cx t) := fun t => by simp [dot, zeros]
  simp only [e0] at h0
  have hi : ∀ i < n, ∃ w, HasDerivAt (fun t => F (cx t) i) w 0 := by
    intro i hi
    have h1 := hF (fun k => if k = i then 1 else 0) cx vx hx
    refine ⟨_, (h1.sub h0).congr_of_eventuallyEq (Filter.Eventually.of_forall fun t => ?_)⟩
    simp [dot, hi]
  choose! w hw using hi
  have hd := hF du cx vx hx
  have hd2 : HasDerivAt (fun t => dot n du (F (cx t)) + S (cx t)) (dot n du w + dot n vx (bw zeros)) 0 :=
    (hasDerivAt_dot n du _ w hw).add h0
  have := hd.unique hd2
  refine ((hA w hw).add h0).congr_deriv ?_
  rw [this]
  have : dot n w du = dot n du w := dot_congr fun i _ => mul_comm _ _
  rw [this]; ring

end Verif.Norm
