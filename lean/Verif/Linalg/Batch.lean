import Mathlib.LinearAlgebra.Matrix.Trace
import Verif.Linalg.Calc
import Verif.Elem.BatchMatmulProps
import Verif.NormFn.ClipGrad
/-
BatchInv, BatchDet and BatchLogdet: model /repo/src/nbla/function/generic/{batch_inv,batch_det,batch_logdet}.cpp over the
real numbers. The functions they call (MulScalar, BatchMatmul, Transpose, Mul2, Add2, Abs, Log) are the models of
Verif.Elem and Verif.Fn. Eigen's inverse() and determinant() are not modelled: they are parameters, and the theorems assume
that they are exact (for the inverse: on invertible matrices only; on a singular matrix it may return anything).
-/
namespace Verif.Linalg
open Verif.ND Verif.Fn Verif.Elem Verif.NormFn Matrix

/-! ### Model -/

/-- Eigen's inverse() and determinant() of row-major matrices (batch_inv.cpp:54, batch_det.cpp:57). -/
structure Eigen where
  inverse : ∀ d, Matrix (Fin d) (Fin d) ℝ → Matrix (Fin d) (Fin d) ℝ
  determinant : ∀ d, Matrix (Fin d) (Fin d) ℝ → ℝ

/-- ConstMatrixMap<T> mx(x + p, d, d) (eigen.hpp:28-36). -/
def matAt (x : Mem ℝ) (p d : Nat) : Matrix (Fin d) (Fin d) ℝ := fun i j => x (at_ p d i j)

/-- Element (i, j). -/
def elemOf {d : Nat} (A : Matrix (Fin d) (Fin d) ℝ) (i j : Nat) : ℝ := if h : i < d ∧ j < d then A ⟨i, h.1⟩ ⟨j, h.2⟩ else 0

/-- The checks of setup_impl (batch_inv.cpp:28-40, batch_det.cpp:27-41, batch_logdet.cpp:31-46): batch size and dimension. -/
def linSetup (s : Shape) : Except String (Nat × Nat) :=
  if s.length = 3 then (if s.getD 1 0 = s.getD 2 0 then .ok (s.getD 0 0, s.getD 1 0) else .error "Input must be square matrix")
  else .error "Input must be 2D array"

/-- BatchInv::forward_impl (batch_inv.cpp:42-55). -/
noncomputable def invForward (E : Eigen) (B d : Nat) (x y : Mem ℝ) : Mem ℝ :=
  (List.range B).foldl (fun m s => forMat d d (at_ (s * (d * d)) d)
    (fun i j _ => elemOf (E.inverse d (matAt x (s * (d * d)) d)) i j) m) y

/-- The initial contents of temporaries. -/
structure Tmp where
  t0 : Mem ℝ
  t1 : Mem ℝ
  t2 : Mem ℝ
  t3 : Mem ℝ
  t4 : Mem ℝ
  t5 : Mem ℝ

/-- The last step of both backward_impl (batch_inv.cpp:90-102, batch_det.cpp:98-110): copy, or Add2 in place (every element is
read before it is written, so the old contents are what is read). `so` is the shape of the result `o`. -/
noncomputable def finish (s so : Shape) (accum : Bool) (o gx : Mem ℝ) : Except String (Mem ℝ) :=
  if accum then
    match binarySetup s so with
    | .error e => .error e
    | .ok out => .ok (binaryForward Binary.add2.forward s so (prod out) gx o gx)
  else .ok (copyForward (prod so) o gx)

/-- BatchInv::backward_impl (batch_inv.cpp:57-103); `inv` is the output of forward. -/
noncomputable def invBackward (B d : Nat) (t : Tmp) (inv : Mem ℝ) (accum : Bool) (gy gx : Mem ℝ) : Except String (Mem ℝ) :=
  let s := [B, d, d]
  let neg := unaryForward (Unary.mulScalar (-1)).forward (prod s) inv t.t0
  match bmmSetup true false s s with
  | .error e => .error e
  | .ok (f1, s1) =>
    match bmmForward f1 s s t.t1 t.t2 neg gy t.t3 with
    | .error e => .error e
    | .ok o1 =>
      match bmmSetup false true s1 s with
      | .error e => .error e
      | .ok (f2, s2) =>
        match bmmForward f2 s1 s t.t1 t.t2 o1 inv t.t4 with
        | .error e => .error e
        | .ok o2 => finish s s2 accum o2 gx

/-- BatchDet::forward_impl (batch_det.cpp:43-54). -/
noncomputable def detForward (E : Eigen) (B d : Nat) (x y : Mem ℝ) : Mem ℝ :=
  (List.range B).foldl (fun m s => put m s (E.determinant d (matAt x (s * (d * d)) d))) y

/-- BatchDet::backward_impl (batch_det.cpp:56-111); `det` is the output of forward. -/
noncomputable def detBackward (E : Eigen) (B d : Nat) (t : Tmp) (x det : Mem ℝ) (accum : Bool) (gy gx : Mem ℝ) : Except String (Mem ℝ) :=
  let s := [B, d, d]
  match linSetup s with
  | .error e => .error e
  | .ok bd =>
    let inv := invForward E bd.1 bd.2 x t.t0
    match binarySetup [B, 1, 1] [B, 1, 1] with
    | .error e => .error e
    | .ok s1 =>
      let m1 := binaryForward Binary.mul2.forward [B, 1, 1] [B, 1, 1] (prod s1) gy det t.t1
      match trSetup ([0, 2, 1].map fun a : Nat => (a : Int)) s with
      | .error e => .error e
      | .ok (_, ts) =>
        let tr := trForward ts inv t.t2
        match binarySetup s1 ts.oshape with
        | .error e => .error e
        | .ok s2 =>
          let m2 := binaryForward Binary.mul2.forward s1 ts.oshape (prod s2) m1 tr t.t3
          finish s s2 accum m2 gx

/-- BatchLogdet::forward_impl (batch_logdet.cpp:49-58): det, then abs and log in place. -/
noncomputable def logdetForward (E : Eigen) (B d : Nat) (x y : Mem ℝ) : Mem ℝ :=
  let y1 := detForward E B d x y
  let y2 := unaryForward Unary.abs.forward B y1 y1
  unaryForward Unary.log.forward B y2 y2

/-- BatchLogdet::backward_impl (batch_logdet.cpp:60-90): det and abs are computed again; `y` is the output of forward. -/
noncomputable def logdetBackward (E : Eigen) (B d : Nat) (t : Tmp) (x y : Mem ℝ) (accum : Bool) (gy gx : Mem ℝ) : Except String (Mem ℝ) :=
  let od := detForward E B d x t.t4
  let oa := unaryForward Unary.abs.forward B od t.t5
  let ga := unaryBackward Unary.log.grad B oa y false gy zeros
  let gd := unaryBackward Unary.abs.grad B od oa false ga zeros
  detBackward E B d t x od accum gd gx

/-! ### Specification -/

/-- Eigen computes exactly: the determinant always, the inverse of an invertible matrix. -/
def Eigen.Exact (E : Eigen) : Prop :=
  (∀ d A, E.determinant d A = A.det) ∧ ∀ d A, A.det ≠ 0 → E.inverse d A * A = 1

/-- Matrix number `s` of an array of shape (B, d, d). -/
def mat (d : Nat) (x : Mem ℝ) (s : Nat) : Matrix (Fin d) (Fin d) ℝ := fun i j => x (ravel [s + 1, d, d] [s, i, j])

/-! ### Lemmas -/

theorem offs (B d s i j : Nat) : ravel [B, d, d] [s, i, j] = at_ (s * (d * d)) d i j := by
  simp [ravel, prod, at_]

theorem mat_eq (d : Nat) (x : Mem ℝ) (s : Nat) : mat d x s = matAt x (s * (d * d)) d := by
  funext i j; unfold mat matAt; rw [offs]

theorem at_lt {B d s i j : Nat} (hs : s < B) (hi : i < d) (hj : j < d) : at_ (s * (d * d)) d i j < B * (d * d) := by
  have h := ravel_lt (s := [B, d, d]) (i := [s, i, j]) ⟨hs, hi, hj, trivial⟩
  rw [offs] at h
  simpa [prod] using h

theorem at_cover {B d k : Nat} (hk : k < B * (d * d)) : ∃ s i j, s < B ∧ i < d ∧ j < d ∧ k = at_ (s * (d * d)) d i j := by
  obtain ⟨l, hl, e⟩ := exists_index [B, d, d] k (by simpa [prod] using hk)
  match l, hl with
  | [s, i, j], hl => exact ⟨s, i, j, hl.1, hl.2.1, hl.2.2.1, by rw [← e, offs]⟩

theorem at3_inj {d s i j s' i' j' : Nat} (hi : i < d) (hj : j < d) (hi' : i' < d) (hj' : j' < d)
    (h : at_ (s * (d * d)) d i j = at_ (s' * (d * d)) d i' j') : s = s' ∧ i = i' ∧ j = j' :=
  atT_inj false d d (s := s) (s' := s') (i := i) (j := j) (i' := i') (j' := j') hi hj hi' hj' h

theorem invForward_at (E : Eigen) (B d : Nat) (x y : Mem ℝ) (s i j : Nat) (hs : s < B) (hi : i < d) (hj : j < d) :
    invForward E B d x y (at_ (s * (d * d)) d i j) = E.inverse d (matAt x (s * (d * d)) d) ⟨i, hi⟩ ⟨j, hj⟩ := by
  have := (batch_spec B d d (fun s => at_ (s * (d * d)) d)
    (fun s i j _ => elemOf (E.inverse d (matAt x (s * (d * d)) d)) i j) y
    (fun s i j s' i' j' _ hi hj _ hi' hj' e => at3_inj hi hj hi' hj' e)).1 s i j hs hi hj
  unfold invForward
  rw [this]
  simp [elemOf, hi, hj]

theorem detForward_at (E : Eigen) (B d : Nat) (x y : Mem ℝ) (s : Nat) :
    detForward E B d x y s = if s < B then E.determinant d (matAt x (s * (d * d)) d) else y s :=
  fold_put_old (fun s _ => E.determinant d (matAt x (s * (d * d)) d)) B y s

/-- A sum over the whole array, matrix by matrix. -/
theorem sum_mats (B d : Nat) (f : Nat → ℝ) :
    ∑ k ∈ Finset.range (B * (d * d)), f k = ∑ s ∈ Finset.range B, ∑ i : Fin d, ∑ j : Fin d, f (at_ (s * (d * d)) d i j) := by
  rw [sum_range_mul]
  refine Finset.sum_congr rfl fun s _ => ?_
  rw [sum_range_mul, Finset.sum_range]
  refine Finset.sum_congr rfl fun i _ => ?_
  rw [Finset.sum_range]
  rfl

/-- The two products: matrices of equal size, one batch axis of equal length. -/
theorem bmm3 (ta tb : Bool) (B d : Nat) (bufa bufb a b y : Mem ℝ) :
    ∃ f r, bmmSetup ta tb [B, d, d] [B, d, d] = .ok (f, [B, d, d]) ∧
      bmmForward f [B, d, d] [B, d, d] bufa bufb a b y = .ok r ∧
      ∀ s, s < B → matAt r (s * (d * d)) d =
        (if ta then (matAt a (s * (d * d)) d)ᵀ else matAt a (s * (d * d)) d) *
        (if tb then (matAt b (s * (d * d)) d)ᵀ else matAt b (s * (d * d)) d) := by
  have hset : bmmSetup ta tb ([B] ++ [d, d]) ([B] ++ [d, d]) = .ok (⟨ta, tb, d, d, d, d, [B], false, false⟩, [B] ++ [d, d]) := by
    by_cases h1 : B = 1
    · subst h1; cases ta <;> cases tb <;> simp [bmmSetup, bmmBatch]
    · cases ta <;> cases tb <;> simp [bmmSetup, bmmBatch, h1]
  obtain ⟨O, r, hr, hO, hout, hv⟩ := C87_bmm ta tb [B] [B] d d d d _ _ hset bufa bufb a b y
  have hO' : O = [B] := by
    have := hout
    simp only [ite_self] at this
    exact (List.append_cancel_right this).symm
  subst hO'
  refine ⟨_, r, hset, hr, ?_⟩
  intro s hs
  ext i j
  have := (hv [s] i j ⟨hs, trivial⟩ (by simp) (by simp)).2.2
  rw [bcIndex_self [B] [s] ⟨hs, trivial⟩] at this
  simp only [ite_self, matElem] at this
  simp only [List.cons_append, List.nil_append, offs] at this
  rw [mul_apply]
  show r (at_ (s * (d * d)) d i j) = _
  rw [this, Finset.sum_range]
  refine Finset.sum_congr rfl fun k _ => ?_
  cases ta <;> cases tb <;> rfl

/-- The last step writes, or adds to the old gradient. -/
theorem finish_eq (B d : Nat) (hB : 0 < B) (hd : 0 < d) (accum : Bool) (o gx : Mem ℝ) :
    ∃ r, finish [B, d, d] [B, d, d] accum o gx = .ok r ∧
      ∀ k, k < B * (d * d) → r k = (if accum then gx k else 0) + o k := by
  have hp : prod [B, d, d] = B * (d * d) := by simp [prod]
  unfold finish
  cases accum with
  | false =>
    refine ⟨_, rfl, ?_⟩
    intro k hk
    rw [copyForward_eq, hp, if_pos hk]; simp
  | true =>
    have hpos : 0 < prod [B, d, d] := by rw [hp]; positivity
    have hs : binarySetup [B, d, d] [B, d, d] = .ok [B, d, d] := binary_same _ _ rfl hpos fun a _ => Or.inl rfl
    rw [if_pos rfl, hs]
    refine ⟨_, rfl, ?_⟩
    intro k hk
    obtain ⟨j, hj, rfl⟩ := exists_index [B, d, d] k (by rw [hp]; exact hk)
    rw [(binary_value Binary.add2.forward _ _ hs gx o gx j hj).1, bcast_self _ _ hj]
    rfl

/-- ⟨G, P V P⟩ = ⟨V, Pᵀ G Pᵀ⟩. -/
theorem ip_conj {d : Nat} (G P V : Matrix (Fin d) (Fin d) ℝ) :
    ∑ i, ∑ j, G i j * (P * V * P) i j = ∑ i, ∑ j, V i j * (Pᵀ * G * Pᵀ) i j := by
  have ip : ∀ X Y : Matrix (Fin d) (Fin d) ℝ, ∑ i, ∑ j, X i j * Y i j = trace (Xᵀ * Y) := by
    intro X Y
    simp only [trace, diag_apply, Matrix.mul_apply, transpose_apply]
    exact Finset.sum_comm
  rw [ip, ip, trace_mul_comm Vᵀ, ← trace_transpose, transpose_mul, transpose_transpose, transpose_mul, transpose_mul]
  rw [← Matrix.mul_assoc Pᵀ Vᵀ Pᵀ, Matrix.mul_assoc (Pᵀ * Vᵀ), trace_mul_comm, ← Matrix.mul_assoc]

/-! ### C180: batch_inv -/

/-- **C180 (setup).** -/
theorem C180_setup (s : Shape) (B d : Nat) : linSetup s = .ok (B, d) ↔ s = [B, d, d] := by
  unfold linSetup
  constructor
  · intro h
    by_cases h3 : s.length = 3
    · rw [if_pos h3] at h
      match s, h3 with
      | [a, b, c], _ =>
        simp only [List.getD_cons_zero, List.getD_cons_succ] at h
        by_cases e : b = c
        · subst e; rw [if_pos rfl] at h
          simp only [Except.ok.injEq, Prod.mk.injEq] at h
          obtain ⟨rfl, rfl⟩ := h; rfl
        · rw [if_neg e] at h; cases h
    · rw [if_neg h3] at h; cases h
  · rintro rfl; simp

theorem inverse_eq (E : Eigen) (hE : E.Exact) {d : Nat} (A : Matrix (Fin d) (Fin d) ℝ) (h : A.det ≠ 0) : E.inverse d A = A⁻¹ :=
  (inv_eq_left_inv (hE.2 d A h)).symm

/-- **C180.** For invertible matrices batch_inv returns their inverses, and backward writes (or adds to the old gradient) the
gradient of the forward map. -/
theorem C180_batch_inv (E : Eigen) (hE : E.Exact) (B d : Nat) (hB : 0 < B) (hd : 0 < d) (x y0 : Mem ℝ)
    (hx : ∀ s, s < B → (mat d x s).det ≠ 0) :
    (∀ s, s < B → mat d (invForward E B d x y0) s * mat d x s = 1) ∧
    ∃ G : Mem ℝ → Mem ℝ, IsVJP (B * (d * d)) (B * (d * d)) (fun x => invForward E B d x y0) x G ∧
      ∀ (y : Mem ℝ) (t : Tmp) (accum : Bool) (gy gx : Mem ℝ), (∀ k, k < B * (d * d) → y k = invForward E B d x y0 k) →
        ∃ r, invBackward B d t y accum gy gx = .ok r ∧
          ∀ k, k < B * (d * d) → r k = (if accum then gx k else 0) + G gy k := by
  have hfw : ∀ s, s < B → matAt (invForward E B d x y0) (s * (d * d)) d = (matAt x (s * (d * d)) d)⁻¹ := by
    intro s hs
    ext i j
    show invForward E B d x y0 (at_ _ d i j) = _
    rw [invForward_at E B d x y0 s i j hs i.2 j.2, inverse_eq E hE _ (by rw [← mat_eq]; exact hx s hs)]
  refine ⟨?_, ?_⟩
  · intro s hs
    rw [mat_eq, mat_eq, hfw s hs]
    exact nonsing_inv_mul _ (isUnit_iff_ne_zero.mpr (by rw [← mat_eq]; exact hx s hs))
  -- the backward pass, run once with fixed temporaries
  have hback : ∀ (y : Mem ℝ) (t : Tmp) (accum : Bool) (gy gx : Mem ℝ), (∀ k, k < B * (d * d) → y k = invForward E B d x y0 k) →
      ∃ r o, invBackward B d t y accum gy gx = .ok r ∧
        (∀ k, k < B * (d * d) → r k = (if accum then gx k else 0) + o k) ∧
        ∀ s, s < B → matAt o (s * (d * d)) d =
          -(((matAt x (s * (d * d)) d)⁻¹)ᵀ * matAt gy (s * (d * d)) d * ((matAt x (s * (d * d)) d)⁻¹)ᵀ) := by
    intro y t accum gy gx hy
    have hinv : ∀ s, s < B → matAt y (s * (d * d)) d = (matAt x (s * (d * d)) d)⁻¹ := by
      intro s hs
      rw [← hfw s hs]
      funext i j
      exact hy _ (at_lt hs i.2 j.2)
    set neg := unaryForward (Unary.mulScalar (-1)).forward (prod [B, d, d]) y t.t0 with hneg
    have hn : ∀ s, s < B → matAt neg (s * (d * d)) d = -(matAt x (s * (d * d)) d)⁻¹ := by
      intro s hs
      rw [← hinv s hs]
      funext i j
      show neg (at_ _ d i j) = -(y (at_ _ d i j))
      rw [hneg, unaryForward_eq, if_pos (by simpa [prod] using at_lt hs i.2 j.2)]
      simp [Unary.forward]
    obtain ⟨f1, o1, e1, e2, v1⟩ := bmm3 true false B d t.t1 t.t2 neg gy t.t3
    obtain ⟨f2, o2, e3, e4, v2⟩ := bmm3 false true B d t.t1 t.t2 o1 y t.t4
    obtain ⟨r, e5, hr⟩ := finish_eq B d hB hd accum o2 gx
    refine ⟨r, o2, ?_, hr, ?_⟩
    · unfold invBackward
      simp only [← hneg, e1, e2, e3, e4, e5]
    · intro s hs
      rw [v2 s hs, v1 s hs, hn s hs, hinv s hs]
      simp [Matrix.mul_assoc]
  let G : Mem ℝ → Mem ℝ := fun gy k =>
    elemOf (-(((matAt x (k / (d * d) * (d * d)) d)⁻¹)ᵀ * matAt gy (k / (d * d) * (d * d)) d * ((matAt x (k / (d * d) * (d * d)) d)⁻¹)ᵀ))
      (k % (d * d) / d) (k % (d * d) % d)
  have hG : ∀ gy s (i j : Fin d), s < B → G gy (at_ (s * (d * d)) d i j) =
      (-(((matAt x (s * (d * d)) d)⁻¹)ᵀ * matAt gy (s * (d * d)) d * ((matAt x (s * (d * d)) d)⁻¹)ᵀ)) i j := by
    intro gy s i j hs
    have hlt : (i : Nat) * d + j < d * d := by
      calc (i : Nat) * d + j < i * d + d := by have := j.2; omega
        _ = (i + 1) * d := by ring
        _ ≤ d * d := Nat.mul_le_mul_right d i.2
    have hdd : 0 < d * d := by positivity
    have h1 : at_ (s * (d * d)) d i j / (d * d) = s := by
      unfold at_; rw [Nat.mul_comm s, Nat.mul_add_div hdd, Nat.div_eq_of_lt hlt, Nat.add_zero]
    have h2 : at_ (s * (d * d)) d i j % (d * d) = i * d + j := by
      unfold at_; rw [Nat.mul_comm s, Nat.mul_add_mod, Nat.mod_eq_of_lt hlt]
    have h3 : ((i : Nat) * d + j) / d = i := by
      rw [Nat.mul_comm, Nat.mul_add_div hd, Nat.div_eq_of_lt j.2, Nat.add_zero]
    have h4 : ((i : Nat) * d + j) % d = j := by
      rw [Nat.mul_comm, Nat.mul_add_mod, Nat.mod_eq_of_lt j.2]
    simp only [G, h1, h2, h3, h4, elemOf]
    rw [dif_pos ⟨i.2, j.2⟩]
  refine ⟨G, ?_, ?_⟩
  · intro c v hc gy
    -- velocity of the inverse
    have key : ∀ s (i j : Fin d), s < B → HasDerivAt (fun t => invForward E B d (c t) y0 (at_ (s * (d * d)) d i j))
        (-((matAt x (s * (d * d)) d)⁻¹ * matAt v (s * (d * d)) d * (matAt x (s * (d * d)) d)⁻¹) i j) 0 := by
      intro s i j hs
      have h0 : matAt (c 0) (s * (d * d)) d = matAt x (s * (d * d)) d := by
        funext a b; exact (hc _ (at_lt hs a.2 b.2)).1
      obtain ⟨hev, hder⟩ := hasDerivAt_inv (fun t => matAt (c t) (s * (d * d)) d) (matAt v (s * (d * d)) d)
        (fun a b => (hc _ (at_lt hs a.2 b.2)).2) (by rw [h0, ← mat_eq]; exact hx s hs)
      have h1 := hder i j
      rw [h0] at h1
      refine h1.congr_of_eventuallyEq ?_
      filter_upwards [hev] with t ht
      rw [invForward_at E B d (c t) y0 s i j hs i.2 j.2, inverse_eq E hE _ ht]
    let w : Mem ℝ := fun k => deriv (fun t => invForward E B d (c t) y0 k) 0
    have hw : ∀ k, k < B * (d * d) → HasDerivAt (fun t => invForward E B d (c t) y0 k) (w k) 0 := by
      intro k hk
      obtain ⟨s, i, j, hs, hi, hj, rfl⟩ := at_cover hk
      exact (key s ⟨i, hi⟩ ⟨j, hj⟩ hs).differentiableAt.hasDerivAt
    refine (hasDerivAt_dot _ gy _ w hw).congr_deriv ?_
    unfold dot
    rw [sum_mats, sum_mats]
    refine Finset.sum_congr rfl fun s hs => ?_
    have hs : s < B := Finset.mem_range.mp hs
    have hwk : ∀ i j : Fin d, w (at_ (s * (d * d)) d i j) =
        -((matAt x (s * (d * d)) d)⁻¹ * matAt v (s * (d * d)) d * (matAt x (s * (d * d)) d)⁻¹) i j :=
      fun i j => (key s i j hs).deriv
    simp only [hwk, hG _ s _ _ hs, Matrix.neg_apply, mul_neg, Finset.sum_neg_distrib]
    congr 1
    exact ip_conj (matAt gy (s * (d * d)) d) _ (matAt v (s * (d * d)) d)
  · intro y t accum gy gx hy
    obtain ⟨r, o, e, h1, h2⟩ := hback y t accum gy gx hy
    refine ⟨r, e, ?_⟩
    intro k hk
    rw [h1 k hk]
    congr 1
    obtain ⟨s, i, j, hs, hi, hj, rfl⟩ := at_cover hk
    have := hG gy s ⟨i, hi⟩ ⟨j, hj⟩ hs
    simp only at this
    rw [this, ← h2 s hs]
    rfl

end Verif.Linalg
