import Verif.Linalg.Batch
/-
Theorems about BatchDet and BatchLogdet (model in Verif.Linalg.Batch).
-/
namespace Verif.Linalg
open Verif.ND Verif.Fn Verif.Elem Verif.NormFn Matrix

/-! ### Lemmas -/

theorem trans3 (B d : Nat) (hB : 0 < B) (hd : 0 < d) (x y : Mem ℝ) :
    ∃ a ts, trSetup ([0, 2, 1].map fun a : Nat => (a : Int)) [B, d, d] = .ok (a, ts) ∧ ts.oshape = [B, d, d] ∧
      ∀ s i j, s < B → i < d → j < d → trForward ts x y (at_ (s * (d * d)) d i j) = x (at_ (s * (d * d)) d j i) := by
  obtain ⟨ts, h1, h2, h3⟩ := C72_transpose_partial (R := ℝ) [0, 2, 1] [B, d, d]
    ⟨by decide, by simp, rfl⟩ (by simp only [prod]; positivity)
  have ho : ts.oshape = [B, d, d] := by rw [h2]; rfl
  refine ⟨_, ts, h1, ho, ?_⟩
  intro s i j hs hi hj
  have := h3 x y [s, j, i] ⟨hs, hj, hi, trivial⟩
  rw [ho] at this
  have e : ([0, 2, 1].map fun a => [s, j, i].getD a 0) = [s, i, j] := rfl
  rw [e, offs, offs] at this
  exact this

theorem scal3 (B d : Nat) (hB : 0 < B) (hd : 0 < d) (a b y : Mem ℝ) :
    binarySetup [B, 1, 1] [B, d, d] = .ok [B, d, d] ∧
    ∀ s i j, s < B → i < d → j < d →
      binaryForward Binary.mul2.forward [B, 1, 1] [B, d, d] (prod [B, d, d]) a b y (at_ (s * (d * d)) d i j) =
        a s * b (at_ (s * (d * d)) d i j) := by
  have hset : binarySetup [B, 1, 1] [B, d, d] = .ok [B, d, d] := by
    unfold binarySetup
    rw [if_neg (by simp), if_neg]
    · simp; omega
    · rintro ⟨p, hp, h1, h2⟩
      simp at hp
      rcases hp with rfl | rfl
      · exact h1 rfl
      · simp at h2; omega
  refine ⟨hset, ?_⟩
  intro s i j hs hi hj
  have hb : InBounds [B, d, d] [s, i, j] := ⟨hs, hi, hj, trivial⟩
  have := (C81_forward Binary.mul2.forward _ _ _ hset a b y [s, i, j] hb).1
  rw [bcast_self _ _ hb, offs] at this
  rw [this]
  have e : ravel [B, 1, 1] (bcast [B, 1, 1] [s, i, j]) = s := by
    by_cases h : B = 1
    · subst h; simp [bcast, ravel, prod]; omega
    · simp [bcast, ravel, prod, h]
  rw [e]
  rfl

theorem scal1 (B : Nat) (hB : 0 < B) (a b y : Mem ℝ) :
    binarySetup [B, 1, 1] [B, 1, 1] = .ok [B, 1, 1] ∧
    ∀ s, s < B → binaryForward Binary.mul2.forward [B, 1, 1] [B, 1, 1] (prod [B, 1, 1]) a b y s = a s * b s := by
  obtain ⟨h1, h2⟩ := scal3 B 1 hB Nat.one_pos a b y
  refine ⟨h1, ?_⟩
  intro s hs
  have := h2 s 0 0 hs Nat.one_pos Nat.one_pos
  simpa [at_] using this

/-- What backward of batch_det writes, whatever Eigen's inverse is. -/
theorem detBackward_eq (E : Eigen) (B d : Nat) (hB : 0 < B) (hd : 0 < d) (t : Tmp) (x det : Mem ℝ) (accum : Bool) (gy gx : Mem ℝ) :
    ∃ r, detBackward E B d t x det accum gy gx = .ok r ∧
      ∀ s (i j : Fin d), s < B → r (at_ (s * (d * d)) d i j) =
        (if accum then gx (at_ (s * (d * d)) d i j) else 0) + gy s * det s * E.inverse d (matAt x (s * (d * d)) d) j i := by
  have hls : linSetup [B, d, d] = .ok (B, d) := (C180_setup _ _ _).mpr rfl
  obtain ⟨e1, v1⟩ := scal1 B hB gy det t.t1
  obtain ⟨a, ts, e2, ho, v2⟩ := trans3 B d hB hd (invForward E B d x t.t0) t.t2
  obtain ⟨e3, v3⟩ := scal3 B d hB hd (binaryForward Binary.mul2.forward [B, 1, 1] [B, 1, 1] (prod [B, 1, 1]) gy det t.t1)
    (trForward ts (invForward E B d x t.t0) t.t2) t.t3
  obtain ⟨r, e4, hr⟩ := finish_eq B d hB hd accum _ gx
  refine ⟨r, ?_, ?_⟩
  · unfold detBackward
    simp only [hls, e1, e2, ho, e3]
    exact e4
  · intro s i j hs
    rw [hr _ (at_lt hs i.2 j.2), v3 s i j hs i.2 j.2, v1 s hs, v2 s i j hs i.2 j.2, invForward_at E B d x t.t0 s j i hs j.2 i.2]

theorem coords {d : Nat} (hd : 0 < d) (s : Nat) (i j : Fin d) :
    at_ (s * (d * d)) d i j / (d * d) = s ∧ at_ (s * (d * d)) d i j % (d * d) / d = i ∧ at_ (s * (d * d)) d i j % (d * d) % d = j := by
  have hlt : (i : Nat) * d + j < d * d := by
    calc (i : Nat) * d + j < i * d + d := by have := j.2; omega
      _ = (i + 1) * d := by ring
      _ ≤ d * d := Nat.mul_le_mul_right d i.2
  have hdd : 0 < d * d := by positivity
  have h2 : at_ (s * (d * d)) d i j % (d * d) = i * d + j := by
    unfold at_; rw [Nat.mul_comm s, Nat.mul_add_mod, Nat.mod_eq_of_lt hlt]
  refine ⟨?_, ?_, ?_⟩
  · unfold at_; rw [Nat.mul_comm s, Nat.mul_add_div hdd, Nat.div_eq_of_lt hlt, Nat.add_zero]
  · rw [h2, Nat.mul_comm, Nat.mul_add_div hd, Nat.div_eq_of_lt j.2, Nat.add_zero]
  · rw [h2, Nat.mul_comm, Nat.mul_add_mod, Nat.mod_eq_of_lt j.2]

/-- The gradient of the determinants, given by the adjugates. -/
theorem det_vjp (E : Eigen) (hE : E.Exact) (B d : Nat) (x y0 : Mem ℝ) (G : Mem ℝ → Mem ℝ)
    (hG : ∀ gy s (i j : Fin d), s < B → G gy (at_ (s * (d * d)) d i j) = gy s * adjugate (matAt x (s * (d * d)) d) j i) :
    IsVJP (B * (d * d)) B (fun x => detForward E B d x y0) x G := by
  intro c v hc gy
  have key : ∀ s, s < B → HasDerivAt (fun t => detForward E B d (c t) y0 s)
      (∑ i : Fin d, ∑ k : Fin d, adjugate (matAt x (s * (d * d)) d) i k * v (at_ (s * (d * d)) d k i)) 0 := by
    intro s hs
    have h0 : matAt (c 0) (s * (d * d)) d = matAt x (s * (d * d)) d := by
      funext a b; exact (hc _ (at_lt hs a.2 b.2)).1
    have h1 := hasDerivAt_det (fun t => matAt (c t) (s * (d * d)) d) (matAt v (s * (d * d)) d)
      (fun a b => (hc _ (at_lt hs a.2 b.2)).2)
    rw [h0] at h1
    refine h1.congr_of_eventuallyEq (Filter.Eventually.of_forall fun t => ?_)
    show detForward E B d (c t) y0 s = _
    rw [detForward_at, if_pos hs, hE.1]
  refine (hasDerivAt_dot B gy _ _ (fun s hs => key s hs)).congr_deriv ?_
  unfold dot
  rw [sum_mats]
  refine Finset.sum_congr rfl fun s hs => ?_
  have hs : s < B := Finset.mem_range.mp hs
  simp only [hG _ s _ _ hs]
  rw [Finset.sum_comm, Finset.mul_sum]
  refine Finset.sum_congr rfl fun i _ => ?_
  rw [Finset.mul_sum]
  exact Finset.sum_congr rfl fun k _ => by ring

theorem local_det (E : Eigen) (B d : Nat) (y0 : Mem ℝ) : Local (B * (d * d)) B (fun x => detForward E B d x y0) := by
  intro x x' h s hs
  show detForward E B d x y0 s = detForward E B d x' y0 s
  rw [detForward_at, detForward_at, if_pos hs, if_pos hs]
  congr 1
  funext i j
  exact h _ (at_lt hs i.2 j.2)

/-! ### C181: batch_det -/

/-- **C181 (value).** Forward gives the determinants, for every input. -/
theorem C181_value (E : Eigen) (hE : E.Exact) (B d : Nat) (x y : Mem ℝ) :
    (∀ s, s < B → detForward E B d x y s = (mat d x s).det) ∧ ∀ k, B ≤ k → detForward E B d x y k = y k := by
  refine ⟨fun s hs => by rw [detForward_at, if_pos hs, hE.1, mat_eq], fun k hk => by rw [detForward_at, if_neg (by omega)]⟩

/-- **C181, the part that holds: invertible matrices.** Backward writes (or adds to the old gradient) the gradient of the
forward map. -/
theorem C181_batch_det_partial (E : Eigen) (hE : E.Exact) (B d : Nat) (hB : 0 < B) (hd : 0 < d) (x y0 : Mem ℝ)
    (hx : ∀ s, s < B → (mat d x s).det ≠ 0) :
    ∃ G : Mem ℝ → Mem ℝ, IsVJP (B * (d * d)) B (fun x => detForward E B d x y0) x G ∧
      ∀ (y : Mem ℝ) (t : Tmp) (accum : Bool) (gy gx : Mem ℝ), (∀ s, s < B → y s = detForward E B d x y0 s) →
        ∃ r, detBackward E B d t x y accum gy gx = .ok r ∧
          ∀ k, k < B * (d * d) → r k = (if accum then gx k else 0) + G gy k := by
  let G : Mem ℝ → Mem ℝ := fun gy k =>
    gy (k / (d * d)) * elemOf (adjugate (matAt x (k / (d * d) * (d * d)) d))ᵀ (k % (d * d) / d) (k % (d * d) % d)
  have hG : ∀ gy s (i j : Fin d), s < B → G gy (at_ (s * (d * d)) d i j) = gy s * adjugate (matAt x (s * (d * d)) d) j i := by
    intro gy s i j hs
    obtain ⟨h1, h2, h3⟩ := coords hd s i j
    simp only [G, h1, h2, h3, elemOf]
    rw [dif_pos ⟨i.2, j.2⟩]
    rfl
  refine ⟨G, det_vjp E hE B d x y0 G hG, ?_⟩
  intro y t accum gy gx hy
  obtain ⟨r, e, hr⟩ := detBackward_eq E B d hB hd t x y accum gy gx
  refine ⟨r, e, ?_⟩
  intro k hk
  obtain ⟨s, i, j, hs, hi, hj, rfl⟩ := at_cover hk
  have h1 := hr s ⟨i, hi⟩ ⟨j, hj⟩ hs
  have h2 := hG gy s ⟨i, hi⟩ ⟨j, hj⟩ hs
  simp only at h1 h2
  have hne : (matAt x (s * (d * d)) d).det ≠ 0 := by rw [← mat_eq]; exact hx s hs
  have hadj : adjugate (matAt x (s * (d * d)) d) = (matAt x (s * (d * d)) d).det • (matAt x (s * (d * d)) d)⁻¹ := by
    rw [inv_def, smul_smul, Ring.mul_inverse_cancel _ (isUnit_iff_ne_zero.mpr hne), one_smul]
  rw [h1, h2, hy s hs, (C181_value E hE B d x y0).1 s hs, inverse_eq E hE _ hne, hadj, Matrix.smul_apply, smul_eq_mul, mat_eq]
  ring

/-- Non-vacuity: an exact Eigen exists, and [[2, 1], [0, 3]] is invertible. -/
example : (⟨fun _ A => A⁻¹, fun _ A => A.det⟩ : Eigen).Exact ∧
    (mat 2 (fun k => if k = 0 then 2 else if k = 1 then 1 else if k = 3 then 3 else 0) 0).det ≠ 0 := by
  refine ⟨⟨fun _ _ => rfl, fun _ A h => nonsing_inv_mul A (isUnit_iff_ne_zero.mpr h)⟩, ?_⟩
  rw [det_fin_two]
  simp [mat, ravel, prod]

/-- **C181, refuted for singular matrices.** The gradient of the determinant at a singular matrix is its adjugate (not 0 as
long as the rank is d − 1), but backward writes 0 for whatever finite matrix Eigen's inverse() returns; in floating point
inverse() of a singular matrix has infinities or NaN, and 0·∞ is NaN. Witness: the 1×1 matrix (0), whose determinant has
derivative 1. -/
theorem C181_batch_det_singular (E : Eigen) (hE : E.Exact) (t : Tmp) (y0 : Mem ℝ) :
    (∀ (B d : Nat) (x gy gx : Mem ℝ) (s : Nat) (i j : Fin d), 0 < B → s < B → (mat d x s).det = 0 →
      ∃ r, detBackward E B d t x (detForward E B d x y0) false gy gx = .ok r ∧ r (ravel [B, d, d] [s, i, j]) = 0) ∧
    HasDerivAt (fun u : ℝ => detForward E 1 1 (fun _ => u) y0 0) 1 0 ∧ (mat 1 (fun _ => (0 : ℝ)) 0).det = 0 := by
  refine ⟨?_, ?_, ?_⟩
  · intro B d x gy gx s i j hB hs hdet
    obtain ⟨r, e, hr⟩ := detBackward_eq E B d hB (Nat.lt_of_le_of_lt (Nat.zero_le _) i.2) t x (detForward E B d x y0) false gy gx
    refine ⟨r, e, ?_⟩
    rw [offs, hr s i j hs, (C181_value E hE B d x y0).1 s hs, hdet]
    simp
  · have : (fun u : ℝ => detForward E 1 1 (fun _ => u) y0 0) = fun u => u := by
      funext u
      rw [(C181_value E hE 1 1 _ y0).1 0 Nat.one_pos]
      simp [mat]
    rw [this]
    exact hasDerivAt_id 0
  · simp [mat]

/-! ### C182: batch_logdet -/

/-- **C182.** For invertible matrices batch_logdet gives log|det|, and backward writes (or adds to the old gradient) the
gradient of the forward map; `y` is the output of forward, all temporaries have arbitrary contents. -/
theorem C182_batch_logdet (E : Eigen) (hE : E.Exact) (B d : Nat) (hB : 0 < B) (hd : 0 < d) (x y0 : Mem ℝ)
    (hx : ∀ s, s < B → (mat d x s).det ≠ 0) :
    (∀ s, s < B → logdetForward E B d x y0 s = Real.log |(mat d x s).det|) ∧
    ∃ G : Mem ℝ → Mem ℝ, IsVJP (B * (d * d)) B (fun x => logdetForward E B d x y0) x G ∧
      ∀ (t : Tmp) (accum : Bool) (gy gx : Mem ℝ),
        ∃ r, logdetBackward E B d t x (logdetForward E B d x y0) accum gy gx = .ok r ∧
          ∀ k, k < B * (d * d) → r k = (if accum then gx k else 0) + G gy k := by
  have hval : ∀ x s, s < B → logdetForward E B d x y0 s = Real.log |detForward E B d x y0 s| := by
    intro x s hs
    unfold logdetForward
    simp only [unaryForward_eq, if_pos hs]
    rfl
  refine ⟨fun s hs => by rw [hval x s hs, (C181_value E hE B d x y0).1 s hs], ?_⟩
  obtain ⟨G, hG, hback⟩ := C181_batch_det_partial E hE B d hB hd x y0 hx
  have hdet : ∀ s, s < B → detForward E B d x y0 s ≠ 0 := fun s hs => by
    rw [(C181_value E hE B d x y0).1 s hs]; exact hx s hs
  -- velocities through abs and log
  let D : Mem ℝ → Mem ℝ := fun gy s => gy s / detForward E B d x y0 s
  refine ⟨fun gy => G (D gy), ?_, ?_⟩
  · intro c v hc gy
    obtain ⟨w, hw, hd'⟩ := IsVJP.path hG c v hc
    have h0 : ∀ s, s < B → detForward E B d (c 0) y0 s = detForward E B d x y0 s :=
      local_det E B d y0 _ _ (fun k hk => (hc k hk).1)
    have hl : ∀ s, s < B → HasDerivAt (fun t => logdetForward E B d (c t) y0 s) (w s / detForward E B d x y0 s) 0 := by
      intro s hs
      have := (hw s hs).log (by rw [h0 s hs]; exact hdet s hs)
      rw [h0 s hs] at this
      refine this.congr_of_eventuallyEq (Filter.Eventually.of_forall fun t => ?_)
      show logdetForward E B d (c t) y0 s = Real.log _
      rw [hval _ s hs, Real.log_abs]
    refine (hasDerivAt_dot B gy _ _ hl).congr_deriv ?_
    rw [← hd' (D gy)]
    exact dot_congr fun s _ => by simp only [D]; ring
  · intro t accum gy gx
    have hod : ∀ s, s < B → detForward E B d x t.t4 s = detForward E B d x y0 s := fun s hs => by
      rw [detForward_at, detForward_at, if_pos hs, if_pos hs]
    obtain ⟨r, e, hr⟩ := hback (detForward E B d x t.t4) t accum
      (unaryBackward Unary.abs.grad B (detForward E B d x t.t4)
        (unaryForward Unary.abs.forward B (detForward E B d x t.t4) t.t5) false
        (unaryBackward Unary.log.grad B (unaryForward Unary.abs.forward B (detForward E B d x t.t4) t.t5)
          (logdetForward E B d x y0) false gy zeros) zeros) gx hod
    refine ⟨r, e, ?_⟩
    intro k hk
    rw [hr k hk]
    congr 1
    have hgd : ∀ s, s < B → unaryBackward Unary.abs.grad B (detForward E B d x t.t4)
        (unaryForward Unary.abs.forward B (detForward E B d x t.t4) t.t5) false
        (unaryBackward Unary.log.grad B (unaryForward Unary.abs.forward B (detForward E B d x t.t4) t.t5)
          (logdetForward E B d x y0) false gy zeros) zeros s = D gy s := by
      intro s hs
      simp only [unaryBackward_eq, unaryForward_eq, if_pos hs, Bool.false_eq_true, if_false, zero_add, Unary.grad, Unary.forward, D]
      rw [hod s hs]
      rcases lt_or_gt_of_ne (hdet s hs) with h | h
      · rw [if_pos h, abs_of_neg h]; rw [div_neg, neg_neg]
      · rw [if_neg (not_lt.mpr h.le), abs_of_pos h]
    -- G only sees the first B elements of its argument
    have hloc : ∀ g g' : Mem ℝ, (∀ s, s < B → g s = g' s) → G g k = G g' k := by
      intro g g' hgg
      obtain ⟨r1, e1, h1⟩ := hback (detForward E B d x y0) t false g gx (fun _ _ => rfl)
      obtain ⟨r2, e2, h2⟩ := hback (detForward E B d x y0) t false g' gx (fun _ _ => rfl)
      obtain ⟨r1', e1', h1'⟩ := detBackward_eq E B d hB hd t x (detForward E B d x y0) false g gx
      obtain ⟨r2', e2', h2'⟩ := detBackward_eq E B d hB hd t x (detForward E B d x y0) false g' gx
      rw [e1] at e1'; rw [e2] at e2'
      have q1 : r1 = r1' := Except.ok.inj e1'
      have q2 : r2 = r2' := Except.ok.inj e2'
      have a1 := h1 k hk
      have a2 := h2 k hk
      simp only [Bool.false_eq_true, if_false, zero_add] at a1 a2
      rw [← a1, ← a2, q1, q2]
      obtain ⟨s, i, j, hs, hi, hj, rfl⟩ := at_cover hk
      have b1 := h1' s ⟨i, hi⟩ ⟨j, hj⟩ hs
      have b2 := h2' s ⟨i, hi⟩ ⟨j, hj⟩ hs
      simp only at b1 b2
      rw [b1, b2, hgg s hs]
    exact hloc _ _ hgd

end Verif.Linalg
