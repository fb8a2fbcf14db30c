import Verif.BatchNorm.Model
import Mathlib.Analysis.SpecialFunctions.Sqrt
import Mathlib.Analysis.SpecialFunctions.Pow.Real

namespace Verif.BatchNorm
open Verif.Fn Verif.Elem Real

/-! ### Specification -/

/-- The mean of channel i1 over batch and positions. -/
noncomputable def mean (a : Args) (x : Mem ℝ) (i1 : Nat) : ℝ :=
  (∑ i0 ∈ Finset.range a.n0, ∑ i2 ∈ Finset.range a.n2, x (off a.n1 a.n2 i0 i1 i2)) / (a.n0 * a.n2)

/-- The variance of channel i1. -/
noncomputable def variance (a : Args) (x : Mem ℝ) (i1 : Nat) : ℝ :=
  (∑ i0 ∈ Finset.range a.n0, ∑ i2 ∈ Finset.range a.n2, (x (off a.n1 a.n2 i0 i1 i2) - mean a x i1) ^ 2) / (a.n0 * a.n2)

/-- The unbiased estimate of the variance. -/
noncomputable def unbiased (a : Args) (x : Mem ℝ) (i1 : Nat) : ℝ :=
  (∑ i0 ∈ Finset.range a.n0, ∑ i2 ∈ Finset.range a.n2, (x (off a.n1 a.n2 i0 i1 i2) - mean a x i1) ^ 2) / (a.n0 * a.n2 - 1)

/-! ### Indices -/

theorem pos_eq (a : Args) (i1 i0 i2 : Nat) (h : i2 < a.n2) : pos a i1 (i0 * a.n2 + i2) = off a.n1 a.n2 i0 i1 i2 := by
  unfold pos off
  have e1 : (i0 * a.n2 + i2) / a.n2 = i0 := by
    rw [Nat.mul_comm, Nat.mul_add_div (by omega), Nat.div_eq_of_lt h]; rfl
  have e2 : (i0 * a.n2 + i2) % a.n2 = i2 := by rw [Nat.mul_comm, Nat.mul_add_mod, Nat.mod_eq_of_lt h]
  simp only [e1, e2, Nat.mul_assoc]

theorem exists_pos (a : Args) (j : Nat) (h : j < a.n02) : ∃ i0 i2, i0 < a.n0 ∧ i2 < a.n2 ∧ j = i0 * a.n2 + i2 := by
  unfold Args.n02 at h
  have h2 : 0 < a.n2 := Nat.pos_of_ne_zero (by rintro e; rw [e] at h; simp at h)
  refine ⟨j / a.n2, j % a.n2, Nat.div_lt_of_lt_mul (by rwa [Nat.mul_comm] at h), Nat.mod_lt _ h2, ?_⟩
  rw [Nat.mul_comm, Nat.div_add_mod]

theorem idx_lt (a : Args) {i0 i2 : Nat} (h0 : i0 < a.n0) (h2 : i2 < a.n2) : i0 * a.n2 + i2 < a.n02 := by
  unfold Args.n02
  have := Nat.mul_le_mul_right a.n2 (show i0 + 1 ≤ a.n0 by omega)
  rw [Nat.succ_mul] at this; omega

theorem pos_inj (a : Args) {i1 j1 i j : Nat} (h1 : i1 < a.n1) (k1 : j1 < a.n1) (hi : i < a.n02) (hj : j < a.n02)
    (e : pos a i1 i = pos a j1 j) : i1 = j1 ∧ i = j := by
  obtain ⟨p0, p2, a0, a2, rfl⟩ := exists_pos a i hi
  obtain ⟨q0, q2, b0, b2, rfl⟩ := exists_pos a j hj
  rw [pos_eq a _ _ _ a2, pos_eq a _ _ _ b2] at e
  obtain ⟨x, y, z⟩ := off_inj h1 a2 k1 b2 e
  exact ⟨y, by rw [x, z]⟩

theorem sum_pos (a : Args) (f : Nat → ℝ) (i1 : Nat) :
    ∑ j ∈ Finset.range a.n02, f (pos a i1 j) = ∑ i0 ∈ Finset.range a.n0, ∑ i2 ∈ Finset.range a.n2, f (off a.n1 a.n2 i0 i1 i2) := by
  unfold Args.n02
  rw [sum_range_mul]
  exact Finset.sum_congr rfl fun i0 _ => Finset.sum_congr rfl fun i2 h => by rw [pos_eq a _ _ _ (Finset.mem_range.mp h)]

/-- A sum over the array, channel by channel. -/
theorem sum_channels (a : Args) (f : Nat → ℝ) :
    ∑ k ∈ Finset.range (a.n0 * a.n1 * a.n2), f k = ∑ i1 ∈ Finset.range a.n1, ∑ j ∈ Finset.range a.n02, f (pos a i1 j) := by
  rw [sum_slices]
  simp only [sum_pos]
  rw [Finset.sum_comm' (s := Finset.range a.n1) (t' := Finset.range a.n0) (t := fun _ => Finset.range a.n0) (s' := fun _ => Finset.range a.n1) (by simp)]
  refine Finset.sum_congr rfl fun i0 _ => ?_
  rw [Finset.sum_comm]

theorem foldl_add (n : Nat) (f : Nat → ℝ) (c : ℝ) : (List.range n).foldl (fun s j => s + f j) c = c + ∑ j ∈ Finset.range n, f j := by
  induction n with
  | zero => simp
  | succ n ih => rw [List.range_succ, List.foldl_append, ih, Finset.sum_range_succ]; simp; ring

theorem foldl_add2 (n : Nat) (f g : Nat → ℝ) : (List.range n).foldl (fun (s : ℝ × ℝ) j => (s.1 + f j, s.2 + g j)) (0, 0) =
    (∑ j ∈ Finset.range n, f j, ∑ j ∈ Finset.range n, g j) := by
  induction n with
  | zero => simp
  | succ n ih => rw [List.range_succ, List.foldl_append, ih, Finset.sum_range_succ, Finset.sum_range_succ]; rfl

theorem foldl_add3 (n : Nat) (f g h : Nat → ℝ) :
    (List.range n).foldl (fun (s : ℝ × ℝ × ℝ) j => (s.1 + f j, s.2.1 + g j, s.2.2 + h j)) (0, 0, 0) =
    (∑ j ∈ Finset.range n, f j, ∑ j ∈ Finset.range n, g j, ∑ j ∈ Finset.range n, h j) := by
  induction n with
  | zero => simp
  | succ n ih => rw [List.range_succ, List.foldl_append, ih, Finset.sum_range_succ, Finset.sum_range_succ, Finset.sum_range_succ]; rfl

/-- The loop over the channels with an inner loop that writes the channel. -/
theorem channels_spec (a : Args) (g : Nat → Nat → ℝ → ℝ) (c : Nat) (hc : c ≤ a.n1) (m : Mem ℝ) :
    (∀ i1 j, i1 < c → j < a.n02 → (List.range c).foldl (fun y i1 => forPut a.n02 (pos a i1) (g i1) y) m (pos a i1 j) = g i1 j (m (pos a i1 j))) ∧
    ∀ k, (∀ i1 j, i1 < c → j < a.n02 → pos a i1 j ≠ k) → (List.range c).foldl (fun y i1 => forPut a.n02 (pos a i1) (g i1) y) m k = m k := by
  induction c with
  | zero => exact ⟨fun i1 j h => absurd h (by omega), fun k _ => rfl⟩
  | succ c ih =>
    obtain ⟨p, q⟩ := ih (by omega)
    rw [List.range_succ, List.foldl_append]
    simp only [List.foldl_cons, List.foldl_nil]
    obtain ⟨r, s⟩ := forPut_spec a.n02 (pos a c) (g c) ((List.range c).foldl (fun y i1 => forPut a.n02 (pos a i1) (g i1) y) m)
      (fun i j hi hj e => (pos_inj a (by omega) (by omega) hi hj e).2)
    refine ⟨fun i1 j h1 hj => ?_, fun k hk => ?_⟩
    · by_cases e : i1 = c
      · subst e
        rw [r j hj, q]
        intro i1' j' h1' hj' he
        have := (pos_inj a (by omega) (by omega) hj' hj he).1
        omega
      · rw [s, p i1 j (by omega) hj]
        intro i hi he
        have := (pos_inj a (by omega) (by omega) hi hj he).1
        omega
    · rw [s k fun i hi => hk c i (by omega) hi, q k fun i1 j h1 hj => hk i1 j (by omega) hj]

/-! ### Means -/

/-- Mean of n numbers. -/
noncomputable def mu (n : Nat) (x : Nat → ℝ) : ℝ := (∑ j ∈ Finset.range n, x j) / n

/-- Mean of the squares minus the square of the mean, as the code computes it. -/
noncomputable def vr (n : Nat) (x : Nat → ℝ) : ℝ := (∑ j ∈ Finset.range n, x j * x j) / n - mu n x * mu n x

theorem sum_centered (n : Nat) (x : Nat → ℝ) (hn : 0 < n) : ∑ j ∈ Finset.range n, (x j - mu n x) = 0 := by
  have : (n : ℝ) ≠ 0 := by exact_mod_cast hn.ne'
  rw [Finset.sum_sub_distrib, Finset.sum_const, Finset.card_range, nsmul_eq_mul, mu]
  field_simp
  ring

theorem vr_eq (n : Nat) (x : Nat → ℝ) (hn : 0 < n) : vr n x = (∑ j ∈ Finset.range n, (x j - mu n x) ^ 2) / n := by
  have h0 : (n : ℝ) ≠ 0 := by exact_mod_cast hn.ne'
  have e : ∑ j ∈ Finset.range n, (x j - mu n x) ^ 2 = ∑ j ∈ Finset.range n, x j * x j - 2 * mu n x * ∑ j ∈ Finset.range n, x j + n * (mu n x * mu n x) := by
    rw [Finset.mul_sum, ← Finset.sum_sub_distrib]
    have : (n : ℝ) * (mu n x * mu n x) = ∑ _j ∈ Finset.range n, mu n x * mu n x := by simp
    rw [this, ← Finset.sum_add_distrib]
    exact Finset.sum_congr rfl fun j _ => by ring
  have hs : ∑ j ∈ Finset.range n, x j = n * mu n x := by rw [mu]; field_simp
  rw [e, hs, vr]
  field_simp
  ring

theorem vr_nonneg (n : Nat) (x : Nat → ℝ) (hn : 0 < n) : 0 ≤ vr n x := by
  rw [vr_eq n x hn]
  exact div_nonneg (Finset.sum_nonneg fun j _ => sq_nonneg _) (Nat.cast_nonneg _)

theorem mean_eq (a : Args) (x : Mem ℝ) (i1 : Nat) : mean a x i1 = mu a.n02 (fun j => x (pos a i1 j)) := by
  unfold mean mu
  rw [sum_pos]
  simp [Args.n02]

theorem variance_eq (a : Args) (x : Mem ℝ) (i1 : Nat) (hn : 0 < a.n02) : variance a x i1 = vr a.n02 (fun j => x (pos a i1 j)) := by
  rw [vr_eq _ _ hn, variance, ← mean_eq, sum_pos a (fun k => (x k - mean a x i1) ^ 2)]
  simp [Args.n02]

/-! ### The derivative, for one channel -/

theorem pow_neg_half (r : ℝ) (h : 0 < r) : r ^ (-0.5 : ℝ) = 1 / √r := by
  rw [show (-0.5 : ℝ) = -(1 / 2) by norm_num, rpow_neg h.le, sqrt_eq_rpow]
  simp

theorem pow_neg_three_half (r : ℝ) (h : 0 < r) : r ^ (-1.5 : ℝ) = 1 / (√r) ^ 3 := by
  rw [show (-1.5 : ℝ) = -(1 / 2 + 1) by norm_num, rpow_neg h.le, rpow_add h, rpow_one, ← sqrt_eq_rpow, one_div]
  congr 1
  have := mul_self_sqrt h.le
  calc √r * r = √r * (√r * √r) := by rw [this]
    _ = √r ^ 3 := by ring

/-- The gradient of a channel in training mode. -/
theorem channel_deriv (n : Nat) (hn : 0 < n) (eps : ℝ) (he : 0 < eps) (c : ℝ → Nat → ℝ) (x vx : Nat → ℝ) (g b : ℝ → ℝ) (vg vb : ℝ)
    (hc : ∀ j < n, c 0 j = x j ∧ HasDerivAt (fun t => c t j) (vx j) 0) (hg : HasDerivAt g vg 0) (hb : HasDerivAt b vb 0)
    (dy : Nat → ℝ) (dm dv : ℝ) :
    let m := mu n x
    let s := √(vr n x + eps)
    let dvar := (∑ j ∈ Finset.range n, dy j * g 0 * (x j - m)) * (-0.5) * (vr n x + eps) ^ (-1.5 : ℝ) + dv
    let dmean := (∑ j ∈ Finset.range n, dy j * g 0) * (-1 / s) + dvar * (-2) * (∑ j ∈ Finset.range n, (x j - m)) / n + dm
    HasDerivAt (fun t => ∑ j ∈ Finset.range n, dy j * ((c t j - mu n (c t)) * g t / √(vr n (c t) + eps) + b t) + dm * mu n (c t) + dv * vr n (c t))
      (∑ j ∈ Finset.range n, vx j * (dy j * g 0 / s + dvar * 2 * (x j - m) / n + dmean / n)
        + vb * ∑ j ∈ Finset.range n, dy j + vg * ∑ j ∈ Finset.range n, dy j * (x j - m) / s) 0 := by
  intro m s dvar dmean
  have h0 : (n : ℝ) ≠ 0 := by exact_mod_cast hn.ne'
  have hpos : 0 < vr n x + eps := by have := vr_nonneg n x hn; linarith
  have hs : 0 < s := sqrt_pos.mpr hpos
  have m0 : mu n (c 0) = m := by
    unfold m mu; congr 1; exact Finset.sum_congr rfl fun j h => (hc j (Finset.mem_range.mp h)).1
  have v0 : vr n (c 0) = vr n x := by
    unfold vr; rw [m0]; congr 2
    exact Finset.sum_congr rfl fun j h => by rw [(hc j (Finset.mem_range.mp h)).1]
  set M := (∑ j ∈ Finset.range n, vx j) / n with hM
  have hm : HasDerivAt (fun t => mu n (c t)) M 0 :=
    (HasDerivAt.fun_sum fun j h => (hc j (Finset.mem_range.mp h)).2).div_const _
  set V := (∑ j ∈ Finset.range n, 2 * (x j - m) * vx j) / n with hV
  have hv : HasDerivAt (fun t => vr n (c t)) V 0 := by
    have h1 : HasDerivAt (fun t => (∑ j ∈ Finset.range n, c t j * c t j) / n) ((∑ j ∈ Finset.range n, (vx j * x j + x j * vx j)) / n) 0 := by
      refine (HasDerivAt.fun_sum fun j h => ?_).div_const _
      have := (hc j (Finset.mem_range.mp h)).2.mul (hc j (Finset.mem_range.mp h)).2
      rw [(hc j (Finset.mem_range.mp h)).1] at this
      exact this
    refine (h1.sub (hm.mul hm)).congr_deriv ?_
    rw [m0, hV, hM]
    have : ∑ j ∈ Finset.range n, 2 * (x j - m) * vx j = ∑ j ∈ Finset.range n, (vx j * x j + x j * vx j) - 2 * m * ∑ j ∈ Finset.range n, vx j := by
      rw [Finset.mul_sum, ← Finset.sum_sub_distrib]
      exact Finset.sum_congr rfl fun j _ => by ring
    rw [this]
    field_simp
    ring
  have hsq : HasDerivAt (fun t => √(vr n (c t) + eps)) (V / (2 * s)) 0 := by
    have := (hv.add_const eps).sqrt (by rw [v0]; exact hpos.ne')
    rw [v0] at this
    exact this
  have hy : ∀ j < n, HasDerivAt (fun t => (c t j - mu n (c t)) * g t / √(vr n (c t) + eps) + b t)
      ((((vx j - M) * g 0 + (x j - m) * vg) * s - (x j - m) * g 0 * (V / (2 * s))) / s ^ 2 + vb) 0 := by
    intro j hj
    have h1 := (((hc j hj).2.sub hm).mul hg).div hsq (by rw [v0]; exact hs.ne')
    refine (h1.add hb).congr_deriv ?_
    simp only [Pi.sub_apply, Pi.mul_apply, m0, v0, (hc j hj).1]
    rfl
  have hd := ((HasDerivAt.fun_sum (u := Finset.range n) fun j h => (hy j (Finset.mem_range.mp h)).const_mul (dy j)).add (hm.const_mul dm)).add (hv.const_mul dv)
  refine hd.congr_deriv ?_
  have tmp0 : ∑ j ∈ Finset.range n, (x j - m) = 0 := sum_centered n x hn
  have e3 : (vr n x + eps) ^ (-1.5 : ℝ) = 1 / s ^ 3 := pow_neg_three_half _ hpos
  have dm_eq : dmean = (∑ j ∈ Finset.range n, dy j * g 0) * (-1 / s) + dm := by
    change _ + dvar * (-2) * (∑ j ∈ Finset.range n, (x j - m)) / n + dm = _
    rw [tmp0]; ring
  have dv_eq : dvar = (∑ j ∈ Finset.range n, dy j * g 0 * (x j - m)) * (-0.5) * (1 / s ^ 3) + dv := by
    change _ * (vr n x + eps) ^ (-1.5 : ℝ) + dv = _
    rw [e3]
  have l1 : ∑ j ∈ Finset.range n, vx j * (dy j * g 0 / s + dvar * 2 * (x j - m) / n + dmean / n) =
      (∑ j ∈ Finset.range n, vx j * (dy j * g 0) / s) + dvar * V + dmean * M := by
    rw [hV, hM, ← mul_div_assoc, ← mul_div_assoc, Finset.mul_sum, Finset.mul_sum, Finset.sum_div, Finset.sum_div, ← Finset.sum_add_distrib, ← Finset.sum_add_distrib]
    exact Finset.sum_congr rfl fun j _ => by ring
  rw [l1, dm_eq, dv_eq]
  have r1 : ∑ j ∈ Finset.range n, dy j * ((((vx j - M) * g 0 + (x j - m) * vg) * s - (x j - m) * g 0 * (V / (2 * s))) / s ^ 2 + vb) =
      (∑ j ∈ Finset.range n, vx j * (dy j * g 0) / s) - M * (1 / s) * (∑ j ∈ Finset.range n, dy j * g 0)
        + vg * (∑ j ∈ Finset.range n, dy j * (x j - m) / s) - V * (1 / 2) * (1 / s ^ 3) * (∑ j ∈ Finset.range n, dy j * g 0 * (x j - m))
        + vb * ∑ j ∈ Finset.range n, dy j := by
    simp only [Finset.mul_sum]
    rw [← Finset.sum_sub_distrib, ← Finset.sum_add_distrib, ← Finset.sum_sub_distrib, ← Finset.sum_add_distrib]
    refine Finset.sum_congr rfl fun j _ => ?_
    have := hs.ne'
    field_simp
  rw [r1]
  ring

end Verif.BatchNorm
