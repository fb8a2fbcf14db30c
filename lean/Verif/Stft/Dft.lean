import Mathlib.Analysis.SpecialFunctions.Trigonometric.Basic
import Mathlib.RingTheory.RootsOfUnity.Complex
/-
Orthogonality of the cosines and the one-sided inverse of the discrete Fourier transform.
-/
namespace Verif.Stft

/-- Σ_{w < N} cos(2π w d / N) is N when N divides d, else 0. -/
theorem sum_cos (N : Nat) (hN : 0 < N) (d : ℤ) :
    ∑ w ∈ Finset.range N, Real.cos (2 * Real.pi * w * d / N) = if (N : ℤ) ∣ d then (N : ℝ) else 0 := by
  have hN' : (N : ℂ) ≠ 0 := by exact_mod_cast hN.ne'
  have hz := Complex.isPrimitiveRoot_exp N hN.ne'
  set ζ := Complex.exp (2 * Real.pi * Complex.I / N) with hζ
  have e : ∀ w : Nat, (Real.cos (2 * Real.pi * w * d / N) : ℝ) = ((ζ ^ d) ^ w).re := by
    intro w
    rw [hζ, ← Complex.exp_int_mul, ← Complex.exp_nat_mul]
    have : (w : ℂ) * (d * (2 * Real.pi * Complex.I / N)) = ((2 * Real.pi * w * d / N : ℝ) : ℂ) * Complex.I := by
      push_cast; ring
    rw [this, Complex.exp_ofReal_mul_I_re]
  rw [Finset.sum_congr rfl fun w _ => e w, ← Complex.re_sum]
  by_cases h : (N : ℤ) ∣ d
  · rw [if_pos h, (hz.zpow_eq_one_iff_dvd d).mpr h]
    simp
  · rw [if_neg h]
    have h1 : ζ ^ d ≠ 1 := fun hh => h ((hz.zpow_eq_one_iff_dvd d).mp hh)
    have h2 : (ζ ^ d) ^ N = 1 := by
      rw [← zpow_natCast, ← zpow_mul, mul_comm, zpow_mul, zpow_natCast, hz.pow_eq_one, one_zpow]
    have := mul_neg_geom_sum (ζ ^ d) N
    rw [h2, sub_self] at this
    rcases mul_eq_zero.mp this with h3 | h3
    · exact absurd (sub_eq_zero.mp h3).symm h1
    · rw [h3]; rfl

theorem cos_reflect (N w : Nat) (hw : w ≤ N) (hN : 0 < N) (d : ℤ) :
    Real.cos (2 * Real.pi * (N - w : Nat) * d / N) = Real.cos (2 * Real.pi * w * d / N) := by
  have hN' : (N : ℝ) ≠ 0 := by exact_mod_cast hN.ne'
  rw [Nat.cast_sub hw]
  have : 2 * Real.pi * ((N : ℝ) - w) * d / N = d * (2 * Real.pi) - 2 * Real.pi * w * d / N := by
    field_simp
  rw [this, Real.cos_int_mul_two_pi_sub]

/-- The one-sided sum over the bins 0 … M of a spectrum of 2M bins. -/
theorem fold_even (M : Nat) (hM : 0 < M) (f : Nat → ℝ) (hf : ∀ w, w ≤ 2 * M → f (2 * M - w) = f w) :
    ∑ w ∈ Finset.range (M + 1), (if w = 0 ∨ w = M then 1 else 2) * f w = ∑ w ∈ Finset.range (2 * M), f w := by
  obtain ⟨K, rfl⟩ : ∃ K, M = K + 1 := ⟨M - 1, by omega⟩
  have h1 : ∑ w ∈ Finset.range (2 * (K + 1)), f w = ∑ w ∈ Finset.range (K + 2), f w + ∑ w ∈ Finset.range K, f (K + 2 + w) := by
    rw [show 2 * (K + 1) = (K + 2) + K by omega, Finset.sum_range_add]
  have h2 : ∑ w ∈ Finset.range K, f (K + 2 + w) = ∑ w ∈ Finset.range K, f (w + 1) := by
    rw [← Finset.sum_range_reflect]
    refine Finset.sum_congr rfl fun w hw => ?_
    have hw := Finset.mem_range.mp hw
    rw [← hf (w + 1) (by omega)]
    congr 1; omega
  have h3 : ∑ w ∈ Finset.range (K + 1 + 1), (if w = 0 ∨ w = K + 1 then (1 : ℝ) else 2) * f w =
      f 0 + ∑ w ∈ Finset.range K, 2 * f (w + 1) + f (K + 1) := by
    rw [Finset.sum_range_succ, Finset.sum_range_succ']
    simp only [true_or, or_true, if_true, one_mul]
    have : ∑ w ∈ Finset.range K, (if w + 1 = 0 ∨ w + 1 = K + 1 then (1 : ℝ) else 2) * f (w + 1) =
        ∑ w ∈ Finset.range K, 2 * f (w + 1) := by
      refine Finset.sum_congr rfl fun w hw => ?_
      have hw := Finset.mem_range.mp hw
      rw [if_neg (by omega)]
    rw [this]; ring
  rw [h1, h2, h3, Finset.sum_range_succ, Finset.sum_range_succ', ← Finset.mul_sum]
  ring

/-- Analysis and synthesis coefficients of the one-sided transform of even size are dual. -/
theorem dual_even (N : Nat) (hN : 0 < N) (he : N % 2 = 0) (t u : Nat) (ht : t < N) (hu : u < N) :
    ∑ w ∈ Finset.range (N / 2 + 1), ((if w = 0 ∨ w = N / 2 then 1 else 2) / N * Real.cos (2 * Real.pi * w * t / N) * Real.cos (2 * Real.pi * w * u / N) +
      (if w = 0 ∨ w = N / 2 then 1 else 2) / N * -Real.sin (2 * Real.pi * w * t / N) * -Real.sin (2 * Real.pi * w * u / N)) =
      if t = u then (1 : ℝ) else 0 := by
  have hN' : (N : ℝ) ≠ 0 := by exact_mod_cast hN.ne'
  have e : ∀ w : Nat, (if w = 0 ∨ w = N / 2 then 1 else 2) / (N : ℝ) * Real.cos (2 * Real.pi * w * t / N) * Real.cos (2 * Real.pi * w * u / N) +
      (if w = 0 ∨ w = N / 2 then 1 else 2) / N * -Real.sin (2 * Real.pi * w * t / N) * -Real.sin (2 * Real.pi * w * u / N) =
      (1 / N) * ((if w = 0 ∨ w = N / 2 then 1 else 2) * Real.cos (2 * Real.pi * w * ((t : ℤ) - u : ℤ) / N)) := by
    intro w
    have : 2 * Real.pi * w * (((t : ℤ) - u : ℤ) : ℝ) / N = 2 * Real.pi * w * t / N - 2 * Real.pi * w * u / N := by
      push_cast; ring
    rw [this, Real.cos_sub]; ring
  rw [Finset.sum_congr rfl fun w _ => e w, ← Finset.mul_sum]
  obtain ⟨M, rfl⟩ : ∃ M, N = 2 * M := ⟨N / 2, by omega⟩
  have hM : 2 * M / 2 = M := by omega
  rw [hM, fold_even M (by omega) (fun w => Real.cos (2 * Real.pi * w * (((t : ℤ) - u : ℤ) : ℝ) / ((2 * M : Nat) : ℝ)))
    (fun w hw => cos_reflect (2 * M) w hw hN _), sum_cos (2 * M) hN]
  by_cases h : t = u
  · subst h
    rw [if_pos (by simp), if_pos rfl]; field_simp
  · rw [if_neg h, if_neg, mul_zero]
    rintro ⟨k, hk⟩
    have : k = 0 := by
      by_contra hk0
      rcases lt_or_gt_of_ne hk0 with h' | h'
      · have : ((2 * M : Nat) : ℤ) * k ≤ ((2 * M : Nat) : ℤ) * (-1) := by
          apply mul_le_mul_of_nonneg_left <;> omega
        omega
      · have : ((2 * M : Nat) : ℤ) * 1 ≤ ((2 * M : Nat) : ℤ) * k := by
          apply mul_le_mul_of_nonneg_left <;> omega
        omega
    subst this
    omega

end Verif.Stft
