import Mathlib.Analysis.Calculus.Deriv.Mul
import Mathlib.Analysis.Calculus.Deriv.Add
import Mathlib.Analysis.Calculus.Deriv.Inv
import Mathlib.Data.Real.Basic
import Mathlib.LinearAlgebra.Matrix.Adjugate
import Mathlib.LinearAlgebra.Matrix.NonsingularInverse
/-
Derivatives of the determinant and of the inverse along a path of matrices whose elements are differentiable.
-/
namespace Verif.Linalg
open Matrix

variable {n : Type} [Fintype n] [DecidableEq n]

/-- Jacobi's formula. -/
theorem hasDerivAt_det (A : ℝ → Matrix n n ℝ) (V : Matrix n n ℝ) (h : ∀ i j, HasDerivAt (fun t => A t i j) (V i j) 0) :
    HasDerivAt (fun t => (A t).det) (∑ i, ∑ k, adjugate (A 0) i k * V k i) 0 := by
  have h1 : HasDerivAt (fun t => ∑ σ : Equiv.Perm n, (Equiv.Perm.sign σ : ℤ) • ∏ i, A t (σ i) i)
      (∑ σ : Equiv.Perm n, (Equiv.Perm.sign σ : ℤ) • ∑ i, (∏ j ∈ Finset.univ.erase i, A 0 (σ j) j) • V (σ i) i) 0 := by
    refine HasDerivAt.fun_sum fun σ _ => ?_
    have := HasDerivAt.fun_finsetProd (u := Finset.univ) (f := fun i t => A t (σ i) i) (f' := fun i => V (σ i) i) (x := (0 : ℝ))
      fun i _ => h (σ i) i
    simpa only [zsmul_eq_mul] using this.const_mul ((Equiv.Perm.sign σ : ℤ) : ℝ)
  have e : (fun t => (A t).det) = fun t => ∑ σ : Equiv.Perm n, (Equiv.Perm.sign σ : ℤ) • ∏ i, A t (σ i) i := by
    funext t; rw [det_apply]; rfl
  rw [e]
  refine h1.congr_deriv ?_
  have hc : ∀ i, ∑ k, adjugate (A 0) i k * V k i = ((A 0).updateCol i fun k => V k i).det := by
    intro i
    rw [← cramer_apply, cramer_eq_adjugate_mulVec]
    rfl
  simp only [hc, det_apply]
  rw [Finset.sum_comm]
  refine Finset.sum_congr rfl fun σ _ => ?_
  rw [Finset.smul_sum]
  refine Finset.sum_congr rfl fun i _ => ?_
  show _ = (Equiv.Perm.sign σ : ℤ) • (_ : ℝ)
  congr 1
  rw [← Finset.mul_prod_erase Finset.univ _ (Finset.mem_univ i), smul_eq_mul, mul_comm]
  congr 1
  · simp
  · refine Finset.prod_congr rfl fun j hj => ?_
    rw [updateCol_ne (Finset.ne_of_mem_erase hj)]

/-- The inverse of an invertible matrix along a path: −A⁻¹ V A⁻¹. -/
theorem hasDerivAt_inv (A : ℝ → Matrix n n ℝ) (V : Matrix n n ℝ) (h : ∀ i j, HasDerivAt (fun t => A t i j) (V i j) 0)
    (hu : (A 0).det ≠ 0) :
    (∀ᶠ t in nhds 0, (A t).det ≠ 0) ∧
    ∀ i j, HasDerivAt (fun t => (A t)⁻¹ i j) (-((A 0)⁻¹ * V * (A 0)⁻¹) i j) 0 := by
  have hdet := hasDerivAt_det A V h
  have hev : ∀ᶠ t in nhds 0, (A t).det ≠ 0 := hdet.continuousAt.eventually_ne hu
  refine ⟨hev, ?_⟩
  have hadj : ∀ i j, DifferentiableAt ℝ (fun t => adjugate (A t) i j) 0 := by
    intro i j
    have : (fun t => adjugate (A t) i j) = fun t => ((A t).updateRow j (Pi.single i 1)).det := by
      funext t; rw [adjugate_apply]
    rw [this]
    refine (hasDerivAt_det (fun t => (A t).updateRow j (Pi.single i 1)) (V.updateRow j 0) ?_).differentiableAt
    intro a b
    by_cases e : a = j
    · subst e; simpa using hasDerivAt_const (0 : ℝ) _
    · simpa [updateRow_ne e] using h a b
  have hinv : ∀ i j, DifferentiableAt ℝ (fun t => (A t)⁻¹ i j) 0 := by
    intro i j
    have : (fun t => (A t)⁻¹ i j) = fun t => ((A t).det)⁻¹ * adjugate (A t) i j := by
      funext t; rw [inv_def, Matrix.smul_apply, Ring.inverse_eq_inv', smul_eq_mul]
    rw [this]
    exact (hdet.differentiableAt.fun_inv hu).fun_mul (hadj i j)
  choose W hW using fun i j => (show ∃ w, HasDerivAt (fun t => (A t)⁻¹ i j) w 0 from ⟨_, (hinv i j).hasDerivAt⟩)
  have hz : V * (A 0)⁻¹ + A 0 * Matrix.of W = 0 := by
    ext i j
    have h1 : HasDerivAt (fun t => ∑ k, A t i k * (A t)⁻¹ k j) (∑ k, (V i k * (A 0)⁻¹ k j + A 0 i k * W k j)) 0 :=
      HasDerivAt.fun_sum fun k _ => (h i k).fun_mul (hW k j)
    have h2 : (fun t => ∑ k, A t i k * (A t)⁻¹ k j) =ᶠ[nhds 0] fun _ => (1 : Matrix n n ℝ) i j := by
      filter_upwards [hev] with t ht
      have := congrFun (congrFun (mul_nonsing_inv (A t) (isUnit_iff_ne_zero.mpr ht)) i) j
      rwa [mul_apply] at this
    have h3 := (h1.congr_of_eventuallyEq h2.symm).unique (hasDerivAt_const (0 : ℝ) _)
    rw [Finset.sum_add_distrib] at h3
    simpa [Matrix.mul_apply, Matrix.add_apply] using h3
  have hW' : Matrix.of W = -((A 0)⁻¹ * V * (A 0)⁻¹) := by
    have h1 := congrArg (fun M => (A 0)⁻¹ * M) hz
    simp only [Matrix.mul_add, ← Matrix.mul_assoc, nonsing_inv_mul (A 0) (isUnit_iff_ne_zero.mpr hu), Matrix.one_mul,
      Matrix.mul_zero] at h1
    exact eq_neg_of_add_eq_zero_right h1
  intro i j
  have := hW i j
  rwa [show W i j = (Matrix.of W) i j from rfl, hW'] at this

end Verif.Linalg
