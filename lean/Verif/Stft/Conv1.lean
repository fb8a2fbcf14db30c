import Verif.Stft.Model
/-
The one-dimensional, one-channel instances of convolution and deconvolution, and the coefficient buffers.
-/
namespace Verif.Stft
open Verif.Fn Verif.ND Verif.Elem

/-- One input channel, F output channels, kernel N, stride s over length L, batch B. -/
def cv1 (B F L N s : Nat) : Conv := ⟨B, 1, 1, 1, F, [⟨L, N, 0, s, 1⟩]⟩

theorem cv1_wf (B F L N s : Nat) : (cv1 B F L N s).WF := ⟨by simp [cv1], by simp [cv1], by simp [cv1, Conv.M], by simp [cv1]⟩

/-- The number of frames. -/
def frames (L N s : Nat) : Nat := (⟨L, N, 0, s, 1⟩ : Win).out

theorem frames_eq (L N s : Nat) (hN : 0 < N) (h : N ≤ L) : frames L N s = (L - N) / s + 1 := by
  unfold frames Win.out Win.outInt
  simp only
  have e : (L : Int) + 2 * 0 - (((1 : Nat) : Int) * ((N : Int) - 1) + 1) = ((L - N : Nat) : Int) := by omega
  rw [e, Int.tdiv_eq_ediv_of_nonneg (by omega)]
  rw [← Int.natCast_ediv]; exact Int.toNat_natCast ((L - N) / s + 1)

theorem frame_fits (L N s f : Nat) (hN : 0 < N) (h : N ≤ L) (hf : f < frames L N s) : f * s + N ≤ L := by
  rw [frames_eq L N s hN h] at hf
  have := Nat.mul_le_of_le_div s f (L - N) (by omega)
  omega

theorem src1 (L N s t f : Nat) (h : f * s + t < L) : srcIndex [⟨L, N, 0, s, 1⟩] [t] [f] = some [f * s + t] := by
  have e : (⟨L, N, 0, s, 1⟩ : Win).sees t f = ((f * s + t : Nat) : Int) := by
    simp only [Win.sees]; push_cast; ring
  simp only [srcIndex, e]
  rw [if_pos (by constructor <;> omega)]
  simp only [Option.map_some, Int.toNat_natCast]

theorem conv1_forward (B F L N s : Nat) (hN : 0 < N) (hL : N ≤ L) (x w col y : Mem ℝ) (b j f : Nat) (hb : b < B) (hj : j < F) (hf : f < frames L N s) :
    (cv1 B F L N s).forward x w none col y ((b * F + j) * frames L N s + f) =
      ∑ t ∈ Finset.range N, w (j * N + t) * x (b * L + (f * s + t)) := by
  have h := (cv1 B F L N s).C88_conv (cv1_wf B F L N s) [B] (by simp [cv1, prod]) x w none col y [b] j [f] ⟨hb, trivial⟩ hj ⟨hf, trivial⟩
  have e1 : ravel ([B] ++ (cv1 B F L N s).chO :: outs (cv1 B F L N s).ws) ([b] ++ j :: [f]) = (b * F + j) * frames L N s + f := by
    simp only [cv1, outs, List.map, List.cons_append, List.nil_append, ravel, prod, frames]; ring
  rw [e1] at h
  rw [h]
  simp only [cv1, Finset.sum_range_one, Option.elim_none, add_zero]
  rw [show kers [(⟨L, N, 0, s, 1⟩ : Win)] = [N] from rfl]
  have hi : ((indices [N]).map fun κ => w (ravel (F :: 1 :: [N]) (j :: 0 :: κ)) *
        (srcIndex [⟨L, N, 0, s, 1⟩] κ [f]).elim 0 fun q => x (ravel ([B] ++ 1 :: inps [(⟨L, N, 0, s, 1⟩ : Win)]) ([b] ++ (j / (F / 1) * 1 + 0) :: q))) =
      (indices [N]).map fun κ => w (j * N + ravel [N] κ) * x (b * L + (f * s + ravel [N] κ)) := by
    refine List.map_congr_left fun κ hκ => ?_
    have hκ := (mem_indices _ _).mp hκ
    match κ, hκ with
    | [t], hκ =>
      have ht : t < N := hκ.1
      rw [src1 L N s t f (by have := frame_fits L N s f hN hL hf; omega)]
      simp only [Option.elim_some, inps, List.map, List.cons_append, List.nil_append, ravel, prod, Nat.div_one, Nat.div_eq_of_lt hj]
      congr 2
      · ring
      · ring
  refine (congrArg List.sum hi).trans ?_
  rw [← sum_indices [N] (fun k => w (j * N + k) * x (b * L + (f * s + k)))]
  simp [prod]

theorem deconv1_forward (B F L N s : Nat) (hN : 0 < N) (hL : N ≤ L) (y w col x : Mem ℝ) (b q : Nat) (hb : b < B) (hq : q < L) :
    (cv1 B F L N s).deForward y w none col x (b * L + q) =
      ∑ t ∈ Finset.range N, ∑ f ∈ Finset.range (frames L N s), if f * s + t = q then
        ∑ j ∈ Finset.range F, w (j * N + t) * y ((b * F + j) * frames L N s + f) else 0 := by
  have h := (cv1 B F L N s).C89_deconv (cv1_wf B F L N s) [B] (by simp [cv1, prod]) y w none col x [b] 0 0 [q] ⟨hb, trivial⟩ (by simp [cv1]) (by simp [cv1]) ⟨hq, trivial⟩
  have e1 : ravel ([B] ++ (cv1 B F L N s).chI :: inps (cv1 B F L N s).ws) ([b] ++ (0 * (cv1 B F L N s).cg + 0) :: [q]) = b * L + q := by
    simp [cv1, inps, ravel, prod]
  rw [e1] at h
  rw [h]
  simp only [cv1, Option.elim_none, add_zero, Nat.div_one]
  rw [show kers [(⟨L, N, 0, s, 1⟩ : Win)] = [N] from rfl, show outs [(⟨L, N, 0, s, 1⟩ : Win)] = [frames L N s] from rfl]
  have inner : ∀ t, t < N → ((indices [frames L N s]).map fun pos => if srcIndex [⟨L, N, 0, s, 1⟩] [t] pos = some [q] then
        ∑ m ∈ Finset.range F, w (ravel (F :: 1 :: [N]) ((0 * F + m) :: 0 :: [t])) *
          y (ravel ([B] ++ F :: [frames L N s]) ([b] ++ (0 * F + m) :: pos)) else 0) =
      (indices [frames L N s]).map fun pos => if ravel [frames L N s] pos * s + t = q then
        ∑ j ∈ Finset.range F, w (j * N + t) * y ((b * F + j) * frames L N s + ravel [frames L N s] pos) else 0 := by
    intro t ht
    refine List.map_congr_left fun pos hp => ?_
    have hp := (mem_indices _ _).mp hp
    match pos, hp with
    | [f], hp =>
      have hf : f < frames L N s := hp.1
      rw [src1 L N s t f (by have := frame_fits L N s f hN hL hf; omega)]
      have e2 : ravel [frames L N s] [f] = f := by simp [ravel, prod]
      simp only [Option.some.injEq, List.cons.injEq, and_true, e2]
      refine if_congr Iff.rfl ?_ rfl
      refine Finset.sum_congr rfl fun j _ => ?_
      congr 2
      · simp [ravel, prod]
      · simp only [List.cons_append, List.nil_append, ravel, prod]; ring
  have outer : ((indices [N]).map fun κ => ((indices [frames L N s]).map fun pos => if srcIndex [⟨L, N, 0, s, 1⟩] κ pos = some [q] then
        ∑ m ∈ Finset.range F, w (ravel (F :: 1 :: [N]) ((0 * F + m) :: 0 :: κ)) *
          y (ravel ([B] ++ F :: [frames L N s]) ([b] ++ (0 * F + m) :: pos)) else 0).sum) =
      (indices [N]).map fun κ => ∑ f ∈ Finset.range (frames L N s), if f * s + ravel [N] κ = q then
        ∑ j ∈ Finset.range F, w (j * N + ravel [N] κ) * y ((b * F + j) * frames L N s + f) else 0 := by
    refine List.map_congr_left fun κ hκ => ?_
    have hκ := (mem_indices _ _).mp hκ
    match κ, hκ with
    | [t], hκ =>
      rw [inner t hκ.1]
      have e2 : ravel [N] [t] = t := by simp [ravel, prod]
      rw [e2, ← sum_indices [frames L N s] (fun f => if f * s + t = q then
        ∑ j ∈ Finset.range F, w (j * N + t) * y ((b * F + j) * frames L N s + f) else 0)]
      simp [prod]
  refine (congrArg List.sum outer).trans ?_
  rw [← sum_indices [N] (fun t => ∑ f ∈ Finset.range (frames L N s), if f * s + t = q then
        ∑ j ∈ Finset.range F, w (j * N + t) * y ((b * F + j) * frames L N s + f) else 0)]
  simp [prod]

/-! ### Coefficients -/

theorem at_inj0 (N : Nat) (i j i' j' : Nat) (hj : j < N) (hj' : j' < N) (h : at_ 0 N i j = at_ 0 N i' j') : i = i' ∧ j = j' := at_inj (p := 0) hj hj' h

theorem forMat_get (P N : Nat) (f : Nat → Nat → ℝ → ℝ) (g : Mem ℝ) (w t : Nat) (hw : w < P) (ht : t < N) :
    forMat P N (at_ 0 N) f g (w * N + t) = f w t (g (w * N + t)) := by
  have h := (forMat_spec P N (at_ 0 N) f g fun i j i' j' _ hj _ hj' e => at_inj0 N i j i' j' hj hj' e).1 w t hw ht
  have e : at_ 0 N w t = w * N + t := by unfold at_; omega
  rwa [e] at h

end Verif.Stft
