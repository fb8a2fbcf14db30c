import Verif.Rand.CropFlip
/-
C132: every sample has its own random pattern.
-/
namespace Verif.Rand
open Verif.ND Verif.Fn

/-- The pattern number in force when the recursion reaches the axes from `base` on, for the sample at the
multi-index `b` of the first axes (this is what the recursion computes, see `C132_sample_number`). -/
def sampleNumber (base n : Nat) : Shape → Nat → Nat → List Nat → Nat
  | _ :: rest, dim, k, i :: is => sampleNumber base n rest (dim + 1) ((k + i * stepOf base rest dim) % n) is
  | _, _, k, _ => k

/-- C132: along the axes after the sample axes, element `b ++ r` is read with pattern `sampleNumber b`. -/
theorem C132_sample_number (base n : Nat) (hn : 0 < n) (m : Nat → Nat → Nat → Option Nat) (sh : Shape) (dim k : Nat)
    (hd : dim ≤ base) (b r : List Nat) (hb : b.length = base - dim) (hk : k < n) (hj : InBounds sh (b ++ r))
    (hm : ∀ k d i, d < base → m k d i = some i) :
    pick base n m sh dim k (b ++ r) = (mapAxes (m (sampleNumber base n sh dim k b)) base r).map (b ++ ·) := by
  induction b generalizing sh dim k with
  | nil =>
    have : dim = base := by simp at hb; omega
    subst this
    have e : sampleNumber dim n sh dim k [] = k := by cases sh <;> rfl
    rw [e, List.nil_append, pick_ge dim n m sh dim k (Nat.le_refl _) hk r hj]
    cases mapAxes (m k) dim r <;> simp
  | cons i is ih =>
    cases sh with
    | nil => simp [InBounds] at hj
    | cons s rest =>
      simp only [List.length_cons] at hb
      simp only [List.cons_append, pick, sampleNumber]
      rw [hm k dim i (by omega), ih rest (dim + 1) _ (by omega) (by omega) (Nat.mod_lt _ hn) hj.2]
      cases mapAxes (m (sampleNumber base n rest (dim + 1) ((k + i * stepOf base rest dim) % n) is)) base r <;> simp

/-- C132, partial. With at most one sample axis different samples have different patterns (and patterns are drawn
from different outputs of the generator, C130_shift_fresh, C131_flip_draw).
What is missing: it fails for two sample axes, see `C132_two_axes_share`. -/
theorem C132_own_pattern_partial (base : Nat) (hb : base ≤ 1) (sh : Shape) (hlen : base < sh.length) (hne : 0 < prod sh)
    (b b' : List Nat) (h : InBounds (sh.take base) b) (h' : InBounds (sh.take base) b')
    (he : sampleNumber base (nPatterns sh base) sh 0 0 b = sampleNumber base (nPatterns sh base) sh 0 0 b') : b = b' := by
  rcases Nat.eq_zero_or_pos base with rfl | hp
  · rw [List.take_zero] at h h'
    cases b with
    | nil => cases b' with
      | nil => rfl
      | cons _ _ => simp [InBounds] at h'
    | cons _ _ => simp [InBounds] at h
  · have hb1 : base = 1 := by omega
    subst hb1
    cases sh with
    | nil => simp at hlen
    | cons s rest =>
      have key : ∀ b, InBounds [s] b → ∃ i, b = [i] ∧ i < s ∧ sampleNumber 1 (nPatterns (s :: rest) 1) (s :: rest) 0 0 b = i := by
        intro b hb
        match b, hb with
        | [i], hb =>
          refine ⟨i, rfl, hb.1, ?_⟩
          have hs : stepOf 1 rest 0 = 1 := by unfold stepOf; rw [span_ge _ _ _ (by omega)]; rfl
          have : sampleNumber 1 (nPatterns (s :: rest) 1) (s :: rest) 0 0 [i] =
              (0 + i * stepOf 1 rest 0) % nPatterns (s :: rest) 1 := by
            simp only [sampleNumber]
          rw [this, hs, nPatterns_one s rest hne, Nat.zero_add, Nat.mul_one, Nat.mod_eq_of_lt hb.1]
      obtain ⟨i, rfl, _, hi⟩ := key b (by simpa using h)
      obtain ⟨i', rfl, _, hi'⟩ := key b' (by simpa using h')
      rw [hi, hi'] at he
      rw [he]

/-- C132, refuted for two sample axes: of the 2×2 samples of a batch of shape (2, 2, 3) with base_axis = 2,
samples (0,0) and (1,1) are always flipped together, whatever is drawn, although four patterns are drawn. -/
theorem C132_two_axes_share {R} (flips : List (List Bool)) (hp : FlipPats 3 [2] (nPatterns [2, 2, 3] 2) flips) (x y : Mem R) :
    ∃ b : Bool, ∀ r, r < 3 → flipForward [2, 2, 3] 2 flips x y (0 + r) = x (0 + flipPos b 3 r) ∧
      flipForward [2, 2, 3] 2 flips x y (9 + r) = x (9 + flipPos b 3 r) := by
  have hn : flips.length = 4 := hp.1
  have hne : flips ≠ [] := by rintro rfl; simp at hn
  have hfl : ∀ k d i, d < 2 → (fun k d i => some (flipPos ((flips.getD k []).getD d false) (([2, 2, 3] : Shape).getD d 0) i)) k d i = some i := by
    intro k d i hd
    have : (flips.getD k []).getD d false = false := by
      by_cases hk : k < flips.length
      · by_contra hc
        have := (hp.2 (flips.getD k []) (by rw [List.getD_eq_getElem _ _ hk]; exact List.getElem_mem hk)).2 d (by simpa using hc)
        simp at this; omega
      · have : flips.getD k [] = [] := List.getD_eq_default _ _ (by omega)
        rw [this]; simp
    simp only [this, flipPos]
    simp
  have key : ∀ b : List Nat, b.length = 2 → ∀ r, InBounds [2, 2, 3] (b ++ [r]) →
      flipForward [2, 2, 3] 2 flips x y (ravel [2, 2, 3] (b ++ [r])) =
        x (ravel [2, 2, 3] (b ++ [flipPos ((flips.getD (sampleNumber 2 4 [2, 2, 3] 0 0 b) []).getD 2 false) 3 r])) := by
    intro b hb r hr
    unfold flipForward
    rw [(flip_gathers [2, 2, 3] 2 flips hne).forward x y _ hr]
    unfold flipIdx
    rw [hn, C132_sample_number 2 4 (by omega) _ [2, 2, 3] 0 0 (by omega) b [r] (by omega) (by omega) hr hfl]
    rfl
  refine ⟨(flips.getD 0 []).getD 2 false, ?_⟩
  intro r hr
  refine ⟨?_, ?_⟩
  · have := key [0, 0] rfl r (by simp [InBounds, hr])
    simpa [ravel, prod, sampleNumber, stepOf, span] using this
  · have := key [1, 1] rfl r (by simp [InBounds, hr])
    have e : ∀ t, ravel [2, 2, 3] ([1, 1] ++ [t]) = 9 + t := by intro t; simp [ravel, prod]; omega
    rw [e, e] at this
    exact this

/-- Patterns as required by the refutation exist. -/
example : FlipPats 3 [2] (nPatterns [2, 2, 3] 2) (drawFlips (fun g : Nat => (g, g + 1)) 3 [2] 4 0).1 :=
  C131_flip_axes _ 3 [2] 4 0

/-- One sample axis of extent 2: the two samples have patterns 0 and 1. -/
example : sampleNumber 1 (nPatterns [2, 3] 1) [2, 3] 0 0 [0] = 0 ∧ sampleNumber 1 (nPatterns [2, 3] 1) [2, 3] 0 0 [1] = 1 := by
  decide

end Verif.Rand
