import Verif.Stft.Conv1
namespace Verif.Stft
open Verif.Fn Verif.ND Verif.Elem

theorem conv1_setup (B F L N s : Nat) (hF : 0 < F) (hs : 0 < s) (hN : 0 < N) (hL : N ≤ L) :
    convSetup 1 [0] [s] [1] 1 [B, 1, L] [F, 1, N] none = .ok (cv1 B F L N s, [B, F, (L - N) / s + 1]) := by
  have hfr := frames_eq L N s hN hL
  have hw : (⟨L, N, 0, s, 1⟩ : Win).outInt > 0 := by
    have : 0 < (⟨L, N, 0, s, 1⟩ : Win).out := by
      have : frames L N s = (⟨L, N, 0, s, 1⟩ : Win).out := rfl
      rw [← this, hfr]; exact Nat.succ_pos _
    unfold Win.out at this; omega
  rw [← hfr]
  have hr : refineAxis 1 3 = .ok 1 := by decide
  simp only [convSetup, List.length_cons, List.length_nil]
  rw [show (0 + 1 + 1 + 1 : Nat) = 3 from rfl, hr]
  simp [mkWins, checkWins, hw, hs.ne', hF.ne', checkBias, cv1, outs, prod, frames, Nat.mod_one]

theorem deconv1_setup (B F T N s : Nat) (hF : 0 < F) (hs : 0 < s) (hN : 0 < N) (hT : 0 < T) :
    deconvSetup 1 [0] [s] [1] [0] 1 [B, F, T] [F, 1, N] none = .ok (cv1 B F ((T - 1) * s + N) N s, [B, 1, (T - 1) * s + N]) := by
  have e : (s : Int) * ((T : Int) - 1) + (((1 : Nat) : Int) * ((N : Int) - 1) + 1) - 2 * 0 + 0 = (((T - 1) * s + N : Nat) : Int) := by
    push_cast [Nat.cast_sub (show 1 ≤ T from hT)]; ring
  have hr : refineAxis 1 3 = .ok 1 := by decide
  have hd : deSizes [T] [N] [0] [s] [1] [0] = .ok [(T - 1) * s + N] := by
    simp only [deSizes, e]
    rw [if_neg (by omega), if_neg (by omega)]
    simp only [Int.toNat_natCast]
  simp only [deconvSetup, List.length_cons, List.length_nil]
  rw [show (0 + 1 + 1 + 1 : Nat) = 3 from rfl, hr]
  simp [hd, mkWins, hF.ne', checkBias, cv1, prod, Nat.mod_one]

/-- The slice of istft. -/
theorem slice_setup (B size h : Nat) (hh : 0 < h) (hs : 2 * h ≤ size) (hB : (B : Int) < Index.sliceNone) (hsz : (size : Int) < Index.sliceNone) :
    ∃ sl, Index.setup [B, size] [⟨0, B, 1⟩, ⟨(h : Nat), -((h : Nat) : Int), 1⟩] = .ok sl ∧
      Index.AllOK sl [B, size] [List.range B, (List.range (size - 2 * h)).map (h + ·)] ∧ sl.map (fun p => p.2.toNat) = [B, size - 2 * h] := by
  have hn : Index.sliceNone = 2147483647 := rfl
  rw [hn] at hB hsz
  have h1 : Index.setupAxis B ⟨0, B, 1⟩ = .ok (⟨0, B, 1⟩, B) := by
    simp only [Index.setupAxis, hn]
    rw [if_neg (by omega), if_neg (by omega), if_neg (by omega), if_neg (by omega), if_neg (by omega), if_neg (by omega)]
    congr 2
    rw [if_neg (by omega)]
    by_cases hb : (0 : Int) < B
    · rw [if_pos (by omega), if_pos (by omega), Int.tdiv_one]; omega
    · rw [if_neg (by omega)]; omega
  have h2 : Index.setupAxis size ⟨(h : Nat), -((h : Nat) : Int), 1⟩ = .ok (⟨h, (size : Int) - h, 1⟩, (size - 2 * h : Nat)) := by
    simp only [Index.setupAxis, hn]
    rw [if_neg (show ¬ (1 : Int) = 0 by omega), if_neg (show ¬ (1 : Int) = 2147483647 by omega), if_neg (show ¬ (h : Int) < 0 by omega),
      if_pos (show -(h : Int) < 0 by omega), if_neg (show ¬ (h : Int) = 2147483647 by omega), if_neg (show ¬ -(h : Int) + size = 2147483647 by omega)]
    congr 2
    · congr 1; omega
    · rw [if_neg (by omega)]
      by_cases hb : (h : Int) < -(h : Int) + size
      · rw [if_pos (by omega), if_pos (by omega), Int.tdiv_one]; omega
      · rw [if_neg (by omega)]; omega
  refine ⟨[(⟨0, B, 1⟩, B), (⟨h, (size : Int) - h, 1⟩, (size - 2 * h : Nat))], ?_, ⟨⟨?_, ?_⟩, ⟨?_, ?_⟩, trivial⟩, ?_⟩
  · simp only [Index.setup, Index.fillAxes, List.length_cons, List.length_nil, Nat.sub_self, List.take_zero, List.map_nil, List.nil_append,
      Index.setupAxes, h1, h2]
  · simp
  · intro i hi
    have hi : i < B := by simpa using hi
    simp [hi]
  · simp
  · intro i hi
    have hi : i < size - 2 * h := by simpa using hi
    simp; omega
  · simp

/-- Padding of a [B, L] array by h on both sides of its last axis. -/
theorem pad_setup (mode : PadMode) (B L h : Nat) (hB : 0 < B) (hL : 0 < L) :
    ∃ s, padSetup [((h : Nat) : Int), ((h : Nat) : Int)] [B, L] = .ok s ∧ s.oshape = [B, L + 2 * h] ∧
      ∀ (x y : Mem ℝ) (b p : Nat), b < B → p < L + 2 * h →
        padForward mode s 0 x y (b * (L + 2 * h) + p) = (padIndex mode L ((p : Int) - h)).elim 0 fun k => x (b * L + k) := by
  have a0 : axisPad [(h, h)] 2 0 = (0, 0) := by simp [axisPad]
  have a1 : axisPad [(h, h)] 2 1 = (h, h) := by simp [axisPad]
  have eo : (List.range 2).map (fun a => [B, L].getD a 0 + (axisPad [(h, h)] 2 a).1 + (axisPad [(h, h)] 2 a).2) = [B, L + 2 * h] := by
    simp only [List.range_succ, List.range_zero, List.nil_append, List.cons_append, List.map_cons, List.map_nil, a0, a1]
    simp; omega
  obtain ⟨s, h1, h2, h3⟩ := C76_pad (R := ℝ) mode [B, L] [(h, h)] (by simp) (by intro _; simp [prod, hB.ne', hL.ne']; exact ⟨hB, hL⟩)
    (by rw [show [B, L].length = 2 from rfl, eo]; simp only [prod]; positivity)
  rw [show [B, L].length = 2 from rfl, eo] at h2
  refine ⟨s, h1, h2, ?_⟩
  intro x y b p hb hp
  have hj : InBounds s.oshape [b, p] := by rw [h2]; exact ⟨hb, hp, trivial⟩
  obtain ⟨k1, k2⟩ := h3 (0 : ℝ) x y [b, p] hj
  have er : ravel s.oshape [b, p] = b * (L + 2 * h) + p := by rw [h2]; simp [ravel, prod]
  rw [er] at k1 k2
  have hb0 : padIndex mode B ((b : Int) - 0) = some b := by
    have hb' : (b : Int) < B := by omega
    cases mode with
    | constant => simp only [padIndex]; rw [if_pos (by omega)]; congr 1
    | reflect =>
      simp only [padIndex, backForth]
      by_cases hB1 : B ≤ 1
      · rw [if_pos hB1]; congr 1; omega
      · rw [if_neg hB1]
        have : ((b : Int) - 0) % (2 * ((B : Int) - 1)) = b := by rw [sub_zero]; exact Int.emod_eq_of_lt (by omega) (by omega)
        rw [this]
        simp [hb]
    | repeat_ => simp only [padIndex, clamped]; rw [if_neg (by omega), if_neg (by omega)]; congr 1
  cases hp' : padIndex mode L ((p : Int) - h) with
  | none =>
    exact k2 ⟨1, by simp, by simpa [a1] using hp'⟩
  | some k =>
    rw [k1 [b, k] rfl]
    · simp [ravel, prod]
    · intro a ha
      have : a = 0 ∨ a = 1 := by simp at ha; omega
      rcases this with rfl | rfl
      · simpa [a0] using hb0
      · simpa [a1] using hp'

end Verif.Stft
