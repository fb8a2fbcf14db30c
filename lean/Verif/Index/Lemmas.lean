import Verif.Index.Spec
namespace Verif.Index
open Verif.ND

/-- Slices whose bounds the code handles as Python does: a given start lies in `[-n, n)` (or, for a
positive step, past the end with a stop not past the end), for a negative step a given stop is at
least `-n-1`; on an empty axis a given stop is not positive; the values do not collide with the 0x7fffffff sentinel. -/
def Covered (n : Nat) (s : PySlice) : Prop :=
  ((n : Int) < sliceNone ∧ (n = 0 → ∀ w, s.stop = some w → w ≤ 0)) ∧ npStep s ≠ 0 ∧ npStep s ≠ sliceNone ∧
  (∀ v, s.start = some v → (-(n : Int) ≤ v ∧ v < n) ∨
    (0 < npStep s ∧ (n : Int) ≤ v ∧ v ≠ sliceNone ∧ ∀ w, s.stop = some w → w ≤ n)) ∧
  (npStep s < 0 → ∀ v, s.stop = some v → -(n : Int) - 1 ≤ v ∧ v ≠ sliceNone)

theorem len_pos (a b k : Int) (hk : k > 0) :
    ((((b - a + k - 1) / k).toNat : Nat) : Int) = if a < b then (b - 1 - a).tdiv k + 1 else 0 := by
  by_cases h : a < b
  · rw [if_pos h, Int.tdiv_eq_ediv_of_nonneg (by omega)]
    have e : b - a + k - 1 = (b - 1 - a) + 1 * k := by omega
    rw [e, Int.add_mul_ediv_right _ _ (by omega)]
    have := Int.ediv_nonneg (a := b - 1 - a) (b := k) (by omega) (by omega)
    omega
  · rw [if_neg h]
    have : (b - a + k - 1) / k < 1 := by
      rw [Int.ediv_lt_iff_lt_mul hk]; omega
    omega

/-- Start after steps 3 and 5 of the C++ setup. -/
def normStart (n : Nat) (a : Ax) : Int :=
  let w := if a.start < 0 then a.start + n else a.start
  if w = sliceNone then (if a.step > 0 then 0 else (n : Int) - 1) else w

/-- Stop after steps 4 and 6 of the C++ setup. -/
def normStop (n : Nat) (a : Ax) : Int :=
  let w := if a.stop < 0 then a.stop + n else a.stop
  if w = sliceNone then (if a.step > 0 then (n : Int) else -1) else w

theorem setupAxis_norm (n : Nat) (a : Ax) (h0 : a.step ≠ 0) (hN : a.step ≠ sliceNone) :
    setupAxis n a = .ok (⟨normStart n a, normStop n a, a.step⟩,
      if a.step < 0 ∧ normStart n a > normStop n a then
        (normStart n a - 1 - normStop n a).tdiv (-a.step) + 1
      else if a.step > 0 ∧ normStart n a < normStop n a then
        if normStop n a ≤ n then (normStop n a - 1 - normStart n a).tdiv a.step + 1
        else ((n : Int) - 1 - normStart n a).tdiv a.step + 1
      else 0) := by
  simp only [setupAxis, if_neg h0, if_neg hN]
  rfl

theorem pyArgs_eq (n : Nat) (s : PySlice) :
    pyArgs n s = ⟨s.start.getD (if npStep s < 0 then -1 else 0),
      s.stop.getD (if npStep s < 0 then -(n : Int) - 1 else n), npStep s⟩ := by
  unfold pyArgs npStep
  cases s.step <;> cases s.start <;> cases s.stop <;> simp

theorem norm_pos (n : Nat) (s : PySlice) (h : Covered n s) (hk : npStep s > 0) :
    (npStart n s < npStop n s → normStart n (pyArgs n s) = npStart n s ∧
      normStart n (pyArgs n s) < normStop n (pyArgs n s) ∧
      npStop n s = if normStop n (pyArgs n s) ≤ n then normStop n (pyArgs n s) else n) ∧
    (¬ npStart n s < npStop n s → ¬ normStart n (pyArgs n s) < normStop n (pyArgs n s)) := by
  obtain ⟨⟨hn, hn0⟩, h0, hN, hstart, hstop⟩ := h
  rw [pyArgs_eq]
  have hk' : ¬ npStep s < 0 := by omega
  simp only [normStart, normStop, npStart, npStop, hk, hk', if_true, if_false]
  clear hstop hN h0
  cases hs1 : s.start with
  | none =>
    clear hstart
    cases hs2 : s.stop with
    | none =>
      simp only [Option.map_none, Option.getD_none]
      unfold sliceNone at *
      grind
    | some w =>
      have hn0 : n = 0 → w ≤ 0 := fun h => hn0 h w hs2
      simp only [Option.map_none, Option.getD_none, Option.map_some, Option.getD_some, npBound]
      unfold sliceNone at *
      grind
  | some v =>
    have hv := hstart v hs1
    clear hstart
    cases hs2 : s.stop with
    | none =>
      rw [hs2] at hv
      simp only [Option.map_none, Option.getD_none, Option.map_some, Option.getD_some, npBound]
      unfold sliceNone at *
      grind
    | some w =>
      have hv' : (-(n : Int) ≤ v ∧ v < n) ∨ ((n : Int) ≤ v ∧ v ≠ sliceNone ∧ w ≤ n) := by
        rcases hv with h | ⟨_, a, b, c⟩
        · exact Or.inl h
        · exact Or.inr ⟨a, b, c w hs2⟩
      clear hv
      simp only [Option.map_some, Option.getD_some, npBound]
      unfold sliceNone at *
      grind

theorem norm_neg (n : Nat) (s : PySlice) (h : Covered n s) (hk : npStep s < 0) :
    (npStop n s < npStart n s → normStart n (pyArgs n s) = npStart n s ∧
      normStop n (pyArgs n s) = npStop n s) ∧
    (¬ npStop n s < npStart n s → ¬ normStop n (pyArgs n s) < normStart n (pyArgs n s)) := by
  obtain ⟨⟨hn, hn0⟩, h0, hN, hstart, hstop⟩ := h
  rw [pyArgs_eq]
  have hk' : ¬ npStep s > 0 := by omega
  have hstop := hstop hk
  have hstart : ∀ v, s.start = some v → -(n : Int) ≤ v ∧ v < n := by
    intro v hv
    rcases hstart v hv with h | ⟨h, _⟩
    · exact h
    · omega
  simp only [normStart, normStop, npStart, npStop, hk, hk', if_true, if_false]
  clear hN h0
  cases hs1 : s.start with
  | none =>
    clear hstart
    cases hs2 : s.stop with
    | none =>
      simp only [Option.map_none, Option.getD_none]
      unfold sliceNone at *
      grind
    | some w =>
      have hw := hstop w hs2
      clear hstop
      simp only [Option.map_none, Option.getD_none, Option.map_some, Option.getD_some, npBound]
      unfold sliceNone at *
      grind
  | some v =>
    have hv := hstart v hs1
    clear hstart
    cases hs2 : s.stop with
    | none =>
      clear hstop
      simp only [Option.map_none, Option.getD_none, Option.map_some, Option.getD_some, npBound]
      unfold sliceNone at *
      grind
    | some w =>
      have hw := hstop w hs2
      clear hstop
      simp only [Option.map_some, Option.getD_some, npBound]
      unfold sliceNone at *
      grind

/-- Per-axis agreement with Python on covered slices. -/
theorem setupAxis_spec (n : Nat) (s : PySlice) (h : Covered n s) :
    ∃ ax, setupAxis n (pyArgs n s) = .ok (ax, (npLen n s : Int)) ∧
      (0 < npLen n s → ax.start = npStart n s) ∧ ax.step = npStep s := by
  have hst : (pyArgs n s).step = npStep s := by rw [pyArgs_eq]
  rw [setupAxis_norm n _ (by rw [hst]; exact h.2.1) (by rw [hst]; exact h.2.2.1), hst]
  have h0 := h.2.1
  by_cases hk : npStep s > 0
  · obtain ⟨h1, h2⟩ := norm_pos n s h hk
    have hl := len_pos (npStart n s) (npStop n s) _ hk
    have hl0 : npLen n s = ((npStop n s - npStart n s + npStep s - 1) / npStep s).toNat := by
      rw [npLen, if_pos hk]
    rw [← hl0] at hl
    have hk' : ¬ npStep s < 0 := by omega
    simp only [hk, hk', false_and, true_and, if_false]
    by_cases hlt : npStart n s < npStop n s
    · obtain ⟨e1, e2, e3⟩ := h1 hlt
      rw [if_pos hlt] at hl
      refine ⟨⟨normStart n (pyArgs n s), normStop n (pyArgs n s), npStep s⟩, ?_, fun _ => e1, rfl⟩
      simp only [Except.ok.injEq, Prod.mk.injEq, true_and]
      rw [if_pos e2, hl, e3, e1]
      split <;> rfl
    · rw [if_neg hlt] at hl
      rw [if_neg (h2 hlt)]
      exact ⟨_, by rw [hl], fun h => by omega, rfl⟩
  · have hk' : npStep s < 0 := by omega
    obtain ⟨h1, h2⟩ := norm_neg n s h hk'
    have hl := len_pos (npStop n s) (npStart n s) (-npStep s) (by omega)
    have hl0 : npLen n s = ((npStart n s - npStop n s + -npStep s - 1) / -npStep s).toNat := by
      rw [npLen, if_neg hk]
    rw [← hl0] at hl
    simp only [hk, hk', false_and, true_and, if_false]
    by_cases hlt : npStop n s < npStart n s
    · obtain ⟨e1, e2⟩ := h1 hlt
      rw [if_pos hlt] at hl
      refine ⟨⟨normStart n (pyArgs n s), normStop n (pyArgs n s), npStep s⟩, ?_, fun _ => e1, rfl⟩
      simp only [Except.ok.injEq, Prod.mk.injEq, true_and]
      rw [e1, e2, if_pos hlt, hl]
    · rw [if_neg hlt] at hl
      rw [if_neg (h2 hlt)]
      exact ⟨_, by rw [hl], fun h => by omega, rfl⟩

end Verif.Index
