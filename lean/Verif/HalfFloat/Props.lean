import Verif.HalfFloat.Round
/-
Property theorems C67-C69 about half-precision numbers.
-/
namespace Verif.HalfFloat

/-- Every 16-bit pattern has its three fields. -/
theorem fields16 {b : Nat} (h : b < 2 ^ 16) :
    ∃ s e m, s < 2 ∧ e < 32 ∧ m < 2 ^ 10 ∧ b = f16 s e m :=
  ⟨b / 2 ^ 15, b / 2 ^ 10 % 32, b % 2 ^ 10, by omega, by omega, by omega, by unfold f16; omega⟩

/-- Every 32-bit pattern has its three fields. -/
theorem fields32 {b : Nat} (h : b < 2 ^ 32) :
    ∃ s E M, s < 2 ∧ E < 256 ∧ M < 2 ^ 23 ∧ b = f32 s E M :=
  ⟨b / 2 ^ 31, b / 2 ^ 23 % 256, b % 2 ^ 23, by omega, by omega, by omega, by unfold f32; omega⟩

/-! ## C67 -/

/-- **C67** (exactness).  `(float)h` has the sign and exactly the value of `h` for every finite half,
subnormals included; infinities become infinities and NaNs become NaNs. -/
theorem C67_to_float_exact {s e m : Nat} (hs : s < 2) (he : e < 32) (hm : m < 2 ^ 10) :
    (e ≤ 30 → ∃ E M, E < 255 ∧ M < 2 ^ 23 ∧ up (f16 s e m) = f32 s E M ∧ fmag E M = hmag e m) ∧
    (e = 31 → m = 0 → up (f16 s e m) = f32 s 255 0) ∧
    (e = 31 → m ≠ 0 → ∃ M, 0 < M ∧ M < 2 ^ 23 ∧ up (f16 s e m) = f32 s 255 M) := by
  rw [up_eq hs he hm]
  obtain ⟨h1, h2, h3, h4⟩ := upBits_eq hs he hm
  refine ⟨fun h => ?_, fun h hz => ?_, fun h hz => ?_⟩
  · rcases (show (1 ≤ e ∧ e ≤ 30) ∨ e = 0 by omega) with ⟨ha, hb⟩ | ha
    · refine ⟨e + 112, m * 2 ^ 13, by omega, by omega, h2 ha hb, ?_⟩
      rw [fmag, if_neg (by omega), hmag, if_neg (by omega), show e + 124 = 13 + (e + 112 - 1) by omega, Nat.pow_add,
        ← Nat.mul_assoc]
      have : 2 ^ 23 + m * 2 ^ 13 = (2 ^ 10 + m) * 2 ^ 13 := by omega
      rw [this]
    · by_cases hz : m = 0
      · refine ⟨0, 0, by omega, by omega, h3 ha hz, ?_⟩
        rw [hz, ha]; rfl
      · obtain ⟨k, k1, k2, k3, k4, k5⟩ := h4 ha (by omega)
        refine ⟨113 - k, (m * 2 ^ k - 2 ^ 10) * 2 ^ 13, by omega, by omega, k5, ?_⟩
        rw [fmag, if_neg (by omega), hmag, if_pos ha]
        have : 2 ^ 23 + (m * 2 ^ k - 2 ^ 10) * 2 ^ 13 = m * 2 ^ k * 2 ^ 13 := by omega
        rw [this, Nat.mul_assoc, Nat.mul_assoc, ← Nat.pow_add, ← Nat.pow_add]
        rw [show k + (13 + (113 - k - 1)) = 125 by omega]
  · rw [h1 h, hz]; rfl
  · exact ⟨m * 2 ^ 13, by omega, by omega, h1 h⟩

/-- 2^-24, the smallest subnormal half, is the float with exponent field 103. -/
example : up (f16 0 0 1) = f32 0 103 0 := by decide

/-- **C67** (round trip).  Converting a half to float and back gives the same bits, for every one of the
65536 patterns: zeros with their sign, subnormals, infinities, NaNs with their payload. -/
theorem C67_round_trip {b : Nat} (h : b < 2 ^ 16) : down (up b) = b := by
  obtain ⟨s, e, m, hs, he, hm, rfl⟩ := fields16 h
  rw [up_eq hs he hm]
  obtain ⟨h1, h2, h3, h4⟩ := upBits_eq hs he hm
  have hrt : ∀ q, q < 2 ^ 10 → rt (q * 2 ^ 13) = q := by
    intro q hq; unfold rt; rw [if_neg (by omega)]; omega
  rcases (show e = 31 ∨ (1 ≤ e ∧ e ≤ 30) ∨ e = 0 by omega) with ha | ⟨ha, hb⟩ | ha
  · rw [h1 ha, down_eq hs (by omega) (by omega), dmag, if_pos rfl, f16, ha]
    by_cases hz : m = 0
    · rw [if_pos (by omega)]; omega
    · rw [if_neg (by omega), if_neg (by omega)]; omega
  · rw [h2 ha hb, down_eq hs (by omega) (by omega), dmag, if_neg (by omega), if_neg (by omega), if_neg (by omega),
      if_pos (by omega), hrt m hm, f16]
    omega
  · by_cases hz : m = 0
    · rw [h3 ha hz, down_eq hs (by omega) (by omega), dmag, f16, ha, hz]
      simp
    · obtain ⟨k, k1, k2, k3, k4, k5⟩ := h4 ha (by omega)
      rw [k5, down_eq hs (by omega) (by omega), dmag, if_neg (by omega), if_neg (by omega), if_neg (by omega),
        if_neg (by omega), show 113 - (113 - k) = k by omega]
      have : 2 ^ 23 + (m * 2 ^ k - 2 ^ 10) * 2 ^ 13 = m * 2 ^ 13 * 2 ^ k := by
        rw [Nat.mul_assoc m, Nat.mul_comm (2 ^ 13), ← Nat.mul_assoc]; omega
      rw [this, Nat.mul_div_cancel _ (Nat.two_pow_pos k), hrt m hm, f16, ha]
      omega

/-- -0, a subnormal, -inf and a NaN. -/
example : down (up 0x8000) = 0x8000 ∧ down (up 0x0003) = 0x0003 ∧ down (up 0xfc00) = 0xfc00 ∧
    down (up 0x7c01) = 0x7c01 := by decide

/-! ## C68 -/

/-- **C68** (normal range and overflow).  A float that is a NaN stays a NaN, an infinity stays an infinity,
and a finite float of magnitude at least 2^-14, the smallest normal half, is rounded to the nearest half,
ties to even, becoming an infinity exactly when IEEE rounding overflows.  The sign is kept always. -/
theorem C68_round_normal {s E M : Nat} (hs : s < 2) (hE : E < 256) (hM : M < 2 ^ 23) :
    ∃ k, k < 2 ^ 15 ∧ down (f32 s E M) = s * 2 ^ 15 + k ∧
      (E = 255 → M = 0 → k = 31 * 2 ^ 10) ∧
      (E = 255 → M ≠ 0 → 31 * 2 ^ 10 < k) ∧
      (E < 255 → hmag 1 0 ≤ fmag E M → Nearest (fmag E M) k) := by
  refine ⟨dmag E M, dmag_lt hE hM, down_eq hs hE hM, ?_, ?_, ?_⟩
  · intro h1 h2; rw [dmag, if_pos h1, if_pos h2]; decide
  · intro h1 h2
    rw [dmag, if_pos h1, if_neg h2]
    split <;> omega
  · intro h1 h2
    have h113 : 113 ≤ E := by
      apply Classical.byContradiction
      intro hc
      have h3 := fmag_lt (E := E) (E' := 113) (M' := 0) hM (Or.inl (by omega))
      have h4 : fmag 113 0 = hmag 1 0 := by decide
      omega
    unfold dmag
    rw [if_neg (by omega)]
    by_cases a : 142 < E
    · rw [if_pos a]; exact nearest_overflow a
    · rw [if_neg a, if_neg (by omega), if_pos h113]
      exact nearest_normal h113 (by omega) hM

/-- 1 + 2^-11 is a tie and goes to the even 1; 65520 overflows, the float below it does not. -/
example : down (f32 0 127 (2 ^ 12)) = 0x3c00 ∧ down (f32 0 142 (2 ^ 23 - 2 ^ 12)) = 0x7c00 ∧
    down (f32 0 142 (2 ^ 23 - 2 ^ 12 - 1)) = 0x7bff := by decide

/-- **C68** (below the normal range), the part that holds.  Below 2^-14 the result is within
(1/2 + 2^-13) ulp for magnitudes of at least 2^-24 and within one ulp below that; it is the nearest half,
ties to even, unless dropped low bits turn the float into a tie.  Missing: correct rounding of those,
and of the magnitudes between 2^-25 and 2^-24, which all go to zero. -/
theorem C68_round_subnormal_partial {s E M : Nat} (hs : s < 2) (hM : M < 2 ^ 23) (hE : E < 113) :
    ∃ k, k ≤ 2 ^ 10 ∧ down (f32 s E M) = s * 2 ^ 15 + k ∧
      dist (fmag E M) (hval k) < 2 ^ 125 ∧
      (103 ≤ E → dist (fmag E M) (hval k) < 2 ^ 124 + 2 ^ 112) ∧
      (103 ≤ E → ¬ ((2 ^ 23 + M) % 2 ^ (113 - E) ≠ 0 ∧ (2 ^ 23 + M) / 2 ^ (113 - E) % 2 ^ 14 = 2 ^ 12) →
        Nearest (fmag E M) k) := by
  refine ⟨dmag E M, ?_, down_eq hs (by omega) hM, ?_, ?_, ?_⟩
  · have := (dmag_bounds (E := E) (by omega) hM).2
    have := dlow_le_of (E := E + 1) (F := 113) (by omega)
    have : dlow 113 = 2 ^ 10 := by decide
    omega
  · by_cases c : E < 103
    · have : dmag E M = 0 := by
        rw [dmag, if_neg (by omega), if_neg (by omega), if_pos c]
      rw [this, show hval 0 = 0 by decide]
      have h3 := fmag_lt (E' := 103) (M' := 0) hM (Or.inl c)
      have h4 : fmag 103 0 = 2 ^ 125 := by decide
      unfold dist; omega
    · have := sub_error (E := E) (M := M) (by omega) (by omega) hM
      have hd : dmag E M = rt ((2 ^ 23 + M) / 2 ^ (113 - E)) := by
        rw [dmag, if_neg (by omega), if_neg (by omega), if_neg c, if_neg (by omega)]
      rw [hd]
      omega
  · intro c
    have hd : dmag E M = rt ((2 ^ 23 + M) / 2 ^ (113 - E)) := by
      rw [dmag, if_neg (by omega), if_neg (by omega), if_neg (by omega), if_neg (by omega)]
    rw [hd]
    exact sub_error c (by omega) hM
  · intro c hg
    have hd : dmag E M = rt ((2 ^ 23 + M) / 2 ^ (113 - E)) := by
      rw [dmag, if_neg (by omega), if_neg (by omega), if_neg (by omega), if_neg (by omega)]
    rw [hd]
    exact sub_nearest c (by omega) hM hg

example : down (f32 0 104 (2 ^ 22)) = 3 ∧ down (f32 1 112 (2 ^ 23 - 1)) = 0x8400 := by decide

/-- **C68**, refuted below the normal range: 1.5·2^-25 is nearer to 2^-24 than to 0 but becomes 0, and a
float just above the tie 2.5·2^-24 becomes 2·2^-24 although 3·2^-24 is nearer. -/
theorem C68_subnormal_refutation :
    (∃ E M, E < 255 ∧ M < 2 ^ 23 ∧ down (f32 0 E M) = 0 ∧ dist (fmag E M) (hval 1) < dist (fmag E M) (hval 0)) ∧
    (∃ E M, E < 255 ∧ M < 2 ^ 23 ∧ down (f32 0 E M) = 2 ∧ dist (fmag E M) (hval 3) < dist (fmag E M) (hval 2)) :=
  ⟨⟨102, 2 ^ 22, by decide, by decide, by decide, by decide⟩,
   ⟨104, 2 ^ 21 + 1, by decide, by decide, by decide, by decide⟩⟩

/-- **C68** (monotone).  Over all finite floats, a larger magnitude never becomes a smaller half. -/
theorem C68_monotone {s E M E' M' : Nat} (hs : s < 2) (hE : E < 255) (hE' : E' < 255) (hM : M < 2 ^ 23)
    (hM' : M' < 2 ^ 23) (h : fmag E M ≤ fmag E' M') : down (f32 s E M) ≤ down (f32 s E' M') := by
  rw [down_eq hs (by omega) hM, down_eq hs (by omega) hM']
  have : E < E' ∨ (E = E' ∧ M ≤ M') := by
    apply Classical.byContradiction
    intro hc
    have := fmag_lt (E := E') (M := M') (E' := E) (M' := M) hM' (by omega)
    omega
  have := dmag_mono hE' hM hM' this
  omega

example : fmag 102 0 ≤ fmag 103 5 := by decide

/-! ## C69 -/

/-- **C69** (negation).  `-h` flips the sign bit and nothing else, NaNs included. -/
theorem C69_negate {b : Nat} (h : b < 2 ^ 16) : negHalf b = b ^^^ 2 ^ 15 := by
  obtain ⟨s, e, m, hs, he, hm, rfl⟩ := fields16 h
  have hx : ∀ (n : Nat) (s x : Nat), s < 2 → x < 2 ^ n → (s * 2 ^ n + x) ^^^ 2 ^ n = (1 - s) * 2 ^ n + x := by
    intro n s x hs hx
    apply Nat.eq_of_testBit_eq
    intro i
    have t1 : ∀ a, a < 2 → (a * 2 ^ n + x).testBit i = if i < n then x.testBit i else (a.testBit (i - n)) := by
      intro a _
      rw [Nat.mul_comm, Nat.testBit_two_pow_mul_add _ hx]
    rw [Nat.testBit_xor, t1 s hs, t1 (1 - s) (by omega), Nat.testBit_two_pow]
    by_cases hi : i < n
    · simp [hi, show n ≠ i by omega]
    · rw [if_neg hi, if_neg hi]
      rcases (show s = 0 ∨ s = 1 by omega) with rfl | rfl
      · by_cases hn : n = i
        · subst hn; simp
        · have : i - n ≠ 0 := by omega
          simpa [hn] using Bool.eq_false_iff.mpr (fun h => this (Nat.testBit_one_eq_true_iff_self_eq_zero.mp h))
      · by_cases hn : n = i
        · subst hn; simp
        · have : i - n ≠ 0 := by omega
          simpa [hn] using Bool.eq_false_iff.mpr (fun h => this (Nat.testBit_one_eq_true_iff_self_eq_zero.mp h))
  obtain ⟨E, M, hE, hM, hup⟩ : ∃ E M, E < 256 ∧ M < 2 ^ 23 ∧ up (f16 s e m) = f32 s E M := by
    obtain ⟨h1, h2, h3⟩ := C67_to_float_exact hs he hm
    by_cases ha : e ≤ 30
    · obtain ⟨E, M, a, b, c, _⟩ := h1 ha; exact ⟨E, M, by omega, b, c⟩
    · by_cases hz : m = 0
      · exact ⟨255, 0, by omega, by omega, h2 (by omega) hz⟩
      · obtain ⟨M, _, b, c⟩ := h3 (by omega) hz; exact ⟨255, M, by omega, b, c⟩
  have hrt := C67_round_trip h
  rw [hup, down_eq hs hE hM] at hrt
  have hflip : f32 s E M ^^^ 2 ^ 31 = f32 (1 - s) E M := by
    have := hx 31 s (E * 2 ^ 23 + M) hs (by omega)
    unfold f32
    rw [Nat.add_assoc, this, Nat.add_assoc]
  have hflip16 : f16 s e m ^^^ 2 ^ 15 = (1 - s) * 2 ^ 15 + (e * 2 ^ 10 + m) := by
    have := hx 15 s (e * 2 ^ 10 + m) hs (by omega)
    unfold f16
    rw [Nat.add_assoc, this]
  rw [negHalf, hup, hflip, down_eq (by omega) hE hM, hflip16]
  have hd : dmag E M = e * 2 ^ 10 + m := by
    unfold f16 at hrt
    exact Nat.add_left_cancel (by rw [hrt, Nat.add_assoc])
  rw [hd]

example : negHalf 0x3c00 = 0xbc00 ∧ negHalf 0x0000 = 0x8000 := by decide

/-- **C69** (equality), refuted: `==` on two halves compares bits, so -0 differs from +0 and a NaN equals
itself, unlike the floats they denote. -/
theorem C69_equality_refutation :
    (∃ a b s e m, a = f16 0 e m ∧ b = f16 s e m ∧ hmag e m = 0 ∧ eqHalf a b = false) ∧
    (∃ e m, e = 31 ∧ m ≠ 0 ∧ m < 2 ^ 10 ∧ eqHalf (f16 0 e m) (f16 0 e m) = true) :=
  ⟨⟨_, _, 1, 0, 0, rfl, rfl, by decide, by decide⟩, ⟨31, 1, rfl, by decide, by decide, by decide⟩⟩

/-- **C69** (equality), the part that holds: on finite halves other than the zeros, `==` holds exactly when
sign and value agree.  Missing: signed zeros and NaNs. -/
theorem C69_equality_partial {s e m s' e' m' : Nat} (hm : m < 2 ^ 10) (hm' : m' < 2 ^ 10) (hs : s < 2) (hs' : s' < 2)
    (he : e ≤ 30) (he' : e' ≤ 30) :
    eqHalf (f16 s e m) (f16 s' e' m') = true ↔ s = s' ∧ hmag e m = hmag e' m' := by
  have key : hmag e m = hmag e' m' ↔ e * 2 ^ 10 + m = e' * 2 ^ 10 + m' := by
    rw [← hval_field hm, ← hval_field hm']
    constructor
    · intro h
      rcases Nat.lt_trichotomy (e * 2 ^ 10 + m) (e' * 2 ^ 10 + m') with h1 | h1 | h1
      · have := hval_strict h1; omega
      · exact h1
      · have := hval_strict h1; omega
    · intro h; rw [h]
  rw [key]
  unfold eqHalf f16
  rw [beq_iff_eq]
  omega

example : eqHalf (f16 1 15 3) (f16 1 15 3) = true := by decide

/-- `numeric_limits<Half>::max()` is `Half(3.2768e+4)` (half.hpp, namespace std). -/
def limitMax : Nat := down (f32 0 142 0)

/-- **C69** (limits), refuted: the declared maximum is 32768, half of the largest finite half 65504. -/
theorem C69_max_refutation : ∃ e m, e ≤ 30 ∧ m < 2 ^ 10 ∧ hval limitMax < hmag e m :=
  ⟨30, 1023, by decide, by decide, by decide⟩

end Verif.HalfFloat
