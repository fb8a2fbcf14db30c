import Verif.HalfFloat.Spec
import Mathlib.Data.Nat.Bitwise
namespace Verif.HalfFloat

/-! ### bit fields as arithmetic -/

theorem or_add {n a b : Nat} (h : b < 2 ^ n) : (a * 2 ^ n) ||| b = a * 2 ^ n + b := by
  rw [Nat.mul_comm, ← Nat.two_pow_add_eq_or_of_lt h]

theorem signBitOf_eq {s E M : Nat} (hs : s < 2) (hE : E < 256) (hM : M < 2 ^ 23) :
    signBitOf (f32 s E M) = s * 2 ^ 15 := by
  unfold signBitOf f32
  rw [Nat.and_two_pow, Nat.testBit_shiftRight, Nat.testBit_eq_decide_div_mod_eq]
  rcases (show s = 0 ∨ s = 1 by omega) with rfl | rfl
  · have : (0 * 2 ^ 31 + E * 2 ^ 23 + M) / 2 ^ (16 + 15) % 2 = 0 := by omega
    rw [this]; rfl
  · have : (1 * 2 ^ 31 + E * 2 ^ 23 + M) / 2 ^ (16 + 15) % 2 = 1 := by omega
    simp only [this, decide_true, Bool.toNat_true]

theorem expF_eq {s E M : Nat} (hs : s < 2) (hE : E < 256) (hM : M < 2 ^ 23) :
    expF (f32 s E M) = (E : Int) - 127 := by
  unfold expF f32
  rw [Nat.and_two_pow_sub_one_eq_mod, Nat.shiftRight_eq_div_pow]
  have : (s * 2 ^ 31 + E * 2 ^ 23 + M) / 2 ^ 23 % 2 ^ 8 = E := by omega
  rw [this]

theorem sigF_eq {s E M : Nat} (hM : M < 2 ^ 23) : sigF (f32 s E M) = M := by
  unfold sigF f32
  rw [Nat.and_two_pow_sub_one_eq_mod]
  omega

theorem signBitFrom_eq {s e m : Nat} (hs : s < 2) (he : e < 32) (hm : m < 2 ^ 10) :
    signBitFrom (f16 s e m) = s * 2 ^ 31 := by
  unfold signBitFrom f16
  rw [Nat.and_two_pow, Nat.testBit_shiftLeft, Nat.testBit_eq_decide_div_mod_eq]
  rcases (show s = 0 ∨ s = 1 by omega) with rfl | rfl
  · have : (0 * 2 ^ 15 + e * 2 ^ 10 + m) / 2 ^ (31 - 16) % 2 = 0 := by omega
    rw [this]; simp
  · have : (1 * 2 ^ 15 + e * 2 ^ 10 + m) / 2 ^ (31 - 16) % 2 = 1 := by omega
    simp only [this]
    decide

theorem expH_eq {s e m : Nat} (hs : s < 2) (he : e < 32) (hm : m < 2 ^ 10) :
    expH (f16 s e m) = (e : Int) - 15 := by
  unfold expH f16
  rw [Nat.and_two_pow_sub_one_eq_mod, Nat.shiftRight_eq_div_pow]
  have : (s * 2 ^ 15 + e * 2 ^ 10 + m) / 2 ^ 10 % 2 ^ 5 = e := by omega
  rw [this]

theorem sigH_eq {s e m : Nat} (hm : m < 2 ^ 10) : sigH (f16 s e m) = m := by
  unfold sigH f16
  rw [Nat.and_two_pow_sub_one_eq_mod]
  omega

/-- Rounding to a multiple of 2^13, ties to even, divided by 2^13. -/
def rt (s : Nat) : Nat := (if s % 2 ^ 14 = 2 ^ 12 then s else s + 2 ^ 12) / 2 ^ 13

theorem roundTies_eq (s : Nat) : roundTies s >>> 13 = rt s := by
  unfold roundTies rt
  rw [Nat.shiftRight_eq_div_pow, Nat.and_two_pow_sub_one_eq_mod]
  by_cases h : s % 2 ^ 14 = 2 ^ 12
  · simp [h]
  · simp [h]

/-- Lower 15 bits of the converted value. -/
def dmag (E M : Nat) : Nat :=
  if E = 255 then (if M = 0 then 31744 else 31744 + (if M / 2 ^ 13 = 0 then 1 else M / 2 ^ 13))
  else if 142 < E then 31744
  else if E < 103 then 0
  else if 113 ≤ E then (E - 112) * 2 ^ 10 + rt M
  else rt ((2 ^ 23 + M) / 2 ^ (113 - E))

theorem rt_le {s : Nat} (h : s < 2 ^ 23) : rt s ≤ 2 ^ 10 := by
  unfold rt; split <;> omega

theorem shift_or {M : Nat} (hM : M < 2 ^ 23) : M ||| 2 ^ 23 = 2 ^ 23 + M := by
  rw [Nat.or_comm]
  have := or_add (n := 23) (a := 1) hM
  simpa using this

theorem sub_div_lt {M k : Nat} (hM : M < 2 ^ 23) (hk : 1 ≤ k) : (2 ^ 23 + M) / 2 ^ k < 2 ^ 23 := by
  obtain ⟨j, rfl⟩ : ∃ j, k = j + 1 := ⟨k - 1, by omega⟩
  have h1 : (2 ^ 23 + M) / 2 ^ (j + 1) ≤ (2 ^ 23 + M) / 2 ^ 1 :=
    Nat.div_le_div_left (Nat.pow_le_pow_right (by omega) (by omega)) (by omega)
  omega

theorem dmag_lt {E M : Nat} (hE : E < 256) (hM : M < 2 ^ 23) : dmag E M < 2 ^ 15 := by
  unfold dmag
  have h1 := rt_le hM
  by_cases a : E = 255
  · rw [if_pos a]; split
    · omega
    · split <;> omega
  · rw [if_neg a]
    by_cases b : 142 < E
    · rw [if_pos b]; omega
    · rw [if_neg b]
      by_cases c : E < 103
      · rw [if_pos c]; omega
      · rw [if_neg c]
        by_cases d : 113 ≤ E
        · rw [if_pos d]; omega
        · rw [if_neg d]
          have := rt_le (sub_div_lt hM (show 1 ≤ 113 - E by omega))
          omega

theorem down_eq {s E M : Nat} (hs : s < 2) (hE : E < 256) (hM : M < 2 ^ 23) :
    down (f32 s E M) = s * 2 ^ 15 + dmag E M := by
  have hd := dmag_lt hE hM
  rw [← or_add hd]
  unfold down
  simp only [signBitOf_eq hs hE hM, expF_eq hs hE hM, sigF_eq hM]
  unfold dmag at hd ⊢
  have hinf : infH = 31744 := by decide
  have h1 := rt_le hM
  by_cases a : E = 255
  · rw [if_pos a] at hd ⊢
    rw [if_pos (show (E : Int) - 127 = 127 + 1 by omega), hinf]
    by_cases hz : M = 0
    · rw [if_pos hz, if_pos hz]
    · rw [if_neg hz, if_neg hz, Nat.shiftRight_eq_div_pow, Nat.or_assoc]
      have h2 : M / 2 ^ 13 % 65536 = M / 2 ^ 13 := by omega
      rw [h2]
      congr 1
      have h3 : (if M / 2 ^ 13 = 0 then M / 2 ^ 13 + 1 else M / 2 ^ 13) =
          (if M / 2 ^ 13 = 0 then 1 else M / 2 ^ 13) := by
        split
        · next h => rw [h]
        · rfl
      rw [h3]
      have : (31744 : Nat) = 31 * 2 ^ 10 := by decide
      rw [this, or_add]
      split <;> omega
  · rw [if_neg a, if_neg (show ¬ (E : Int) - 127 = 127 + 1 by omega)]
    by_cases b : 142 < E
    · rw [if_pos b, if_pos (show (E : Int) - 127 > 15 by omega), hinf]
    · rw [if_neg b, if_neg (show ¬ (E : Int) - 127 > 15 by omega)]
      by_cases c : E < 103
      · rw [if_pos c, if_pos (show (E : Int) - 127 < -15 + 1 - 10 by omega)]; simp
      · rw [if_neg c, if_neg (show ¬ (E : Int) - 127 < -15 + 1 - 10 by omega)]
        by_cases d : 113 ≤ E
        · rw [if_pos d, if_pos (show (E : Int) - 127 ≥ -15 + 1 by omega), roundTies_eq]
          have he : ((E : Int) - 127 + 15).toNat = E - 112 := by omega
          rw [he, Nat.shiftLeft_eq]
          congr 1
          omega
        · rw [if_neg d, if_neg (show ¬ (E : Int) - 127 ≥ -15 + 1 by omega)]
          have he : (-((E : Int) - 127) + (-15 + 1)).toNat = 113 - E := by omega
          simp only [he, shift_or hM, roundTies_eq, Nat.shiftRight_eq_div_pow _ (113 - E)]
          have := rt_le (sub_div_lt hM (show 1 ≤ 113 - E by omega))
          congr 1
          omega

/-! ### half to float -/

theorem normalize_step {n s e : Nat} (h : s < 2 ^ 10) :
    normalize (n + 1) s e = normalize n (s * 2) (e - 1) := by
  rw [normalize, if_pos]
  · rw [Nat.shiftLeft_eq]
    congr 1
    omega
  · rw [Nat.and_two_pow, Nat.testBit_eq_decide_div_mod_eq]
    have : s / 2 ^ 10 % 2 = 0 := by omega
    simp; omega

theorem normalize_stop {n s e : Nat} (h : 2 ^ 10 ≤ s) (h' : s < 2 ^ 11) : normalize n s e = (s, e) := by
  cases n with
  | zero => rfl
  | succ n =>
    rw [normalize, if_neg]
    rw [Nat.and_two_pow, Nat.testBit_eq_decide_div_mod_eq]
    have : s / 2 ^ 10 % 2 = 1 := by omega
    simp; omega

/-- The loop ends within its fuel with a normalized significand: `k` is the number of shifts. -/
theorem normalize_spec {m : Nat} (h0 : 0 < m) (h : m < 2 ^ 10) :
    ∃ k, 1 ≤ k ∧ k ≤ 10 ∧ 2 ^ 10 ≤ m * 2 ^ k ∧ m * 2 ^ k < 2 ^ 11 ∧
      normalize 16 ((m <<< 1) % 65536) (127 - 15) = (m * 2 ^ k, 113 - k) := by
  have key : ∀ (n k : Nat), 1 ≤ k → k ≤ 10 → n + k = 10 + 7 → m * 2 ^ (k - 1) < 2 ^ 10 →
      ∃ k', 1 ≤ k' ∧ k' ≤ 10 ∧ 2 ^ 10 ≤ m * 2 ^ k' ∧ m * 2 ^ k' < 2 ^ 11 ∧
        normalize n (m * 2 ^ k) (113 - k) = (m * 2 ^ k', 113 - k') := by
    intro n
    induction n with
    | zero => intro k h1 h2 h3; omega
    | succ n ih =>
      intro k h1 h2 h3 h4
      have hk : m * 2 ^ k = m * 2 ^ (k - 1) * 2 := by
        rw [Nat.mul_assoc, ← Nat.pow_succ, show (k - 1).succ = k by omega]
      by_cases hc : m * 2 ^ k < 2 ^ 10
      · by_cases h10 : k = 10
        · subst h10; omega
        · rw [normalize_step hc, show 113 - k - 1 = 113 - (k + 1) by omega,
            show m * 2 ^ k * 2 = m * 2 ^ (k + 1) by rw [Nat.pow_succ, Nat.mul_assoc]]
          exact ih (k + 1) (by omega) (by omega) (by omega) (by simpa using hc)
      · refine ⟨k, h1, h2, by omega, by omega, ?_⟩
        exact normalize_stop (by omega) (by omega)
  have := key 16 1 (by omega) (by omega) (by omega) (by simpa using h)
  rw [Nat.shiftLeft_eq, show m * 2 ^ 1 % 65536 = m * 2 ^ 1 by omega]
  exact this

/-- Exponent and significand of the float of a half (finite or not). -/
theorem upBits_eq {s e m : Nat} (hs : s < 2) (he : e < 32) (hm : m < 2 ^ 10) :
    (e = 31 → upBits (f16 s e m) = f32 s 255 (m * 2 ^ 13)) ∧
    (1 ≤ e → e ≤ 30 → upBits (f16 s e m) = f32 s (e + 112) (m * 2 ^ 13)) ∧
    (e = 0 → m = 0 → upBits (f16 s e m) = f32 s 0 0) ∧
    (e = 0 → 0 < m → ∃ k, 1 ≤ k ∧ k ≤ 10 ∧ 2 ^ 10 ≤ m * 2 ^ k ∧ m * 2 ^ k < 2 ^ 11 ∧
      upBits (f16 s e m) = f32 s (113 - k) ((m * 2 ^ k - 2 ^ 10) * 2 ^ 13)) := by
  have asm : ∀ {E S : Nat}, E < 256 → S < 2 ^ 23 → ((s * 2 ^ 31 ||| E * 2 ^ 23) ||| S) = f32 s E S := by
    intro E S hE hS
    have h1 : E * 2 ^ 23 ||| S = E * 2 ^ 23 + S := or_add hS
    rw [Nat.or_assoc, h1, or_add (by omega), f32, Nat.add_assoc]
  unfold upBits
  simp only [signBitFrom_eq hs he hm, expH_eq hs he hm, sigH_eq hm]
  refine ⟨fun h => ?_, fun h1 h2 => ?_, fun h h' => ?_, fun h h' => ?_⟩
  · rw [if_pos (by omega), show infF = 255 * 2 ^ 23 by decide, Nat.shiftLeft_eq, asm (by omega) (by omega)]
  · rw [if_neg (by omega), if_neg (by omega), Nat.shiftLeft_eq, Nat.shiftLeft_eq,
      show ((e : Int) - 15 + 127).toNat = e + 112 by omega, asm (by omega) (by omega)]
  · rw [if_neg (by omega), if_pos (by omega), if_pos h', f32]; omega
  · obtain ⟨k, h1, h2, h3, h4, h5⟩ := normalize_spec h' hm
    refine ⟨k, h1, h2, h3, h4, ?_⟩
    rw [if_neg (by omega), if_pos (by omega), if_neg (by omega), h5]
    simp only [Nat.shiftLeft_eq]
    have : sigH (m * 2 ^ k) = m * 2 ^ k - 2 ^ 10 := by
      unfold sigH
      rw [Nat.and_two_pow_sub_one_eq_mod]
      omega
    rw [this, asm (by omega) (by omega)]

/-- The conversion through `float` is exact on these patterns: all are multiples of 2^13 below 2^32. -/
theorem viaFloat_exact {n k : Nat} (h : n = k * 2 ^ 13) (hn : n < 2 ^ 32) : viaFloat n = n := by
  have hlog : n.log2 - 23 ≤ 8 := by
    by_cases h0 : n = 0
    · subst h0; simp
    · have := (Nat.log2_lt h0).mpr hn
      omega
  unfold viaFloat
  simp only
  have hdvd : 2 ^ (n.log2 - 23) ∣ n := by
    have : 2 ^ (n.log2 - 23) ∣ k * 2 ^ 13 := Dvd.dvd.mul_left (Nat.pow_dvd_pow 2 (by omega)) k
    rwa [← h] at this
  have hmod : n % 2 ^ (n.log2 - 23) = 0 := Nat.mod_eq_zero_of_dvd hdvd
  rw [hmod, if_pos (Or.inl (by have := Nat.two_pow_pos (n.log2 - 23); omega)), Nat.div_mul_cancel hdvd]

theorem up_eq {s e m : Nat} (hs : s < 2) (he : e < 32) (hm : m < 2 ^ 10) :
    up (f16 s e m) = upBits (f16 s e m) := by
  obtain ⟨h1, h2, h3, h4⟩ := upBits_eq hs he hm
  unfold up
  have asm : ∀ {E t : Nat}, E < 256 → t < 2 ^ 10 → viaFloat (f32 s E (t * 2 ^ 13)) = f32 s E (t * 2 ^ 13) := by
    intro E t hE ht
    apply viaFloat_exact (k := s * 2 ^ 18 + E * 2 ^ 10 + t)
    · unfold f32; omega
    · unfold f32; omega
  rcases (show e = 31 ∨ (1 ≤ e ∧ e ≤ 30) ∨ e = 0 by omega) with h | ⟨h, h'⟩ | h
  · rw [h1 h]; exact asm (by omega) hm
  · rw [h2 h h']; exact asm (by omega) hm
  · by_cases hz : m = 0
    · rw [h3 h hz]; exact asm (t := 0) (by omega) (by omega)
    · obtain ⟨k, _, _, k3, k4, k5⟩ := h4 h (by omega)
      rw [k5]; exact asm (by omega) (by omega)

end Verif.HalfFloat
