import Verif.HalfFloat.Lemmas
namespace Verif.HalfFloat

theorem hval_field {e m : Nat} (hm : m < 2 ^ 10) : hval (e * 2 ^ 10 + m) = hmag e m := by
  unfold hval
  rw [show (e * 2 ^ 10 + m) / 2 ^ 10 = e by omega, show (e * 2 ^ 10 + m) % 2 ^ 10 = m by omega]

/-- Spacing of half magnitudes above the pattern with exponent `e`. -/
def ulp (e : Nat) : Nat := 2 ^ ((if e = 0 then 1 else e) + 124)

theorem hval_next {e m : Nat} (hm : m < 2 ^ 10) :
    hval (e * 2 ^ 10 + m + 1) = hval (e * 2 ^ 10 + m) + ulp e := by
  rw [hval_field hm]
  by_cases h : m + 1 < 2 ^ 10
  · rw [Nat.add_assoc, hval_field h]
    unfold hmag ulp
    by_cases he : e = 0
    · simp [he]; omega
    · simp only [if_neg he]; rw [← Nat.add_assoc, Nat.add_mul, Nat.one_mul]
  · have hm' : m = 1023 := by omega
    subst hm'
    rw [show e * 2 ^ 10 + 1023 + 1 = (e + 1) * 2 ^ 10 + 0 by omega, hval_field (by omega)]
    unfold hmag ulp
    by_cases he : e = 0
    · subst he; decide
    · simp only [if_neg he, if_neg (Nat.succ_ne_zero e)]
      rw [show e + 1 + 124 = (e + 124) + 1 by omega, Nat.pow_succ 2 (e + 124)]
      generalize 2 ^ (e + 124) = P
      omega

theorem ulp_pos (e : Nat) : 0 < ulp e := Nat.two_pow_pos _

theorem hval_lt_succ (k : Nat) : hval k < hval (k + 1) := by
  have h := hval_next (e := k / 2 ^ 10) (m := k % 2 ^ 10) (Nat.mod_lt _ (by decide))
  have hk : k / 2 ^ 10 * 2 ^ 10 + k % 2 ^ 10 = k := by omega
  rw [hk] at h
  have := ulp_pos (k / 2 ^ 10)
  omega

theorem hval_mono {i j : Nat} (h : i ≤ j) : hval i ≤ hval j := by
  induction h with
  | refl => exact Nat.le_refl _
  | step _ ih => exact Nat.le_trans ih (Nat.le_of_lt (hval_lt_succ _))

theorem hval_strict {i j : Nat} (h : i < j) : hval i < hval j :=
  Nat.lt_of_lt_of_le (hval_lt_succ i) (hval_mono h)

/-- Rounding between two neighbours gives the nearest half. -/
theorem nearest_between {x k R : Nat} (hk : k + 1 ≤ 31 * 2 ^ 10) (h1 : hval k ≤ x) (h2 : x < hval (k + 1))
    (hR : (R = k ∧ (2 * (x - hval k) < hval (k + 1) - hval k ∨
              (2 * (x - hval k) = hval (k + 1) - hval k ∧ k % 2 = 0))) ∨
          (R = k + 1 ∧ (2 * (x - hval k) > hval (k + 1) - hval k ∨
              (2 * (x - hval k) = hval (k + 1) - hval k ∧ (k + 1) % 2 = 0)))) : Nearest x R := by
  have hlow : ∀ j, j < k → hval j < hval k := fun j hj => hval_strict hj
  have hhigh : ∀ j, k + 1 < j → hval (k + 1) < hval j := fun j hj => hval_strict hj
  have hs := hval_lt_succ k
  refine ⟨by omega, ?_, ?_⟩
  · intro j _
    rcases (show j < k ∨ j = k ∨ j = k + 1 ∨ k + 1 < j by omega) with hj | hj | hj | hj
    · have := hlow j hj
      unfold dist
      rcases hR with ⟨rfl, h⟩ | ⟨rfl, h⟩ <;> omega
    · subst hj
      unfold dist
      rcases hR with ⟨rfl, h⟩ | ⟨rfl, h⟩ <;> omega
    · subst hj
      unfold dist
      rcases hR with ⟨rfl, h⟩ | ⟨rfl, h⟩ <;> omega
    · have := hhigh j hj
      unfold dist
      rcases hR with ⟨rfl, h⟩ | ⟨rfl, h⟩ <;> omega
  · intro j _ hne hd
    rcases (show j < k ∨ j = k ∨ j = k + 1 ∨ k + 1 < j by omega) with hj | hj | hj | hj
    · have := hlow j hj
      unfold dist at hd
      rcases hR with ⟨rfl, h⟩ | ⟨rfl, h⟩ <;> omega
    · subst hj
      unfold dist at hd
      rcases hR with ⟨rfl, h⟩ | ⟨rfl, h⟩ <;> omega
    · subst hj
      unfold dist at hd
      rcases hR with ⟨rfl, h⟩ | ⟨rfl, h⟩ <;> omega
    · have := hhigh j hj
      unfold dist at hd
      rcases hR with ⟨rfl, h⟩ | ⟨rfl, h⟩ <;> omega

/-- The rounding of `rt`, by quotient and remainder. -/
theorem rt_cases (q r : Nat) (hr : r < 2 ^ 13) :
    (rt (q * 2 ^ 13 + r) = q ∧ (r < 2 ^ 12 ∨ (r = 2 ^ 12 ∧ q % 2 = 0))) ∨
    (rt (q * 2 ^ 13 + r) = q + 1 ∧ (2 ^ 12 < r ∨ (r = 2 ^ 12 ∧ (q + 1) % 2 = 0))) := by
  unfold rt
  by_cases h : (q * 2 ^ 13 + r) % 2 ^ 14 = 2 ^ 12
  · rw [if_pos h]; left; omega
  · rw [if_neg h]
    by_cases h2 : r < 2 ^ 12
    · left; omega
    · right; omega

theorem nearest_normal {E M : Nat} (h1 : 113 ≤ E) (h2 : E ≤ 142) (hM : M < 2 ^ 23) :
    Nearest (fmag E M) ((E - 112) * 2 ^ 10 + rt M) := by
  obtain ⟨e, rfl⟩ : ∃ e, E = e + 112 := ⟨E - 112, by omega⟩
  have hq : M / 2 ^ 13 < 2 ^ 10 := by omega
  have hr : M % 2 ^ 13 < 2 ^ 13 := Nat.mod_lt _ (by decide)
  have hrt := rt_cases (M / 2 ^ 13) (M % 2 ^ 13) hr
  rw [show M / 2 ^ 13 * 2 ^ 13 + M % 2 ^ 13 = M by omega] at hrt
  have hk : hval (e * 2 ^ 10 + M / 2 ^ 13) = (2 ^ 10 + M / 2 ^ 13) * (2 ^ 13 * 2 ^ (e + 111)) := by
    rw [hval_field hq, hmag, if_neg (by omega), ← Nat.pow_add]
    congr 2; omega
  have hn := hval_next (e := e) hq
  have hu : ulp e = 2 ^ 13 * 2 ^ (e + 111) := by
    rw [ulp, if_neg (by omega), ← Nat.pow_add]; congr 1; omega
  rw [hu] at hn
  have hx : fmag (e + 112) M = hval (e * 2 ^ 10 + M / 2 ^ 13) + M % 2 ^ 13 * 2 ^ (e + 111) := by
    rw [hk, fmag, if_neg (by omega), show e + 112 - 1 = e + 111 by omega]
    generalize 2 ^ (e + 111) = P
    rw [← Nat.mul_assoc, ← Nat.add_mul]
    have : 2 ^ 23 + M = (2 ^ 10 + M / 2 ^ 13) * 2 ^ 13 + M % 2 ^ 13 := by omega
    rw [← this]
  have hP : 0 < 2 ^ (e + 111) := Nat.two_pow_pos _
  have hmul : ∀ {a b : Nat}, a < b → a * 2 ^ (e + 111) < b * 2 ^ (e + 111) :=
    fun h => Nat.mul_lt_mul_of_pos_right h hP
  rw [show e + 112 - 112 = e by omega]
  clear hu hk
  generalize 2 ^ (e + 111) = P at hn hx hP hmul
  have hlt := hmul hr
  refine nearest_between (k := e * 2 ^ 10 + M / 2 ^ 13) (by omega) (by omega) (by omega) ?_
  have hd : fmag (e + 112) M - hval (e * 2 ^ 10 + M / 2 ^ 13) = M % 2 ^ 13 * P := by omega
  have hd2 : hval (e * 2 ^ 10 + M / 2 ^ 13 + 1) - hval (e * 2 ^ 10 + M / 2 ^ 13) = 2 ^ 13 * P := by omega
  rw [hd, hd2]
  rcases hrt with ⟨ha, hb⟩ | ⟨ha, hb⟩
  · left
    refine ⟨by omega, ?_⟩
    rcases hb with hb | ⟨hb, hc⟩
    · left; have := hmul hb; omega
    · right; rw [hb]; exact ⟨by omega, by omega⟩
  · right
    refine ⟨by omega, ?_⟩
    rcases hb with hb | ⟨hb, hc⟩
    · left; have := hmul hb; omega
    · right; rw [hb]; exact ⟨by omega, by omega⟩

theorem nearest_overflow {E M : Nat} (h1 : 142 < E) : Nearest (fmag E M) 31744 := by
  have hx : hval 31744 ≤ fmag E M := by
    rw [show (31744 : Nat) = 31 * 2 ^ 10 + 0 by decide, hval_field (by decide), hmag, if_neg (by decide), fmag,
      if_neg (by omega)]
    have : 2 ^ 142 ≤ 2 ^ (E - 1) := Nat.pow_le_pow_right (by omega) (by omega)
    calc (2 ^ 10 + 0) * 2 ^ (31 + 124) = 2 ^ 23 * 2 ^ 142 := by decide
      _ ≤ (2 ^ 23 + M) * 2 ^ (E - 1) := Nat.mul_le_mul (by omega) this
  refine ⟨by decide, ?_, ?_⟩
  · intro j hj
    have := hval_mono hj
    rw [show 31 * 2 ^ 10 = 31744 by decide] at this
    unfold dist; omega
  · intro j hj hne _
    decide

/-- Quotient, remainder and lost bits of a float that becomes a subnormal half. -/
theorem subnormal_parts {E M : Nat} (h1 : 103 ≤ E) (h2 : E ≤ 112) (hM : M < 2 ^ 23) :
    fmag E M = (2 ^ 23 + M) / 2 ^ (113 - E) * 2 ^ 112 + (2 ^ 23 + M) % 2 ^ (113 - E) * 2 ^ (E - 1) ∧
    (2 ^ 23 + M) % 2 ^ (113 - E) * 2 ^ (E - 1) < 2 ^ 112 := by
  have hp : 2 ^ (113 - E) * 2 ^ (E - 1) = 2 ^ 112 := by rw [← Nat.pow_add]; congr 1; omega
  have hdm := Nat.div_add_mod (2 ^ 23 + M) (2 ^ (113 - E))
  constructor
  · rw [fmag, if_neg (by omega), ← hp, ← Nat.mul_assoc, ← Nat.add_mul, Nat.mul_comm _ (2 ^ (113 - E)), hdm]
  · rw [← hp]
    exact Nat.mul_lt_mul_of_pos_right (Nat.mod_lt _ (Nat.two_pow_pos _)) (Nat.two_pow_pos _)

theorem hval_sub {k : Nat} (h : k ≤ 2 ^ 10) : hval k = k * 2 ^ 125 := by
  by_cases hk : k < 2 ^ 10
  · have := hval_field (e := 0) hk
    rw [Nat.zero_mul, Nat.zero_add] at this
    rw [this, hmag, if_pos rfl]
  · have : k = 2 ^ 10 := by omega
    subst this; decide

theorem sub_quot {E M : Nat} (h1 : 103 ≤ E) (h2 : E ≤ 112) (hM : M < 2 ^ 23) :
    (2 ^ 23 + M) / 2 ^ (113 - E) / 2 ^ 13 < 2 ^ 10 := by
  have := sub_div_lt hM (show 1 ≤ 113 - E by omega)
  omega

theorem sub_error {E M : Nat} (h1 : 103 ≤ E) (h2 : E ≤ 112) (hM : M < 2 ^ 23) :
    dist (fmag E M) (hval (rt ((2 ^ 23 + M) / 2 ^ (113 - E)))) < 2 ^ 124 + 2 ^ 112 := by
  obtain ⟨hx, hl⟩ := subnormal_parts h1 h2 hM
  have hq := sub_quot h1 h2 hM
  rw [hx]
  generalize (2 ^ 23 + M) / 2 ^ (113 - E) = S at *
  generalize (2 ^ 23 + M) % 2 ^ (113 - E) * 2 ^ (E - 1) = low at *
  have hrt := rt_cases (S / 2 ^ 13) (S % 2 ^ 13) (Nat.mod_lt _ (by decide))
  rw [show S / 2 ^ 13 * 2 ^ 13 + S % 2 ^ 13 = S by omega] at hrt
  unfold dist
  rcases hrt with ⟨ha, hb⟩ | ⟨ha, hb⟩
  · rw [ha, hval_sub (by omega)]; omega
  · rw [ha, hval_sub (by omega)]; omega

theorem sub_nearest {E M : Nat} (h1 : 103 ≤ E) (h2 : E ≤ 112) (hM : M < 2 ^ 23)
    (hgood : ¬ ((2 ^ 23 + M) % 2 ^ (113 - E) ≠ 0 ∧ (2 ^ 23 + M) / 2 ^ (113 - E) % 2 ^ 14 = 2 ^ 12)) :
    Nearest (fmag E M) (rt ((2 ^ 23 + M) / 2 ^ (113 - E))) := by
  obtain ⟨hx, hl⟩ := subnormal_parts h1 h2 hM
  have hq := sub_quot h1 h2 hM
  have hz : (2 ^ 23 + M) % 2 ^ (113 - E) = 0 → (2 ^ 23 + M) % 2 ^ (113 - E) * 2 ^ (E - 1) = 0 := by
    intro h; rw [h, Nat.zero_mul]
  rw [hx]
  generalize (2 ^ 23 + M) / 2 ^ (113 - E) = S at *
  generalize (2 ^ 23 + M) % 2 ^ (113 - E) = rem at *
  generalize rem * 2 ^ (E - 1) = low at *
  have hrt := rt_cases (S / 2 ^ 13) (S % 2 ^ 13) (Nat.mod_lt _ (by decide))
  rw [show S / 2 ^ 13 * 2 ^ 13 + S % 2 ^ 13 = S by omega] at hrt
  have e1 := hval_sub (k := S / 2 ^ 13) (by omega)
  have e2 := hval_sub (k := S / 2 ^ 13 + 1) (by omega)
  refine nearest_between (k := S / 2 ^ 13) (by omega) (by omega) (by omega) ?_
  rw [e1, e2]
  rcases hrt with ⟨ha, hb⟩ | ⟨ha, hb⟩
  · left
    refine ⟨ha, ?_⟩
    rcases hb with hb | ⟨hb, hc⟩
    · left; omega
    · right
      have h0 : rem = 0 := by
        rcases Nat.eq_zero_or_pos rem with h | h
        · exact h
        · exact absurd ⟨by omega, by omega⟩ hgood
      have := hz h0
      omega
  · right
    refine ⟨ha, ?_⟩
    rcases hb with hb | ⟨hb, hc⟩
    · left; omega
    · by_cases h0 : low = 0
      · right; omega
      · left; omega

/-! ### monotonicity -/

theorem rt_mono {s t : Nat} (h : s ≤ t) : rt s ≤ rt t := by
  unfold rt
  split <;> split <;> omega

theorem rt_bounds {E M : Nat} (h1 : 103 ≤ E) (h2 : E ≤ 112) (hM : M < 2 ^ 23) :
    2 ^ (E - 103) ≤ rt ((2 ^ 23 + M) / 2 ^ (113 - E)) ∧ rt ((2 ^ 23 + M) / 2 ^ (113 - E)) ≤ 2 ^ (E - 102) := by
  have h := sub_div_lt hM (show 1 ≤ 113 - E by omega)
  rcases (show E = 103 ∨ E = 104 ∨ E = 105 ∨ E = 106 ∨ E = 107 ∨ E = 108 ∨ E = 109 ∨ E = 110 ∨ E = 111 ∨ E = 112
    by omega) with rfl | rfl | rfl | rfl | rfl | rfl | rfl | rfl | rfl | rfl <;>
  · simp only [rt, Nat.reduceSub, Nat.reducePow] at *
    split <;> omega

/-- Smallest converted value of an exponent. -/
def dlow (E : Nat) : Nat :=
  if 142 < E then 31744 else if E < 103 then 0 else if 113 ≤ E then (E - 112) * 2 ^ 10 else 2 ^ (E - 103)

theorem dlow_mono {E : Nat} : dlow E ≤ dlow (E + 1) := by
  by_cases h : 103 ≤ E ∧ E ≤ 112
  · rcases (show E = 103 ∨ E = 104 ∨ E = 105 ∨ E = 106 ∨ E = 107 ∨ E = 108 ∨ E = 109 ∨ E = 110 ∨ E = 111 ∨ E = 112
      by omega) with rfl | rfl | rfl | rfl | rfl | rfl | rfl | rfl | rfl | rfl <;> decide
  · unfold dlow
    by_cases a : 142 < E
    · rw [if_pos a, if_pos (by omega)]
    · rw [if_neg a]
      by_cases c : E < 103
      · rw [if_pos c]; omega
      · rw [if_neg c, if_pos (by omega)]
        by_cases b : 142 < E + 1
        · rw [if_pos b]; omega
        · rw [if_neg b, if_neg (by omega), if_pos (by omega)]; omega

theorem dlow_le_of {E F : Nat} (h : E ≤ F) : dlow E ≤ dlow F := by
  induction h with
  | refl => exact Nat.le_refl _
  | step _ ih => exact Nat.le_trans ih dlow_mono

theorem dmag_bounds {E M : Nat} (hE : E < 255) (hM : M < 2 ^ 23) :
    dlow E ≤ dmag E M ∧ dmag E M ≤ dlow (E + 1) := by
  unfold dmag
  rw [if_neg (by omega)]
  by_cases a : 142 < E
  · rw [if_pos a, dlow, if_pos a, dlow, if_pos (by omega)]; omega
  · rw [if_neg a]
    by_cases c : E < 103
    · rw [if_pos c, dlow, if_neg a, if_pos c]; omega
    · rw [if_neg c]
      by_cases d : 113 ≤ E
      · rw [if_pos d]
        have := rt_le hM
        constructor
        · rw [dlow, if_neg a, if_neg c, if_pos d]; omega
        · rw [dlow]
          by_cases b : 142 < E + 1
          · rw [if_pos b]; omega
          · rw [if_neg b, if_neg (by omega), if_pos (by omega)]; omega
      · rw [if_neg d]
        obtain ⟨b1, b2⟩ := rt_bounds (E := E) (M := M) (by omega) (by omega) hM
        constructor
        · rw [dlow, if_neg a, if_neg c, if_neg d]; exact b1
        · rw [dlow, if_neg (show ¬ 142 < E + 1 by omega), if_neg (show ¬ E + 1 < 103 by omega)]
          by_cases f : 113 ≤ E + 1
          · rw [if_pos f]
            have : E = 112 := by omega
            subst this
            simpa using b2
          · rw [if_neg f, show E + 1 - 103 = E - 102 by omega]; exact b2

theorem dmag_mono {E M E' M' : Nat} (hE' : E' < 255) (hM : M < 2 ^ 23) (hM' : M' < 2 ^ 23)
    (h : E < E' ∨ (E = E' ∧ M ≤ M')) : dmag E M ≤ dmag E' M' := by
  rcases h with h | ⟨rfl, h⟩
  · exact Nat.le_trans (dmag_bounds (by omega) hM).2 (Nat.le_trans (dlow_le_of h) (dmag_bounds hE' hM').1)
  · unfold dmag
    simp only [if_neg (show ¬ E = 255 by omega)]
    by_cases a : 142 < E
    · simp only [if_pos a]; omega
    · simp only [if_neg a]
      by_cases c : E < 103
      · simp only [if_pos c]; omega
      · simp only [if_neg c]
        by_cases d : 113 ≤ E
        · simp only [if_pos d]
          have := rt_mono h
          omega
        · simp only [if_neg d]
          exact rt_mono (Nat.div_le_div_right (by omega))

/-- The order of finite float magnitudes is the lexicographic order of (exponent, significand). -/
theorem fmag_lt {E M E' M' : Nat} (hM : M < 2 ^ 23) (h : E < E' ∨ (E = E' ∧ M < M')) :
    fmag E M < fmag E' M' := by
  rcases h with h | ⟨rfl, h⟩
  · have h1 : fmag E M < 2 ^ 23 * 2 ^ E := by
      unfold fmag
      by_cases hz : E = 0
      · rw [if_pos hz, hz]; omega
      · rw [if_neg hz]
        obtain ⟨n, rfl⟩ : ∃ n, E = n + 1 := ⟨E - 1, by omega⟩
        rw [show n + 1 - 1 = n by omega, Nat.pow_succ 2 n, Nat.mul_comm (2 ^ n) 2, ← Nat.mul_assoc]
        exact Nat.mul_lt_mul_of_pos_right (by omega) (Nat.two_pow_pos _)
    have h2 : 2 ^ 23 * 2 ^ E ≤ fmag E' M' := by
      rw [fmag, if_neg (by omega)]
      exact Nat.mul_le_mul (by omega) (Nat.pow_le_pow_right (by omega) (by omega))
    omega
  · unfold fmag
    split
    · exact h
    · exact Nat.mul_lt_mul_of_pos_right (by omega) (Nat.two_pow_pos _)

end Verif.HalfFloat
