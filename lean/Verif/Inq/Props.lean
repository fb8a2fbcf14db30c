import Verif.Inq.Model
import Mathlib.Tactic.Linarith
import Mathlib.Tactic.NormNum
import Mathlib.Tactic.Positivity
/-!
C157: theorems about the histories of incremental network quantization.
-/
namespace Verif.Inq
open Classical

/-! ## Rounding of the exponent -/

theorem logb_bounds : 0 < Real.logb 2 (3 / 2) ∧ Real.logb 2 (3 / 2) < 1 := by
  constructor
  · exact Real.logb_pos (by norm_num) (by norm_num)
  · rw [Real.logb_lt_iff_lt_rpow (by norm_num) (by norm_num)]; norm_num

theorem roundExp_floor (x : ℝ) : roundExp x = ⌊Real.logb 2 x + (1 - Real.logb 2 (3 / 2))⌋ := by
  obtain ⟨h0, h1⟩ := logb_bounds
  unfold roundExp
  have f1 := Int.floor_le (Real.logb 2 x)
  have f2 := Int.lt_floor_add_one (Real.logb 2 x)
  symm
  rw [Int.floor_eq_iff]
  by_cases h : Real.logb 2 (3 / 2) ≤ Real.logb 2 x - ⌊Real.logb 2 x⌋
  · rw [if_pos h]; push_cast; constructor <;> linarith
  · rw [if_neg h]; push Not at h; push_cast; constructor <;> linarith

theorem roundExp_mono {x y : ℝ} (hx : 0 < x) (h : x ≤ y) : roundExp x ≤ roundExp y := by
  rw [roundExp_floor, roundExp_floor]
  apply Int.floor_mono
  have := Real.logb_le_logb_of_le (b := 2) (by norm_num) hx h
  linarith

theorem logb_pow (k : ℤ) : Real.logb 2 ((2 : ℝ) ^ k) = k := by
  rw [← Real.rpow_intCast, Real.logb_rpow (by norm_num) (by norm_num)]

/-- The power of two of the rounded exponent is nearest to `x`. -/
theorem roundExp_spec {x : ℝ} (hx : 0 < x) : 3 / 2 * (2 : ℝ) ^ (roundExp x - 1) ≤ x ∧ x < 3 / 2 * (2 : ℝ) ^ roundExp x := by
  have key : ∀ k : ℤ, Real.logb 2 (3 / 2 * (2 : ℝ) ^ k) = Real.logb 2 (3 / 2) + k := by
    intro k
    rw [Real.logb_mul (by norm_num) (by positivity), logb_pow]
  have h1 := Int.floor_le (Real.logb 2 x + (1 - Real.logb 2 (3 / 2)))
  have h2 := Int.lt_floor_add_one (Real.logb 2 x + (1 - Real.logb 2 (3 / 2)))
  rw [← roundExp_floor] at h1 h2
  constructor
  · rw [← Real.logb_le_logb (b := 2) (by norm_num) (by positivity) hx, key]
    push_cast
    linarith
  · rw [← Real.logb_lt_logb_iff (b := 2) (by norm_num) hx (by positivity), key]
    linarith

theorem roundExp_pow (e : ℤ) : roundExp ((2 : ℝ) ^ e) = e := by
  obtain ⟨h0, h1⟩ := logb_bounds
  rw [roundExp_floor, logb_pow, Int.floor_eq_iff]
  constructor <;> linarith

theorem zpow_le {a b : ℤ} (h : a ≤ b) : (2 : ℝ) ^ a ≤ (2 : ℝ) ^ b := zpow_le_zpow_right₀ (by norm_num) h
theorem zpow_pred (a : ℤ) : (2 : ℝ) ^ (a - 1) = (2 : ℝ) ^ a / 2 := by rw [zpow_sub_one₀ (by norm_num)]; ring
theorem zpow_pos2 (a : ℤ) : (0 : ℝ) < (2 : ℝ) ^ a := by positivity

/-! ## The maximum -/

theorem foldMax_spec {n : ℕ} (w : Fin n → ℝ) (l : List (Fin n)) (m : ℝ) :
    m ≤ l.foldl (fun m i => if m < |w i| then |w i| else m) m ∧ (∀ i ∈ l, |w i| ≤ l.foldl (fun m i => if m < |w i| then |w i| else m) m) ∧
      (l.foldl (fun m i => if m < |w i| then |w i| else m) m = m ∨ ∃ i ∈ l, l.foldl (fun m i => if m < |w i| then |w i| else m) m = |w i|) := by
  induction l generalizing m with
  | nil => simp
  | cons a l ih =>
    simp only [List.foldl_cons]
    by_cases h : m < |w a|
    · rw [if_pos h]
      obtain ⟨h1, h2, h3⟩ := ih |w a|
      refine ⟨by linarith, ?_, ?_⟩
      · intro i hi
        rcases List.mem_cons.mp hi with rfl | hi
        · exact h1
        · exact h2 i hi
      · rcases h3 with h3 | ⟨i, hi, h3⟩
        · exact .inr ⟨a, by simp, h3⟩
        · exact .inr ⟨i, by simp [hi], h3⟩
    · rw [if_neg h]
      push Not at h
      obtain ⟨h1, h2, h3⟩ := ih m
      refine ⟨h1, ?_, ?_⟩
      · intro i hi
        rcases List.mem_cons.mp hi with rfl | hi
        · linarith
        · exact h2 i hi
      · rcases h3 with h3 | ⟨i, hi, h3⟩
        · exact .inl h3
        · exact .inr ⟨i, by simp [hi], h3⟩

/-- The maximum is attained and bounds all weights, unless all are zero, when it is 1. -/
theorem maxAbs_spec {n : ℕ} (w : Fin n → ℝ) : 0 < maxAbs w ∧ (∀ i, |w i| ≤ maxAbs w) ∧ ((∀ i, w i = 0) ∨ ∃ i, maxAbs w = |w i|) := by
  obtain ⟨h1, h2, h3⟩ := foldMax_spec w (List.finRange n) 0
  unfold maxAbs
  set m := (List.finRange n).foldl (fun m i => if m < |w i| then |w i| else m) 0
  simp only []
  by_cases h : m = 0
  · rw [if_pos h]
    have hz : ∀ i, w i = 0 := by
      intro i
      have := h2 i (by simp)
      rw [h] at this
      exact abs_eq_zero.mp (le_antisymm this (abs_nonneg _))
    exact ⟨one_pos, fun i => by rw [hz i]; simp, .inl hz⟩
  · rw [if_neg h]
    refine ⟨lt_of_le_of_ne h1 (Ne.symm h), fun i => h2 i (by simp), .inr ?_⟩
    rcases h3 with h3 | ⟨i, -, h3⟩
    · exact absurd h3 h
    · exact ⟨i, h3⟩

/-! ## The value of a fixed weight -/

theorem quant_codebook {n1 n2 : ℤ} (h : n2 ≤ n1) (x : ℝ) : Codebook n1 n2 (quant n1 n2 x) := by
  unfold quant
  by_cases hx : |x| < (2 : ℝ) ^ (n2 - 1)
  · rw [if_pos hx]; exact .inl rfl
  · rw [if_neg hx]
    simp only []
    right
    refine ⟨if (if n1 < roundExp |x| then n1 else roundExp |x|) < n2 then n2 else (if n1 < roundExp |x| then n1 else roundExp |x|), ?_, ?_, ?_⟩
    rotate_left 2
    · by_cases hs : x < 0
      · rw [if_pos hs]; right; rw [neg_one_mul]
      · rw [if_neg hs]; left; rw [one_mul]
    · split <;> omega
    · split <;> split <;> omega

theorem quant_zero {n1 n2 : ℤ} : quant n1 n2 0 = 0 := by
  unfold quant
  rw [if_pos (by rw [abs_zero]; exact zpow_pos2 _)]

theorem quant_pow {n1 n2 e : ℤ} (h1 : n2 ≤ e) (h2 : e ≤ n1) : quant n1 n2 ((2 : ℝ) ^ e) = (2 : ℝ) ^ e ∧ quant n1 n2 (-(2 : ℝ) ^ e) = -(2 : ℝ) ^ e := by
  have hp := zpow_pos2 e
  have hlt : ¬ (2 : ℝ) ^ e < (2 : ℝ) ^ (n2 - 1) := by
    have := zpow_le (show n2 - 1 ≤ e by omega)
    linarith
  constructor
  · unfold quant
    rw [abs_of_pos hp, if_neg hlt]
    simp only [roundExp_pow]
    rw [if_neg (show ¬ n1 < e by omega), if_neg (show ¬ e < n2 by omega), if_neg (show ¬ (2 : ℝ) ^ e < 0 by linarith), one_mul]
  · unfold quant
    rw [abs_neg, abs_of_pos hp, if_neg hlt]
    simp only [roundExp_pow]
    rw [if_neg (show ¬ n1 < e by omega), if_neg (show ¬ e < n2 by omega), if_pos (show -(2 : ℝ) ^ e < 0 by linarith), neg_one_mul]

theorem quant_neg {n1 n2 : ℤ} {x : ℝ} (hx : x ≠ 0) : quant n1 n2 (-x) = -quant n1 n2 x := by
  unfold quant
  rw [abs_neg]
  by_cases h : |x| < (2 : ℝ) ^ (n2 - 1)
  · rw [if_pos h, if_pos h, neg_zero]
  · rw [if_neg h, if_neg h]
    simp only []
    rcases lt_or_gt_of_ne hx with h | h
    · rw [if_pos h, if_neg (show ¬ -x < 0 by linarith)]; ring
    · rw [if_pos (show -x < 0 by linarith), if_neg (show ¬ x < 0 by linarith)]; ring

theorem Codebook.neg {n1 n2 : ℤ} {v : ℝ} (h : Codebook n1 n2 v) : Codebook n1 n2 (-v) := by
  rcases h with rfl | ⟨e, h1, h2, h | h⟩
  · exact .inl neg_zero
  · exact .inr ⟨e, h1, h2, .inr (by rw [h])⟩
  · exact .inr ⟨e, h1, h2, .inl (by rw [h, neg_neg])⟩

/-- For positive `x`: nearest in the codebook. -/
theorem quant_nearest_pos {n1 n2 : ℤ} {x : ℝ} (hx : 0 < x) (hm : roundExp x ≤ n1) {v : ℝ} (hv : Codebook n1 n2 v) :
    |x - quant n1 n2 x| ≤ |x - v| := by
  have hax : |x| = x := abs_of_pos hx
  unfold quant
  rw [hax]
  by_cases hlt : x < (2 : ℝ) ^ (n2 - 1)
  · rw [if_pos hlt, sub_zero, hax]
    rw [zpow_pred] at hlt
    rcases hv with rfl | ⟨f, f1, -, rfl | rfl⟩
    · rw [sub_zero, hax]
    · have := zpow_le f1
      rw [abs_of_neg (by linarith)]; linarith
    · have := zpow_pos2 f
      rw [abs_of_pos (by linarith)]; linarith
  · rw [if_neg hlt, zpow_pred] at *
    push Not at hlt
    simp only []
    rw [if_neg (show ¬ x < 0 by linarith), if_neg (show ¬ n1 < roundExp x by omega), one_mul]
    obtain ⟨r1, r2⟩ := roundExp_spec hx
    rw [zpow_pred] at r1
    -- e is the clipped exponent
    obtain ⟨e, he, e1, e2, e3⟩ : ∃ e : ℤ, (if roundExp x < n2 then n2 else roundExp x) = e ∧ (2 : ℝ) ^ e ≤ 2 * x ∧ x < 3 / 2 * (2 : ℝ) ^ e ∧
        (e = n2 ∨ 3 / 2 * ((2 : ℝ) ^ e / 2) ≤ x) := by
      by_cases c : roundExp x < n2
      · refine ⟨n2, by rw [if_pos c], by linarith, ?_, .inl rfl⟩
        have := zpow_le c.le
        linarith
      · exact ⟨roundExp x, by rw [if_neg c], by linarith [zpow_pos2 (roundExp x)], r2, .inr r1⟩
    rw [he]
    have hp := zpow_pos2 e
    have hd : |x - (2 : ℝ) ^ e| ≤ x := by
      rw [abs_le]; constructor <;> linarith
    rcases hv with rfl | ⟨f, f1, -, rfl | rfl⟩
    · rw [sub_zero, hax]; exact hd
    · rcases lt_trichotomy f e with c | c | c
      · -- f < e
        have hf := zpow_le (show f ≤ e - 1 by omega)
        rw [zpow_pred] at hf
        have e3 : 3 / 2 * ((2 : ℝ) ^ e / 2) ≤ x := by
          rcases e3 with e3 | e3
          · omega
          · exact e3
        rw [abs_of_nonneg (show 0 ≤ x - (2 : ℝ) ^ f by linarith), abs_le]
        constructor <;> linarith
      · rw [c]
      · have hf := zpow_le (show e ≤ f - 1 by omega)
        rw [zpow_pred] at hf
        rw [abs_of_nonpos (show x - (2 : ℝ) ^ f ≤ 0 by linarith), abs_le]
        constructor <;> linarith
    · have := zpow_pos2 f
      rw [sub_neg_eq_add, abs_of_pos (show 0 < x + (2 : ℝ) ^ f by linarith)]
      linarith

theorem quant_nearest {n1 n2 : ℤ} {x : ℝ} (hm : x ≠ 0 → roundExp |x| ≤ n1) {v : ℝ} (hv : Codebook n1 n2 v) :
    |x - quant n1 n2 x| ≤ |x - v| := by
  rcases lt_trichotomy x 0 with c | c | c
  · have := quant_nearest_pos (x := -x) (by linarith) (by rw [← abs_of_neg c]; exact hm c.ne) hv.neg
    rw [quant_neg c.ne] at this
    rw [show -x - -quant n1 n2 x = -(x - quant n1 n2 x) by ring, show -x - -v = -(x - v) by ring, abs_neg, abs_neg] at this
    exact this
  · subst c; rw [quant_zero]; simp
  · exact quant_nearest_pos c (by rw [← abs_of_pos c]; exact hm c.ne') hv

/-! ## One forward -/

theorem expMin_le {n : ℕ} (bits : ℕ) (hb : 2 ≤ bits) (w : Fin n → ℝ) : expMin bits w ≤ expMax w := by
  unfold expMin
  rw [if_pos hb]
  have : (1 : ℤ) ≤ 2 ^ (bits - 2) := one_le_pow₀ (by norm_num)
  omega

/-- **C157 (codebook).** After a forward every fixed weight is 0 or a power of two, of either sign, with one of `2 ^ (num_bits - 2)`
consecutive exponents, the largest of which is that of the power of two nearest to the largest weight: `num_bits` bits suffice. -/
theorem C157_codebook {n : ℕ} (C : Conf) (hb : 2 ≤ C.bits) (s : St n) (c : Choice n) :
    ∃ n1 : ℤ, (∀ i, (forward C s c).ind i = 1 → Codebook n1 (n1 + 1 - 2 ^ (C.bits - 2)) ((forward C s c).w i)) ∧
      ((∃ i, restore s i ≠ 0) → ∃ i, (∀ j, |restore s j| ≤ |restore s i|) ∧ 3 / 4 * (2 : ℝ) ^ n1 ≤ |restore s i| ∧ |restore s i| < 3 / 2 * (2 : ℝ) ^ n1) := by
  have he : expMin C.bits (restore s) = expMax (restore s) + 1 - 2 ^ (C.bits - 2) := by unfold expMin; rw [if_pos hb]
  refine ⟨expMax (restore s), ?_, ?_⟩
  · intro i hi
    simp only [forward] at hi ⊢
    rw [if_pos hi, ← he]
    exact quant_codebook (expMin_le _ hb _) _
  · rintro ⟨j, hj⟩
    obtain ⟨h1, h2, h3⟩ := maxAbs_spec (restore s)
    rcases h3 with h3 | ⟨i, h3⟩
    · exact absurd (h3 j) hj
    · obtain ⟨r1, r2⟩ := roundExp_spec h1
      rw [zpow_pred] at r1
      refine ⟨i, fun j => h3 ▸ h2 j, ?_, ?_⟩
      · rw [← h3]; unfold expMax; linarith
      · rw [← h3]; exact r2

/-- **C157 (nearest).** A fixed weight becomes a value of the codebook that is nearest to what it was. -/
theorem C157_nearest {n : ℕ} (C : Conf) (hb : 2 ≤ C.bits) (s : St n) (c : Choice n) (i : Fin n) (hi : (forward C s c).ind i = 1) :
    ∃ n1 : ℤ, Codebook n1 (n1 + 1 - 2 ^ (C.bits - 2)) ((forward C s c).w i) ∧
      ∀ v, Codebook n1 (n1 + 1 - 2 ^ (C.bits - 2)) v → |restore s i - (forward C s c).w i| ≤ |restore s i - v| := by
  have he : expMin C.bits (restore s) = expMax (restore s) + 1 - 2 ^ (C.bits - 2) := by unfold expMin; rw [if_pos hb]
  refine ⟨expMax (restore s), ?_, ?_⟩ <;> simp only [forward] at hi ⊢ <;> rw [if_pos hi, ← he]
  · exact quant_codebook (expMin_le _ hb _) _
  · intro v hv
    refine quant_nearest ?_ hv
    intro h0
    exact roundExp_mono (abs_pos.mpr h0) ((maxAbs_spec (restore s)).2.1 i)

/-- **C157 (learnable weights).** A weight that is not fixed is used as the solver left it. -/
theorem C157_learnable {n : ℕ} (C : Conf) (s : St n) (c : Choice n) (i : Fin n) (h0 : s.oldI i ≠ 1) (hi : (forward C s c).ind i ≠ 1) :
    (forward C s c).w i = s.w i := by
  simp only [forward] at hi ⊢
  rw [if_neg hi, restore, if_neg h0]

/-! ## Selection -/

theorem fixLoop_spec {n : ℕ} (w : Fin n → ℝ) (half : ℕ) (l : List (Fin n)) (ind : Fin n → ℕ) (k : ℕ) (hk : k < half) (hn : l.Nodup)
    (hs : l.Pairwise fun a b => |w b| ≤ |w a|) :
    (∀ i, (ind i ≠ 0 ∨ i ∉ l) → fixLoop half l ind k i = ind i) ∧
    (∀ i, fixLoop half l ind k i ≠ ind i → fixLoop half l ind k i = 1) ∧
    l.countP (fun i => decide (ind i = 0 ∧ fixLoop half l ind k i ≠ 0)) = min (half - k) (l.countP fun i => decide (ind i = 0)) ∧
    (∀ i ∈ l, ∀ j ∈ l, ind i = 0 → fixLoop half l ind k i ≠ 0 → ind j = 0 → fixLoop half l ind k j = 0 → |w j| ≤ |w i|) := by
  induction l generalizing ind k with
  | nil => simp [fixLoop]
  | cons a l ih =>
    obtain ⟨ha, hn'⟩ := List.nodup_cons.mp hn
    obtain ⟨hsa, hs'⟩ := List.pairwise_cons.mp hs
    by_cases h0 : ind a = 0
    · have hfl : fixLoop half (a :: l) ind k = if half ≤ k + 1 then Function.update ind a 1 else fixLoop half l (Function.update ind a 1) (k + 1) := by
        simp only [fixLoop]; rw [if_pos h0, if_pos h0]
      rw [hfl]
      have hup : ∀ i ∈ l, Function.update ind a 1 i = ind i := by
        intro i hi
        apply Function.update_of_ne
        rintro rfl
        exact ha hi
      by_cases hh : half ≤ k + 1
      · rw [if_pos hh]
        refine ⟨?_, ?_, ?_, ?_⟩
        · intro i hi
          rw [Function.update_of_ne]
          rintro rfl
          rcases hi with hi | hi
          · exact hi h0
          · exact hi (by simp)
        · intro i hi
          by_cases e : i = a
          · subst e; simp
          · rw [Function.update_of_ne e] at hi; exact absurd rfl hi
        · rw [List.countP_cons_of_pos (by simp [h0]), List.countP_cons_of_pos (by simp [h0]), List.countP_eq_zero.mpr]
          · omega
          · intro i hi
            rw [hup i hi]
            simp only [decide_eq_true_eq, not_and, not_not]
            exact fun h => h
        · intro i hi j hj hi0 hi1 hj0 hj1
          have hia : i = a := by
            by_contra e
            rw [Function.update_of_ne e] at hi1
            exact hi1 hi0
          subst hia
          rcases List.mem_cons.mp hj with rfl | hj
          · exact le_refl _
          · exact hsa j hj
      · rw [if_neg hh]
        push Not at hh
        obtain ⟨i1, i2, i3, i4⟩ := ih (Function.update ind a 1) (k + 1) (by omega) hn' hs'
        have hra : fixLoop half l (Function.update ind a 1) (k + 1) a = 1 := by rw [i1 a (.inr ha)]; simp
        refine ⟨?_, ?_, ?_, ?_⟩
        · intro i hi
          have hne : i ≠ a := by
            rintro rfl
            rcases hi with hi | hi
            · exact hi h0
            · exact hi (by simp)
          rw [i1 i, Function.update_of_ne hne]
          rcases hi with hi | hi
          · left; rw [Function.update_of_ne hne]; exact hi
          · right; exact fun h => hi (by simp [h])
        · intro i hi
          by_cases e : i = a
          · subst e; exact hra
          · apply i2
            rw [Function.update_of_ne e]; exact hi
        · rw [List.countP_cons_of_pos (by simp [h0, hra]), List.countP_cons_of_pos (by simp [h0])]
          have e1 : l.countP (fun i => decide (ind i = 0 ∧ fixLoop half l (Function.update ind a 1) (k + 1) i ≠ 0)) =
              l.countP (fun i => decide (Function.update ind a 1 i = 0 ∧ fixLoop half l (Function.update ind a 1) (k + 1) i ≠ 0)) := by
            apply List.countP_congr
            intro i hi
            rw [hup i hi]
          have e2 : l.countP (fun i => decide (ind i = 0)) = l.countP (fun i => decide (Function.update ind a 1 i = 0)) := by
            apply List.countP_congr
            intro i hi
            rw [hup i hi]
          rw [e1, e2, i3]
          omega
        · intro i hi j hj hi0 hi1 hj0 hj1
          rcases List.mem_cons.mp hj with rfl | hj'
          · rw [hra] at hj1; simp at hj1
          · rcases List.mem_cons.mp hi with rfl | hi'
            · exact hsa j hj'
            · exact i4 i hi' j hj' (by rw [hup i hi']; exact hi0) hi1 (by rw [hup j hj']; exact hj0) hj1
    · have hfl : fixLoop half (a :: l) ind k = fixLoop half l ind k := by
        simp only [fixLoop]; rw [if_neg h0, if_neg h0, if_neg (show ¬ half ≤ k by omega)]
      rw [hfl]
      obtain ⟨i1, i2, i3, i4⟩ := ih ind k hk hn' hs'
      refine ⟨?_, i2, ?_, ?_⟩
      · intro i hi
        apply i1
        rcases hi with hi | hi
        · exact .inl hi
        · right; exact fun h => hi (by simp [h])
      · rw [List.countP_cons_of_neg (by simp [h0]), List.countP_cons_of_neg (by simp [h0])]
        exact i3
      · intro i hi j hj hi0 hi1 hj0 hj1
        rcases List.mem_cons.mp hi with rfl | hi
        · exact absurd hi0 h0
        rcases List.mem_cons.mp hj with rfl | hj
        · exact absurd hj0 h0
        exact i4 i hi j hj hi0 hi1 hj0 hj1

/-- **C157 (half of the weights).** At an iteration of `inq_iterations` that is not the last of the list, with "largest_abs" and at least
two learnable weights: exactly half of them, rounded down, are fixed, no learnable weight left is larger than one that has been fixed,
and the other indicators do not change. -/
theorem C157_half {n : ℕ} (C : Conf) (s : St n) (c : Choice n) (hc : s.cnt ∈ C.iters) (hl : C.iters.getLast? ≠ some s.cnt) (ha : C.largest = true)
    (ho : Sorted (restore s) c.order) (h2 : 2 ≤ learnable s.ind) :
    (List.finRange n).countP (fun i => decide (s.ind i = 0 ∧ (forward C s c).ind i = 1)) = learnable s.ind / 2 ∧
    (∀ i j, s.ind i = 0 → (forward C s c).ind i = 1 → (forward C s c).ind j = 0 → |restore s j| ≤ |restore s i|) ∧
    ∀ i, s.ind i ≠ 0 → (forward C s c).ind i = s.ind i := by
  have hsel : (forward C s c).ind = fixLoop (learnable s.ind / 2) c.order s.ind 0 := by
    simp only [forward, select]
    rw [if_pos hc, if_neg hl, if_pos ha]
  rw [hsel]
  obtain ⟨hp, hsorted⟩ := ho
  have hn : c.order.Nodup := hp.nodup_iff.mpr (List.nodup_finRange n)
  obtain ⟨i1, i2, i3, i4⟩ := fixLoop_spec (restore s) (learnable s.ind / 2) c.order s.ind 0 (by omega) hn hsorted
  have hmem : ∀ i, i ∈ c.order := fun i => hp.mem_iff.mpr (by simp)
  have hval : ∀ i, s.ind i = 0 → (fixLoop (learnable s.ind / 2) c.order s.ind 0 i ≠ 0 ↔ fixLoop (learnable s.ind / 2) c.order s.ind 0 i = 1) := by
    intro i hi
    constructor
    · intro h; exact i2 i (by rw [hi]; exact h)
    · intro h; rw [h]; simp
  refine ⟨?_, ?_, fun i hi => i1 i (.inl hi)⟩
  · rw [← hp.countP_eq]
    have e : c.order.countP (fun i => decide (s.ind i = 0 ∧ fixLoop (learnable s.ind / 2) c.order s.ind 0 i = 1)) =
        c.order.countP (fun i => decide (s.ind i = 0 ∧ fixLoop (learnable s.ind / 2) c.order s.ind 0 i ≠ 0)) := by
      apply List.countP_congr
      intro i _
      simp only [decide_eq_true_eq]
      constructor
      · rintro ⟨a, b⟩; exact ⟨a, (hval i a).mpr b⟩
      · rintro ⟨a, b⟩; exact ⟨a, (hval i a).mp b⟩
    rw [e, i3, hp.countP_eq]
    show min (learnable s.ind / 2 - 0) (learnable s.ind) = _
    omega
  · intro i j hi0 hi1 hj
    have hj0 : s.ind j = 0 := by
      by_contra h
      rw [i1 j (.inl h)] at hj
      exact h hj
    exact i4 i (hmem i) j (hmem j) hi0 ((hval i hi0).mpr hi1) hj0 hj

/-- **C157 (all).** At the last iteration of the list all weights are fixed. -/
theorem C157_all {n : ℕ} (C : Conf) (s : St n) (c : Choice n) (hl : C.iters.getLast? = some s.cnt) (i : Fin n) : (forward C s c).ind i = 1 := by
  simp only [forward, select]
  rw [if_pos (List.mem_of_getLast? hl), if_pos hl]

theorem fixLoop_mono {n : ℕ} (half : ℕ) (l : List (Fin n)) (ind : Fin n → ℕ) (k : ℕ) (i : Fin n) (hi : ind i = 1) : fixLoop half l ind k i = 1 := by
  induction l generalizing ind k with
  | nil => exact hi
  | cons a l ih =>
    simp only [fixLoop]
    have : (if ind a = 0 then Function.update ind a 1 else ind) i = 1 := by
      split
      · by_cases e : i = a
        · subst e; simp
        · rw [Function.update_of_ne e]; exact hi
      · exact hi
    by_cases hk : half ≤ (if ind a = 0 then k + 1 else k)
    · rw [if_pos hk]; exact this
    · rw [if_neg hk]; exact ih _ _ this

/-- **C157 (once fixed, fixed).** -/
theorem C157_stays {n : ℕ} (C : Conf) (s : St n) (c : Choice n) (i : Fin n) (hi : s.ind i = 1) : (forward C s c).ind i = 1 := by
  simp only [forward, select]
  split
  · split
    · rfl
    · split
      · exact fixLoop_mono _ _ _ _ _ hi
      · simp [hi]
  · exact hi

/-! ## Histories -/

/-- Between two calls the members agree with the variables, up to what the solver does. -/
structure Good {n : ℕ} (C : Conf) (s : St n) (n1 : ℤ) : Prop where
  ind : s.oldI = s.ind
  code : ∀ i, s.oldI i = 1 → Codebook n1 (n1 + 1 - 2 ^ (C.bits - 2)) (s.oldW i)

theorem forward_good {n : ℕ} (C : Conf) (hb : 2 ≤ C.bits) (s : St n) (c : Choice n) : Good C (forward C s c) (expMax (restore s)) := by
  refine ⟨rfl, ?_⟩
  intro i hi
  have he : expMin C.bits (restore s) = expMax (restore s) + 1 - 2 ^ (C.bits - 2) := by unfold expMin; rw [if_pos hb]
  simp only [forward] at hi ⊢
  rw [if_pos hi, ← he]
  exact quant_codebook (expMin_le _ hb _) _

theorem quant_fix {n : ℕ} {C : Conf} (hb : 2 ≤ C.bits) {s : St n} {n1 : ℤ} (h : Good C s n1) (i : Fin n) (hi : s.oldI i = 1)
    (hle : expMax (restore s) ≤ n1) : quant (expMax (restore s)) (expMin C.bits (restore s)) (s.oldW i) = s.oldW i := by
  have hr : restore s i = s.oldW i := by unfold restore; rw [if_pos hi]
  have he : expMin C.bits (restore s) = expMax (restore s) + 1 - 2 ^ (C.bits - 2) := by unfold expMin; rw [if_pos hb]
  rcases h.code i hi with h0 | ⟨e, e1, e2, h0⟩
  · rw [h0, quant_zero]
  · have hm := (maxAbs_spec (restore s)).2.1 i
    have hab : |restore s i| = (2 : ℝ) ^ e := by
      rw [hr]
      rcases h0 with h0 | h0 <;> rw [h0]
      · exact abs_of_pos (zpow_pos2 e)
      · rw [abs_neg]; exact abs_of_pos (zpow_pos2 e)
    rw [hab] at hm
    have h3 : e ≤ expMax (restore s) := by
      have := roundExp_mono (zpow_pos2 e) hm
      rwa [roundExp_pow] at this
    have h4 : expMin C.bits (restore s) ≤ e := by rw [he]; omega
    rcases h0 with h0 | h0 <;> rw [h0]
    · exact (quant_pow h4 h3).1
    · exact (quant_pow h4 h3).2

/-- The full claim: a weight that has been fixed never changes again, whatever the solver does to the variable. -/
def FixedForever : Prop := ∀ (n : ℕ) (C : Conf), 2 ≤ C.bits → ∀ (w0 : Fin n → ℝ) (ind : Fin n → ℕ) (old : Fin n → ℝ)
  (h : List ((Fin n → ℝ) × Choice n)) (w : Fin n → ℝ) (c : Choice n), h ≠ [] → ∀ i, (run C (setup w0 ind old) h).ind i = 1 →
  (forward C (update (run C (setup w0 ind old) h) w) c).w i = (run C (setup w0 ind old) h).w i

theorem run_append {n : ℕ} (C : Conf) (s : St n) (h : List ((Fin n → ℝ) × Choice n)) (x : (Fin n → ℝ) × Choice n) :
    run C s (h ++ [x]) = forward C (update (run C s h) x.1) x.2 := by
  induction h generalizing s with
  | nil => rfl
  | cons y h ih => exact ih _

/-- **C157 (fixed weights, part).** A fixed weight keeps its value over a forward in every history, as long as the nearest power of two of
the largest weight has not become larger than at the forward before. Missing: the case in which it has, see
`C157_fixed_refuted`. -/
theorem C157_fixed_partial {n : ℕ} (C : Conf) (hb : 2 ≤ C.bits) (s : St n) (w1 w2 : Fin n → ℝ) (c1 c2 : Choice n) (i : Fin n)
    (hi : (forward C (update s w1) c1).ind i = 1)
    (hm : ∀ k : ℤ, (∃ j, 3 / 4 * (2 : ℝ) ^ k ≤ |restore (update (forward C (update s w1) c1) w2) j|) → ∃ j, 3 / 4 * (2 : ℝ) ^ k ≤ |restore (update s w1) j|) :
    (forward C (update (forward C (update s w1) c1) w2) c2).w i = (forward C (update s w1) c1).w i := by
  set t := update (forward C (update s w1) c1) w2 with ht
  have hg := forward_good C hb (update s w1) c1
  have hg' : Good C t (expMax (restore (update s w1))) := ⟨hg.ind, hg.code⟩
  have hti : t.oldI i = 1 := hi
  have hstay : (forward C t c2).ind i = 1 := C157_stays C t c2 i hi
  have hr : restore t i = t.oldW i := by unfold restore; rw [if_pos hti]
  simp only [forward] at hstay
  show (forward C t c2).w i = t.oldW i
  simp only [forward]
  rw [if_pos hstay, hr]
  obtain ⟨p1, p2, p3⟩ := maxAbs_spec (restore t)
  rcases p3 with p3 | ⟨j, p3⟩
  · have : t.oldW i = 0 := by rw [← hr]; exact p3 i
    rw [this, quant_zero]
  · apply quant_fix hb hg' i hti
    obtain ⟨r1, -⟩ := roundExp_spec p1
    rw [zpow_pred] at r1
    obtain ⟨j', hj'⟩ := hm (expMax (restore t)) ⟨j, by rw [← p3]; unfold expMax; linarith⟩
    obtain ⟨q1, q2, -⟩ := maxAbs_spec (restore (update s w1))
    have hq : 3 / 4 * (2 : ℝ) ^ expMax (restore t) ≤ maxAbs (restore (update s w1)) := le_trans hj' (q2 j')
    by_contra hlt
    push Not at hlt
    have := zpow_le (show expMax (restore (update s w1)) ≤ expMax (restore t) - 1 by omega)
    rw [zpow_pred] at this
    have h5 := (roundExp_spec q1).2
    unfold expMax at this hq
    linarith

/-- **C157 (after the last iteration).** When all weights have been fixed, they never change again: in every history, whatever the solver
does, all later forwards use the same weights. -/
theorem C157_final {n : ℕ} (C : Conf) (hb : 2 ≤ C.bits) (s : St n) (w1 : Fin n → ℝ) (c1 : Choice n)
    (ha : ∀ i, (forward C (update s w1) c1).ind i = 1) (h : List ((Fin n → ℝ) × Choice n)) (i : Fin n) :
    (run C (forward C (update s w1) c1) h).oldW i = (forward C (update s w1) c1).w i ∧ (run C (forward C (update s w1) c1) h).ind i = 1 := by
  set t := forward C (update s w1) c1 with ht
  set m := expMax (restore (update s w1)) with hmdef
  have base : Good C t m := forward_good C hb (update s w1) c1
  have key : ∀ (h : List ((Fin n → ℝ) × Choice n)) (u : St n), (∀ i, u.oldW i = t.w i) → (∀ i, u.ind i = 1) → u.oldI = u.ind →
      (∀ i, (run C u h).oldW i = t.w i) ∧ ∀ i, (run C u h).ind i = 1 := by
    intro h
    induction h with
    | nil => intro u h1 h2 _; exact ⟨h1, h2⟩
    | cons x h ih =>
      intro u h1 h2 h3
      obtain ⟨w, c⟩ := x
      simp only [run]
      have hI : ∀ i, (update u w).oldI i = 1 := fun i => by show u.oldI i = 1; rw [h3]; exact h2 i
      have hr : restore (update u w) = t.w := by
        funext i
        unfold restore
        rw [if_pos (hI i)]
        exact h1 i
      have hst : ∀ i, (forward C (update u w) c).ind i = 1 := fun i => C157_stays C _ c i (h2 i)
      apply ih
      · intro i
        have hsi := hst i
        simp only [forward] at hsi
        show (forward C (update u w) c).w i = _
        simp only [forward]
        rw [if_pos hsi]
        have hgood : Good C (update u w) m := by
          refine ⟨h3, fun i _ => ?_⟩
          have h4 := base.code i (ha i)
          show Codebook _ _ (u.oldW i)
          rw [h1 i]
          exact h4
        have hri : restore (update u w) i = (update u w).oldW i := by unfold restore; rw [if_pos (hI i)]
        rw [hri]
        have hz : (update u w).oldW i = t.w i := h1 i
        obtain ⟨p1, p2, p3⟩ := maxAbs_spec (restore (update u w))
        rcases p3 with p3 | ⟨j, p3⟩
        · have h0 : (update u w).oldW i = 0 := by rw [← hri]; exact p3 i
          rw [h0, quant_zero, ← h0, hz]
        · rw [quant_fix hb hgood i (hI i), hz]
          have hj : restore (update u w) j = t.w j := by rw [hr]
          rcases base.code j (ha j) with e0 | ⟨e, -, e2, e0⟩
          · have e0 : t.w j = 0 := e0
            rw [hj, e0, abs_zero] at p3
            linarith
          · have hab : maxAbs (restore (update u w)) = (2 : ℝ) ^ e := by
              rw [p3, hj]
              have e0 : t.w j = (2 : ℝ) ^ e ∨ t.w j = -(2 : ℝ) ^ e := e0
              rcases e0 with e0 | e0 <;> rw [e0]
              · exact abs_of_pos (zpow_pos2 e)
              · rw [abs_neg]; exact abs_of_pos (zpow_pos2 e)
            unfold expMax
            rw [hab, roundExp_pow]
            exact e2
      · exact hst
      · rfl
  obtain ⟨k1, k2⟩ := key h t (fun _ => rfl) ha rfl
  exact ⟨k1 i, k2 i⟩

/-! ## Witnesses -/

theorem finRange2 : List.finRange 2 = [0, 1] := by decide

/-- "largest_abs", `num_bits = 2`, half of the weights at the first forward and all of them at the tenth. -/
def demoConf : Conf := ⟨2, [0, 9], true⟩

/-- Two weights, 1 and 1/2. -/
noncomputable def demoW : Fin 2 → ℝ := ![1, 1 / 2]

noncomputable def demo0 : St 2 := setup demoW (fun _ => 0) (fun _ => 0)

def demoChoice : Choice 2 := ⟨[0, 1], fun _ => false⟩

theorem demo_restore : restore (update demo0 demoW) = demoW := by
  funext i; simp [restore, update, demo0, setup]

theorem demo_max : maxAbs demoW = 1 := by
  simp [maxAbs, finRange2, demoW]
  norm_num

theorem demo_exp : expMax demoW = 0 ∧ expMin 2 demoW = 0 := by
  have h : expMax demoW = 0 := by
    unfold expMax
    rw [demo_max, show (1 : ℝ) = (2 : ℝ) ^ (0 : ℤ) by simp, roundExp_pow]
  exact ⟨h, by unfold expMin; rw [h]; norm_num⟩

theorem demo_learnable : learnable (fun _ : Fin 2 => 0) = 2 := by decide

theorem demo_ind : (forward demoConf (update demo0 demoW) demoChoice).ind = ![1, 0] := by
  funext i
  simp only [forward, select]
  rw [if_pos (by simp [demoConf, demo0, setup, update]), if_neg (by simp [demoConf, demo0, setup, update]), if_pos (by simp [demoConf])]
  simp only [demo0, setup, update, demo_learnable, demoChoice]
  fin_cases i <;> simp [fixLoop]

theorem demo_sorted : Sorted (restore (update demo0 demoW)) demoChoice.order := by
  rw [demo_restore]
  refine ⟨by rw [finRange2]; exact List.Perm.refl _, ?_⟩
  simp [demoChoice, demoW]
  norm_num

/-- The hypotheses of `C157_half` hold at the first forward, and one of two weights is fixed. -/
example : (update demo0 demoW).cnt ∈ demoConf.iters ∧ demoConf.iters.getLast? ≠ some (update demo0 demoW).cnt ∧ demoConf.largest = true ∧
    Sorted (restore (update demo0 demoW)) demoChoice.order ∧ 2 ≤ learnable (update demo0 demoW).ind :=
  ⟨by simp [demoConf, demo0, setup, update], by simp [demoConf, demo0, setup, update], rfl, demo_sorted, by
    show 2 ≤ learnable (fun _ : Fin 2 => 0); rw [demo_learnable]⟩

theorem demo_w : (forward demoConf (update demo0 demoW) demoChoice).w 0 = 1 := by
  have h1 : (forward demoConf (update demo0 demoW) demoChoice).ind 0 = 1 := by rw [demo_ind]; rfl
  simp only [forward] at h1 ⊢
  rw [if_pos h1, demo_restore]
  show quant (expMax demoW) (expMin 2 demoW) (demoW 0) = 1
  rw [demo_exp.1, demo_exp.2]
  have := (quant_pow (n1 := 0) (n2 := 0) (e := 0) (le_refl _) (le_refl _)).1
  simpa [demoW] using this

/-- The hypothesis of `C157_fixed_partial` holds when the solver does not let the largest weight grow. -/
example : (forward demoConf (update (forward demoConf (update demo0 demoW) demoChoice) ![7, 1 / 4]) demoChoice).w 0 = 1 := by
  rw [C157_fixed_partial demoConf (by decide) demo0 demoW ![7, 1 / 4] demoChoice demoChoice 0 (by rw [demo_ind]; rfl), demo_w]
  rintro k ⟨j, hj⟩
  refine ⟨0, le_trans hj ?_⟩
  rw [demo_restore]
  have h0 : restore (update (forward demoConf (update demo0 demoW) demoChoice) ![7, 1 / 4]) 0 = 1 := by
    unfold restore
    rw [if_pos (by show (forward demoConf (update demo0 demoW) demoChoice).ind 0 = 1; rw [demo_ind]; rfl)]
    exact demo_w
  have h1 : restore (update (forward demoConf (update demo0 demoW) demoChoice) ![7, 1 / 4]) 1 = 1 / 4 := by
    unfold restore
    rw [if_neg (by show ¬ (forward demoConf (update demo0 demoW) demoChoice).ind 1 = 1; rw [demo_ind]; simp)]
    rfl
  fin_cases j
  · simp only [Fin.zero_eta]; rw [h0]; simp [demoW]
  · simp only [Fin.mk_one]; rw [h1]; simp [demoW]; norm_num

/-- **C157 (refuted).** After the first forward the weight 1 is fixed. The solver lets the learnable weight grow to 4: the codebook moves
to 0 and ±4, and the fixed weight becomes 0. -/
theorem C157_fixed_refuted : ¬ FixedForever := by
  intro h
  have h2 := h 2 demoConf (by decide) demoW (fun _ => 0) (fun _ => 0) [(demoW, demoChoice)] ![1, 4] demoChoice (by simp) 0
    (by show (forward demoConf (update demo0 demoW) demoChoice).ind 0 = 1; rw [demo_ind]; rfl)
  have h3 : (run demoConf (setup demoW (fun _ => 0) (fun _ => 0)) [(demoW, demoChoice)]) = forward demoConf (update demo0 demoW) demoChoice := rfl
  rw [h3, demo_w] at h2
  set t := update (forward demoConf (update demo0 demoW) demoChoice) ![1, 4] with ht
  have h0 : restore t 0 = 1 := by
    unfold restore
    rw [if_pos (by show (forward demoConf (update demo0 demoW) demoChoice).ind 0 = 1; rw [demo_ind]; rfl)]
    exact demo_w
  have h1 : restore t 1 = 4 := by
    unfold restore
    rw [if_neg (by show ¬ (forward demoConf (update demo0 demoW) demoChoice).ind 1 = 1; rw [demo_ind]; simp)]
    rfl
  have hm : maxAbs (restore t) = 4 := by
    simp [maxAbs, finRange2, h0, h1]
  have he : expMax (restore t) = 2 := by
    unfold expMax
    rw [hm, show (4 : ℝ) = (2 : ℝ) ^ (2 : ℤ) by norm_num, roundExp_pow]
  have he2 : expMin demoConf.bits (restore t) = 2 := by unfold expMin; rw [he]; simp [demoConf]
  have hi : (forward demoConf t demoChoice).ind 0 = 1 := C157_stays _ _ _ _ (by show (forward demoConf (update demo0 demoW) demoChoice).ind 0 = 1; rw [demo_ind]; rfl)
  simp only [forward] at hi h2
  rw [if_pos hi, h0, he, he2] at h2
  unfold quant at h2
  rw [if_pos (by norm_num)] at h2
  norm_num at h2

/-- The hypothesis of `C157_final`: at the tenth forward all weights are fixed. -/
example : ∀ i, (forward demoConf (update { demo0 with cnt := 9 } demoW) demoChoice).ind i = 1 := fun i => C157_all _ _ _ rfl i

end Verif.Inq
