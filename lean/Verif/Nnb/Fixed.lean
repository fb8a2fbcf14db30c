import Mathlib.Data.Rat.Floor
import Mathlib.Data.Nat.Log
import Mathlib.Tactic.Linarith
import Mathlib.Tactic.Positivity
import Mathlib.Tactic.NormNum
/-
C42: fixed-point parameters of an NNB file (nnb.py:75-88 and :190-204, :226-233).
Simplifications: parameters are rational numbers; `np.log2` is exact.
-/
namespace Verif.Nnb.Fixed

/-- `np.round`: to nearest, ties to even. -/
def roundEven (x : ℚ) : ℤ :=
  let f := ⌊x⌋
  if x - f < 1 / 2 then f
  else if 1 / 2 < x - f then f + 1
  else if f % 2 = 0 then f else f + 1

/-- `abs_array.max()` (nnb.py:77-78). -/
def maxAbs (a : List ℚ) : ℚ := a.foldl (fun m x => max m |x|) 0

/-- `param_array[abs_array.argmax()]` (nnb.py:80,82): the first element of maximal magnitude. -/
def firstMax (a : List ℚ) : ℚ := (a.find? (fun x => |x| = maxAbs a)).getD 0

/-- `np.ceil(np.log2(q))` for `q ≥ 1`. -/
def ceilLog2 (q : ℚ) : ℕ := Nat.clog 2 ⌈q⌉₊

/-- `__compute_int_bit_num` (nnb.py:75-88). -/
def intBitNum (a : List ℚ) : ℕ :=
  if 1 ≤ maxAbs a then
    if maxAbs a = 2 ^ ceilLog2 (maxAbs a) ∧ 0 < firstMax a then ceilLog2 (maxAbs a) + 2
    else ceilLog2 (maxAbs a) + 1
  else 1

/-- nnb.py:199-204: `np.clip(np.round(array * scale), -2^(bits-1), 2^(bits-1) - 1)`, `scale = 1 << fp_pos`;
`bits` is 16 for FIXED16 and 8 for FIXED8. -/
def quantize (bits fp : ℕ) (x : ℚ) : ℤ :=
  max (-(2 ^ (bits - 1))) (min (roundEven (x * 2 ^ fp)) (2 ^ (bits - 1) - 1))

/-- The whole conversion without a given fp_pos (nnb.py:193-204); `none` if the shift count is
negative (Python raises). -/
def toFixed (bits : ℕ) (a : List ℚ) : Option (ℕ × List ℤ) :=
  if intBitNum a ≤ bits then
    some (bits - intBitNum a, a.map (quantize bits (bits - intBitNum a)))
  else none

/-- The range check on fp_pos (nnb.py:228): `0 <= fp_pos or fp_pos <= max`. -/
def fpAccepted (fp fpMax : ℤ) : Bool := decide (0 ≤ fp) || decide (fp ≤ fpMax)

/-- What is written into the variable record (nnb.py:238): `fp_pos & 0xf`. -/
def fpStored (fp : ℕ) : ℕ := fp % 16

theorem roundEven_err (x : ℚ) : |(roundEven x : ℚ) - x| ≤ 1 / 2 := by
  have h1 := Int.floor_le x
  have h2 := Int.lt_floor_add_one x
  simp only [roundEven]
  split
  · rw [abs_le]; constructor <;> linarith
  · split
    · push_cast; rw [abs_le]; constructor <;> linarith
    · split
      · rw [abs_le]; constructor <;> linarith
      · push_cast; rw [abs_le]; constructor <;> linarith

theorem foldl_max (a : List ℚ) (m : ℚ) :
    m ≤ a.foldl (fun m x => max m |x|) m ∧ ∀ x ∈ a, |x| ≤ a.foldl (fun m x => max m |x|) m := by
  induction a generalizing m with
  | nil => exact ⟨le_refl _, by simp⟩
  | cons y a ih =>
    obtain ⟨h1, h2⟩ := ih (max m |y|)
    refine ⟨le_trans (le_max_left _ _) h1, ?_⟩
    intro x hx
    rcases List.mem_cons.mp hx with rfl | hx
    · exact le_trans (le_max_right _ _) h1
    · exact h2 x hx

theorem le_maxAbs (a : List ℚ) (x : ℚ) (hx : x ∈ a) : |x| ≤ maxAbs a := (foldl_max a 0).2 x hx

theorem le_ceilLog2 (q : ℚ) : q ≤ 2 ^ ceilLog2 q := by
  have h1 : ⌈q⌉₊ ≤ 2 ^ Nat.clog 2 ⌈q⌉₊ := Nat.le_pow_clog (by omega) _
  have h2 : q ≤ (⌈q⌉₊ : ℚ) := Nat.le_ceil q
  have h3 : ((⌈q⌉₊ : ℕ) : ℚ) ≤ ((2 ^ Nat.clog 2 ⌈q⌉₊ : ℕ) : ℚ) := by exact_mod_cast h1
  rw [Nat.cast_pow] at h3
  simp only [Nat.cast_ofNat] at h3
  exact le_trans h2 h3

theorem intBitNum_spec (a : List ℚ) (x : ℚ) (hx : x ∈ a) : 1 ≤ intBitNum a ∧ |x| ≤ 2 ^ (intBitNum a - 1) := by
  have h := le_maxAbs a x hx
  have hc := le_ceilLog2 (maxAbs a)
  simp only [intBitNum]
  split
  · split
    · refine ⟨by omega, ?_⟩
      have : ceilLog2 (maxAbs a) + 2 - 1 = ceilLog2 (maxAbs a) + 1 := rfl
      rw [this, pow_succ]
      have : (0 : ℚ) ≤ 2 ^ ceilLog2 (maxAbs a) := by positivity
      linarith
    · refine ⟨by omega, ?_⟩
      rw [Nat.add_sub_cancel]
      linarith
  · refine ⟨le_refl _, ?_⟩
    simp only [Nat.sub_self, pow_zero]
    linarith

theorem quant_error (bits : ℕ) (hbits : 2 ≤ bits) (a : List ℚ) (fp : ℕ) (qs : List ℤ)
    (h : toFixed bits a = some (fp, qs)) (i : ℕ) (x : ℚ) (q : ℤ) (hx : a[i]? = some x) (hq : qs[i]? = some q) :
    -(2 : ℤ) ^ (bits - 1) ≤ q ∧ q ≤ 2 ^ (bits - 1) - 1 ∧ |(q : ℚ) / 2 ^ fp - x| ≤ 1 / 2 ^ fp := by
  simp only [toFixed] at h
  split at h
  · rename_i hb
    injection h with h
    injection h with h1 h2
    have hmem := List.mem_of_getElem? hx
    obtain ⟨s1, s2⟩ := intBitNum_spec a x hmem
    rw [← h2, List.getElem?_map, hx] at hq
    simp only [Option.map_some] at hq
    injection hq with hq
    rw [h1] at hq
    -- |x * 2^fp| ≤ 2^(bits-1)
    have hp : (0 : ℚ) < 2 ^ fp := by positivity
    have hbound : |x * 2 ^ fp| ≤ 2 ^ (bits - 1) := by
      rw [abs_mul, abs_of_pos hp]
      have : (2 : ℚ) ^ (bits - 1) = 2 ^ (intBitNum a - 1) * 2 ^ fp := by
        rw [← pow_add]; congr 1; omega
      rw [this]
      exact mul_le_mul_of_nonneg_right s2 (le_of_lt hp)
    have herr := roundEven_err (x * 2 ^ fp)
    have hP : (1 : ℤ) ≤ 2 ^ (bits - 1) := by
      have : (0 : ℤ) < 2 ^ (bits - 1) := by positivity
      omega
    rw [abs_le] at hbound herr
    -- integers
    have hcast : ((2 : ℤ) ^ (bits - 1) : ℤ) = ((2 : ℤ) ^ (bits - 1)) := rfl
    have hr1 : roundEven (x * 2 ^ fp) ≤ 2 ^ (bits - 1) := by
      have : (roundEven (x * 2 ^ fp) : ℚ) < ((2 ^ (bits - 1) + 1 : ℤ) : ℚ) := by
        push_cast; linarith [herr.2, hbound.2]
      have := Int.cast_lt.mp this
      omega
    have hr2 : -(2 ^ (bits - 1)) ≤ roundEven (x * 2 ^ fp) := by
      have : ((-(2 ^ (bits - 1)) - 1 : ℤ) : ℚ) < (roundEven (x * 2 ^ fp) : ℚ) := by
        push_cast; linarith [herr.1, hbound.1]
      have := Int.cast_lt.mp this
      omega
    have hqv : q = min (roundEven (x * 2 ^ fp)) (2 ^ (bits - 1) - 1) := by
      rw [← hq, quantize]
      apply max_eq_right
      apply le_min hr2
      omega
    have hfin : |(q : ℚ) - x * 2 ^ fp| ≤ 1 := by
      rw [hqv]
      by_cases hc : roundEven (x * 2 ^ fp) ≤ 2 ^ (bits - 1) - 1
      · rw [min_eq_left hc, abs_le]
        constructor <;> linarith [herr.1, herr.2]
      · have : roundEven (x * 2 ^ fp) = 2 ^ (bits - 1) := by omega
        rw [min_eq_right (by omega)]
        rw [this] at herr
        push_cast at herr ⊢
        rw [abs_le]
        constructor <;> linarith [herr.1, herr.2, hbound.2]
    refine ⟨by rw [← hq]; exact le_max_left _ _, ?_, ?_⟩
    · rw [hqv]; exact min_le_right _ _
    · have : (q : ℚ) / 2 ^ fp - x = ((q : ℚ) - x * 2 ^ fp) / 2 ^ fp := by
        rw [sub_div, mul_div_cancel_right₀ _ (ne_of_gt hp)]
      rw [this, abs_div, abs_of_pos hp]
      exact div_le_div_of_nonneg_right hfin (le_of_lt hp)
  · cases h

/-- **C42.** Without a given position, fixed-point conversion of a parameter array chooses a position `fp` such
that every stored integer fits the type and, read as `stored / 2^fp`, differs from the parameter by at
most one unit in the last place. -/
theorem C42_quantization (bits : ℕ) (hbits : 2 ≤ bits) (a : List ℚ) (fp : ℕ) (qs : List ℤ)
    (h : toFixed bits a = some (fp, qs)) :
    qs.length = a.length ∧ ∀ (i : ℕ) (x : ℚ) (q : ℤ), a[i]? = some x → qs[i]? = some q →
      -(2 : ℤ) ^ (bits - 1) ≤ q ∧ q ≤ 2 ^ (bits - 1) - 1 ∧ |(q : ℚ) / 2 ^ fp - x| ≤ 1 / 2 ^ fp := by
  refine ⟨?_, fun i x q => quant_error bits hbits a fp qs h i x q⟩
  simp only [toFixed] at h
  split at h
  · injection h with h
    injection h with _ h2
    rw [← h2, List.length_map]
  · cases h

theorem foldl_max_mem (a : List ℚ) (m : ℚ) :
    a.foldl (fun m x => max m |x|) m = m ∨ ∃ x ∈ a, |x| = a.foldl (fun m x => max m |x|) m := by
  induction a generalizing m with
  | nil => left; rfl
  | cons y a ih =>
    rw [List.foldl_cons]
    rcases ih (max m |y|) with h | ⟨x, hx, h⟩
    · rcases max_choice m |y| with e | e
      · left; rw [h, e]
      · right; exact ⟨y, List.mem_cons_self, by rw [h, e]⟩
    · right; exact ⟨x, List.mem_cons_of_mem _ hx, h⟩

/-- **C42 (no bit wasted).** The position is the largest possible: with one integer bit less (one fractional bit more) some
parameter would be outside the range `[-2^(bits-1), 2^(bits-1))` of the type. -/
theorem C42_finest (bits : ℕ) (a : List ℚ) (fp : ℕ) (qs : List ℤ) (h : toFixed bits a = some (fp, qs)) (hfp : fp + 1 < bits) :
    ∃ x ∈ a, x * 2 ^ (fp + 1) < -(2 ^ (bits - 1)) ∨ (2 : ℚ) ^ (bits - 1) ≤ x * 2 ^ (fp + 1) := by
  simp only [toFixed] at h
  split at h
  · rename_i hb
    injection h with h
    injection h with h1 _
    obtain ⟨c, hc⟩ : ∃ c, intBitNum a = c + 2 := ⟨intBitNum a - 2, by omega⟩
    have hb1 : bits - 1 = c + (fp + 1) := by omega
    have key : ∃ x ∈ a, x < -(2 ^ c) ∨ (2 : ℚ) ^ c ≤ x := by
      unfold intBitNum at hc
      by_cases hm : 1 ≤ maxAbs a
      · rw [if_pos hm] at hc
        by_cases hp : maxAbs a = 2 ^ ceilLog2 (maxAbs a) ∧ 0 < firstMax a
        · rw [if_pos hp] at hc
          have e : ceilLog2 (maxAbs a) = c := by omega
          unfold firstMax at hp
          cases hf : a.find? (fun x => decide (|x| = maxAbs a)) with
          | none => rw [hf] at hp; simp at hp
          | some x =>
            rw [hf] at hp
            have hx := List.find?_some hf
            simp only [decide_eq_true_eq] at hx
            simp only [Option.getD_some] at hp
            refine ⟨x, List.mem_of_find?_eq_some hf, Or.inr ?_⟩
            rw [← e, ← hp.1, ← hx, abs_of_pos hp.2]
        · rw [if_neg hp] at hc
          have e : ceilLog2 (maxAbs a) = c + 1 := by omega
          have hlt : (2 : ℚ) ^ c < maxAbs a := by
            by_contra hcon
            push Not at hcon
            have h2 : ⌈maxAbs a⌉₊ ≤ 2 ^ c := by
              apply Nat.ceil_le.mpr
              push_cast
              exact hcon
            have := Nat.clog_mono_right 2 h2
            rw [Nat.clog_pow 2 c (by omega)] at this
            unfold ceilLog2 at e
            omega
          rcases foldl_max_mem a 0 with h0 | ⟨x, hx, h0⟩
          · exfalso
            have : maxAbs a = 0 := h0
            rw [this] at hm
            norm_num at hm
          · have h0 : |x| = maxAbs a := h0
            refine ⟨x, hx, ?_⟩
            rw [← h0] at hlt
            rcases lt_abs.mp hlt with h | h
            · right; exact le_of_lt h
            · left; linarith
      · rw [if_neg hm] at hc; omega
    obtain ⟨x, hx, hk⟩ := key
    have hpos : (0 : ℚ) < 2 ^ (fp + 1) := by positivity
    refine ⟨x, hx, ?_⟩
    rw [hb1, pow_add 2 c (fp + 1)]
    rcases hk with hk | hk
    · left
      rw [← neg_mul]
      exact mul_lt_mul_of_pos_right hk hpos
    · right
      exact mul_le_mul_of_nonneg_right hk (le_of_lt hpos)
  · cases h

/-- Conversion succeeds whenever all parameters are below 1 in magnitude. -/
example (a : List ℚ) (h : ∀ x ∈ a, |x| < 1) : ∃ qs, toFixed 8 a = some (7, qs) := by
  have hm : ¬ 1 ≤ maxAbs a := by
    have : ∀ (a : List ℚ) (m : ℚ), m < 1 → (∀ x ∈ a, |x| < 1) → a.foldl (fun m x => max m |x|) m < 1 := by
      intro a
      induction a with
      | nil => intro m hm _; exact hm
      | cons y a ih =>
        intro m hm ha
        exact ih _ (max_lt hm (ha y List.mem_cons_self)) (fun x hx => ha x (List.mem_cons_of_mem _ hx))
    exact not_le.mpr (this a 0 (by norm_num) h)
  have : intBitNum a = 1 := by simp [intBitNum, hm]
  exact ⟨a.map (quantize 8 7), by simp [toFixed, this]⟩

/-- The bound of one unit is attained by clipping: `1` preceded by `-1` is stored as 127/128. -/
theorem C42_clipped : quantize 8 7 1 = 127 := by
  have : roundEven (1 * 2 ^ 7) = 128 := by
    simp only [roundEven]
    norm_num
  simp only [quantize, this]
  norm_num

/-- **C42, refutation of the range check.** Every fp_pos passes the check (the condition uses `or`); a
position of 20 is recorded as 4, so that the stored integers are read with the wrong scale. -/
theorem C42_refuted_fp_check : (∀ fp fpMax : ℤ, 0 ≤ fpMax → fpAccepted fp fpMax = true) ∧ fpStored 20 = 4 := by
  refine ⟨?_, rfl⟩
  intro fp m hm
  simp only [fpAccepted, Bool.or_eq_true, decide_eq_true_eq]
  omega

/-- **C42 (when it works).** The conversion fails exactly if the array does not fit in `bits` bits: its largest magnitude is more than
`2^(bits-1)`, or is that number and (first) taken by a positive element. -/
theorem C42_fits (bits : ℕ) (hb : 1 ≤ bits) (a : List ℚ) :
    (toFixed bits a).isSome = true ↔ maxAbs a < 2 ^ (bits - 1) ∨ (maxAbs a = 2 ^ (bits - 1) ∧ firstMax a ≤ 0) := by
  have hs : (toFixed bits a).isSome = true ↔ intBitNum a ≤ bits := by
    unfold toFixed; split <;> simp_all
  rw [hs]
  have hc : ∀ n, ceilLog2 (maxAbs a) ≤ n ↔ maxAbs a ≤ 2 ^ n := by
    intro n
    unfold ceilLog2
    rw [Nat.clog_le_iff_le_pow (by norm_num), Nat.ceil_le]
    norm_num
  unfold intBitNum
  by_cases h1 : 1 ≤ maxAbs a
  · rw [if_pos h1]
    by_cases h2 : maxAbs a = 2 ^ ceilLog2 (maxAbs a) ∧ 0 < firstMax a
    · rw [if_pos h2]
      have : ceilLog2 (maxAbs a) + 2 ≤ bits ↔ ceilLog2 (maxAbs a) < bits - 1 := by omega
      rw [this, ← pow_lt_pow_iff_right₀ (a := (2 : ℚ)) (by norm_num), ← h2.1]
      constructor
      · exact .inl
      · rintro (h | h)
        · exact h
        · exact absurd h2.2 (not_lt.2 h.2)
    · rw [if_neg h2]
      have : ceilLog2 (maxAbs a) + 1 ≤ bits ↔ ceilLog2 (maxAbs a) ≤ bits - 1 := by omega
      rw [this, hc]
      constructor
      · intro h
        rcases h.lt_or_eq with h | h
        · exact .inl h
        · refine .inr ⟨h, not_lt.1 fun hp => h2 ⟨?_, hp⟩⟩
          have e : ceilLog2 (maxAbs a) = bits - 1 := by
            refine le_antisymm ((hc _).2 h.le) ?_
            by_contra hlt
            rw [not_le] at hlt
            have h3 := (hc _).1 (le_refl (ceilLog2 (maxAbs a)))
            have h4 : (2 : ℚ) ^ ceilLog2 (maxAbs a) < 2 ^ (bits - 1) := pow_lt_pow_right₀ (by norm_num) hlt
            rw [← h] at h4
            exact absurd h3 (not_le.2 h4)
          rw [e]; exact h
      · rintro (h | h)
        · exact h.le
        · exact h.1.le
  · rw [if_neg h1]
    rw [not_le] at h1
    have : (1 : ℚ) ≤ 2 ^ (bits - 1) := one_le_pow₀ (by norm_num)
    exact ⟨fun _ => .inl (lt_of_lt_of_le h1 this), fun _ => hb⟩

end Verif.Nnb.Fixed
