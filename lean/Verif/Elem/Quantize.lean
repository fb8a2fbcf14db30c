import Verif.Elem.TopK
import Mathlib.Analysis.SpecialFunctions.Log.Base
/-
Quantization functions over the real numbers: models /repo/src/nbla/function/generic/fixed_point_quantize.cpp, pow2_quantize.cpp,
quantize_linear.cpp, dequantize_linear.cpp, min_max_quantize.cpp and prune.cpp.
Simplifications: exact reals, no NaN or infinity; int(...) conversions of values that do not fit an int (undefined behaviour) are exact here.
-/
namespace Verif.Elem
open Verif.Fn Verif.ND

/-! ### Rounding -/

/-- std::round: to the nearest integer, halves away from zero. -/
noncomputable def cround (x : ℝ) : ℝ := if x < 0 then -(⌊-x + 1 / 2⌋ : ℝ) else (⌊x + 1 / 2⌋ : ℝ)

theorem cround_int (x : ℝ) : ∃ k : ℤ, cround x = k := by
  unfold cround
  split
  · exact ⟨-⌊-x + 1 / 2⌋, by push_cast; rfl⟩
  · exact ⟨_, rfl⟩

theorem cround_dist (x : ℝ) : |cround x - x| ≤ 1 / 2 := by
  unfold cround
  split
  · have h1 := Int.floor_le (-x + 1 / 2)
    have h2 := Int.lt_floor_add_one (-x + 1 / 2)
    rw [abs_le]; constructor <;> linarith
  · have h1 := Int.floor_le (x + 1 / 2)
    have h2 := Int.lt_floor_add_one (x + 1 / 2)
    rw [abs_le]; constructor <;> linarith

/-- The result is a nearest integer. -/
theorem cround_nearest (x : ℝ) (k : ℤ) : |cround x - x| ≤ |(k : ℝ) - x| := by
  obtain ⟨m, hm⟩ := cround_int x
  by_cases h : |(k : ℝ) - x| < 1 / 2
  · have hd := cround_dist x
    rw [hm] at hd ⊢
    have : |(m : ℝ) - k| < 1 := by
      have := abs_sub_le (m : ℝ) x k
      rw [abs_sub_comm x (k : ℝ)] at this
      linarith
    have : m = k := by
      have h' : |m - k| < 1 := by exact_mod_cast this
      rw [abs_lt] at h'
      omega
    rw [this]
  · exact le_trans (cround_dist x) (not_lt.mp h)

theorem cround_intCast (k : ℤ) : cround k = k := by
  have := cround_nearest k k
  simp only [sub_self, abs_zero, abs_nonpos_iff] at this
  linarith

/-- Rounding respects integer bounds. -/
theorem cround_le {x : ℝ} {k : ℤ} (h : x ≤ k) : cround x ≤ k := by
  obtain ⟨m, hm⟩ := cround_int x
  have h1 := (abs_le.mp (cround_dist x)).2
  rw [hm] at h1 ⊢
  have : (m : ℝ) < k + 1 := by linarith
  have : m < k + 1 := by exact_mod_cast this
  exact_mod_cast (by omega : m ≤ k)

theorem le_cround {x : ℝ} {k : ℤ} (h : (k : ℝ) ≤ x) : (k : ℝ) ≤ cround x := by
  obtain ⟨m, hm⟩ := cround_int x
  have h1 := (abs_le.mp (cround_dist x)).1
  rw [hm] at h1 ⊢
  have : (k : ℝ) - 1 < m := by linarith
  have : k - 1 < m := by exact_mod_cast this
  exact_mod_cast (by omega : k ≤ m)

/-! ### fixed_point_quantize: model -/

/-- FixedPointQuantize::setup_impl (fixed_point_quantize.cpp:28-44): number of bits without the sign, upper and lower bound. -/
noncomputable def fpqSetup (sign : Bool) (n : Int) (delta : ℝ) : Except String (Nat × ℝ × ℝ) :=
  open Classical in
  if ¬ (n > 0 ∧ delta > 0) then .error "Both bit width and delta should be positive."
  else
    let n' := if sign then n - 1 else n
    let max := ((2 : ℝ) ^ n'.toNat - 1) * delta
    if ¬ n' > 0 then .error "bit width should be positive when considering sign (1bit)."
    else .ok (n'.toNat, max, if sign then -max else 0)

/-- The loop body of FixedPointQuantize::forward_impl (fixed_point_quantize.cpp:54-67). -/
noncomputable def fpqElem (max min delta x : ℝ) : ℝ :=
  if x > max then max
  else if x < min then min
  else
    let y := (⌊|x| / delta + 1 / 2⌋ : ℝ) * delta
    if x < 0 then -y else y

/-- FixedPointQuantize::forward_impl (fixed_point_quantize.cpp:46-68). -/
noncomputable def fpqForward (max min delta : ℝ) (size : Nat) (x y : Mem ℝ) : Mem ℝ := unaryForward (fpqElem max min delta) size x y

/-- FixedPointQuantize::backward_impl (fixed_point_quantize.cpp:70-132). -/
noncomputable def fpqBackward (fine : Bool) (max min : ℝ) (size : Nat) (x : Mem ℝ) (accum : Bool) (dy dx : Mem ℝ) : Mem ℝ :=
  (List.range size).foldl (fun d s =>
    if fine && (decide (x s > max) || decide (x s < min)) then (if accum then d else put d s 0)
    else put d s (if accum then d s + dy s else dy s)) dx

/-! ### pow2_quantize: model -/

/-- Pow2Quantize::setup_impl (pow2_quantize.cpp:28-49): the exponents of p_max and p_min. -/
def pow2Setup (sign withZero : Bool) (n m : Int) : Except String (Int × Int) :=
  if ¬ n > 0 then .error "bit width should be positive."
  else
    let n' := if sign then n - 1 else n
    let n' := if withZero then n' - 1 else n'
    if ¬ n' > 0 then .error "bit width should be positive when considering zero (1bit) and sign (1bit)."
    else .ok (m, m - (2 ^ n'.toNat - 1))

/-- 2 ^ round(log2 |x|); log2(0) is minus infinity and its power 0 (pow2_quantize.cpp:65-66). -/
noncomputable def pow2Round (a : ℝ) : ℝ := if a = 0 then 0 else (2 : ℝ) ^ cround (Real.logb 2 a)

/-- The loop body of Pow2Quantize::forward_impl (pow2_quantize.cpp:63-87); eMax, eMin are the exponents of p_max_ and p_min_. -/
noncomputable def pow2Elem (sign withZero : Bool) (eMax eMin : Int) (x : ℝ) : ℝ :=
  let pMax := (2 : ℝ) ^ (eMax : ℝ)
  let pMin := (2 : ℝ) ^ (eMin : ℝ)
  let threshold := pMin * (2 : ℝ) ^ (-(1 / 2) : ℝ)
  let a := |x|
  let q := pow2Round a
  let q := if q > pMax then pMax
    else if q < pMin ∧ withZero = true then (if a < threshold then 0 else pMin)
    else if q < pMin then pMin else q
  if sign then (if x < 0 then -q else q)
  else if withZero then (if x < 0 then 0 else q)
  else (if x < 0 then pMin else q)

/-! ### quantize_linear, dequantize_linear: model -/

/-- QuantizeLinear::setup_impl (quantize_linear.cpp:28-65), for both functions' shape checks (dequantize_linear.cpp:28-51). -/
def qlShapeOk (s0 s1 s2 : Shape) : Bool :=
  decide (s0.length = s1.length) && decide (s0.length = s2.length) &&
    (s0.zip s1).all (fun p => p.2 == 1 || p.2 == p.1) && (s0.zip s2).all (fun p => p.2 == 1 || p.2 == p.1)

/-- The 8-bit type: BYTE or UBYTE. For any other dtype the code leaves the range uninitialised; not modelled. -/
inductive QType where
  | byte
  | ubyte
deriving DecidableEq

/-- min_range_, max_range_ (quantize_linear.cpp:58-64). -/
def qlRange (t : QType) (narrow : Bool) : Int × Int :=
  match t with
  | .byte => (if narrow then -127 else -128, 127)
  | .ubyte => (if narrow then 1 else 0, 255)

/-- The rounding mode: round (quantize_linear.cpp:81-98); any other string rounds nothing. -/
noncomputable def qlRound (mode : String) (x : ℝ) : ℝ :=
  if mode = "HALF_AWAY_FROM_ZERO" then cround x
  else if mode = "HALF_TO_EVEN" then
    let t := cround x
    open Classical in if |x - t| = 1 / 2 then cround (x * (1 / 2)) * 2 else t
  else x

/-- saturate (quantize_linear.cpp:68-79). -/
noncomputable def qlSat (lo hi : Int) (x : ℝ) : ℝ := if x < lo then lo else if x > hi then hi else x

/-- QuantizeLinear::forward_impl (quantize_linear.cpp:100-119): the output and the zero point, which is rounded and saturated in place. The in-place addition
reads and writes the same position in each step. -/
noncomputable def qlForward (mode : String) (lo hi : Int) (s0 s1 s2 : Shape) (x scale zp y : Mem ℝ) : Mem ℝ × Mem ℝ :=
  let n := prod s0
  let y := binaryForward (· / ·) s0 s1 n x scale y
  let y := unaryForward (qlRound mode) n y y
  let zp := unaryForward (qlRound mode) (prod s2) zp zp
  let zp := unaryForward (qlSat lo hi) (prod s2) zp zp
  let y := binaryForward (· + ·) s0 s2 n y zp y
  (unaryForward (qlSat lo hi) n y y, zp)

/-- DequantizeLinear::forward_impl (dequantize_linear.cpp:57-69). -/
noncomputable def dqForward (s0 s1 s2 : Shape) (x scale zp y : Mem ℝ) : Mem ℝ :=
  let n := prod s0
  let y := binaryForward (· - ·) s0 s2 n x zp y
  binaryForward (· * ·) s0 s1 n y scale y

/-- QuantizeLinear::backward_impl (quantize_linear.cpp:121-160): the gradient of x; those of the scale and the zero point are errors. -/
noncomputable def qlBackward (s0 s1 : Shape) (scale : Mem ℝ) (p1 p2 accum : Bool) (dy dx : Mem ℝ) : Except String (Mem ℝ) :=
  if p1 then .error "Backward w.r.t. the scale is not supported now."
  else if p2 then .error "Backward w.r.t. the zero point is not supported now."
  else .ok (
    if accum then
      let tmp := binaryForward (· / ·) s0 s1 (prod s0) dy scale zeros
      binaryForward (· + ·) s0 s0 (prod s0) dx tmp dx
    else binaryForward (· / ·) s0 s1 (prod s0) dy scale dx)

/-! ### fixed_point_quantize: properties -/

/-- **C95.** Setup succeeds exactly for a positive step and at least one bit besides the sign. -/
theorem C95_setup (sign : Bool) (n : Int) (delta : ℝ) (r : Nat × ℝ × ℝ) : fpqSetup sign n delta = .ok r ↔
    0 < delta ∧ ∃ b : Nat, 0 < b ∧ n = b + (if sign then 1 else 0) ∧
      r = (b, (2 ^ b - 1) * delta, if sign then -((2 ^ b - 1) * delta) else 0) := by
  unfold fpqSetup
  constructor
  · intro h
    by_cases h1 : n > 0 ∧ delta > 0
    · rw [if_neg (not_not.mpr h1)] at h
      dsimp only at h
      by_cases h2 : (if sign then n - 1 else n) > 0
      · rw [if_neg (not_not.mpr h2)] at h
        refine ⟨h1.2, (if sign then n - 1 else n).toNat, by omega, ?_, (Except.ok.inj h).symm⟩
        cases sign <;> simp at h2 ⊢ <;> omega
      · rw [if_pos h2] at h; cases h
    · rw [if_pos h1] at h; cases h
  · rintro ⟨hd, b, hb, rfl, rfl⟩
    rw [if_neg (not_not.mpr ⟨by cases sign <;> simp <;> omega, hd⟩)]
    have e : (if sign then ((b : Int) + (if sign then 1 else 0)) - 1 else (b : Int) + (if sign then 1 else 0)) = b := by cases sign <;> simp
    dsimp only
    rw [e, if_neg (by omega)]
    simp

theorem fpqElem_cround {max min delta x : ℝ} (hd : 0 < delta) (h1 : ¬ x > max) (h2 : ¬ x < min) :
    fpqElem max min delta x = cround (x / delta) * delta := by
  unfold fpqElem
  rw [if_neg h1, if_neg h2]
  unfold cround
  by_cases hx : x < 0
  · rw [if_pos hx, if_pos (div_neg_of_neg_of_pos hx hd), abs_of_neg hx, neg_div]; ring
  · rw [if_neg hx, if_neg (not_lt.mpr (div_nonneg (not_lt.mp hx) hd.le)), abs_of_nonneg (not_lt.mp hx)]

/-- **C95.** Every output is a multiple of the step with an integer factor of b bits (and sign), and no such multiple is nearer to the input. -/
theorem C95_fixed_point_quantize (sign : Bool) (n : Int) (delta max min : ℝ) (b size : Nat) (h : fpqSetup sign n delta = .ok (b, max, min)) (x y : Mem ℝ)
    (i : Nat) (hi : i < size) :
    ∃ k : ℤ, (if sign then -(2 ^ b - 1) else 0) ≤ k ∧ k ≤ 2 ^ b - 1 ∧ fpqForward max min delta size x y i = k * delta ∧
      ∀ k' : ℤ, (if sign then -(2 ^ b - 1) else 0) ≤ k' → k' ≤ 2 ^ b - 1 → |k * delta - x i| ≤ |k' * delta - x i| := by
  obtain ⟨hd, b', hb, hn, e⟩ := (C95_setup sign n delta _).mp h
  simp only [Prod.mk.injEq] at e
  obtain ⟨rfl, rfl, rfl⟩ := e
  have hN : (0 : ℤ) ≤ 2 ^ b - 1 := by have : (1 : ℤ) ≤ 2 ^ b := one_le_pow₀ (by norm_num); omega
  have hfw : fpqForward ((2 ^ b - 1) * delta) (if sign then -((2 ^ b - 1) * delta) else 0) delta size x y i =
      fpqElem ((2 ^ b - 1) * delta) (if sign then -((2 ^ b - 1) * delta) else 0) delta (x i) := by
    unfold fpqForward; rw [unaryForward_eq, if_pos hi]
  rw [hfw]
  generalize x i = a
  by_cases h1 : a > (2 ^ b - 1) * delta
  · refine ⟨2 ^ b - 1, by split <;> omega, le_rfl, ?_, ?_⟩
    · unfold fpqElem; rw [if_pos h1]; push_cast; ring
    · intro k' _ hk'
      have hk'' : (k' : ℝ) * delta ≤ (2 ^ b - 1) * delta := by
        apply mul_le_mul_of_nonneg_right _ hd.le; exact_mod_cast hk'
      push_cast
      rw [abs_of_nonpos (by linarith), abs_of_nonpos (by linarith)]
      linarith
  by_cases h2 : a < if sign then -((2 ^ b - 1) * delta) else 0
  · refine ⟨if sign then -(2 ^ b - 1) else 0, le_rfl, by split <;> omega, ?_, ?_⟩
    · unfold fpqElem; rw [if_neg h1, if_pos h2]; cases sign <;> simp <;> ring
    · intro k' hk' _
      have hk'' : (if sign then -((2 ^ b - 1) * delta) else 0) ≤ (k' : ℝ) * delta := by
        cases sign
        · simp only [Bool.false_eq_true, if_false] at hk' ⊢
          exact mul_nonneg (by exact_mod_cast hk') hd.le
        · simp only [if_true] at hk' ⊢
          rw [← neg_mul]
          apply mul_le_mul_of_nonneg_right _ hd.le
          have : ((-(2 ^ b - 1) : ℤ) : ℝ) ≤ k' := by exact_mod_cast hk'
          push_cast at this; linarith
      have e : ((if sign then -(2 ^ b - 1) else 0 : ℤ) : ℝ) * delta = if sign then -((2 ^ b - 1) * delta) else 0 := by cases sign <;> simp <;> ring
      rw [e, abs_of_nonneg (by linarith), abs_of_nonneg (by linarith)]
      linarith
  · rw [fpqElem_cround hd h1 h2]
    obtain ⟨k, hk⟩ := cround_int (a / delta)
    refine ⟨k, ?_, ?_, by rw [hk], ?_⟩
    · have : ((if sign then -(2 ^ b - 1) else 0 : ℤ) : ℝ) ≤ cround (a / delta) := by
        apply le_cround
        rw [le_div_iff₀ hd]
        have e : ((if sign then -(2 ^ b - 1) else 0 : ℤ) : ℝ) * delta = if sign then -((2 ^ b - 1) * delta) else 0 := by cases sign <;> simp <;> ring
        rw [e]; exact not_lt.mp h2
      rw [hk] at this
      exact_mod_cast this
    · have : cround (a / delta) ≤ ((2 ^ b - 1 : ℤ) : ℝ) := by
        apply cround_le
        rw [div_le_iff₀ hd]
        push_cast; exact not_lt.mp h1
      rw [hk] at this
      exact_mod_cast this
    · intro k' _ _
      have := cround_nearest (a / delta) k'
      rw [hk] at this
      have e : ∀ m : ℤ, |(m : ℝ) * delta - a| = |(m : ℝ) - a / delta| * delta := by
        intro m
        rw [← abs_of_pos hd, ← abs_mul, abs_of_pos hd, sub_mul, div_mul_cancel₀ _ hd.ne']
      rw [e, e]
      exact mul_le_mul_of_nonneg_right this hd.le

/-- **C95.** Representable numbers are left alone, so quantizing twice changes nothing more. -/
theorem C95_idempotent (sign : Bool) (n : Int) (delta max min : ℝ) (b size : Nat) (h : fpqSetup sign n delta = .ok (b, max, min)) (x y y' : Mem ℝ)
    (i : Nat) (hi : i < size) :
    fpqForward max min delta size (fpqForward max min delta size x y) y' i = fpqForward max min delta size x y i := by
  obtain ⟨k, hk1, hk2, e, _⟩ := C95_fixed_point_quantize sign n delta max min b size h x y i hi
  obtain ⟨k', _, _, e', hn⟩ := C95_fixed_point_quantize sign n delta max min b size h (fpqForward max min delta size x y) y' i hi
  have := hn k hk1 hk2
  rw [← e, sub_self, abs_zero, abs_nonpos_iff] at this
  rw [e']
  linarith

/-- **C95.** Backward is the straight-through estimator: the whole gradient, or with ste_fine_grained the gradient inside the range and 0 outside. -/
theorem C95_fixed_point_grad (fine : Bool) (max min : ℝ) (size : Nat) (x : Mem ℝ) (accum : Bool) (dy dx : Mem ℝ) (i : Nat) :
    fpqBackward fine max min size x accum dy dx i =
      if i < size then (if accum then dx i else 0) + (if fine = true ∧ ¬ (min ≤ x i ∧ x i ≤ max) then 0 else dy i) else dx i := by
  unfold fpqBackward
  induction size with
  | zero => simp
  | succ m ih =>
    rw [List.range_succ, List.foldl_append]
    simp only [List.foldl_cons, List.foldl_nil]
    generalize (List.range m).foldl _ dx = d at ih ⊢
    have hc : (fine && (decide (x m > max) || decide (x m < min))) = true ↔ (fine = true ∧ ¬ (min ≤ x m ∧ x m ≤ max)) := by
      simp only [Bool.and_eq_true, Bool.or_eq_true, decide_eq_true_eq, not_and_or, not_le, gt_iff_lt]
      exact and_congr Iff.rfl or_comm
    by_cases e : i = m
    · subst e
      rw [if_neg (by omega : ¬ i < i)] at ih
      rw [if_pos (by omega : i < i + 1)]
      by_cases hh : fine = true ∧ ¬ (min ≤ x i ∧ x i ≤ max)
      · rw [if_pos (hc.mpr hh), if_pos hh]
        cases accum
        · simp
        · simp [ih]
      · rw [if_neg (fun hx => hh (hc.mp hx)), if_neg hh]
        cases accum
        · simp
        · simp [ih]
    · have hlt : i < m + 1 ↔ i < m := by omega
      simp only [hlt]
      rw [← ih]
      split
      · split
        · rfl
        · rw [put_other _ _ e]
      · rw [put_other _ _ e]

/-! ### pow2_quantize: properties -/

theorem C95_pow2_setup (sign withZero : Bool) (n m : Int) (r : Int × Int) : pow2Setup sign withZero n m = .ok r ↔
    ∃ b : Nat, 0 < b ∧ n = b + (if sign then 1 else 0) + (if withZero then 1 else 0) ∧ r = (m, m - (2 ^ b - 1)) := by
  unfold pow2Setup
  constructor
  · intro h
    by_cases h1 : n > 0
    · rw [if_neg (not_not.mpr h1)] at h
      dsimp only at h
      by_cases h2 : (if withZero then (if sign then n - 1 else n) - 1 else (if sign then n - 1 else n)) > 0
      · rw [if_neg (not_not.mpr h2)] at h
        refine ⟨_, ?_, ?_, (Except.ok.inj h).symm⟩
        · omega
        · cases sign <;> cases withZero <;> simp at h2 ⊢ <;> omega
      · rw [if_pos h2] at h; cases h
    · rw [if_pos h1] at h; cases h
  · rintro ⟨b, hb, rfl, rfl⟩
    rw [if_neg (not_not.mpr (by cases sign <;> cases withZero <;> simp <;> omega))]
    have e : (if withZero then (if sign then ((b : Int) + (if sign then 1 else 0) + (if withZero then 1 else 0)) - 1 else (b : Int) + (if sign then 1 else 0) + (if withZero then 1 else 0)) - 1
        else (if sign then ((b : Int) + (if sign then 1 else 0) + (if withZero then 1 else 0)) - 1 else (b : Int) + (if sign then 1 else 0) + (if withZero then 1 else 0))) = b := by
      cases sign <;> cases withZero <;> simp
    dsimp only
    rw [e, if_neg (by omega)]
    simp

theorem two_rpow_lt {a b : ℝ} : (2 : ℝ) ^ a < 2 ^ b ↔ a < b := Real.rpow_lt_rpow_left_iff one_lt_two

/-- The magnitude of the quantized value, in the positive domain (pow2_quantize.cpp:64-73). -/
noncomputable def pow2Mag (withZero : Bool) (eMax eMin : Int) (a : ℝ) : ℝ :=
  if pow2Round a > (2 : ℝ) ^ (eMax : ℝ) then (2 : ℝ) ^ (eMax : ℝ)
  else if pow2Round a < (2 : ℝ) ^ (eMin : ℝ) ∧ withZero = true then (if a < (2 : ℝ) ^ (eMin : ℝ) * (2 : ℝ) ^ (-(1 / 2) : ℝ) then 0 else (2 : ℝ) ^ (eMin : ℝ))
  else if pow2Round a < (2 : ℝ) ^ (eMin : ℝ) then (2 : ℝ) ^ (eMin : ℝ) else pow2Round a

theorem pow2Elem_mag (sign withZero : Bool) (eMax eMin : Int) (x : ℝ) : pow2Elem sign withZero eMax eMin x =
    if sign then (if x < 0 then -pow2Mag withZero eMax eMin |x| else pow2Mag withZero eMax eMin |x|)
    else if x < 0 then (if withZero then 0 else (2 : ℝ) ^ (eMin : ℝ)) else pow2Mag withZero eMax eMin |x| := by
  unfold pow2Elem pow2Mag
  cases sign <;> cases withZero <;> rfl

/-- In the positive domain: below the pruning threshold the result is 0 (with_zero), otherwise it is the power of two whose exponent in range is
nearest to the logarithm. -/
theorem pow2Mag_spec (withZero : Bool) (eMax eMin : Int) (hle : eMin ≤ eMax) (a : ℝ) (ha : 0 < a) :
    (withZero = true → Real.logb 2 a < eMin - 1 / 2 → pow2Mag withZero eMax eMin a = 0) ∧
    ((withZero = true → (eMin : ℝ) - 1 / 2 ≤ Real.logb 2 a) → ∃ e : ℤ, eMin ≤ e ∧ e ≤ eMax ∧ pow2Mag withZero eMax eMin a = (2 : ℝ) ^ (e : ℝ) ∧
      ∀ e' : ℤ, eMin ≤ e' → e' ≤ eMax → |(e : ℝ) - Real.logb 2 a| ≤ |(e' : ℝ) - Real.logb 2 a|) := by
  obtain ⟨k, hk⟩ := cround_int (Real.logb 2 a)
  have hq : pow2Round a = (2 : ℝ) ^ (k : ℝ) := by rw [pow2Round, if_neg ha.ne', hk]
  have hd := abs_le.mp (cround_dist (Real.logb 2 a))
  have hnear := fun e' : ℤ => cround_nearest (Real.logb 2 a) e'
  rw [hk] at hd hnear
  have hthr : a < (2 : ℝ) ^ (eMin : ℝ) * (2 : ℝ) ^ (-(1 / 2) : ℝ) ↔ Real.logb 2 a < eMin - 1 / 2 := by
    rw [← Real.rpow_add two_pos, ← Real.logb_lt_iff_lt_rpow one_lt_two ha]
    constructor <;> intro h <;> linarith
  have hleR : (eMin : ℝ) ≤ eMax := by exact_mod_cast hle
  have g1 : pow2Round a > (2 : ℝ) ^ (eMax : ℝ) ↔ eMax < k := by rw [hq, gt_iff_lt, two_rpow_lt]; exact_mod_cast Iff.rfl
  have g2 : pow2Round a < (2 : ℝ) ^ (eMin : ℝ) ↔ k < eMin := by rw [hq, two_rpow_lt]; exact_mod_cast Iff.rfl
  constructor
  · rintro rfl hlt
    have hk1 : k < eMin := by
      have : (k : ℝ) < eMin := by linarith [hd.2]
      exact_mod_cast this
    unfold pow2Mag
    rw [if_neg (by rw [g1]; omega), if_pos ⟨g2.mpr hk1, rfl⟩, if_pos (hthr.mpr hlt)]
  · intro hz
    by_cases h1 : eMax < k
    · refine ⟨eMax, hle, le_rfl, by unfold pow2Mag; rw [if_pos (g1.mpr h1)], ?_⟩
      intro e' _ he'
      have h1' : (eMax : ℝ) + 1 ≤ k := by exact_mod_cast h1
      have he'' : (e' : ℝ) ≤ eMax := by exact_mod_cast he'
      rw [abs_of_nonpos (by linarith [hd.2]), abs_of_nonpos (by linarith [hd.2])]
      linarith
    by_cases h2 : k < eMin
    · refine ⟨eMin, le_rfl, hle, ?_, ?_⟩
      · unfold pow2Mag
        rw [if_neg (by rw [g1]; exact h1)]
        cases withZero
        · rw [if_neg (by simp), if_pos (g2.mpr h2)]
        · rw [if_pos ⟨g2.mpr h2, rfl⟩, if_neg (by rw [hthr]; exact not_lt.mpr (hz rfl))]
      · intro e' he' _
        have h2' : (k : ℝ) + 1 ≤ eMin := by exact_mod_cast h2
        have he'' : (eMin : ℝ) ≤ e' := by exact_mod_cast he'
        rw [abs_of_nonneg (by linarith [hd.1]), abs_of_nonneg (by linarith [hd.1])]
        linarith
    · refine ⟨k, by omega, by omega, ?_, fun e' _ _ => hnear e'⟩
      unfold pow2Mag
      rw [if_neg (by rw [g1]; exact h1), if_neg (by rw [g2]; exact fun h => h2 h.1), if_neg (by rw [g2]; exact h2), hq]

/-- **C95.** pow2_quantize: a non-zero input (positive if unsigned) at or above the pruning threshold becomes the power of two in range, with its sign,
whose exponent is nearest to the logarithm of its magnitude; below the threshold, with with_zero, it becomes 0; negative inputs of the
unsigned version become the smallest value (0 or p_min), and so does 0. -/
theorem C95_pow2_quantize (sign withZero : Bool) (n m : Int) (eMax eMin : Int) (h : pow2Setup sign withZero n m = .ok (eMax, eMin)) (x : ℝ) :
    (x ≠ 0 → (sign = true ∨ 0 < x) → (withZero = true → (2 : ℝ) ^ ((eMin : ℝ) - 1 / 2) ≤ |x|) →
      ∃ e : ℤ, eMin ≤ e ∧ e ≤ eMax ∧ pow2Elem sign withZero eMax eMin x = (if x < 0 then -1 else 1) * (2 : ℝ) ^ (e : ℝ) ∧
        ∀ e' : ℤ, eMin ≤ e' → e' ≤ eMax → |(e : ℝ) - Real.logb 2 (|x|)| ≤ |(e' : ℝ) - Real.logb 2 (|x|)|) ∧
    (withZero = true → |x| < (2 : ℝ) ^ ((eMin : ℝ) - 1 / 2) → pow2Elem sign withZero eMax eMin x = 0) ∧
    (sign = false → x < 0 → pow2Elem sign withZero eMax eMin x = if withZero then 0 else (2 : ℝ) ^ (eMin : ℝ)) ∧
    pow2Elem sign withZero eMax eMin 0 = if withZero then 0 else (2 : ℝ) ^ (eMin : ℝ) := by
  obtain ⟨b, hb, _, e⟩ := (C95_pow2_setup sign withZero n m _).mp h
  simp only [Prod.mk.injEq] at e
  have hle : eMin ≤ eMax := by
    have : (1 : ℤ) ≤ 2 ^ b := one_le_pow₀ (by norm_num)
    omega
  have hzero : pow2Mag withZero eMax eMin 0 = if withZero then 0 else (2 : ℝ) ^ (eMin : ℝ) := by
    have p1 : (0 : ℝ) < (2 : ℝ) ^ (eMax : ℝ) := Real.rpow_pos_of_pos two_pos _
    have p2 : (0 : ℝ) < (2 : ℝ) ^ (eMin : ℝ) := Real.rpow_pos_of_pos two_pos _
    have p3 : (0 : ℝ) < (2 : ℝ) ^ (eMin : ℝ) * (2 : ℝ) ^ (-(1 / 2) : ℝ) := mul_pos p2 (Real.rpow_pos_of_pos two_pos _)
    unfold pow2Mag
    have hr : pow2Round 0 = 0 := by simp [pow2Round]
    rw [hr, if_neg (not_lt.mpr p1.le)]
    cases withZero
    · rw [if_neg (by simp), if_pos p2]; simp
    · rw [if_pos ⟨p2, rfl⟩, if_pos p3]; simp
  have hlog : ∀ x : ℝ, 0 < |x| → (|x| < (2 : ℝ) ^ ((eMin : ℝ) - 1 / 2) ↔ Real.logb 2 |x| < eMin - 1 / 2) := fun x hx =>
    (Real.logb_lt_iff_lt_rpow one_lt_two hx).symm
  refine ⟨?_, ?_, ?_, ?_⟩
  · intro hx hs hz
    have hp := abs_pos.mpr hx
    obtain ⟨e, h1, h2, h3, h4⟩ := (pow2Mag_spec withZero eMax eMin hle |x| hp).2 (fun hw => by
      by_contra hc
      exact absurd ((hlog x hp).mpr (not_le.mp hc)) (not_lt.mpr (hz hw)))
    refine ⟨e, h1, h2, ?_, h4⟩
    rw [pow2Elem_mag, h3]
    rcases hs with rfl | hs
    · simp only [if_true]
      split <;> ring
    · rw [if_neg (not_lt.mpr hs.le), if_neg (not_lt.mpr hs.le), if_neg (not_lt.mpr hs.le)]
      split <;> ring
  · rintro rfl hlt
    have hm : pow2Mag true eMax eMin |x| = 0 := by
      by_cases hx : x = 0
      · rw [hx, abs_zero, hzero]; rfl
      · exact (pow2Mag_spec true eMax eMin hle |x| (abs_pos.mpr hx)).1 rfl ((hlog x (abs_pos.mpr hx)).mp hlt)
    rw [pow2Elem_mag, hm]
    simp
  · rintro rfl hx
    rw [pow2Elem_mag, if_neg (by simp), if_pos hx]
  · rw [pow2Elem_mag, abs_zero, hzero]
    simp

/-! ### pow2_quantize: backward -/

/-- Pow2Quantize::backward_impl (pow2_quantize.cpp:96-160): quantize_naive_backward_cpu, quantize_backward_cpu. -/
noncomputable def pow2Backward (fine sign : Bool) (eMax : Int) (size : Nat) (x : Mem ℝ) (accum : Bool) (dy dx : Mem ℝ) : Mem ℝ :=
  open Classical in
  (List.range size).foldl (fun d s =>
    if fine then
      let q := pow2Round |x s|
      let c : ℝ := if q > (2 : ℝ) ^ (eMax : ℝ) then 0 else 1
      let c := if !sign then (if x s < 0 then 0 else c) else c
      put d s (if accum then d s + c * dy s else c * dy s)
    else put d s (if accum then d s + dy s else dy s)) dx

theorem pow2Backward_eq (fine sign : Bool) (eMax : Int) (size : Nat) (x : Mem ℝ) (accum : Bool) (dy dx : Mem ℝ) (i : Nat) :
    pow2Backward fine sign eMax size x accum dy dx i =
      open Classical in
      if i < size then (if accum then dx i else 0) +
        (if fine = true ∧ (pow2Round |x i| > (2 : ℝ) ^ (eMax : ℝ) ∨ (sign = false ∧ x i < 0)) then 0 else dy i) else dx i := by
  unfold pow2Backward
  induction size with
  | zero => simp
  | succ m ih =>
    rw [List.range_succ, List.foldl_append]
    simp only [List.foldl_cons, List.foldl_nil]
    generalize (List.range m).foldl _ dx = d at ih ⊢
    by_cases e : i = m
    · subst e
      rw [if_neg (by omega : ¬ i < i)] at ih
      rw [if_pos (by omega : i < i + 1)]
      cases fine
      · cases accum <;> simp [ih]
      · by_cases h1 : pow2Round |x i| > (2 : ℝ) ^ (eMax : ℝ) <;> by_cases h2 : x i < 0 <;> cases sign <;> cases accum <;> simp [ih, h1, h2]
    · have hlt : i < m + 1 ↔ i < m := by omega
      simp only [hlt]
      rw [← ih]
      split <;> rw [put_other _ _ e]

/-- **C95.** The gradient of pow2_quantize is the straight-through estimator: the whole gradient; with ste_fine_grained, 0 where the magnitude of the input
is above the largest quantization threshold (the geometric mean of 2^m and 2^(m+1)) and, if unsigned, at negative inputs, and the whole
gradient elsewhere. (Exactly at the threshold either, depending on the rounding of the logarithm.) -/
theorem C95_pow2_grad (sign withZero fine : Bool) (n m : Int) (eMax eMin : Int) (h : pow2Setup sign withZero n m = .ok (eMax, eMin)) (size : Nat)
    (x : Mem ℝ) (accum : Bool) (dy dx : Mem ℝ) (i : Nat) :
    (¬ i < size → pow2Backward fine sign eMax size x accum dy dx i = dx i) ∧
    (i < size → (fine = false ∨ (|x i| < (2 : ℝ) ^ ((m : ℝ) + 1 / 2) ∧ (sign = true ∨ 0 ≤ x i))) →
      pow2Backward fine sign eMax size x accum dy dx i = (if accum then dx i else 0) + dy i) ∧
    (i < size → fine = true → ((2 : ℝ) ^ ((m : ℝ) + 1 / 2) < |x i| ∨ (sign = false ∧ x i < 0)) →
      pow2Backward fine sign eMax size x accum dy dx i = if accum then dx i else 0) := by
  obtain ⟨b, hb, _, e⟩ := (C95_pow2_setup sign withZero n m _).mp h
  simp only [Prod.mk.injEq] at e
  have hm : eMax = m := e.1
  subst hm
  have hlow : |x i| < (2 : ℝ) ^ ((eMax : ℝ) + 1 / 2) → ¬ pow2Round |x i| > (2 : ℝ) ^ (eMax : ℝ) := by
    intro hl
    by_cases h0 : |x i| = 0
    · rw [pow2Round, if_pos h0]
      exact not_lt.mpr (Real.rpow_pos_of_pos two_pos (eMax : ℝ)).le
    · have hp : 0 < |x i| := lt_of_le_of_ne (abs_nonneg _) (Ne.symm h0)
      obtain ⟨k, hk⟩ := cround_int (Real.logb 2 |x i|)
      rw [pow2Round, if_neg h0, hk, gt_iff_lt, two_rpow_lt]
      have h1 := (Real.logb_lt_iff_lt_rpow one_lt_two hp).mpr hl
      have h2 := (abs_le.mp (cround_dist (Real.logb 2 |x i|)))
      rw [hk] at h2
      intro hc
      have hc' : eMax < k := by exact_mod_cast hc
      have : (eMax : ℝ) + 1 ≤ k := by exact_mod_cast hc'
      linarith [h2.1, h2.2]
  have hhigh : (2 : ℝ) ^ ((eMax : ℝ) + 1 / 2) < |x i| → pow2Round |x i| > (2 : ℝ) ^ (eMax : ℝ) := by
    intro hl
    have hp : 0 < |x i| := lt_trans (Real.rpow_pos_of_pos two_pos _) hl
    obtain ⟨k, hk⟩ := cround_int (Real.logb 2 |x i|)
    rw [pow2Round, if_neg hp.ne', hk, gt_iff_lt, two_rpow_lt]
    have h1 := (Real.lt_logb_iff_rpow_lt one_lt_two hp).mpr hl
    have h2 := (abs_le.mp (cround_dist (Real.logb 2 |x i|)))
    rw [hk] at h2
    by_contra hc
    have hc' : k ≤ eMax := by exact_mod_cast not_lt.mp hc
    have : (k : ℝ) ≤ eMax := by exact_mod_cast hc'
    linarith [h2.1, h2.2]
  rw [pow2Backward_eq]
  refine ⟨fun hi => if_neg hi, ?_, ?_⟩
  · intro hi hor
    have hneg : ¬ (fine = true ∧ (pow2Round |x i| > (2 : ℝ) ^ (eMax : ℝ) ∨ (sign = false ∧ x i < 0))) := ?_
    · rw [if_pos hi, if_neg hneg]
    rintro ⟨hf, hc⟩
    rcases hor with hor | ⟨hl, hs⟩
    · rw [hf] at hor; cases hor
    · rcases hc with hc | ⟨hs', hx⟩
      · exact hlow hl hc
      · rcases hs with hs | hs
        · rw [hs] at hs'; cases hs'
        · linarith
  · intro hi hf hor
    have hpos : fine = true ∧ (pow2Round |x i| > (2 : ℝ) ^ (eMax : ℝ) ∨ (sign = false ∧ x i < 0)) := ?_
    · rw [if_pos hi, if_pos hpos, add_zero]
    refine ⟨hf, ?_⟩
    rcases hor with hl | hl
    · exact Or.inl (hhigh hl)
    · exact Or.inr hl

example : ∃ r, pow2Setup true false 4 1 = .ok r := ⟨_, rfl⟩

end Verif.Elem
