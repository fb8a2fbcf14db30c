import Verif.Fn.Binary
import Mathlib.Data.Nat.Size
import Mathlib.Data.Int.Order.Basic
import Mathlib.Tactic.Ring
/-!
C158: the element-wise integer functions Mod2 and BitShift (src/nbla/function/generic/mod2.cpp, bit_shift.cpp), with broadcasting.

Simplifications: an integer type is its number of bits and its signedness; `char` is signed (x86-64). A division by zero, or one whose
result the type cannot hold, ends the program (undefined behaviour, a trap on x86-64). Floating point inputs of Mod2 are not modelled.
-/
namespace Verif.IntOps
open Verif.ND Verif.Fn

/-! ## Model -/

/-- An integer type. -/
structure Ty where
  bits : Nat
  signed : Bool

/-- The values of a type. -/
def Ty.Holds (T : Ty) (x : Int) : Prop :=
  if T.signed then -(2 : Int) ^ (T.bits - 1) ≤ x ∧ x < (2 : Int) ^ (T.bits - 1) else 0 ≤ x ∧ x < (2 : Int) ^ T.bits

instance (T : Ty) (x : Int) : Decidable (T.Holds x) := by unfold Ty.Holds; infer_instance

/-- IntegerModBinaryOp (mod2.cpp:33-42); types of less than 32 bits are computed in int. -/
def intMod (T : Ty) (x0 x1 : Int) : Option Int :=
  if x1 = 0 then none
  else if T.signed ∧ 32 ≤ T.bits ∧ x0 = -(2 : Int) ^ (T.bits - 1) ∧ x1 = -1 then none
  else
    let ret := x0.tmod x1
    some (if (0 < ret ∧ x1 < 0) ∨ (ret < 0 ∧ 0 < x1) then ret + x1 else ret)

/-- The conversion of a natural number below 2^64 to double: 53 significant bits, round half to even. -/
def toDouble (n : Nat) : Nat :=
  if n < 2 ^ 53 then n
  else
    let e := Nat.log2 n - 52
    let q := n / 2 ^ e
    let r := n % 2 ^ e
    (if 2 * r < 2 ^ e then q else if 2 ^ e < 2 * r then q + 1 else q + q % 2) * 2 ^ e

/-- ... with sign. -/
def toDoubleInt (x : Int) : Int := if x < 0 then -(toDouble x.natAbs : Int) else toDouble x.natAbs

/-- FloatModBinaryOp of integers (mod2.cpp:26-31): std::fmod of the values converted to double, exact; the conversion of a NaN to an integer
is undefined. -/
def floatMod (x0 x1 : Int) : Option Int :=
  if toDoubleInt x1 = 0 then none else some ((toDoubleInt x0).tmod (toDoubleInt x1))

/-- Mod2::forward_impl for integer types (mod2.cpp:73-91, 94-168), with the loop of mod2.cpp:44-59, which computes the offsets of
`transform_binary`. -/
def mod2Forward (T : Ty) (fmod : Bool) (s0 s1 : Shape) (n : Nat) (x0 x1 y : Mem (Option Int)) : Mem (Option Int) :=
  binaryForward (fun a b => a.bind fun a => b.bind fun b => if fmod then floatMod a b else intMod T a b) s0 s1 n x0 x1 y

/-- ShiftLeftBinaryOp (bit_shift.cpp:25-34): types of less than 32 bits are shifted as int and converted back. -/
def shiftLeft (bits x0 x1 : Nat) : Nat := if x1 < bits then (x0 <<< x1) % 2 ^ bits else 0

/-- ShiftRightBinaryOp (bit_shift.cpp:36-45). -/
def shiftRight (bits x0 x1 : Nat) : Nat := if x1 < bits then x0 >>> x1 else 0

/-- BitShift (bit_shift.cpp:69-84): the direction. -/
def bitShiftSetup (direction : String) : Except String Bool :=
  if direction = "LEFT" then .ok true else if direction = "RIGHT" then .ok false else .error "Unsupported direction"

/-- BitShift::forward_impl (bit_shift.cpp:47-67, 87-128); the shifts have been converted to the type of x. -/
def bitShiftForward (bits : Nat) (left : Bool) (s0 s1 : Shape) (n : Nat) (x0 x1 y : Mem Nat) : Mem Nat :=
  binaryForward (fun a b => if left then shiftLeft bits a b else shiftRight bits a b) s0 s1 n x0 x1 y

/-! ## Specification -/

/-- `r` is the remainder of Python and numpy.mod: the divisor's sign, smaller than the divisor. -/
def IsMod (a b r : Int) : Prop := (∃ q, a = q * b + r) ∧ (0 < b → 0 ≤ r ∧ r < b) ∧ (b < 0 → b < r ∧ r ≤ 0)

/-- `r` is the remainder of C and numpy.fmod: the dividend's sign, smaller than the divisor in absolute value. -/
def IsFmod (a b r : Int) : Prop := (∃ q, a = q * b + r) ∧ r.natAbs < b.natAbs ∧ (0 ≤ a → 0 ≤ r) ∧ (a ≤ 0 → r ≤ 0)

/-! ## Theorems -/

theorem tmod_bounds (a b : Int) (hb : b ≠ 0) : IsFmod a b (a.tmod b) := by
  refine ⟨⟨a.tdiv b, by rw [Int.mul_comm]; exact (Int.mul_tdiv_add_tmod a b).symm⟩, ?_, ?_, ?_⟩
  · rw [Int.natAbs_tmod]
    exact Nat.mod_lt _ (by omega)
  · exact fun h => Int.tmod_nonneg b h
  · intro h
    have := Int.tmod_nonneg b (a := -a) (by omega)
    rw [Int.neg_tmod] at this
    omega

theorem intMod_spec (T : Ty) (a b r : Int) (h : intMod T a b = some r) : b ≠ 0 ∧ IsMod a b r := by
  unfold intMod at h
  by_cases hb : b = 0
  · rw [if_pos hb] at h; simp at h
  rw [if_neg hb] at h
  split at h
  · simp at h
  · simp only [Option.some.injEq] at h
    refine ⟨hb, ?_⟩
    obtain ⟨⟨q, hq⟩, h1, h2, h3⟩ := tmod_bounds a b hb
    set t := a.tmod b
    by_cases c : (0 < t ∧ b < 0) ∨ (t < 0 ∧ 0 < b)
    · rw [if_pos c] at h
      refine ⟨⟨q - 1, ?_⟩, ?_, ?_⟩
      · rw [← h, Int.sub_mul, Int.one_mul]; omega
      · intro hb; omega
      · intro hb; omega
    · rw [if_neg c] at h
      refine ⟨⟨q, h ▸ hq⟩, ?_, ?_⟩
      · intro hb; omega
      · intro hb; omega

/-- The case that the code does not handle: the divisor is zero, or the quotient does not fit. -/
def Trap (T : Ty) (a b : Int) : Prop := b = 0 ∨ (T.signed = true ∧ 32 ≤ T.bits ∧ a = -(2 : Int) ^ (T.bits - 1) ∧ b = -1)

theorem intMod_trap (T : Ty) (a b : Int) : intMod T a b = none ↔ Trap T a b := by
  unfold intMod Trap
  by_cases hb : b = 0
  · simp [hb]
  · rw [if_neg hb]
    by_cases h : T.signed ∧ 32 ≤ T.bits ∧ a = -(2 : Int) ^ (T.bits - 1) ∧ b = -1
    · rw [if_pos h]; simp [h]
    · rw [if_neg h]; simp only [reduceCtorEq, hb, false_or, false_iff]; exact h

/-- **C158 (mod).** Mod2 with `fmod=False`: where the program does not trap, each element of the result is the numpy.mod remainder of the
corresponding elements, and is a value of the type. -/
theorem C158_mod (T : Ty) (s0 s1 out : Shape) (h : binarySetup s0 s1 = .ok out) (x0 x1 : Nat → Int) (y : Mem (Option Int)) (j : List Nat)
    (hj : InBounds out j) (h1 : T.Holds (x1 (ravel s1 (bcast s1 j))))
    (ht : ¬ Trap T (x0 (ravel s0 (bcast s0 j))) (x1 (ravel s1 (bcast s1 j)))) :
    ∃ r, mod2Forward T false s0 s1 (prod out) (fun i => some (x0 i)) (fun i => some (x1 i)) y (ravel out j) = some r ∧
      IsMod (x0 (ravel s0 (bcast s0 j))) (x1 (ravel s1 (bcast s1 j))) r ∧ T.Holds r := by
  unfold mod2Forward
  rw [(C81_forward _ s0 s1 out h _ _ y j hj).1]
  simp only [Option.bind_some, Bool.false_eq_true, if_false]
  rcases hr : intMod T (x0 (ravel s0 (bcast s0 j))) (x1 (ravel s1 (bcast s1 j))) with _ | r
  · exact absurd ((intMod_trap T _ _).mp hr) ht
  · obtain ⟨hb, hm⟩ := intMod_spec T _ _ r hr
    refine ⟨r, rfl, hm, ?_⟩
    obtain ⟨-, m2, m3⟩ := hm
    set b := x1 (ravel s1 (bcast s1 j))
    unfold Ty.Holds at *
    have hp : (0 : Int) < 2 ^ (T.bits - 1) := Int.pow_pos (by omega)
    by_cases hs : T.signed = true
    · rw [if_pos hs] at h1 ⊢
      rcases lt_or_gt_of_ne hb with hb | hb
      · have := m3 hb; omega
      · have := m2 hb; omega
    · rw [if_neg hs] at h1 ⊢
      rcases lt_or_gt_of_ne hb with hb | hb
      · omega
      · have := m2 hb; omega

example : binarySetup [2, 1] [1, 3] = .ok [2, 3] ∧ InBounds [2, 3] [1, 2] ∧ ¬ Trap ⟨32, true⟩ (-7) 3 ∧ intMod ⟨32, true⟩ (-7) 3 = some 2 ∧
    intMod ⟨32, true⟩ 7 (-3) = some (-2) ∧ IsMod (-7) 3 2 := by
  refine ⟨by decide, by decide, by simp [Trap], by decide, by decide, ⟨-3, by decide⟩, by decide, by decide⟩

/-- The full claim about numpy.mod and numpy.fmod: no trap, and the exact remainder. -/
def ModTotal : Prop := ∀ (T : Ty) (a b : Int), T.Holds a → T.Holds b → ∃ r, intMod T a b = some r
def FmodExact : Prop := ∀ (T : Ty) (a b : Int), T.bits ≤ 64 → T.Holds a → T.Holds b → b ≠ 0 → ∃ r, floatMod a b = some r ∧ IsFmod a b r

/-- **C158 (refuted).** numpy.mod of zero is 0 with a warning; here the program ends. -/
theorem C158_trap_refuted : ¬ ModTotal := by
  intro h
  obtain ⟨r, hr⟩ := h ⟨32, true⟩ 1 0 (by decide) (by decide)
  simp [intMod] at hr

theorem toDouble_small (n : Nat) (h : n ≤ 2 ^ 53) : toDouble n = n := by
  unfold toDouble
  by_cases c : n < 2 ^ 53
  · rw [if_pos c]
  · have : n = 2 ^ 53 := by omega
    subst this
    decide

theorem toDoubleInt_small (x : Int) (h : x.natAbs ≤ 2 ^ 53) : toDoubleInt x = x := by
  unfold toDoubleInt
  rw [toDouble_small _ h]
  split <;> omega

/-- **C158 (fmod, part).** Mod2 with `fmod=True` of integers up to 2^53 in absolute value: the numpy.fmod remainder. Missing: larger values. -/
theorem C158_fmod_partial (T : Ty) (s0 s1 out : Shape) (h : binarySetup s0 s1 = .ok out) (x0 x1 : Nat → Int) (y : Mem (Option Int)) (j : List Nat)
    (hj : InBounds out j) (h0 : (x0 (ravel s0 (bcast s0 j))).natAbs ≤ 2 ^ 53) (h1 : (x1 (ravel s1 (bcast s1 j))).natAbs ≤ 2 ^ 53)
    (hb : x1 (ravel s1 (bcast s1 j)) ≠ 0) :
    ∃ r, mod2Forward T true s0 s1 (prod out) (fun i => some (x0 i)) (fun i => some (x1 i)) y (ravel out j) = some r ∧
      IsFmod (x0 (ravel s0 (bcast s0 j))) (x1 (ravel s1 (bcast s1 j))) r := by
  unfold mod2Forward
  rw [(C81_forward _ s0 s1 out h _ _ y j hj).1]
  simp only [Option.bind_some, if_true, floatMod]
  rw [toDoubleInt_small _ h0, toDoubleInt_small _ h1, if_neg hb]
  exact ⟨_, rfl, tmod_bounds _ _ hb⟩

example : floatMod (-7) 3 = some (-1) ∧ floatMod 7 (-3) = some 1 := by decide

/-- **C158 (refuted).** (2^53 + 1) fmod 2 of 64 bit integers is 0: the values are converted to double. -/
theorem C158_fmod_refuted : ¬ FmodExact := by
  intro h
  obtain ⟨r, hr, hq⟩ := h ⟨64, true⟩ (2 ^ 53 + 1) 2 (by decide) (by decide) (by decide) (by decide)
  have : floatMod (2 ^ 53 + 1) 2 = some 0 := by decide
  rw [this] at hr
  simp only [Option.some.injEq] at hr
  obtain ⟨⟨q, hq⟩, -⟩ := hq
  omega

theorem shiftLeft_spec (bits a b : Nat) : shiftLeft bits a b = a * 2 ^ b % 2 ^ bits := by
  unfold shiftLeft
  by_cases h : b < bits
  · rw [if_pos h, Nat.shiftLeft_eq]
  · rw [if_neg h]
    obtain ⟨k, rfl⟩ : ∃ k, b = bits + k := ⟨b - bits, by omega⟩
    rw [Nat.pow_add, show a * (2 ^ bits * 2 ^ k) = 2 ^ bits * (a * 2 ^ k) by ring, Nat.mul_mod_right]

theorem shiftRight_spec (bits a b : Nat) (ha : a < 2 ^ bits) : shiftRight bits a b = a / 2 ^ b := by
  unfold shiftRight
  by_cases h : b < bits
  · rw [if_pos h, Nat.shiftRight_eq_div_pow]
  · rw [if_neg h]
    symm
    apply Nat.div_eq_of_lt
    exact Nat.lt_of_lt_of_le ha (Nat.pow_le_pow_right (by omega) (by omega))

/-- **C158 (shift).** BitShift of unsigned integers: LEFT multiplies by the power of two, modulo 2^bits, and RIGHT divides by it, for every
shift, also by more bits than there are; any other direction is an error. -/
theorem C158_shift (bits : Nat) (direction : String) (s0 s1 out : Shape) (h : binarySetup s0 s1 = .ok out) (x0 x1 y : Mem Nat) (j : List Nat)
    (hj : InBounds out j) (hx : x0 (ravel s0 (bcast s0 j)) < 2 ^ bits) :
    (direction = "LEFT" → ∃ l, bitShiftSetup direction = .ok l ∧ bitShiftForward bits l s0 s1 (prod out) x0 x1 y (ravel out j) =
      x0 (ravel s0 (bcast s0 j)) * 2 ^ x1 (ravel s1 (bcast s1 j)) % 2 ^ bits) ∧
    (direction = "RIGHT" → ∃ l, bitShiftSetup direction = .ok l ∧ bitShiftForward bits l s0 s1 (prod out) x0 x1 y (ravel out j) =
      x0 (ravel s0 (bcast s0 j)) / 2 ^ x1 (ravel s1 (bcast s1 j))) ∧
    (direction ≠ "LEFT" → direction ≠ "RIGHT" → ∃ e, bitShiftSetup direction = .error e) := by
  refine ⟨?_, ?_, ?_⟩
  · rintro rfl
    refine ⟨true, rfl, ?_⟩
    unfold bitShiftForward
    rw [(C81_forward _ s0 s1 out h x0 x1 y j hj).1]
    exact shiftLeft_spec _ _ _
  · rintro rfl
    refine ⟨false, rfl, ?_⟩
    unfold bitShiftForward
    rw [(C81_forward _ s0 s1 out h x0 x1 y j hj).1]
    exact shiftRight_spec _ _ _ hx
  · intro h1 h2
    exact ⟨_, by unfold bitShiftSetup; rw [if_neg h1, if_neg h2]⟩

example : shiftLeft 8 200 1 = 144 ∧ shiftLeft 8 200 9 = 0 ∧ shiftRight 8 200 3 = 25 := by decide

end Verif.IntOps
