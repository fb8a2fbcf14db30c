/-
Model of the half-precision conversions:
/repo/include/nbla/float_bits.hpp (template `float_bits`, instantiated for float and Half) and
/repo/include/nbla/half.hpp, /repo/src/nbla/half.cpp.

Bit patterns are natural numbers (`uint32_t` below 2^32, `uint16_t` below 2^16); the template constants
are the instantiated ones: float has 8 exponent and 23 significand bits, Half 5 and 10
(float_bits.hpp:29-39).  C++ shifts, masks and casts are the operations on `Nat` of the same name, a cast
to `uint16_t` is `% 65536`.
-/
namespace Verif.HalfFloat

/-- `float_bits<float>::get_sign_bit_of<Half>` (float_bits.hpp:71-75). -/
def signBitOf (b : Nat) : Nat := (b >>> 16) &&& 2 ^ 15

/-- `float_bits<float>::get_sign_bit_from<Half>` (float_bits.hpp:76-81). -/
def signBitFrom (b : Nat) : Nat := (b <<< 16) &&& 2 ^ 31

/-- `float_bits<float>::get_signed_exponent` (float_bits.hpp:68-70); `exp_bias = 127`. -/
def expF (b : Nat) : Int := (((b >>> 23) &&& (2 ^ 8 - 1) : Nat) : Int) - 127

/-- `float_bits<float>::get_significand_bits` (float_bits.hpp:67). -/
def sigF (b : Nat) : Nat := b &&& (2 ^ 23 - 1)

/-- `float_bits<Half>::get_signed_exponent`; `exp_bias = 15`. -/
def expH (b : Nat) : Int := (((b >>> 10) &&& (2 ^ 5 - 1) : Nat) : Int) - 15

/-- `float_bits<Half>::get_significand_bits`. -/
def sigH (b : Nat) : Nat := b &&& (2 ^ 10 - 1)

/-- `round_ties_to_even<Half>` (float_bits.hpp:86-95); `diff_sig = 13`. -/
def roundTies (s : Nat) : Nat :=
  if s &&& (2 ^ 14 - 1) ≠ 2 ^ 12 then s + 2 ^ 12 else s

/-- `float_bits<Half>::inf_bits`. -/
def infH : Nat := (2 ^ 5 - 1) <<< 10

/-- `float_bits<float>::inf_bits`. -/
def infF : Nat := (2 ^ 8 - 1) <<< 23

/-- `float_bits<float>::downconvert_to<Half>` (float_bits.hpp:108-165), i.e. the constructor
`Half(float)` (half.hpp:29-36, half.cpp:40). -/
def down (b : Nat) : Nat :=
  let sg := signBitOf b
  let e := expF b
  let s := sigF b
  if e = 127 + 1 then                                        -- 2. NaN / inf
    if s = 0 then sg ||| infH
    else
      let t := (s >>> 13) % 65536
      let t := if t = 0 then t + 1 else t
      (sg ||| infH) ||| t
  else if e > 15 then sg ||| infH                            -- 3. overflow
  else if e < (-15 + 1) - 10 then sg                         -- 4. below the subnormals
  else if e ≥ -15 + 1 then                                   -- 5. normal
    sg ||| (((((e + 15).toNat <<< 10) % 65536) + (roundTies s >>> 13) % 65536) % 65536)
  else                                                       -- 6. subnormal
    let r := (-e + (-15 + 1)).toNat
    sg ||| ((roundTies ((s ||| 2 ^ 23) >>> r) >>> 13) % 65536)

/-- The `while` loop at float_bits.hpp:197-200 (fuel: at most 16 shifts of a `uint16_t`;
`normalize_spec` shows that the loop has ended by then). -/
def normalize : Nat → Nat → Nat → Nat × Nat
  | 0, s, e => (s, e)
  | n + 1, s, e =>
    if s &&& 2 ^ 10 = 0 then normalize n ((s <<< 1) % 65536) (e - 1) else (s, e)

/-- The return type of `upconvert_to<float>` is `float` (float_bits.hpp:169), so the bit pattern, an
unsigned integer, is converted to the nearest float and back to an integer by the assignment at
half.hpp:43.  Round to nearest even on 24 significant bits. -/
def viaFloat (n : Nat) : Nat :=
  let u := 2 ^ (Nat.log2 n - 23)
  let q := n / u
  let r := n % u
  (if 2 * r < u ∨ (2 * r = u ∧ q % 2 = 0) then q else q + 1) * u

/-- `float_bits<Half>::upconvert_to<float>` (float_bits.hpp:167-212), before the conversion of the
returned value. -/
def upBits (b : Nat) : Nat :=
  let sg := signBitFrom b
  let e := expH b
  let s := sigH b
  if e = 15 + 1 then (sg ||| infF) ||| (s <<< 13)           -- 1. NaN or inf
  else if e = (-15 + 1) - 1 then                             -- 2. zero or subnormal
    if s = 0 then sg
    else
      let r := normalize 16 ((s <<< 1) % 65536) (127 - 15)
      (sg ||| (r.2 <<< 23)) ||| (sigH r.1 <<< 13)
  else (sg ||| ((e + 127).toNat <<< 23)) ||| (s <<< 13)      -- 3. normalized

/-- `halfbits2float` (half.hpp:38-45), i.e. the conversion `(float)half`. -/
def up (b : Nat) : Nat := viaFloat (upBits b)

/-- `operator==(Half, Half)` compares bits (half.cpp, `ROP_TYPE(==, Half)`). -/
def eqHalf (a b : Nat) : Bool := a == b

/-- `Half Half::operator-() const`: `ret *= -1`, that is `(float)ret * -1.0f` rounded back to Half
(half.cpp:84-88); multiplying a float by -1 flips its sign bit. -/
def negHalf (a : Nat) : Nat := down (up a ^^^ 2 ^ 31)

end Verif.HalfFloat
