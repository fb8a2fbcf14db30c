import Verif.HalfFloat.Model
/-
Specification: IEEE 754 binary16 and binary32 numbers, independently of the conversion code.
Magnitudes are counted in units of 2^-149, the smallest positive float, so all are naturals.
-/
namespace Verif.HalfFloat

/-- The three fields of a binary32 / binary16 pattern. -/
def f32 (s E M : Nat) : Nat := s * 2 ^ 31 + E * 2 ^ 23 + M
def f16 (s e m : Nat) : Nat := s * 2 ^ 15 + e * 2 ^ 10 + m

/-- Magnitude of a finite float: M·2^-149 if subnormal, (2^23+M)·2^(E-150) otherwise. -/
def fmag (E M : Nat) : Nat := if E = 0 then M else (2 ^ 23 + M) * 2 ^ (E - 1)

/-- Magnitude of a finite half: m·2^-24 if subnormal, (2^10+m)·2^(e-25) otherwise. -/
def hmag (e m : Nat) : Nat := if e = 0 then m * 2 ^ 125 else (2 ^ 10 + m) * 2 ^ (e + 124)

/-- Magnitude by the lower 15 bits. The pattern of infinity, 31·2^10, gets the value 2^16 it stands for
in IEEE rounding (values of at least 65520 overflow). -/
def hval (k : Nat) : Nat := hmag (k / 2 ^ 10) (k % 2 ^ 10)

/-- Distance of two magnitudes. -/
def dist (a b : Nat) : Nat := (a - b) + (b - a)

/-- `k` is the IEEE round-to-nearest, ties-to-even result for a magnitude `x`: no half magnitude is
nearer, and if another is as near, `k` is even. -/
def Nearest (x k : Nat) : Prop :=
  k ≤ 31 * 2 ^ 10 ∧ (∀ j, j ≤ 31 * 2 ^ 10 → dist x (hval k) ≤ dist x (hval j)) ∧
  (∀ j, j ≤ 31 * 2 ^ 10 → j ≠ k → dist x (hval j) = dist x (hval k) → k % 2 = 0)

end Verif.HalfFloat
