import Verif.ND.Props
import Verif.Index.Model
/-
Specification of NumPy / Python basic indexing, written from the Python and NumPy documentation.
-/
namespace Verif.Index
open Verif.ND

/-- The step of a slice; omitted means 1. -/
def npStep (s : PySlice) : Int := s.step.getD 1

/-- Clamp a given bound: negative counts from the end, then limited to `[lo, hi]`. -/
def npBound (n : Nat) (lo hi : Int) (v : Int) : Int :=
  let w := if v < 0 then v + n else v
  if w < lo then lo else if w > hi then hi else w

/-- First position of the slice of a sequence of length `n` (Python `slice.indices`). -/
def npStart (n : Nat) (s : PySlice) : Int :=
  if npStep s > 0 then (s.start.map (npBound n 0 n)).getD 0
  else (s.start.map (npBound n (-1) (n - 1))).getD (n - 1)

/-- Bound of the slice of a sequence of length `n` (Python `slice.indices`). -/
def npStop (n : Nat) (s : PySlice) : Int :=
  if npStep s > 0 then (s.stop.map (npBound n 0 n)).getD n
  else (s.stop.map (npBound n (-1) (n - 1))).getD (-1)

/-- Number of selected positions: number of `j ≥ 0` with `start + j*step` before `stop`
(see `mem_npRange`). -/
def npLen (n : Nat) (s : PySlice) : Nat :=
  if npStep s > 0 then ((npStop n s - npStart n s + npStep s - 1) / npStep s).toNat
  else ((npStart n s - npStop n s + -npStep s - 1) / -npStep s).toNat

/-- The selected positions, in order. -/
def npRange (n : Nat) (s : PySlice) : List Nat :=
  (List.range (npLen n s)).map fun j : Nat => (npStart n s + j * npStep s).toNat

/-- What one key item does after the Ellipsis has been expanded. -/
inductive NpAxis
  | new
  | pick (p : Nat)
  | range (ps : List Nat)

/-- Number of axes a key item consumes. -/
def consumes : Item → Nat
  | .int _ => 1
  | .slice _ => 1
  | _ => 0

/-- Ellipsis expansion: the (single) Ellipsis, or else the end of the key, stands for as many full
slices as needed to consume all axes. -/
def npExpand (ndim : Nat) (key : List Item) : Option (List Item) :=
  let c := (key.map consumes).sum
  if key.count .ellipsis > 1 ∨ c > ndim then none
  else
    let pre := key.takeWhile (· != .ellipsis)
    let post := (key.dropWhile (· != .ellipsis)).drop 1
    some (pre ++ List.replicate (ndim - c) (.slice .full) ++ post)

/-- Meaning of an expanded key on a shape: `none` for an out-of-range integer or a zero step. -/
def npAxes : List Item → Shape → Option (List NpAxis)
  | [], _ => some []
  | .newaxis :: k, s => (npAxes k s).map (NpAxis.new :: ·)
  | .int i :: k, d :: s =>
    if -(d : Int) ≤ i ∧ i < d then
      (npAxes k s).map (NpAxis.pick (if i < 0 then i + d else i).toNat :: ·)
    else none
  | .slice sl :: k, d :: s =>
    if npStep sl = 0 then none else (npAxes k s).map (NpAxis.range (npRange d sl) :: ·)
  | _, _ => none

/-- NumPy basic indexing: what each result axis is. -/
def npIndex (shape : Shape) (key : List Item) : Option (List NpAxis) :=
  (npExpand shape.length key).bind fun k => npAxes k shape

/-- Shape of the result. -/
def npShape : List NpAxis → Shape
  | [] => []
  | .new :: a => 1 :: npShape a
  | .pick _ :: a => npShape a
  | .range ps :: a => ps.length :: npShape a

/-- The element of the indexed array that the result's element at multi-index `j` is. -/
def npSource : List NpAxis → List Nat → List Nat
  | .new :: a, _ :: j => npSource a j
  | .pick p :: a, j => p :: npSource a j
  | .range ps :: a, i :: j => ps.getD i 0 :: npSource a j
  | _, _ => []

/-! ### The specification says what the documentation says -/

/-- Python documentation: a slice with positive step selects `i, i+k, i+2k, …` stopping before `j`;
with negative step going down; where `i`, `j` are the clamped bounds. -/
theorem mem_npRange (n : Nat) (s : PySlice) (p : Nat) (h0 : npStep s ≠ 0) :
    p ∈ npRange n s ↔ ∃ j : Nat, (p : Int) = npStart n s + j * npStep s ∧
      (if npStep s > 0 then (p : Int) < npStop n s else npStop n s < p) := by
  have hstart0 : npStep s > 0 → 0 ≤ npStart n s := by
    intro h
    simp only [npStart, if_pos h]
    cases s.start with
    | none => simp
    | some v => simp only [Option.map_some, Option.getD_some, npBound]; split <;> split <;> (try split) <;> omega
  have hstop0 : ¬ npStep s > 0 → -1 ≤ npStop n s := by
    intro h
    simp only [npStop, if_neg h]
    cases s.stop with
    | none => simp
    | some v => simp only [Option.map_some, Option.getD_some, npBound]; split <;> split <;> (try split) <;> omega
  simp only [npRange, List.mem_map, List.mem_range, npLen]
  generalize npStart n s = a at *
  generalize npStop n s = b at *
  generalize npStep s = k at *
  by_cases hk : k > 0
  · simp only [if_pos hk]
    have key : ∀ j : Nat, (j < ((b - a + k - 1) / k).toNat ↔ a + j * k < b) := by
      intro j
      rw [Int.lt_toNat, Int.lt_iff_add_one_le, Int.le_ediv_iff_mul_le hk, Int.add_mul]; omega
    constructor
    · rintro ⟨j, hj, e⟩
      have h1 := (key j).mp hj
      have h2 : 0 ≤ (j : Int) * k := Int.mul_nonneg (by omega) (by omega)
      have := hstart0 hk
      exact ⟨j, by omega, by omega⟩
    · rintro ⟨j, e, h1⟩
      exact ⟨j, (key j).mpr (by omega), by omega⟩
  · simp only [if_neg hk]
    have hk' : 0 < -k := by omega
    have key : ∀ j : Nat, (j < ((a - b + -k - 1) / -k).toNat ↔ b < a + j * k) := by
      intro j
      rw [Int.lt_toNat, Int.lt_iff_add_one_le, Int.le_ediv_iff_mul_le hk', Int.add_mul, Int.mul_neg]; omega
    constructor
    · rintro ⟨j, hj, e⟩
      have h1 := (key j).mp hj
      have := hstop0 hk
      exact ⟨j, by omega, by omega⟩
    · rintro ⟨j, e, h1⟩
      exact ⟨j, (key j).mpr (by omega), by omega⟩

/-- Selected positions are positions of the sequence. -/
theorem npRange_lt (n : Nat) (s : PySlice) (p : Nat) (h0 : npStep s ≠ 0) (h : p ∈ npRange n s) : p < n := by
  obtain ⟨j, e, hb⟩ := (mem_npRange n s p h0).mp h
  by_cases hk : npStep s > 0
  · simp only [if_pos hk] at hb
    have : npStop n s ≤ n := by
      simp only [npStop, if_pos hk]
      cases s.stop with
      | none => simp
      | some v => simp only [Option.map_some, Option.getD_some, npBound]; split <;> split <;> (try split) <;> omega
    omega
  · have h1 : npStart n s ≤ n - 1 := by
      simp only [npStart, if_neg hk]
      cases s.start with
      | none => simp
      | some v => simp only [Option.map_some, Option.getD_some, npBound]; split <;> split <;> (try split) <;> omega
    have h2 : (j : Int) * npStep s ≤ 0 := by
      have := Int.mul_nonneg (a := (j : Int)) (b := -npStep s) (by omega) (by omega)
      rw [Int.mul_neg] at this; omega
    omega

example : npRange 10 ⟨some 2, some 8, some 3⟩ = [2, 5] := by decide
example : npRange 5 ⟨none, none, some (-2)⟩ = [4, 2, 0] := by decide
example : npRange 5 ⟨some (-10), some 3, none⟩ = [0, 1, 2] := by decide
example : npIndex [2, 3] [.newaxis, .int (-1)] = some [.new, .pick 1, .range [0, 1, 2]] := rfl

end Verif.Index
