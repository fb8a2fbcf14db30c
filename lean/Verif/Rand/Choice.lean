import Verif.Rand.Samples
import Mathlib.Algebra.Order.Ring.Defs
import Mathlib.Tactic.Linarith
/-
C133: RandomChoice.
Models /repo/src/nbla/function/generic/random_choice.cpp.
Simplifications: weights and the uniform variates are elements of an ordered ring (no rounding); the generator
with `uniform_real_distribution<>(0, total)` is an arbitrary function of its state and `total`; rows of
the outer loop are independent and follow each other in memory, so one row is modelled, then the loop over rows.
-/
namespace Verif.Rand
open Verif.Fn

section
variable {R : Type} [CommRing R] [LinearOrder R] [IsStrictOrderedRing R]

/-- `uniform_real_distribution<>(0, total)(rgen)`. -/
abbrev Unif (G R : Type) := R → G → R × G

/-- std::partial_sum(w, w + size, w_sum) (random_choice.cpp:89, 116): entry `i` is the sum of w[0] … w[i]. -/
def wsum (w : Mem R) : Nat → R
  | 0 => w 0
  | i + 1 => wsum w i + w (i + 1)

/-- `for (int i = 0; i < w_size; i++) if (u < w_sum[i]) { … break; }` (random_choice.cpp:96-101, 120-129). -/
def firstBelow (s : Mem R) (u : R) (size : Nat) : Option Nat := (List.range size).find? (fun i => decide (u < s i))

/-- One row with replacement (random_choice.cpp:85-104): `n` draws, each giving an index; the generator is
threaded through. -/
def rowReplace {G} (unif : Unif G R) (size : Nat) (w : Mem R) : Nat → G → List Nat × G
  | 0, g => ([], g)
  | n + 1, g =>
    let r := unif (wsum w (size - 1)) g
    let r' := rowReplace unif size w n r.2
    ((firstBelow (wsum w) r.1 size).getD (size - 1) :: r'.1, r'.2)

/-- The checks with replacement (random_choice.cpp:87-91). -/
def checkReplace (size : Nat) (w : Mem R) : Bool :=
  (List.range size).all (fun i => !decide (w i < 0)) && decide (0 < wsum w (size - 1))

/-- The check without replacement (random_choice.cpp:108-111). -/
def checkNoReplace (size n : Nat) (w : Mem R) : Bool :=
  decide (n ≤ ((List.range size).filter (fun i => decide (0 < w i))).length)

/-- Body of the inner loop `while (need--)` without replacement (random_choice.cpp:119-130). -/
def tryOne (size : Nat) (s : Mem R) (u : R) (st : Mem R × List Nat) : Mem R × List Nat :=
  match firstBelow s u size with
  | some i => if 0 < st.1 i then (put st.1 i 0, st.2 ++ [i]) else st
  | none => st

/-- The inner loop (random_choice.cpp:118-131): `need` draws against the same partial sums. -/
def tryMany {G} (unif : Unif G R) (size : Nat) (s : Mem R) : Nat → (Mem R × List Nat) × G → (Mem R × List Nat) × G
  | 0, st => st
  | need + 1, st =>
    let r := unif (s (size - 1)) st.2
    tryMany unif size s need (tryOne size s r.1 st.1, r.2)

/-- The outer loop `while (have < inner_loop_)` (random_choice.cpp:113-133); `fuel` bounds the number of rounds,
`none` means that it was not enough. -/
def rounds {G} (unif : Unif G R) (size n : Nat) : Nat → (Mem R × List Nat) × G → Option (List Nat × G)
  | fuel, st =>
    if n ≤ st.1.2.length then some (st.1.2, st.2) else
      match fuel with
      | 0 => none
      | fuel + 1 => rounds unif size n fuel (tryMany unif size (wsum st.1.1) (n - st.1.2.length) st)

/-- One row without replacement (random_choice.cpp:106-136). -/
def rowNoReplace {G} (unif : Unif G R) (size n fuel : Nat) (w : Mem R) (g : G) : Option (List Nat × G) :=
  rounds unif size n fuel ((w, []), g)

/-- RandomChoice::backward_impl for one input (random_choice.cpp:186-211): `grad[b * w_size + idx] += dy`, `idx` being the
list of the indices chosen in each row. -/
def choicePairs (size : Nat) : List (List Nat) → Nat → Nat → Pairs
  | [], _, _ => []
  | row :: rows, yo, xo => (row.mapIdx fun i a => (yo + i, xo + a)) ++ choicePairs size rows (yo + row.length) (xo + size)

/-! ### Lemmas -/

theorem wsum_mono (w : Mem R) (size : Nat) (h : ∀ i, i < size → 0 ≤ w i) (a b : Nat) (hab : a ≤ b) (hb : b < size) :
    wsum w a ≤ wsum w b := by
  induction b with
  | zero => have : a = 0 := by omega
            subst this; exact le_refl _
  | succ b ih =>
    by_cases e : a = b + 1
    · subst e; exact le_refl _
    · have h1 := ih (by omega) (by omega)
      have h2 := h (b + 1) hb
      show wsum w a ≤ wsum w b + w (b + 1)
      linarith

/-- Sum of the weights before `i`. -/
def before (w : Mem R) (i : Nat) : R := ∑ k ∈ Finset.range i, w k

theorem wsum_eq (w : Mem R) (i : Nat) : wsum w i = before w (i + 1) := by
  induction i with
  | zero => simp [wsum, before]
  | succ i ih => rw [wsum, ih, before, before, Finset.sum_range_succ _ (i + 1)]

theorem firstBelow_some (s : Mem R) (u : R) (size i : Nat) :
    firstBelow s u size = some i ↔ i < size ∧ u < s i ∧ ∀ k, k < i → s k ≤ u := by
  unfold firstBelow
  rw [List.find?_range_eq_some]
  simp only [decide_eq_true_eq, List.mem_range, Bool.not_eq_true', decide_eq_false_iff_not, not_lt]
  constructor
  · rintro ⟨h1, h2, h3⟩; exact ⟨h2, h1, h3⟩
  · rintro ⟨h1, h2, h3⟩; exact ⟨h2, h1, h3⟩

theorem firstBelow_total (s : Mem R) (u : R) (size : Nat) (hs : 0 < size) (h : u < s (size - 1)) :
    ∃ i, firstBelow s u size = some i := by
  cases hf : firstBelow s u size with
  | some i => exact ⟨i, rfl⟩
  | none =>
    unfold firstBelow at hf
    rw [List.find?_range_eq_none] at hf
    have := hf (size - 1) (by omega)
    simp [h] at this

/-- The index found has a positive weight when the sums are up to date. -/
theorem firstBelow_pos (w : Mem R) (u : R) (size i : Nat) (hu : 0 ≤ u) (h : firstBelow (wsum w) u size = some i) : 0 < w i := by
  obtain ⟨_, h2, h3⟩ := (firstBelow_some _ _ _ _).mp h
  cases i with
  | zero => exact lt_of_le_of_lt hu h2
  | succ i =>
    have := h3 i (by omega)
    have h2' : u < wsum w i + w (i + 1) := h2
    linarith

end
end Verif.Rand
