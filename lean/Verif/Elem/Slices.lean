import Verif.Elem.Vjp
import Mathlib.Algebra.BigOperators.Intervals
/-
Machinery for functions that work on the slices of an array along one axis: offset
i0 * size1 * size2 + i1 * size2 + i2, loops over i0 and i2 outside, over i1 inside.
-/
namespace Verif.Elem
open Verif.Fn

/-- Offset of element i1 of slice (i0, i2). -/
def off (n1 n2 i0 i1 i2 : Nat) : Nat := i0 * n1 * n2 + i1 * n2 + i2

/-- The two outer loops: `for i0 { for i2 { body } }`. -/
def forSlices {α} (n0 n2 : Nat) (body : Nat → Nat → α → α) (m : α) : α :=
  (List.range n0).foldl (fun m i0 => (List.range n2).foldl (fun m i2 => body i0 i2 m) m) m

/-- The inner loop `for i1 { m[p i1] = g i1 m[p i1] }`. -/
def forPut {R} (n1 : Nat) (p : Nat → Nat) (g : Nat → R → R) (m : Mem R) : Mem R :=
  (List.range n1).foldl (fun m i1 => put m (p i1) (g i1 (m (p i1)))) m

theorem off_lt {n0 n1 n2 i0 i1 i2 : Nat} (h0 : i0 < n0) (h1 : i1 < n1) (h2 : i2 < n2) : off n1 n2 i0 i1 i2 < n0 * n1 * n2 := by
  unfold off
  have e1 : i1 * n2 + n2 ≤ n1 * n2 := by
    have := Nat.mul_le_mul_right n2 (show i1 + 1 ≤ n1 by omega)
    rw [Nat.succ_mul] at this; omega
  have e2 : i0 * (n1 * n2) + n1 * n2 ≤ n0 * (n1 * n2) := by
    have := Nat.mul_le_mul_right (n1 * n2) (show i0 + 1 ≤ n0 by omega)
    rw [Nat.succ_mul] at this; omega
  rw [Nat.mul_assoc, Nat.mul_assoc]
  omega

theorem off_inj {n1 n2 i0 i1 i2 j0 j1 j2 : Nat} (h1 : i1 < n1) (h2 : i2 < n2) (k1 : j1 < n1) (k2 : j2 < n2)
    (e : off n1 n2 i0 i1 i2 = off n1 n2 j0 j1 j2) : i0 = j0 ∧ i1 = j1 ∧ i2 = j2 := by
  have e' : (i0 * n1 + i1) * n2 + i2 = (j0 * n1 + j1) * n2 + j2 := by
    unfold off at e; rw [Nat.add_mul, Nat.add_mul]; exact e
  have a2 : i2 = j2 := by
    have := congrArg (· % n2) e'
    simpa [Nat.add_mod, Nat.mod_eq_of_lt h2, Nat.mod_eq_of_lt k2] using this
  subst a2
  have hp : 0 < n2 := by omega
  have a1 : i0 * n1 + i1 = j0 * n1 + j1 := Nat.eq_of_mul_eq_mul_right hp (by omega)
  have b1 : i1 = j1 := by
    have := congrArg (· % n1) a1
    simpa [Nat.add_mod, Nat.mod_eq_of_lt h1, Nat.mod_eq_of_lt k1] using this
  subst b1
  have hq : 0 < n1 := by omega
  exact ⟨Nat.eq_of_mul_eq_mul_right hq (by omega), rfl, rfl⟩

theorem exists_off {n0 n1 n2 k : Nat} (h : k < n0 * n1 * n2) :
    ∃ i0 i1 i2, i0 < n0 ∧ i1 < n1 ∧ i2 < n2 ∧ k = off n1 n2 i0 i1 i2 := by
  have h2 : 0 < n2 := Nat.pos_of_ne_zero (by rintro rfl; simp at h)
  have h1 : 0 < n1 := Nat.pos_of_ne_zero (by rintro rfl; simp at h)
  refine ⟨k / n2 / n1, k / n2 % n1, k % n2, ?_, Nat.mod_lt _ h1, Nat.mod_lt _ h2, ?_⟩
  · exact Nat.div_lt_of_lt_mul (by
      have := Nat.div_lt_of_lt_mul (show k < n2 * (n0 * n1) by rw [Nat.mul_comm]; exact h)
      rwa [Nat.mul_comm] at this)
  · unfold off
    rw [← Nat.add_mul, Nat.mul_comm (k / n2 / n1), Nat.div_add_mod, Nat.mul_comm, Nat.div_add_mod]

/-- The inner loop writes exactly its positions. -/
theorem forPut_spec {R} (n1 : Nat) (p : Nat → Nat) (g : Nat → R → R) (m : Mem R)
    (hinj : ∀ i j, i < n1 → j < n1 → p i = p j → i = j) :
    (∀ i, i < n1 → forPut n1 p g m (p i) = g i (m (p i))) ∧ ∀ k, (∀ i, i < n1 → p i ≠ k) → forPut n1 p g m k = m k := by
  induction n1 with
  | zero => exact ⟨fun i hi => absurd hi (by omega), fun k _ => rfl⟩
  | succ n ih =>
    obtain ⟨ih1, ih2⟩ := ih (fun i j hi hj => hinj i j (by omega) (by omega))
    have e : forPut (n + 1) p g m = put (forPut n p g m) (p n) (g n (forPut n p g m (p n))) := by
      simp only [forPut, List.range_succ, List.foldl_append, List.foldl_cons, List.foldl_nil]
    have hn : forPut n p g m (p n) = m (p n) := ih2 _ fun i hi he => by
      have := hinj i n (by omega) (by omega) he
      omega
    rw [e]
    refine ⟨?_, ?_⟩
    · intro i hi
      by_cases h : i = n
      · subst h; rw [put_same, hn]
      · rw [put_other _ _ (fun he => h (hinj i n hi (by omega) he)), ih1 i (by omega)]
    · intro k hk
      rw [put_other _ _ (fun he => hk n (by omega) he.symm), ih2 k fun i hi => hk i (by omega)]

/-- The outer loops: if the body of slice (i0, i2) maps each of its elements by `val` and leaves everything else
alone, so does the loop for all slices. -/
theorem forSlices_spec {R} (n0 n1 n2 : Nat) (body : Nat → Nat → Mem R → Mem R) (val : Nat → Nat → Nat → R → R) (m : Mem R)
    (h1 : ∀ i0 i2, i0 < n0 → i2 < n2 → ∀ m i1, i1 < n1 → body i0 i2 m (off n1 n2 i0 i1 i2) = val i0 i1 i2 (m (off n1 n2 i0 i1 i2)))
    (h2 : ∀ i0 i2, i0 < n0 → i2 < n2 → ∀ m k, (∀ i1, i1 < n1 → off n1 n2 i0 i1 i2 ≠ k) → body i0 i2 m k = m k) :
    (∀ i0 i1 i2, i0 < n0 → i1 < n1 → i2 < n2 → forSlices n0 n2 body m (off n1 n2 i0 i1 i2) = val i0 i1 i2 (m (off n1 n2 i0 i1 i2))) ∧
    ∀ k, (∀ i0 i1 i2, i0 < n0 → i1 < n1 → i2 < n2 → off n1 n2 i0 i1 i2 ≠ k) → forSlices n0 n2 body m k = m k := by
  -- the inner of the two loops
  have inner : ∀ i0, i0 < n0 → ∀ c, c ≤ n2 → ∀ m : Mem R,
      (∀ i1 i2, i1 < n1 → i2 < c → (List.range c).foldl (fun m i2 => body i0 i2 m) m (off n1 n2 i0 i1 i2) =
        val i0 i1 i2 (m (off n1 n2 i0 i1 i2))) ∧
      ∀ k, (∀ i1 i2, i1 < n1 → i2 < c → off n1 n2 i0 i1 i2 ≠ k) → (List.range c).foldl (fun m i2 => body i0 i2 m) m k = m k := by
    intro i0 hi0 c
    induction c with
    | zero => intro _ m; exact ⟨fun _ _ _ h => absurd h (by omega), fun _ _ => rfl⟩
    | succ c ih =>
      intro hc m
      obtain ⟨a, b⟩ := ih (by omega) m
      rw [List.range_succ, List.foldl_append]
      simp only [List.foldl_cons, List.foldl_nil]
      refine ⟨?_, ?_⟩
      · intro i1 i2 hi1 hi2
        by_cases e : i2 = c
        · subst e
          rw [h1 i0 i2 hi0 (by omega) _ i1 hi1, b]
          intro j1 j2 hj1 hj2 he
          have := (off_inj hj1 (by omega) hi1 (by omega) he).2.2
          omega
        · rw [h2 i0 c hi0 (by omega), a i1 i2 hi1 (by omega)]
          intro j1 hj1 he
          have := (off_inj hj1 (by omega) hi1 (by omega) he).2.2
          omega
      · intro k hk
        rw [h2 i0 c hi0 (by omega) _ k fun i1 hi1 => hk i1 c hi1 (by omega), b k fun i1 i2 hi1 hi2 => hk i1 i2 hi1 (by omega)]
  have outer : ∀ c, c ≤ n0 → ∀ m : Mem R,
      (∀ i0 i1 i2, i0 < c → i1 < n1 → i2 < n2 → forSlices c n2 body m (off n1 n2 i0 i1 i2) = val i0 i1 i2 (m (off n1 n2 i0 i1 i2))) ∧
      ∀ k, (∀ i0 i1 i2, i0 < c → i1 < n1 → i2 < n2 → off n1 n2 i0 i1 i2 ≠ k) → forSlices c n2 body m k = m k := by
    intro c
    induction c with
    | zero => intro _ m; exact ⟨fun _ _ _ h => absurd h (by omega), fun _ _ => rfl⟩
    | succ c ih =>
      intro hc m
      obtain ⟨a, b⟩ := ih (by omega) m
      have e : forSlices (c + 1) n2 body m = (List.range n2).foldl (fun m i2 => body c i2 m) (forSlices c n2 body m) := by
        simp only [forSlices, List.range_succ, List.foldl_append, List.foldl_cons, List.foldl_nil]
      obtain ⟨p, q⟩ := inner c (by omega) n2 (le_refl _) (forSlices c n2 body m)
      rw [e]
      refine ⟨?_, ?_⟩
      · intro i0 i1 i2 hi0 hi1 hi2
        by_cases e : i0 = c
        · subst e
          rw [p i1 i2 hi1 hi2, b]
          intro j0 j1 j2 hj0 hj1 hj2 he
          have := (off_inj hj1 hj2 hi1 hi2 he).1
          omega
        · rw [q, a i0 i1 i2 (by omega) hi1 hi2]
          intro j1 j2 hj1 hj2 he
          have := (off_inj hj1 hj2 hi1 hi2 he).1
          omega
      · intro k hk
        rw [q k fun i1 i2 hi1 hi2 => hk c i1 i2 (by omega) hi1 hi2, b k fun i0 i1 i2 hi0 => hk i0 i1 i2 (by omega)]
  exact outer n0 (le_refl _) m

theorem sum_range_mul {R} [AddCommMonoid R] (a b : Nat) (f : Nat → R) :
    ∑ k ∈ Finset.range (a * b), f k = ∑ i ∈ Finset.range a, ∑ j ∈ Finset.range b, f (i * b + j) := by
  induction a with
  | zero => simp
  | succ a ih => rw [Nat.succ_mul, Finset.sum_range_add, ih, Finset.sum_range_succ]

/-- A sum over the array is the sum over its slices. -/
theorem sum_slices {R} [AddCommMonoid R] (n0 n1 n2 : Nat) (f : Nat → R) :
    ∑ k ∈ Finset.range (n0 * n1 * n2), f k =
      ∑ i0 ∈ Finset.range n0, ∑ i2 ∈ Finset.range n2, ∑ i1 ∈ Finset.range n1, f (off n1 n2 i0 i1 i2) := by
  rw [sum_range_mul, sum_range_mul]
  refine Finset.sum_congr rfl fun i0 _ => ?_
  rw [Finset.sum_comm]
  refine Finset.sum_congr rfl fun i2 _ => Finset.sum_congr rfl fun i1 _ => ?_
  congr 1
  unfold off
  ring

/-- Slicewise functions: if on every slice the backward formula is the vector-Jacobian product of the forward
formula, the same holds for the whole array. Input slices have `a` elements, output slices `b`. -/
theorem IsVJP.slices (n0 a b n2 : Nat) (F B : Mem ℝ → Mem ℝ) (x : Mem ℝ) (φ : Nat → Nat → Mem ℝ → Mem ℝ) (β : Nat → Nat → Mem ℝ → Mem ℝ)
    (hF : ∀ x i0 i1 i2, i0 < n0 → i1 < b → i2 < n2 → F x (off b n2 i0 i1 i2) = φ i0 i2 (fun i => x (off a n2 i0 i i2)) i1)
    (hB : ∀ dy i0 i1 i2, i0 < n0 → i1 < a → i2 < n2 → B dy (off a n2 i0 i1 i2) = β i0 i2 (fun i => dy (off b n2 i0 i i2)) i1)
    (h : ∀ i0 i2, i0 < n0 → i2 < n2 → IsVJP a b (φ i0 i2) (fun i => x (off a n2 i0 i i2)) (β i0 i2)) :
    IsVJP (n0 * a * n2) (n0 * b * n2) F x B := by
  intro c v hc dy
  have e1 : (fun t => dot (n0 * b * n2) dy (F (c t))) = fun t => ∑ i0 ∈ Finset.range n0, ∑ i2 ∈ Finset.range n2,
      dot b (fun i => dy (off b n2 i0 i i2)) (φ i0 i2 (fun i => c t (off a n2 i0 i i2))) := by
    funext t
    rw [dot, sum_slices]
    refine Finset.sum_congr rfl fun i0 h0 => Finset.sum_congr rfl fun i2 h2 => Finset.sum_congr rfl fun i1 h1 => ?_
    rw [hF _ _ _ _ (Finset.mem_range.mp h0) (Finset.mem_range.mp h1) (Finset.mem_range.mp h2)]
  have e2 : dot (n0 * a * n2) v (B dy) = ∑ i0 ∈ Finset.range n0, ∑ i2 ∈ Finset.range n2,
      dot a (fun i => v (off a n2 i0 i i2)) (β i0 i2 (fun i => dy (off b n2 i0 i i2))) := by
    rw [dot, sum_slices]
    refine Finset.sum_congr rfl fun i0 h0 => Finset.sum_congr rfl fun i2 h2 => Finset.sum_congr rfl fun i1 h1 => ?_
    rw [hB _ _ _ _ (Finset.mem_range.mp h0) (Finset.mem_range.mp h1) (Finset.mem_range.mp h2)]
  rw [e1, e2]
  refine HasDerivAt.fun_sum fun i0 h0 => HasDerivAt.fun_sum fun i2 h2 => ?_
  have h0 := Finset.mem_range.mp h0
  have h2 := Finset.mem_range.mp h2
  exact h i0 i2 h0 h2 (fun t i => c t (off a n2 i0 i i2)) (fun i => v (off a n2 i0 i i2))
    (fun k hk => hc _ (off_lt h0 hk h2)) _

end Verif.Elem
