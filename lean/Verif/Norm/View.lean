/-
Groups of elements (the specification of all normalizations) and the correspondence between an array and its layout in the
batch normalization that computes it.
-/
import Verif.Norm.Model

namespace Verif.Norm
open Verif.Fn Verif.Elem Verif.BatchNorm Verif.ND

/-! ### Specification vocabulary -/

/-- The elements that are normalised together with element `i`: those with the same coordinates on `axes`. -/
def group (sh : Shape) (axes : List Nat) (i : List Nat) : List (List Nat) :=
  (indices sh).filter fun k => axes.all fun b => k.getD b 0 == i.getD b 0

/-- The mean of a list of elements of an array. -/
noncomputable def meanOf (sh : Shape) (x : Mem ℝ) (ks : List (List Nat)) : ℝ :=
  (ks.map fun k => x (ravel sh k)).sum / ks.length

/-- Their variance. -/
noncomputable def varOf (sh : Shape) (x : Mem ℝ) (ks : List (List Nat)) : ℝ :=
  (ks.map fun k => (x (ravel sh k) - meanOf sh x ks) ^ 2).sum / ks.length

/-- The index of the parameter of element `k`: 0 on the other axes. -/
def mask (axes : List Nat) (k : List Nat) : List Nat :=
  (List.range k.length).map fun i => if i ∈ axes then k.getD i 0 else 0

/-! ### Layouts -/

/-- The channel of an element of the batch normalization. -/
def chan (a : Args) (q : Nat) : Nat := q / a.n2 % a.n1

theorem chan_off (a : Args) {i0 i1 i2 : Nat} (h1 : i1 < a.n1) (h2 : i2 < a.n2) : chan a (off a.n1 a.n2 i0 i1 i2) = i1 := by
  have : off a.n1 a.n2 i0 i1 i2 = i2 + a.n2 * (i0 * a.n1 + i1) := by simp only [off]; ring
  rw [chan, this, Nat.add_mul_div_left _ _ (by omega), Nat.div_eq_of_lt h2, Nat.zero_add, Nat.add_comm, Nat.add_mul_mod_self_right,
    Nat.mod_eq_of_lt h1]

/-- `π` lays the elements of an array of shape `sh` out for a batch normalization, such that elements share a channel iff they
agree on `axes`. -/
structure View (sh : Shape) (axes : List Nat) (a : Args) (π : List Nat → Nat) : Prop where
  perm : ((indices sh).map π).Perm (List.range (a.n0 * a.n1 * a.n2))
  chan : ∀ k k', InBounds sh k → InBounds sh k' → (chan a (π k) = chan a (π k') ↔ ∀ b ∈ axes, k.getD b 0 = k'.getD b 0)

variable {sh : Shape} {axes : List Nat} {a : Args} {π : List Nat → Nat}

theorem View.lt (h : View sh axes a π) {k : List Nat} (hk : InBounds sh k) : π k < a.n0 * a.n1 * a.n2 :=
  List.mem_range.1 (h.perm.mem_iff.1 (List.mem_map_of_mem ((mem_indices _ _).2 hk)))

theorem list_sum_range (n : Nat) (f : Nat → ℝ) : ((List.range n).map f).sum = ∑ i ∈ Finset.range n, f i := by
  rw [← Finset.sum_map_val]; rfl

theorem View.sum (h : View sh axes a π) (f : Nat → ℝ) :
    ∑ q ∈ Finset.range (a.n0 * a.n1 * a.n2), f q = ((indices sh).map fun k => f (π k)).sum := by
  rw [← list_sum_range, ← (h.perm.map f).sum_eq, List.map_map]; rfl

theorem sum_filter_map {α} (l : List α) (p : α → Bool) (f : α → ℝ) :
    (l.map fun k => if p k = true then f k else 0).sum = ((l.filter p).map f).sum := by
  induction l with
  | nil => rfl
  | cons k l ih =>
    cases hp : p k <;> simp [hp, ih]

/-- A sum over a channel is the sum over the group. -/
theorem View.sum_chan (h : View sh axes a π) (f : Nat → ℝ) {i : List Nat} (hi : InBounds sh i) :
    ∑ i0 ∈ Finset.range a.n0, ∑ i2 ∈ Finset.range a.n2, f (off a.n1 a.n2 i0 (Norm.chan a (π i)) i2) =
      ((group sh axes i).map fun k => f (π k)).sum := by
  have hlt := h.lt hi
  have h1 : 0 < a.n1 := Nat.pos_of_ne_zero (by intro e; simp [e] at hlt)
  have h2 : 0 < a.n2 := Nat.pos_of_ne_zero (by intro e; simp [e] at hlt)
  have hc : Norm.chan a (π i) < a.n1 := Nat.mod_lt _ h1
  have e1 := h.sum (fun q => if Norm.chan a q = Norm.chan a (π i) then f q else 0)
  rw [sum_slices] at e1
  have e2 : ∀ i0 ∈ Finset.range a.n0, ∀ i2 ∈ Finset.range a.n2,
      ∑ i1 ∈ Finset.range a.n1, (if Norm.chan a (off a.n1 a.n2 i0 i1 i2) = Norm.chan a (π i) then f (off a.n1 a.n2 i0 i1 i2) else 0) =
        f (off a.n1 a.n2 i0 (Norm.chan a (π i)) i2) := by
    intro i0 _ i2 k2
    rw [Finset.sum_eq_single (Norm.chan a (π i))]
    · rw [if_pos (chan_off a hc (Finset.mem_range.1 k2))]
    · intro i1 k1 hne
      rw [if_neg (by rw [chan_off a (Finset.mem_range.1 k1) (Finset.mem_range.1 k2)]; exact hne)]
    · intro hn; exact absurd (Finset.mem_range.2 hc) hn
  rw [Finset.sum_congr rfl fun i0 k0 => Finset.sum_congr rfl fun i2 k2 => e2 i0 k0 i2 k2] at e1
  rw [e1, group, ← sum_filter_map]
  congr 1
  refine List.map_congr_left fun k hk => ?_
  have := h.chan k i ((mem_indices _ _).1 hk) hi
  by_cases hb : ∀ b ∈ axes, k.getD b 0 = i.getD b 0
  · rw [if_pos (this.2 hb), if_pos (by simpa using hb)]
  · rw [if_neg (fun e => hb (this.1 e)), if_neg (by simpa using hb)]

theorem View.card (h : View sh axes a π) {i : List Nat} (hi : InBounds sh i) :
    (a.n0 : ℝ) * a.n2 = (group sh axes i).length := by
  have := h.sum_chan (fun _ => 1) hi
  simpa using this

/-- The mean of a channel is the mean of the group. -/
theorem View.mean (h : View sh axes a π) {x xb : Mem ℝ} (hx : ∀ k, InBounds sh k → xb (π k) = x (ravel sh k)) {i : List Nat}
    (hi : InBounds sh i) : BatchNorm.mean a xb (Norm.chan a (π i)) = meanOf sh x (group sh axes i) := by
  rw [BatchNorm.mean, meanOf, h.sum_chan xb hi, h.card hi]
  congr 2
  refine List.map_congr_left fun k hk => hx k ((mem_indices _ _).1 (List.mem_filter.1 hk).1)

theorem View.variance (h : View sh axes a π) {x xb : Mem ℝ} (hx : ∀ k, InBounds sh k → xb (π k) = x (ravel sh k)) {i : List Nat}
    (hi : InBounds sh i) : BatchNorm.variance a xb (Norm.chan a (π i)) = varOf sh x (group sh axes i) := by
  rw [BatchNorm.variance, varOf, h.sum_chan (fun q => (xb q - BatchNorm.mean a xb (Norm.chan a (π i))) ^ 2) hi, h.card hi, h.mean hx hi]
  congr 2
  refine List.map_congr_left fun k hk => ?_
  rw [hx k ((mem_indices _ _).1 (List.mem_filter.1 hk).1)]

/-- What batch normalization computes for an element, in terms of its group. -/
theorem View.forward (h : View sh axes a π) (ok : Ok a) {x xb : Mem ℝ} (hx : ∀ k, InBounds sh k → xb (π k) = x (ravel sh k))
    (beta gamma : Option (Mem ℝ)) (o : Out) {i : List Nat} (hi : InBounds sh i) :
    let r := forwardBatch a xb beta gamma true o
    r.y (π i) = scaleOf gamma (Norm.chan a (π i)) * (x (ravel sh i) - meanOf sh x (group sh axes i)) /
        √(varOf sh x (group sh axes i) + a.eps) + biasOf beta (Norm.chan a (π i)) ∧
    r.m (Norm.chan a (π i)) = meanOf sh x (group sh axes i) ∧ r.v (Norm.chan a (π i)) = varOf sh x (group sh axes i) := by
  intro r
  obtain ⟨g1, g2⟩ := c105_forward a ok xb beta gamma true o
  obtain ⟨i0, i1, i2, k0, k1, k2, e⟩ := exists_off (h.lt hi)
  have ec : Norm.chan a (π i) = i1 := by rw [e, chan_off a k1 k2]
  have em := h.mean hx hi
  have ev := h.variance hx hi
  have ex := hx i hi
  rw [ec] at em ev
  refine ⟨?_, ?_, ?_⟩
  · have := g1 i0 i1 i2 k0 k1 k2
    rw [← e, ex, em, ev] at this
    rw [ec]; exact this
  · rw [ec, (g2 i1 k1).1, em]
  · rw [ec, (g2 i1 k1).2, ev]

end Verif.Norm
