import Verif.Interp.Model
import Verif.Elem.ReduceProps
import Mathlib.Tactic.Linarith
import Mathlib.Tactic.FieldSimp
/-
Loops whose outputs are weighted sums of inputs and whose gradients are added back with the same weights.
-/
namespace Verif.Interp
open Verif.ND Verif.Fn Verif.Act Verif.Elem

theorem adds_eq (l : List (Nat × ℝ)) (m : Mem ℝ) (k : Nat) :
    adds l m k = m k + (l.map fun p => if p.1 = k then p.2 else 0).sum := by
  induction l generalizing m with
  | nil => simp [adds]
  | cons p l ih =>
    show adds l (put m p.1 (m p.1 + p.2)) k = _
    rw [ih]
    simp only [List.map_cons, List.sum_cons]
    by_cases h : p.1 = k
    · subst h; simp [add_assoc]
    · rw [put_other _ _ (Ne.symm h)]; simp [h]

theorem dot_adds (n : Nat) (l : List (Nat × ℝ)) (hb : ∀ p ∈ l, p.1 < n) (x : Mem ℝ) :
    dot n (adds l zeros) x = (l.map fun p => p.2 * x p.1).sum := by
  induction l with
  | nil => simp [dot, adds, zeros]
  | cons p l ih =>
    have h1 := ih fun q hq => hb q (List.mem_cons_of_mem _ hq)
    simp only [List.map_cons, List.sum_cons]
    rw [← h1]
    simp only [dot, adds_eq, zeros, List.map_cons, List.sum_cons, zero_add, add_mul, Finset.sum_add_distrib]
    congr 1
    have := sum_range_ite n p.1 (hb p List.mem_cons_self) (fun k => p.2 * x k)
    simpa [ite_mul] using this

theorem puts_mem (l : List (Nat × ℝ)) (y : Mem ℝ) (h : (l.map Prod.fst).Nodup) (p : Nat × ℝ) (hp : p ∈ l) :
    puts l y p.1 = p.2 := by
  refine (puts_spec l y).1 (fun p hp q hq e => ?_) p hp
  have := List.inj_on_of_nodup_map h hp hq e
  rw [this]

theorem dot_puts (m : Nat) (l : List (Nat × ℝ)) (y dy : Mem ℝ) (h : l.map Prod.fst = List.range m) :
    dot m dy (puts l y) = (l.map fun p => dy p.1 * p.2).sum := by
  rw [dot, sum_range_list, ← h, List.map_map]
  congr 1
  apply List.map_congr_left
  intro p hp
  simp only [Function.comp]
  rw [puts_mem l y (h ▸ List.nodup_range) p hp]

theorem sum_flatMap {α β} (l : List α) (f : α → List β) (g : β → ℝ) :
    ((l.flatMap f).map g).sum = (l.map fun a => ((f a).map g).sum).sum := by
  induction l with
  | nil => simp
  | cons a l ih => simp [List.flatMap_cons, ih]

/-- The weighted sum that one output is. -/
noncomputable def wsum (cs : List (Nat × ℝ)) (s : Mem ℝ) : ℝ := (cs.map fun c => c.2 * s c.1).sum

/-- The forward kernel of one plane, from the weights. -/
noncomputable def gatherW (qs : Shape) (cs : List Nat → List (Nat × ℝ)) (s : Mem ℝ) : List (Nat × ℝ) :=
  (indices qs).map fun o => (ravel qs o, wsum (cs o) s)

/-- The backward kernel of one plane, from the weights. -/
noncomputable def scatterW (qs : Shape) (cs : List Nat → List (Nat × ℝ)) (g : Mem ℝ) : List (Nat × ℝ) :=
  (indices qs).flatMap fun o => (cs o).map fun c => (c.1, c.2 * g (ravel qs o))

theorem outer_fst (N A : Nat) (qs : Shape) (cs : List Nat → List (Nat × ℝ)) (x : Mem ℝ) :
    (outerLoop N A (prod qs) (gatherW qs cs) x).map Prod.fst = List.range (N * prod qs) := by
  rw [← range_mul, outerLoop, List.map_flatMap]
  congr 1
  funext n
  rw [← indices_ravel, gatherW, List.map_map, List.map_map, List.map_map]
  rfl

/-- The value of every output. -/
theorem weighted_value (N A : Nat) (qs : Shape) (cs : List Nat → List (Nat × ℝ)) (x y : Mem ℝ) (n : Nat) (hn : n < N)
    (o : List Nat) (ho : InBounds qs o) :
    puts (outerLoop N A (prod qs) (gatherW qs cs) x) y (n * prod qs + ravel qs o) = wsum (cs o) fun k => x (n * A + k) := by
  have h := outer_fst N A qs cs x
  refine puts_mem _ y (h ▸ List.nodup_range) (n * prod qs + ravel qs o, wsum (cs o) fun k => x (n * A + k)) ?_
  simp only [outerLoop, List.mem_flatMap, List.mem_range, List.mem_map, gatherW]
  exact ⟨n, hn, _, ⟨o, (mem_indices _ _).mpr ho, rfl⟩, rfl⟩

theorem weighted_outside (N A : Nat) (qs : Shape) (cs : List Nat → List (Nat × ℝ)) (x y : Mem ℝ) (k : Nat)
    (hk : N * prod qs ≤ k) : puts (outerLoop N A (prod qs) (gatherW qs cs) x) y k = y k := by
  refine (puts_spec _ y).2 k fun p hp e => ?_
  have : p.1 ∈ List.range (N * prod qs) := outer_fst N A qs cs x ▸ List.mem_map.mpr ⟨p, hp, rfl⟩
  rw [List.mem_range] at this
  omega

/-- The gradient. -/
theorem weighted_grad (N A : Nat) (qs : Shape) (cs : List Nat → List (Nat × ℝ))
    (hcs : ∀ o, InBounds qs o → ∀ c ∈ cs o, c.1 < A) (y : Mem ℝ) :
    GradOK (N * A) (N * prod qs) (fun x => puts (outerLoop N A (prod qs) (gatherW qs cs) x) y)
      (callBackward fun _ dy dx => adds (outerLoop N (prod qs) A (scatterW qs cs) dy) dx) := by
  constructor
  · intro dx x dy
    simp only [callBackward, Bool.false_eq_true, if_false]
    rw [dot_puts _ _ _ _ (outer_fst N A qs cs x), dot_adds]
    · simp only [outerLoop, gatherW, scatterW, sum_flatMap, List.map_map]
      congr 1
      apply List.map_congr_left
      intro n _
      congr 1
      apply List.map_congr_left
      intro o _
      simp only [Function.comp, wsum, List.map_map]
      rw [← List.sum_map_mul_left]
      congr 1
      apply List.map_congr_left
      intro c _
      simp only [Function.comp]
      ring
    · intro p hp
      simp only [outerLoop, scatterW, List.mem_flatMap, List.mem_range, List.mem_map] at hp
      obtain ⟨n, hn, q, ⟨o, ho, c, hc, rfl⟩, rfl⟩ := hp
      have h1 := hcs o ((mem_indices _ _).mp ho) c hc
      have h2 : n * A + A ≤ N * A := by
        have := Nat.mul_le_mul_right A (show n + 1 ≤ N by omega)
        rw [Nat.succ_mul] at this; exact this
      show n * A + c.1 < N * A
      omega
  · intro dy dx dx' k
    simp only [callBackward, Bool.false_eq_true, if_false, if_true]
    rw [adds_eq, adds_eq _ zeros]
    simp [zeros]

/-- Corners and weights of one output, axis by axis. -/
noncomputable def corners : List Nat → List Cor → List (Nat × ℝ)
  | _ :: is, c :: cs =>
    (corners is cs).map (fun p => (c.x1 * prod is + p.1, c.l0 * p.2)) ++
      (corners is cs).map fun p => (c.x2 * prod is + p.1, c.l1 * p.2)
  | _, _ => [(0, 1)]

theorem wsum_corners_cons (i : Nat) (is : List Nat) (c : Cor) (cs : List Cor) (s : Mem ℝ) :
    wsum (corners (i :: is) (c :: cs)) s = c.l0 * wsum (corners is cs) (fun k => s (c.x1 * prod is + k)) +
      c.l1 * wsum (corners is cs) fun k => s (c.x2 * prod is + k) := by
  simp only [wsum, corners, List.map_append, List.sum_append, List.map_map]
  rw [← List.sum_map_mul_left, ← List.sum_map_mul_left]
  congr 2 <;>
  · apply List.map_congr_left
    intro p _
    simp only [Function.comp]
    ring

end Verif.Interp
