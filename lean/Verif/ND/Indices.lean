import Verif.ND.Props
/-
All multi-indices of a shape in memory order, and facts about them used by several areas.
-/
namespace Verif.ND

/-- All multi-indices in row-major order. -/
def indices : Shape → List (List Nat)
  | [] => [[]]
  | d :: ds => (List.range d).flatMap fun i => (indices ds).map (i :: ·)

theorem mem_indices (s : Shape) (j : List Nat) : j ∈ indices s ↔ InBounds s j := by
  induction s generalizing j with
  | nil => cases j <;> simp [indices, InBounds]
  | cons d ds ih =>
    simp only [indices, List.mem_flatMap, List.mem_range, List.mem_map]
    cases j with
    | nil => simp [InBounds]
    | cons k ks =>
      simp only [InBounds, List.cons.injEq]
      constructor
      · rintro ⟨i, hi, l, hl, rfl, rfl⟩
        exact ⟨hi, (ih _).mp hl⟩
      · rintro ⟨h1, h2⟩
        exact ⟨k, h1, ks, (ih _).mpr h2, rfl, rfl⟩

theorem range_mul (d m : Nat) :
    (List.range d).flatMap (fun i => (List.range m).map (i * m + ·)) = List.range (d * m) := by
  induction d with
  | zero => simp
  | succ d ih =>
    rw [List.range_succ, List.flatMap_append, ih, Nat.add_mul, Nat.one_mul, List.range_add]
    simp

/-- The k-th multi-index is at memory position k. -/
theorem indices_ravel (s : Shape) : (indices s).map (ravel s) = List.range (prod s) := by
  induction s with
  | nil => rfl
  | cons d ds ih =>
    simp only [indices, prod, List.map_flatMap, List.map_map]
    rw [← range_mul]
    congr 1
    funext i
    rw [← ih, List.map_map]
    rfl

theorem indices_length (s : Shape) : (indices s).length = prod s := by
  have := congrArg List.length (indices_ravel s)
  simpa using this

theorem ravel_inj (s : Shape) (i j : List Nat) (hi : InBounds s i) (hj : InBounds s j)
    (h : ravel s i = ravel s j) : i = j := by
  rw [← flat2nd_ravel s i hi, h, flat2nd_ravel s j hj]

theorem indices_nodup (s : Shape) : ((indices s).map (ravel s)).Nodup := by
  rw [indices_ravel]; exact List.nodup_range

end Verif.ND
