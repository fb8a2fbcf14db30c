import Verif.Fn.Broadcast
import Verif.Mat.Diag
/-
C140: meshgrid. Models /repo/src/nbla/function/generic/meshgrid.cpp (with Broadcast, C73).
Simplifications: the inputs' lengths are given (all inputs have one axis); the temporary reshape of the inputs is the shape passed
to Broadcast.
-/
namespace Verif.Mat
open Verif.ND Verif.Fn

/-! ### Model -/

/-- The axis of input `i` (meshgrid.cpp:48-54, 84-87): `!ij_indexing_ && (i == 0 || i == 1) && n > 1` exchanges 0 and 1. -/
def meshAxis (ij : Bool) (n i : Nat) : Nat := if ¬ ij ∧ (i = 0 ∨ i = 1) ∧ n > 1 then 1 - i else i

/-- `shape_out` (meshgrid.cpp:38, 48-54): assigned input by input. -/
def meshShape (ij : Bool) (lens : List Nat) : Shape :=
  (List.range lens.length).foldl (fun s i => s.set (meshAxis ij lens.length i) (lens.getD i 0)) (List.replicate lens.length 1)

/-- `shape_inp` (meshgrid.cpp:46-54). -/
def meshInShape (ij : Bool) (lens : List Nat) (i : Nat) : Shape :=
  (List.replicate lens.length 1).set (meshAxis ij lens.length i) (lens.getD i 0)

/-- Meshgrid::forward_impl (meshgrid.cpp:68-90), output `i`. -/
def meshForward {R} (ij : Bool) (lens : List Nat) (i : Nat) (x y : Mem R) : Except String (Mem R) :=
  bcForward (meshInShape ij lens i) (meshShape ij lens) x y

/-- Meshgrid::backward_impl (meshgrid.cpp:92-124), gradient of input `i`; `pd` is propagate_down (false for missing entries). -/
def meshBackward {R} [Zero R] [Add R] (ij : Bool) (lens : List Nat) (pd : List Bool) (i : Nat) (accum : Bool) (dy dx : Mem R) : Except String (Mem R) :=
  if ¬ (pd.getD 0 false = true ∨ pd.getD 1 false = true) then .ok dx
  else if pd.getD i false then bcBackward (meshInShape ij lens i) (meshShape ij lens) accum dy dx
  else .ok dx

/-! ### Specification -/

/-- The axis along which output `i` varies: `i`, except that "xy" indexing exchanges the first two. -/
def axisOf (ij : Bool) (n i : Nat) : Nat :=
  if ij ∨ n ≤ 1 then i else if i = 0 then 1 else if i = 1 then 0 else i

/-! ### Lemmas -/

theorem meshAxis_eq (ij : Bool) (n i : Nat) : meshAxis ij n i = axisOf ij n i := by
  unfold meshAxis axisOf
  cases ij with
  | true => simp
  | false =>
    by_cases hn : n ≤ 1
    · simp [hn]
    · have : 1 < n := by omega
      rcases i with _ | _ | i <;> simp [this, hn]

theorem axisOf_lt (ij : Bool) (n i : Nat) (hi : i < n) : axisOf ij n i < n := by
  unfold axisOf; split; · exact hi
  · split; · omega
    · split <;> omega

theorem axisOf_invol (ij : Bool) (n i : Nat) : axisOf ij n (axisOf ij n i) = i := by
  unfold axisOf
  by_cases h : ij = true ∨ n ≤ 1
  · simp [h]
  · simp only [h, if_false]
    rcases i with _ | _ | i <;> simp

theorem meshShape_spec (ij : Bool) (lens : List Nat) :
    (meshShape ij lens).length = lens.length ∧ ∀ i, i < lens.length → (meshShape ij lens).getD (axisOf ij lens.length i) 0 = lens.getD i 0 := by
  have key : ∀ m, m ≤ lens.length →
      ((List.range m).foldl (fun s i => s.set (meshAxis ij lens.length i) (lens.getD i 0)) (List.replicate lens.length 1)).length = lens.length ∧
      ∀ i, i < m → ((List.range m).foldl (fun s i => s.set (meshAxis ij lens.length i) (lens.getD i 0)) (List.replicate lens.length 1)).getD
        (axisOf ij lens.length i) 0 = lens.getD i 0 := by
    intro m hm
    induction m with
    | zero => exact ⟨by simp, fun i hi => by omega⟩
    | succ m ih =>
      obtain ⟨h1, h2⟩ := ih (by omega)
      rw [List.range_succ, List.foldl_append]
      simp only [List.foldl_cons, List.foldl_nil]
      refine ⟨by rw [List.length_set, h1], ?_⟩
      intro i hi
      rw [meshAxis_eq]
      have hlt := axisOf_lt ij lens.length m (by omega)
      by_cases e : i = m
      · subst e
        rw [List.getD_eq_getElem?_getD, List.getElem?_set_self (by rw [h1]; exact hlt), Option.getD_some]
      · have hne : axisOf ij lens.length m ≠ axisOf ij lens.length i := by
          intro h
          have := congrArg (axisOf ij lens.length) h
          rw [axisOf_invol, axisOf_invol] at this
          omega
        have h3 := h2 i (by omega)
        simp only [List.getD_eq_getElem?_getD] at h3 ⊢
        rw [List.getElem?_set_ne hne]
        exact h3
  exact key lens.length (le_refl _)

theorem mesh_can (ij : Bool) (lens : List Nat) (i : Nat) (hi : i < lens.length) : CanBroadcast (meshInShape ij lens i) (meshShape ij lens) := by
  obtain ⟨hl, hs⟩ := meshShape_spec ij lens
  have hl' : (meshInShape ij lens i).length = lens.length := by simp [meshInShape]
  refine ⟨by omega, ?_⟩
  intro a e t he ht
  rw [hl, hl', Nat.sub_self, Nat.zero_add] at ht
  rw [meshInShape, meshAxis_eq] at he
  by_cases ea : axisOf ij lens.length i = a
  · left
    have := hs i hi
    rw [ea, List.getD_eq_getElem?_getD, ht] at this
    simp only [Option.getD_some] at this
    rw [ea, List.getElem?_set_self (by simp; rw [← ea]; exact axisOf_lt _ _ _ hi)] at he
    injection he with he
    rw [← he, this]
  · right
    rw [List.getElem?_set_ne ea, List.getElem?_replicate] at he
    by_cases h : a < lens.length
    · rw [if_pos h] at he; injection he with he; exact he.symm
    · rw [if_neg h] at he; cases he

theorem ravel_ones (n a L v : Nat) (ha : a < n) : ravel ((List.replicate n 1).set a L) ((List.replicate n 0).set a v) = v := by
  have hp : ∀ m, prod (List.replicate m 1) = 1 := by
    intro m; induction m with
    | zero => rfl
    | succ m ih => simp [List.replicate_succ, prod, ih]
  have hz : ∀ m, ravel (List.replicate m 1) (List.replicate m 0) = 0 := by
    intro m; induction m with
    | zero => rfl
    | succ m ih => simp [List.replicate_succ, ravel, ih]
  induction n generalizing a with
  | zero => omega
  | succ n ih =>
    cases a with
    | zero => simp [List.replicate_succ, ravel, hp, hz]
    | succ a =>
      simp only [List.replicate_succ, List.set_cons_succ, ravel, Nat.zero_mul, Nat.zero_add]
      exact ih a (by omega)

theorem mesh_src (ij : Bool) (lens : List Nat) (i : Nat) (hi : i < lens.length) (j : List Nat) (hj : InBounds (meshShape ij lens) j) :
    ravel (meshInShape ij lens i) (bcIndex (meshInShape ij lens i) (meshShape ij lens) j) = j.getD (axisOf ij lens.length i) 0 ∧
      j.getD (axisOf ij lens.length i) 0 < lens.getD i 0 := by
  obtain ⟨hl, hs⟩ := meshShape_spec ij lens
  have hl' : (meshInShape ij lens i).length = lens.length := by simp [meshInShape]
  have hjl : j.length = lens.length := by rw [hj.length, hl]
  have hax := axisOf_lt ij lens.length i hi
  have hlt : j.getD (axisOf ij lens.length i) 0 < lens.getD i 0 := by
    rw [← hs i hi]
    exact ((inBounds_iff _ _).mp hj).2 _ (by rw [hl]; exact hax)
  refine ⟨?_, hlt⟩
  have e : bcIndex (meshInShape ij lens i) (meshShape ij lens) j =
      (List.replicate lens.length 0).set (axisOf ij lens.length i) (j.getD (axisOf ij lens.length i) 0) := by
    unfold bcIndex
    rw [hl, hl', Nat.sub_self, List.drop_zero]
    apply List.ext_getElem?
    intro a
    rw [List.getElem?_map]
    by_cases ha : a < lens.length
    · have e1 : (meshInShape ij lens i)[a]? = some (if axisOf ij lens.length i = a then lens.getD i 0 else 1) := by
        rw [meshInShape, meshAxis_eq]
        by_cases h : axisOf ij lens.length i = a
        · rw [h, List.getElem?_set_self (by simpa using ha), if_pos rfl]
        · rw [List.getElem?_set_ne h, List.getElem?_replicate, if_pos ha, if_neg h]
      have e2 : j[a]? = some (j.getD a 0) := by
        rw [List.getD_eq_getElem?_getD, List.getElem?_eq_getElem (by omega)]; rfl
      rw [List.getElem?_zip_eq_some (z := (if axisOf ij lens.length i = a then lens.getD i 0 else 1, j.getD a 0)) |>.mpr ⟨e1, e2⟩]
      simp only [Option.map_some]
      by_cases h : axisOf ij lens.length i = a
      · rw [h, if_pos rfl, List.getElem?_set_self (by simpa using ha)]
        rw [h] at hlt
        by_cases h1 : lens.getD i 0 = 1
        · rw [if_pos h1]; congr 1; omega
        · rw [if_neg h1]
      · rw [if_neg h, if_pos rfl, List.getElem?_set_ne h, List.getElem?_replicate, if_pos ha]
    · rw [List.getElem?_eq_none (by simp [hl', hjl]; omega), List.getElem?_eq_none (by simp; omega)]
      rfl
  rw [e, meshInShape, meshAxis_eq]
  exact ravel_ones _ _ _ _ hax

/-! ### Theorems -/

/-- **C140 (forward).** `meshgrid(x_0, …, x_{n-1})`: all outputs have one axis per input; output `i` varies only along its own axis
(`i`, or with "xy" indexing the first two exchanged), and its value at multi-index `j` is `x_i[j_axis]`. -/
theorem C140_meshgrid {R} (ij : Bool) (lens : List Nat) (i : Nat) (hi : i < lens.length) (x y : Mem R) :
    (meshShape ij lens).length = lens.length ∧ (meshShape ij lens).getD (axisOf ij lens.length i) 0 = lens.getD i 0 ∧
    ∃ z, meshForward ij lens i x y = .ok z ∧ ∀ j, InBounds (meshShape ij lens) j → z (ravel (meshShape ij lens) j) = x (j.getD (axisOf ij lens.length i) 0) := by
  obtain ⟨hl, hs⟩ := meshShape_spec ij lens
  refine ⟨hl, hs i hi, ?_⟩
  obtain ⟨st, h1, h2⟩ := bc_gathers _ _ (mesh_can ij lens i hi)
  unfold meshForward bcForward
  rw [h1]
  refine ⟨_, rfl, ?_⟩
  intro j hj
  rw [h2.forward x y j hj, (mesh_src ij lens i hi j hj).1]

/-- **C140 (gradient), partial**: when the gradient of one of the first two inputs is wanted, every wanted gradient is the sum of the
output gradients along all other axes (added to what is there when accumulating). Missing: the case where only later inputs want a
gradient, which fails (`C140_grad_lost_wrong`). -/
theorem C140_meshgrid_grad_partial {R} [CommSemiring R] (ij : Bool) (lens : List Nat) (i : Nat) (hi : i < lens.length) (pd : List Bool)
    (hpd : pd.getD i false = true) (h01 : pd.getD 0 false = true ∨ pd.getD 1 false = true) (accum : Bool) (dy dx : Mem R) :
    ∃ d, meshBackward ij lens pd i accum dy dx = .ok d ∧ ∀ k, k < lens.getD i 0 →
      d k = (if accum then dx k else 0) +
        (((indices (meshShape ij lens)).filter (fun j => j.getD (axisOf ij lens.length i) 0 = k)).map (fun j => dy (ravel (meshShape ij lens) j))).sum := by
  obtain ⟨st, h1, h2⟩ := bc_gathers _ _ (mesh_can ij lens i hi)
  unfold meshBackward
  rw [if_neg (not_not.mpr h01), if_pos hpd]
  unfold bcBackward
  rw [h1]
  refine ⟨_, rfl, ?_⟩
  intro k hk
  rw [h2.backward]
  congr 1
  · cases accum <;> rfl
  · have : ∀ l : List (List Nat), (∀ j ∈ l, InBounds (meshShape ij lens) j) →
        (l.map fun j => if ravel (meshInShape ij lens i) (bcIndex (meshInShape ij lens i) (meshShape ij lens) j) = k then dy (ravel (meshShape ij lens) j) else 0).sum =
        ((l.filter (fun j => j.getD (axisOf ij lens.length i) 0 = k)).map (fun j => dy (ravel (meshShape ij lens) j))).sum := by
      intro l
      induction l with
      | nil => intro _; rfl
      | cons j l ih =>
        intro h
        rw [List.map_cons, List.sum_cons, ih (fun q hq => h q (List.mem_cons_of_mem _ hq)), (mesh_src ij lens i hi j (h j List.mem_cons_self)).1]
        by_cases e : j.getD (axisOf ij lens.length i) 0 = k
        · rw [List.filter_cons_of_pos (by simpa using e), List.map_cons, List.sum_cons, if_pos e]
        · rw [List.filter_cons_of_neg (by simpa using e), if_neg e, zero_add]
    exact this _ (fun j hj => (mem_indices _ _).mp hj)

/-- **C140, refuted part.** When only the third input wants a gradient, backward returns at once: its gradient buffer is left as it
was, whatever the output gradients. -/
theorem C140_grad_lost_wrong {R} [Zero R] [Add R] (ij : Bool) (lens : List Nat) (accum : Bool) (dy dx : Mem R) :
    meshBackward ij lens [false, false, true] 2 accum dy dx = .ok dx := by
  unfold meshBackward
  rw [if_pos (by decide)]

/-- Two inputs of lengths 2 and 3 with "xy" indexing: 3 rows, 2 columns. -/
example : meshShape false [2, 3] = [3, 2] ∧ meshShape true [2, 3] = [2, 3] ∧
    (meshForward false [2, 3] 0 (fun i => (i : Int)) (fun _ => 9)).toOption.map (fun z => (List.range 6).map z) = some [0, 1, 0, 1, 0, 1] ∧
    (meshForward false [2, 3] 1 (fun i => (i : Int)) (fun _ => 9)).toOption.map (fun z => (List.range 6).map z) = some [0, 0, 1, 1, 2, 2] ∧
    (meshBackward false [2, 3] [false, true] 1 false (fun i => (i : Int)) (fun _ => 9)).toOption.map (fun z => (List.range 3).map z) = some [1, 5, 9] := by
  refine ⟨rfl, rfl, ?_, ?_, ?_⟩ <;> rfl

end Verif.Mat
