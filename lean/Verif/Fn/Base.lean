import Mathlib.Algebra.BigOperators.Ring.Finset
import Mathlib.Algebra.BigOperators.Group.List.Basic
import Mathlib.Algebra.BigOperators.Group.Finset.Basic
import Mathlib.Algebra.BigOperators.Group.Finset.Piecewise
import Mathlib.Tactic.Ring
import Verif.ND.Indices
/-
Machinery for array functions whose forward copies elements (`y[d] = x[s]`) and whose backward adds or
copies gradients the other way (`dx[s] += dy[d]` or `dx[s] = dy[d]`).
Memory is a function from offsets to elements; a kernel is described by the list of (offset in y, offset
in x) pairs it touches in execution order. `fwd`, `bwdAdd`, `bwdSet` are the three loop bodies.
-/
namespace Verif.Fn
open Verif.ND

/-- A buffer. -/
abbrev Mem (R : Type _) := Nat → R

/-- Pairs (offset in y, offset in x), in execution order. -/
abbrev Pairs := List (Nat × Nat)

/-- `m[i] = v`. -/
def put {R} (m : Mem R) (i : Nat) (v : R) : Mem R := fun j => if j = i then v else m j

/-- The loop `y[d] = x[s]`. -/
def fwd {R} (ps : Pairs) (x y : Mem R) : Mem R := ps.foldl (fun m p => put m p.1 (x p.2)) y

/-- The loop `dx[s] += dy[d]`. -/
def bwdAdd {R} [Add R] (ps : Pairs) (dy dx : Mem R) : Mem R :=
  ps.foldl (fun m p => put m p.2 (m p.2 + dy p.1)) dx

/-- The loop `dx[s] = dy[d]`. -/
def bwdSet {R} (ps : Pairs) (dy dx : Mem R) : Mem R := ps.foldl (fun m p => put m p.2 (dy p.1)) dx

/-! ### Specification vocabulary -/

/-- Inner product of the first `n` elements. -/
def dot {R} [Semiring R] (n : Nat) (a b : Mem R) : R := ∑ i ∈ Finset.range n, a i * b i

/-- The zero buffer. -/
def zeros {R} [Zero R] : Mem R := fun _ => 0

/-- `fw` (from `n` to `m` elements) and `bw` (from `m` to `n`) are transposes of each other. -/
def Adjoint {R} [Semiring R] (n m : Nat) (fw bw : Mem R → Mem R) : Prop :=
  ∀ x dy : Mem R, dot m dy (fw x) = dot n (bw dy) x

/-- Function::backward (function.cpp:139-181): when gradients are not accumulated the gradient buffer is
zeroed before the kernel runs. -/
def callBackward {R} [Zero R] (impl : Bool → Mem R → Mem R → Mem R) (accum : Bool) (dy dx : Mem R) : Mem R :=
  impl accum dy (if accum then dx else zeros)

/-- Backward `bw accum dy dx` is right for forward `fw` (from `n` to `m` elements): without accumulation it
is the transpose of forward whatever the gradient buffer held, with accumulation it adds that to the old
gradient. -/
def GradOK {R} [Semiring R] (n m : Nat) (fw : Mem R → Mem R) (bw : Bool → Mem R → Mem R → Mem R) : Prop :=
  (∀ dx, Adjoint n m fw (fun dy => bw false dy dx)) ∧
    ∀ dy dx dx' k, bw true dy dx k = dx k + bw false dy dx' k

/-- The kernel with pairs `ps` implements `y[j] = x[f j]` for all multi-indices `j` of y, each element of
y being visited once, and never touches memory outside of `y` or `x`. -/
structure Gathers (ysh xsh : Shape) (f : List Nat → List Nat) (ps : Pairs) : Prop where
  perm : ps.Perm ((indices ysh).map fun j => (ravel ysh j, ravel xsh (f j)))
  bound : ∀ j, InBounds ysh j → InBounds xsh (f j)

/-! ### Lemmas -/

@[simp] theorem put_same {R} (m : Mem R) (i : Nat) (v : R) : put m i v i = v := by simp [put]

theorem put_other {R} (m : Mem R) {i j : Nat} (v : R) (h : j ≠ i) : put m i v j = m j := by simp [put, h]

theorem fwd_not_mem {R} (ps : Pairs) (x y : Mem R) (d : Nat) (h : d ∉ ps.map (·.1)) : fwd ps x y d = y d := by
  induction ps generalizing y with
  | nil => rfl
  | cons p ps ih =>
    simp only [List.map_cons, List.mem_cons, not_or] at h
    show fwd ps x (put y p.1 (x p.2)) d = y d
    rw [ih _ h.2, put_other _ _ h.1]

theorem fwd_mem {R} (ps : Pairs) (x y : Mem R) (p : Nat × Nat) (hp : p ∈ ps)
    (hf : ∀ q ∈ ps, q.1 = p.1 → q.2 = p.2) : fwd ps x y p.1 = x p.2 := by
  induction ps generalizing y with
  | nil => cases hp
  | cons q ps ih =>
    show fwd ps x (put y q.1 (x q.2)) p.1 = x p.2
    by_cases hm : p ∈ ps
    · exact ih _ hm (fun q hq => hf q (List.mem_cons_of_mem _ hq))
    · have hpq : p = q := by
        rcases List.mem_cons.mp hp with h | h
        · exact h
        · exact absurd h hm
      subst hpq
      rw [fwd_not_mem]
      · simp
      · intro h
        obtain ⟨q, hq, e⟩ := List.mem_map.mp h
        have := hf q (List.mem_cons_of_mem _ hq) e
        exact hm ((Prod.ext e this : q = p) ▸ hq)

theorem bwdSet_eq_fwd {R} (ps : Pairs) (dy dx : Mem R) :
    bwdSet ps dy dx = fwd (ps.map Prod.swap) dy dx := by
  induction ps generalizing dx with
  | nil => rfl
  | cons p ps ih => exact ih _

theorem bwdAdd_eq {R} [AddCommMonoid R] (ps : Pairs) (dy dx : Mem R) (k : Nat) :
    bwdAdd ps dy dx k = dx k + (ps.map fun p => if p.2 = k then dy p.1 else 0).sum := by
  induction ps generalizing dx with
  | nil => simp [bwdAdd]
  | cons p ps ih =>
    show bwdAdd ps dy (put dx p.2 (dx p.2 + dy p.1)) k = _
    rw [ih]
    simp only [List.map_cons, List.sum_cons]
    by_cases h : p.2 = k
    · subst h; simp [add_assoc]
    · rw [put_other _ _ (Ne.symm h)]; simp [h]

theorem bwdAdd_perm {R} [AddCommMonoid R] {ps qs : Pairs} (h : ps.Perm qs) (dy dx : Mem R) :
    bwdAdd ps dy dx = bwdAdd qs dy dx := by
  funext k
  rw [bwdAdd_eq, bwdAdd_eq, (h.map _).sum_eq]

/-- Accumulation: backward adds to whatever is there. -/
theorem bwdAdd_accum {R} [AddCommMonoid R] (ps : Pairs) (dy dx : Mem R) (k : Nat) :
    bwdAdd ps dy dx k = dx k + bwdAdd ps dy zeros k := by
  rw [bwdAdd_eq, bwdAdd_eq ps dy zeros]; simp [zeros]

theorem sum_range_ite {R} [AddCommMonoid R] (n a : Nat) (h : a < n) (f : Nat → R) :
    ∑ k ∈ Finset.range n, (if a = k then f k else 0) = f a := by
  rw [Finset.sum_ite_eq]; simp [h]

/-- Core of every transpose statement: moving the inner product through a list of pairs. -/
theorem dot_bwdAdd {R} [CommSemiring R] (n : Nat) (ps : Pairs) (hb : ∀ p ∈ ps, p.2 < n) (dy x : Mem R) :
    dot n (bwdAdd ps dy zeros) x = (ps.map fun p => dy p.1 * x p.2).sum := by
  induction ps with
  | nil => simp [dot, bwdAdd, zeros]
  | cons p ps ih =>
    have h1 := ih fun q hq => hb q (List.mem_cons_of_mem _ hq)
    simp only [List.map_cons, List.sum_cons]
    rw [← h1]
    simp only [dot, bwdAdd_eq, zeros, List.map_cons, List.sum_cons, zero_add, add_mul,
      Finset.sum_add_distrib]
    congr 1
    have := sum_range_ite n p.2 (hb p List.mem_cons_self) (fun k => dy p.1 * x k)
    simpa [ite_mul] using this

theorem sum_range_list {R} [AddCommMonoid R] (n : Nat) (f : Nat → R) :
    ∑ i ∈ Finset.range n, f i = ((List.range n).map f).sum := by
  induction n with
  | zero => simp
  | succ n ih => rw [Finset.sum_range_succ, ih, List.range_succ]; simp

/-- A kernel that runs over the flat output positions. -/
theorem Gathers.of_range {ysh xsh : Shape} {f : List Nat → List Nat} (φ : Nat → Nat)
    (h : ∀ j, InBounds ysh j → φ (ravel ysh j) = ravel xsh (f j) ∧ InBounds xsh (f j)) :
    Gathers ysh xsh f ((List.range (prod ysh)).map fun i => (i, φ i)) where
  perm := by
    rw [← indices_ravel, List.map_map]
    apply List.Perm.of_eq
    apply List.map_congr_left
    intro j hj
    simp only [Function.comp, (h j ((mem_indices _ _).mp hj)).1]
  bound := fun j hj => (h j hj).2

section Gathers
variable {ysh xsh : Shape} {f : List Nat → List Nat} {ps : Pairs}

theorem Gathers.mem (h : Gathers ysh xsh f ps) (p : Nat × Nat) :
    p ∈ ps ↔ ∃ j, InBounds ysh j ∧ p = (ravel ysh j, ravel xsh (f j)) := by
  rw [h.perm.mem_iff, List.mem_map]
  constructor
  · rintro ⟨j, hj, rfl⟩; exact ⟨j, (mem_indices _ _).mp hj, rfl⟩
  · rintro ⟨j, hj, rfl⟩; exact ⟨j, (mem_indices _ _).mpr hj, rfl⟩

/-- Memory safety: every access is inside the two arrays. -/
theorem Gathers.safe (h : Gathers ysh xsh f ps) (p : Nat × Nat) (hp : p ∈ ps) :
    p.1 < prod ysh ∧ p.2 < prod xsh := by
  obtain ⟨j, hj, rfl⟩ := (h.mem p).mp hp
  exact ⟨ravel_lt hj, ravel_lt (h.bound j hj)⟩

/-- Forward: element `j` of y is element `f j` of x. -/
theorem Gathers.forward {R} (h : Gathers ysh xsh f ps) (x y : Mem R) (j : List Nat) (hj : InBounds ysh j) :
    fwd ps x y (ravel ysh j) = x (ravel xsh (f j)) := by
  refine fwd_mem ps x y (ravel ysh j, ravel xsh (f j)) ((h.mem _).mpr ⟨j, hj, rfl⟩) ?_
  intro q hq e
  obtain ⟨j', hj', rfl⟩ := (h.mem q).mp hq
  have := ravel_inj ysh j' j hj' hj e
  subst this; rfl

theorem Gathers.forward_outside {R} (h : Gathers ysh xsh f ps) (x y : Mem R) (d : Nat) (hd : prod ysh ≤ d) :
    fwd ps x y d = y d := by
  apply fwd_not_mem
  intro hm
  obtain ⟨p, hp, rfl⟩ := List.mem_map.mp hm
  have := (h.safe p hp).1
  omega

/-- Backward (accumulating loop): the gradient at offset `k` of x is the sum of the output gradients of
the elements selected from `k`. -/
theorem Gathers.backward {R} [AddCommMonoid R] (h : Gathers ysh xsh f ps) (dy dx : Mem R) (k : Nat) :
    bwdAdd ps dy dx k = dx k + ((indices ysh).map fun j =>
      if ravel xsh (f j) = k then dy (ravel ysh j) else 0).sum := by
  rw [bwdAdd_perm h.perm, bwdAdd_eq, List.map_map]; rfl

theorem Gathers.dot_forward {R} [CommSemiring R] (h : Gathers ysh xsh f ps) (x y dy : Mem R) :
    dot (prod ysh) dy (fwd ps x y) = (ps.map fun p => dy p.1 * x p.2).sum := by
  rw [(h.perm.map _).sum_eq, dot, sum_range_list, ← indices_ravel, List.map_map, List.map_map]
  congr 1
  apply List.map_congr_left
  intro j hj
  show dy (ravel ysh j) * fwd ps x y (ravel ysh j) = dy (ravel ysh j) * x (ravel xsh (f j))
  rw [h.forward x y j ((mem_indices _ _).mp hj)]

/-- The accumulating backward loop is the transpose of the forward loop. -/
theorem Gathers.adjoint {R} [CommSemiring R] (h : Gathers ysh xsh f ps) (y : Mem R) :
    Adjoint (prod xsh) (prod ysh) (fun x => fwd ps x y) (fun dy => bwdAdd ps dy zeros) := by
  intro x dy
  rw [h.dot_forward, dot_bwdAdd _ _ (fun p hp => (h.safe p hp).2)]

/-- When no element of x is selected twice, the overwriting backward loop on a zeroed gradient equals the
accumulating one. -/
theorem Gathers.bwdSet {R} [AddCommMonoid R] (h : Gathers ysh xsh f ps)
    (hinj : ∀ j j', InBounds ysh j → InBounds ysh j' → f j = f j' → j = j') (dy : Mem R) :
    bwdSet ps dy zeros = bwdAdd ps dy zeros := by
  funext k
  have hq : ∀ p ∈ ps, ∀ q ∈ ps, q.2 = p.2 → q.1 = p.1 := by
    intro p hp q hq e
    obtain ⟨j, hj, rfl⟩ := (h.mem p).mp hp
    obtain ⟨j', hj', rfl⟩ := (h.mem q).mp hq
    have := hinj _ _ hj' hj (ravel_inj xsh _ _ (h.bound _ hj') (h.bound _ hj) e)
    rw [this]
  by_cases hk : ∃ p ∈ ps, p.2 = k
  · obtain ⟨p, hp, rfl⟩ := hk
    rw [bwdSet_eq_fwd]
    have e1 := fwd_mem (ps.map Prod.swap) dy zeros p.swap (List.mem_map.mpr ⟨p, hp, rfl⟩) (by
      intro q hq' e
      obtain ⟨q, hq2, rfl⟩ := List.mem_map.mp hq'
      exact hq p hp q hq2 e)
    have e2 : (p.swap).1 = p.2 := rfl
    rw [e2] at e1
    rw [e1, h.backward]
    obtain ⟨j, hj, rfl⟩ := (h.mem p).mp hp
    have : ((indices ysh).map fun j' => if ravel xsh (f j') = ravel xsh (f j) then dy (ravel ysh j') else 0)
        = (indices ysh).map fun j' => if ravel ysh j' = ravel ysh j then dy (ravel ysh j') else 0 := by
      apply List.map_congr_left
      intro j' hj'
      have hj' := (mem_indices _ _).mp hj'
      by_cases e : j' = j
      · subst e; simp
      · rw [if_neg, if_neg]
        · intro e'; exact e (ravel_inj _ _ _ hj' hj e')
        · intro e'; exact e (hinj _ _ hj' hj (ravel_inj xsh _ _ (h.bound _ hj') (h.bound _ hj) e'))
    have e3 : ((indices ysh).map fun j' => if ravel ysh j' = ravel ysh j then dy (ravel ysh j') else 0)
        = ((indices ysh).map (ravel ysh)).map fun i => if ravel ysh j = i then dy i else 0 := by
      rw [List.map_map]
      apply List.map_congr_left
      intro j' _
      simp only [Function.comp, eq_comm]
    rw [this, e3, indices_ravel, ← sum_range_list, sum_range_ite _ _ (ravel_lt hj)]
    simp [zeros]
  · rw [bwdSet_eq_fwd, fwd_not_mem, bwdAdd_eq]
    · have : (ps.map fun p => if p.2 = k then dy p.1 else 0) = ps.map fun _ => (0 : R) := by
        apply List.map_congr_left
        intro p hp
        rw [if_neg]
        intro e; exact hk ⟨p, hp, e⟩
      rw [this]; simp [zeros]
    · intro hm
      simp only [List.map_map, List.mem_map] at hm
      obtain ⟨p, hp, e⟩ := hm
      exact hk ⟨p, hp, e⟩

theorem Gathers.gradOK_add {R} [CommSemiring R] (h : Gathers ysh xsh f ps) (y : Mem R)
    (impl : Bool → Mem R → Mem R → Mem R)
    (hi : ∀ accum dy dx, callBackward impl accum dy dx = bwdAdd ps dy (if accum then dx else zeros)) :
    GradOK (prod xsh) (prod ysh) (fun x => fwd ps x y) (callBackward impl) := by
  constructor
  · intro dx x dy
    simp only [hi, Bool.false_eq_true, if_false]
    exact h.adjoint y x dy
  · intro dy dx dx' k
    simp only [hi, Bool.false_eq_true, if_false, if_true]
    exact bwdAdd_accum ps dy dx k

end Gathers
end Verif.Fn
