import Verif.Rand.Model
/-
Closed form of the recursion `walk`.
-/
namespace Verif.Rand
open Verif.ND Verif.Fn

/-- Number of times the pattern number is advanced while walking over `sh` from axis `dim` on. -/
def span (base : Nat) : Shape → Nat → Nat
  | [], _ => 0
  | s :: rest, dim => s * (span base rest (dim + 1) + if dim < base then 1 else 0)

/-- Number of times the pattern number is advanced by one step along axis `dim`, `rest` being the shape of the
later axes. -/
def stepOf (base : Nat) (rest : Shape) (dim : Nat) : Nat := span base rest (dim + 1) + if dim < base then 1 else 0

/-- Offset in x for the multi-index `j` of y. -/
def src (base n : Nat) (tab : Nat → Nat → Nat → Option Nat) : Shape → Nat → Option Nat → Nat → List Nat → Option Nat
  | s :: rest, dim, xo, k, i :: is =>
    let _ := s
    src base n tab rest (dim + 1) (addOff xo (tab k dim i)) ((k + i * stepOf base rest dim) % n) is
  | _, _, xo, _, _ => xo

theorem walk_spec (base n : Nat) (tab : Nat → Nat → Nat → Option Nat) (sh : Shape) (dim yo : Nat) (xo : Option Nat) (k : Nat)
    (hk : k < n) :
    walk base n tab sh dim yo xo k =
      ((indices sh).map (fun j => (yo + ravel sh j, src base n tab sh dim xo k j)), (k + span base sh dim) % n) := by
  induction sh generalizing dim yo xo k with
  | nil => simp [walk, indices, ravel, src, span, Nat.mod_eq_of_lt hk]
  | cons s rest ih =>
    have hn : 0 < n := by omega
    have key : ∀ t : Nat, (List.range t).foldl (fun (acc : CPairs × Nat) i =>
        let r := walk base n tab rest (dim + 1) (yo + i * prod rest) (addOff xo (tab k dim i)) acc.2
        (acc.1 ++ r.1, if dim < base then (r.2 + 1) % n else r.2)) ([], k) =
        ((List.range t).flatMap (fun i => (indices rest).map (fun j =>
          (yo + ravel (s :: rest) (i :: j), src base n tab (s :: rest) dim xo k (i :: j)))),
          (k + t * stepOf base rest dim) % n) := by
      intro t
      induction t with
      | zero => simp [Nat.mod_eq_of_lt hk]
      | succ t iht =>
        rw [List.range_succ, List.foldl_append, iht, List.flatMap_append]
        simp only [List.foldl_cons, List.foldl_nil]
        rw [ih _ _ _ _ (Nat.mod_lt _ hn)]
        simp only [List.flatMap_cons, List.flatMap_nil, List.append_nil, Prod.mk.injEq]
        refine ⟨?_, ?_⟩
        · congr 1
          apply List.map_congr_left
          intro j _
          simp only [src, ravel, Prod.mk.injEq, and_true]
          omega
        · unfold stepOf
          by_cases hd : dim < base
          · simp only [hd, if_true, Nat.mod_add_mod]
            congr 1
            rw [Nat.add_mul t 1, Nat.one_mul]; omega
          · simp only [hd, if_false, Nat.mod_add_mod]
            congr 1
            rw [Nat.add_mul t 1, Nat.one_mul]; omega
    show (List.range s).foldl _ ([], k) = _
    rw [key s]
    simp only [indices, List.map_flatMap, List.map_map, span, stepOf]
    rfl

/-- Multi-index of x read for the multi-index `j` of y when step `i` along axis `dim` with pattern `k` reads
position `m k dim i`. -/
def pick (base n : Nat) (m : Nat → Nat → Nat → Option Nat) : Shape → Nat → Nat → List Nat → Option (List Nat)
  | _ :: rest, dim, k, i :: is =>
    match m k dim i, pick base n m rest (dim + 1) ((k + i * stepOf base rest dim) % n) is with
    | some a, some as => some (a :: as)
    | _, _ => none
  | _, _, _, _ => some []

theorem addOff_none (t : Option Nat) : addOff none t = none := by cases t <;> rfl

theorem src_none (base n : Nat) (tab : Nat → Nat → Nat → Option Nat) (sh : Shape) (dim k : Nat) (j : List Nat) :
    src base n tab sh dim none k j = none := by
  induction sh generalizing dim k j with
  | nil => cases j <;> rfl
  | cons s rest ih => cases j with
    | nil => rfl
    | cons i is => simp only [src, addOff_none]; exact ih _ _ _

theorem src_pick (base n : Nat) (m : Nat → Nat → Nat → Option Nat) (full : Shape) (ysh xsh : Shape) (dim : Nat)
    (hx : full.drop dim = xsh) (o k : Nat) (j : List Nat) (hj : InBounds ysh j) (hl : xsh.length = ysh.length) :
    src base n (fun k d i => (m k d i).map (· * prod (full.drop (d + 1)))) ysh dim (some o) k j =
      (pick base n m ysh dim k j).map (o + ravel xsh ·) := by
  induction ysh generalizing xsh dim o k j with
  | nil => cases j with
    | nil => cases xsh <;> simp [src, pick, ravel]
    | cons _ _ => simp [InBounds] at hj
  | cons s rest ih => cases j with
    | nil => simp [InBounds] at hj
    | cons i is => cases xsh with
      | nil => simp at hl
      | cons x xs =>
        have hd : full.drop (dim + 1) = xs := by
          rw [← List.drop_drop, hx]; rfl
        simp only [src, pick]
        cases hm : m k dim i with
        | none => simp only [Option.map_none, addOff, src_none]
        | some a =>
          simp only [Option.map_some, addOff, hd]
          rw [ih xs (dim + 1) hd _ _ _ hj.2 (by simpa using hl)]
          cases hp : pick base n m rest (dim + 1) ((k + i * stepOf base rest dim) % n) is with
          | none => rfl
          | some as => simp [ravel, Nat.add_assoc]

theorem pick_inBounds (base n : Nat) (m : Nat → Nat → Nat → Option Nat) (full ysh xsh : Shape) (dim : Nat)
    (hn : 0 < n) (hx : full.drop dim = xsh) (k : Nat) (hk : k < n) (j is : List Nat) (hj : InBounds ysh j) (hl : xsh.length = ysh.length)
    (hm : ∀ k d i a, k < n → dim ≤ d → d < full.length → i < ysh.getD (d - dim) 0 → m k d i = some a → a < full.getD d 0)
    (h : pick base n m ysh dim k j = some is) : InBounds xsh is := by
  induction ysh generalizing xsh dim k j is with
  | nil => cases j with
    | nil => cases xsh with
      | nil => simp only [pick, Option.some.injEq] at h; subst h; trivial
      | cons _ _ => simp at hl
    | cons _ _ => simp [InBounds] at hj
  | cons s rest ih => cases j with
    | nil => simp [InBounds] at hj
    | cons i js => cases xsh with
      | nil => simp at hl
      | cons x xs =>
        have hlen : dim < full.length := by
          have := congrArg List.length hx
          simp only [List.length_drop, List.length_cons] at this
          omega
        have hd : full.drop (dim + 1) = xs := by
          rw [← List.drop_drop, hx]; rfl
        have hx0 : full.getD dim 0 = x := by
          have := congrArg (fun l : List Nat => l.getD 0 0) hx
          simpa using this
        simp only [pick] at h
        cases h1 : m k dim i with
        | none => rw [h1] at h; simp at h
        | some a =>
          cases h2 : pick base n m rest (dim + 1) ((k + i * stepOf base rest dim) % n) js with
          | none => rw [h1, h2] at h; simp at h
          | some as =>
            rw [h1, h2] at h
            simp only [Option.some.injEq] at h
            subst h
            refine ⟨?_, ?_⟩
            · have := hm k dim i a hk (Nat.le_refl _) hlen (by simpa using hj.1) h1
              omega
            · refine ih xs (dim + 1) hd _ (Nat.mod_lt _ hn) _ _ hj.2 (by simpa using hl) ?_ h2
              intro k d i a hk hd1 hd2 hi he
              refine hm k d i a hk (by omega) hd2 ?_ he
              have : d - dim = (d - (dim + 1)) + 1 := by omega
              rw [this]; simpa using hi

/-- The pairs visited implement the gather `pick`. -/
theorem walk_gathers (base n : Nat) (hn : 0 < n) (m : Nat → Nat → Nat → Option Nat) (ysh xsh : Shape)
    (hl : xsh.length = ysh.length)
    (hm : ∀ k d i a, k < n → d < xsh.length → i < ysh.getD d 0 → m k d i = some a → a < xsh.getD d 0) :
    GathersC ysh xsh (pick base n m ysh 0 0)
      (walk base n (fun k d i => (m k d i).map (· * prod (xsh.drop (d + 1)))) ysh 0 0 (some 0) 0).1 where
  perm := by
    rw [walk_spec _ _ _ _ _ _ _ _ hn]
    apply List.Perm.of_eq
    apply List.map_congr_left
    intro j hj
    rw [src_pick base n m xsh ysh xsh 0 rfl 0 0 j ((mem_indices _ _).mp hj) hl]
    simp
  bound := by
    intro j is hj h
    exact pick_inBounds base n m xsh ysh xsh 0 hn rfl 0 hn j is hj hl
      (fun k d i a hk _ hd hi he => hm k d i a hk hd (by simpa using hi) he) h

end Verif.Rand
