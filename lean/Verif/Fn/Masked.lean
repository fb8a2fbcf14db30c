import Verif.Fn.Base
/-
Kernels whose output elements are either copied from x or set to a constant (padding, im2col, …).
-/
namespace Verif.Fn
open Verif.ND

/-- (offset in y, offset in x or nothing), in execution order. -/
abbrev CPairs := List (Nat × Option Nat)

/-- Value read: `x[s]`, or the constant. -/
def readC {R} (c : R) (x : Mem R) : Option Nat → R
  | some s => x s
  | none => c

/-- The loop `y[d] = x[s]` or `y[d] = c`. -/
def fwdC {R} (ps : CPairs) (c : R) (x y : Mem R) : Mem R := ps.foldl (fun m p => put m p.1 (readC c x p.2)) y

/-- The pairs that copy. -/
def somes (ps : CPairs) : Pairs := ps.filterMap fun p => p.2.map fun s => (p.1, s)

/-- Backward `bw accum dy dx` is right for the affine forward `fw`: the inner product with an output
gradient splits into the inner product of the input gradient with x plus a part that does not depend on x. -/
def GradAffine {R} [Semiring R] (n m : Nat) (fw : Mem R → Mem R) (bw : Bool → Mem R → Mem R → Mem R) : Prop :=
  (∀ dx x dy, dot m dy (fw x) = dot n (bw false dy dx) x + dot m dy (fw zeros)) ∧
    ∀ dy dx dx' k, bw true dy dx k = dx k + bw false dy dx' k

/-- The kernel with pairs `ps` implements `y[j] = x[k]` when `f j = some k` and `y[j] = c` when `f j = none`. -/
structure GathersC (ysh xsh : Shape) (f : List Nat → Option (List Nat)) (ps : CPairs) : Prop where
  perm : ps.Perm ((indices ysh).map fun j => (ravel ysh j, (f j).map (ravel xsh)))
  bound : ∀ j k, InBounds ysh j → f j = some k → InBounds xsh k

theorem fwdC_not_mem {R} (ps : CPairs) (c : R) (x y : Mem R) (d : Nat) (h : d ∉ ps.map (·.1)) : fwdC ps c x y d = y d := by
  induction ps generalizing y with
  | nil => rfl
  | cons p ps ih =>
    simp only [List.map_cons, List.mem_cons, not_or] at h
    show fwdC ps c x (put y p.1 (readC c x p.2)) d = y d
    rw [ih _ h.2, put_other _ _ h.1]

theorem fwdC_mem {R} (ps : CPairs) (c : R) (x y : Mem R) (p : Nat × Option Nat) (hp : p ∈ ps)
    (hf : ∀ q ∈ ps, q.1 = p.1 → q.2 = p.2) : fwdC ps c x y p.1 = readC c x p.2 := by
  induction ps generalizing y with
  | nil => cases hp
  | cons q ps ih =>
    show fwdC ps c x (put y q.1 (readC c x q.2)) p.1 = readC c x p.2
    by_cases hm : p ∈ ps
    · exact ih _ hm (fun q hq => hf q (List.mem_cons_of_mem _ hq))
    · have hpq : p = q := by
        rcases List.mem_cons.mp hp with h | h
        · exact h
        · exact absurd h hm
      subst hpq
      rw [fwdC_not_mem]
      · simp
      · intro h
        obtain ⟨q, hq, e⟩ := List.mem_map.mp h
        have := hf q (List.mem_cons_of_mem _ hq) e
        exact hm ((Prod.ext e this : q = p) ▸ hq)

theorem fwdC_some {R} (ps : Pairs) (c : R) (x y : Mem R) :
    fwdC (ps.map fun p => (p.1, some p.2)) c x y = fwd ps x y := by
  induction ps generalizing y with
  | nil => rfl
  | cons p ps ih => exact ih _

section
variable {ysh xsh : Shape} {f : List Nat → Option (List Nat)} {ps : CPairs}

theorem GathersC.mem (h : GathersC ysh xsh f ps) (p : Nat × Option Nat) :
    p ∈ ps ↔ ∃ j, InBounds ysh j ∧ p = (ravel ysh j, (f j).map (ravel xsh)) := by
  rw [h.perm.mem_iff, List.mem_map]
  constructor
  · rintro ⟨j, hj, rfl⟩; exact ⟨j, (mem_indices _ _).mp hj, rfl⟩
  · rintro ⟨j, hj, rfl⟩; exact ⟨j, (mem_indices _ _).mpr hj, rfl⟩

/-- Memory safety. -/
theorem GathersC.safe (h : GathersC ysh xsh f ps) (p : Nat × Option Nat) (hp : p ∈ ps) :
    p.1 < prod ysh ∧ ∀ s, p.2 = some s → s < prod xsh := by
  obtain ⟨j, hj, rfl⟩ := (h.mem p).mp hp
  refine ⟨ravel_lt hj, ?_⟩
  intro s hs
  simp only [Option.map_eq_some_iff] at hs
  obtain ⟨k, hk, rfl⟩ := hs
  exact ravel_lt (h.bound j k hj hk)

theorem GathersC.forward {R} (h : GathersC ysh xsh f ps) (c : R) (x y : Mem R) (j : List Nat) (hj : InBounds ysh j) :
    fwdC ps c x y (ravel ysh j) = readC c x ((f j).map (ravel xsh)) := by
  refine fwdC_mem ps c x y (ravel ysh j, (f j).map (ravel xsh)) ((h.mem _).mpr ⟨j, hj, rfl⟩) ?_
  intro q hq e
  obtain ⟨j', hj', rfl⟩ := (h.mem q).mp hq
  have := ravel_inj ysh j' j hj' hj e
  subst this; rfl

theorem GathersC.dot_forward {R} [CommSemiring R] (h : GathersC ysh xsh f ps) (c : R) (x y dy : Mem R) :
    dot (prod ysh) dy (fwdC ps c x y) = (ps.map fun p => dy p.1 * readC c x p.2).sum := by
  rw [(h.perm.map _).sum_eq, dot, sum_range_list, ← indices_ravel, List.map_map, List.map_map]
  congr 1
  apply List.map_congr_left
  intro j hj
  show dy (ravel ysh j) * fwdC ps c x y (ravel ysh j) = _
  rw [h.forward c x y j ((mem_indices _ _).mp hj)]
  rfl

theorem sum_somes {R} [CommSemiring R] (ps : CPairs) (c : R) (x dy : Mem R) :
    (ps.map fun p => dy p.1 * readC c x p.2).sum =
      ((somes ps).map fun p => dy p.1 * x p.2).sum + (ps.map fun p => dy p.1 * readC c zeros p.2).sum := by
  induction ps with
  | nil => simp [somes]
  | cons p ps ih =>
    obtain ⟨d, s⟩ := p
    cases s with
    | none =>
      have e : somes ((d, none) :: ps) = somes ps := rfl
      have r : ∀ x, readC c x none = c := fun _ => rfl
      simp only [List.map_cons, List.sum_cons, ih, e, r]
      ring
    | some s =>
      have e : somes ((d, some s) :: ps) = (d, s) :: somes ps := rfl
      have r : ∀ x, readC c x (some s) = x s := fun _ => rfl
      simp only [List.map_cons, List.sum_cons, ih, e, r]
      simp only [zeros]
      ring

theorem mem_somes (ps : CPairs) (p : Nat × Nat) : p ∈ somes ps ↔ (p.1, some p.2) ∈ ps := by
  simp only [somes, List.mem_filterMap, Option.map_eq_some_iff]
  constructor
  · rintro ⟨⟨d, s⟩, hq, a, ha, rfl⟩
    simp only at ha; subst ha; exact hq
  · intro h; exact ⟨_, h, _, rfl, rfl⟩

/-- The accumulating backward loop over the copying pairs. -/
theorem GathersC.adjoint {R} [CommSemiring R] (h : GathersC ysh xsh f ps) (c : R) (x y dy : Mem R) :
    dot (prod ysh) dy (fwdC ps c x y) =
      dot (prod xsh) (bwdAdd (somes ps) dy zeros) x + dot (prod ysh) dy (fwdC ps c zeros y) := by
  rw [h.dot_forward, h.dot_forward, sum_somes, dot_bwdAdd]
  intro p hp
  exact (h.safe _ ((mem_somes _ _).mp hp)).2 _ rfl

theorem GathersC.gradAffine {R} [CommSemiring R] (h : GathersC ysh xsh f ps) (c : R) (y : Mem R)
    (impl : Bool → Mem R → Mem R → Mem R)
    (hi : ∀ accum dy dx, callBackward impl accum dy dx = bwdAdd (somes ps) dy (if accum then dx else zeros)) :
    GradAffine (prod xsh) (prod ysh) (fun x => fwdC ps c x y) (callBackward impl) := by
  constructor
  · intro dx x dy
    simp only [hi, Bool.false_eq_true, if_false]
    exact h.adjoint c x y dy
  · intro dy dx dx' k
    simp only [hi, Bool.false_eq_true, if_false, if_true]
    exact bwdAdd_accum _ dy dx k

/-- On pairs whose sources are all different the overwriting loop equals the accumulating one. -/
theorem bwdSet_nodup {R} [AddCommMonoid R] (ps : Pairs) (h : (ps.map (·.2)).Nodup) (dy : Mem R) :
    bwdSet ps dy zeros = bwdAdd ps dy zeros := by
  suffices H : ∀ dx : Mem R, (∀ p ∈ ps, dx p.2 = 0) → Verif.Fn.bwdSet ps dy dx = bwdAdd ps dy dx from
    H zeros (fun _ _ => rfl)
  induction ps with
  | nil => intro dx _; rfl
  | cons p ps ih =>
    intro dx hz
    simp only [List.map_cons, List.nodup_cons] at h
    show Verif.Fn.bwdSet ps dy (put dx p.2 (dy p.1)) = bwdAdd ps dy (put dx p.2 (dx p.2 + dy p.1))
    rw [hz p List.mem_cons_self, zero_add]
    apply ih h.2
    intro q hq
    rw [put_other, hz q (List.mem_cons_of_mem _ hq)]
    intro e
    exact h.1 (e ▸ List.mem_map.mpr ⟨q, hq, rfl⟩)

theorem GathersC.somes_nodup (h : GathersC ysh xsh f ps)
    (hinj : ∀ j j' k, InBounds ysh j → InBounds ysh j' → f j = some k → f j' = some k → j = j') :
    ((somes ps).map (·.2)).Nodup := by
  have hp : (somes ps).Perm (somes ((indices ysh).map fun j => (ravel ysh j, (f j).map (ravel xsh)))) :=
    h.perm.filterMap _
  rw [(hp.map _).nodup_iff]
  have key : ∀ l : List (List Nat), (∀ j ∈ l, InBounds ysh j) → l.Nodup →
      ((somes (l.map fun j => (ravel ysh j, (f j).map (ravel xsh)))).map (·.2)).Nodup := by
    intro l
    induction l with
    | nil => intro _ _; simp [somes]
    | cons j l ih =>
      intro hb hn
      have ih' := ih (fun j hj => hb j (List.mem_cons_of_mem _ hj)) (List.nodup_cons.mp hn).2
      rw [List.map_cons]
      cases hfj : f j with
      | none => exact ih'
      | some k =>
        show ((ravel xsh k) :: (somes (l.map fun j => (ravel ysh j, (f j).map (ravel xsh)))).map (·.2)).Nodup
        refine List.nodup_cons.mpr ⟨?_, ih'⟩
        intro hm
        obtain ⟨q, hq, e⟩ := List.mem_map.mp hm
        rw [mem_somes, List.mem_map] at hq
        obtain ⟨j', hj', e'⟩ := hq
        simp only [Prod.mk.injEq, Option.map_eq_some_iff] at e'
        obtain ⟨_, k', hk', e2⟩ := e'
        have hbj := hb j List.mem_cons_self
        have hbj' := hb j' (List.mem_cons_of_mem _ hj')
        have : k' = k := ravel_inj xsh k' k (h.bound _ _ hbj' hk') (h.bound _ _ hbj hfj) (by rw [e2, e])
        subst this
        have := hinj j j' _ hbj hbj' hfj hk'
        subst this
        exact (List.nodup_cons.mp hn).1 hj'
  exact key _ (fun j hj => (mem_indices _ _).mp hj) ((indices_nodup _).of_map _)

end
end Verif.Fn
