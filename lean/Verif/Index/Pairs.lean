import Verif.ND.Indices
import Verif.Index.Lemmas
/-
The recursion of slice.cpp touches exactly the pairs the closed form says.
-/
namespace Verif.Index
open Verif.ND

abbrev AxI := (Ax × Nat) × (Nat × Nat)

/-- Output offset of a multi-index. -/
def dotY : List AxI → List Nat → Int
  | (_, (_, ys)) :: r, i :: is => (i : Int) * ys + dotY r is
  | _, _ => 0

/-- Input offset of a multi-index. -/
def dotX : List AxI → List Nat → Int
  | ((a, _), (xs, _)) :: r, i :: is => (xs : Int) * (a.start + i * a.step) + dotX r is
  | _, _ => 0

theorem pairs_closed (L : List AxI) (hL : L ≠ []) (xo yo : Int) :
    pairs L xo yo = (indices (L.map fun l => l.1.2)).map fun idx => (yo + dotY L idx, xo + dotX L idx) := by
  induction L generalizing xo yo with
  | nil => exact absurd rfl hL
  | cons l r ih =>
    obtain ⟨⟨a, n⟩, xs, ys⟩ := l
    cases r with
    | nil =>
      simp only [pairs, List.map_cons, List.map_nil, indices, List.map_flatMap]
      rw [List.map_eq_flatMap]
      congr 1
      funext i
      simp only [List.map_cons, List.map_nil, dotY, dotX, List.cons.injEq, Prod.mk.injEq, and_true]
      constructor
      · omega
      · have e : (i : Int) * ((xs : Int) * a.step) = (xs : Int) * ((i : Int) * a.step) := Int.mul_left_comm ..
        rw [Int.mul_add, e]
        omega
    | cons l2 r2 =>
      simp only [pairs, List.map_cons]
      rw [indices, List.map_flatMap]
      congr 1
      funext i
      rw [ih (by simp), List.map_map]
      apply List.map_congr_left
      intro idx _
      simp only [Function.comp, dotY, dotX, Prod.mk.injEq]
      have e : (i : Int) * ((xs : Int) * a.step) = (xs : Int) * ((i : Int) * a.step) := Int.mul_left_comm ..
      rw [Int.mul_add, e]
      constructor <;> omega

theorem forward_notin {α} (x y : Int → α) (ps : List (Int × Int)) (k : Int)
    (h : ∀ p ∈ ps, p.1 ≠ k) : forward x y ps k = y k := by
  induction ps generalizing y with
  | nil => rfl
  | cons p r ih =>
    simp only [forward, List.foldl_cons] at ih ⊢
    rw [ih _ (fun q hq => h q (List.mem_cons_of_mem _ hq))]
    simp only [write]
    rw [if_neg]
    exact fun e => h p List.mem_cons_self e.symm

theorem forward_at {α} (x y : Int → α) (ps : List (Int × Int)) (hn : (ps.map (·.1)).Nodup)
    (p : Int × Int) (hp : p ∈ ps) : forward x y ps p.1 = x p.2 := by
  induction ps generalizing y with
  | nil => cases hp
  | cons q r ih =>
    rw [List.map_cons, List.nodup_cons] at hn
    simp only [forward, List.foldl_cons] at ih ⊢
    rcases List.mem_cons.mp hp with h | h
    · subst h
      have := forward_notin x (write y p.1 (x p.2)) r p.1 (fun q hq e => hn.1 (List.mem_map.mpr ⟨q, hq, e⟩))
      simp only [forward] at this
      rw [this]; simp [write]
    · exact ih _ hn.2 h

/-- Positions selected per input axis. -/
abbrev Pos := List (List Nat)

/-- The set-up arguments of one axis select exactly these positions. -/
def AxOK (r : Ax × Int) (d : Nat) (ps : List Nat) : Prop :=
  r.2 = ps.length ∧ ∀ i (h : i < ps.length), r.1.start + i * r.1.step = (ps[i] : Nat) ∧ ps[i] < d

/-- Axis-wise. -/
def AllOK : List (Ax × Int) → Shape → Pos → Prop
  | [], [], [] => True
  | r :: rs, d :: ds, p :: ps => AxOK r d p ∧ AllOK rs ds ps
  | _, _, _ => False

/-- Source multi-index of an output multi-index (before dropping integer axes). -/
def srcIdx : Pos → List Nat → List Nat
  | ps :: r, i :: is => ps.getD i 0 :: srcIdx r is
  | _, _ => []

theorem AllOK.sizes {rs : List (Ax × Int)} {ds : Shape} {P : Pos} (h : AllOK rs ds P) :
    rs.map (fun p => p.2.toNat) = P.map List.length := by
  induction rs generalizing ds P with
  | nil => cases ds <;> cases P <;> simp_all [AllOK]
  | cons r rs ih =>
    cases ds with
    | nil => exact h.elim
    | cons d ds => cases P with
      | nil => exact h.elim
      | cons p ps =>
        simp only [List.map_cons, ih h.2, List.cons.injEq, and_true]
        have := h.1.1
        omega

theorem src_inBounds {rs : List (Ax × Int)} {ds : Shape} {P : Pos} (h : AllOK rs ds P)
    (j : List Nat) (hj : InBounds (P.map List.length) j) : InBounds ds (srcIdx P j) := by
  induction rs generalizing ds P j with
  | nil => cases ds with
    | nil => cases P with
      | nil => cases j with
        | nil => trivial
        | cons _ _ => exact hj.elim
      | cons _ _ => exact h.elim
    | cons _ _ => exact (by cases P <;> exact h.elim)
  | cons r rs ih =>
    cases ds with
    | nil => exact h.elim
    | cons d ds => cases P with
      | nil => exact h.elim
      | cons p ps => cases j with
        | nil => exact hj.elim
        | cons i is =>
          refine ⟨?_, ih h.2 is hj.2⟩
          have := (h.1.2 i hj.1).2
          rw [List.getD_eq_getElem?_getD, List.getElem?_eq_getElem hj.1]
          exact this

theorem dots {rs : List (Ax × Int)} {ds : Shape} {P : Pos} (h : AllOK rs ds P)
    (j : List Nat) (hj : InBounds (P.map List.length) j) :
    dotY ((rs.map fun p => (p.1, p.2.toNat)).zip ((cStrides ds).zip (cStrides (P.map List.length)))) j =
      (ravel (P.map List.length) j : Nat) ∧
    dotX ((rs.map fun p => (p.1, p.2.toNat)).zip ((cStrides ds).zip (cStrides (P.map List.length)))) j =
      (ravel ds (srcIdx P j) : Nat) := by
  induction rs generalizing ds P j with
  | nil =>
    cases ds with
    | nil => cases P with
      | nil => cases j <;> simp [dotX, dotY, ravel, srcIdx]
      | cons _ _ => exact h.elim
    | cons _ _ => exact (by cases P <;> exact h.elim)
  | cons r rs ih =>
    cases ds with
    | nil => exact h.elim
    | cons d ds => cases P with
      | nil => exact h.elim
      | cons p ps => cases j with
        | nil => exact hj.elim
        | cons i is =>
          obtain ⟨h1, h2⟩ := ih h.2 is hj.2
          simp only [List.map_cons] at h1 h2 ⊢
          rw [cStrides_cons, cStrides_cons]
          simp only [List.zip_cons_cons, dotY, dotX, ravel, srcIdx]
          rw [h1, h2]
          constructor
          · push_cast; rfl
          · have := (h.1.2 i hj.1).1
            rw [this, List.getD_eq_getElem?_getD, List.getElem?_eq_getElem hj.1]
            push_cast
            simp only [Option.getD_some]
            rw [Int.mul_comm]

/-- Forward of a set-up slice puts, at every output multi-index, the selected input element. -/
theorem forward_spec {α} (x y : Int → α) {rs : List (Ax × Int)} {ds : Shape} {P : Pos}
    (h : AllOK rs ds P) (hne : ds ≠ []) (j : List Nat) (hj : InBounds (P.map List.length) j) :
    forward x y (slicePairs ds rs) (ravel (P.map List.length) j : Nat) = x (ravel ds (srcIdx P j) : Nat) := by
  have hne' : rs ≠ [] := by
    rintro rfl
    cases ds with
    | nil => exact hne rfl
    | cons _ _ => cases P <;> exact h.elim
  have hlen : ∀ {rs : List (Ax × Int)} {ds : Shape} {P : Pos}, AllOK rs ds P → rs.length = ds.length ∧ rs.length = P.length := by
    intro rs
    induction rs with
    | nil => intro ds P h; cases ds <;> cases P <;> simp_all [AllOK]
    | cons r rs ih =>
      intro ds P h
      cases ds with
      | nil => exact h.elim
      | cons d ds => cases P with
        | nil => exact h.elim
        | cons p ps => have := ih h.2; simp; omega
  obtain ⟨hl1, hl2⟩ := hlen h
  have hsz := h.sizes
  unfold slicePairs
  simp only [hsz]
  have hmap : ((rs.map fun p => (p.1, p.2.toNat)).zip ((cStrides ds).zip (cStrides (P.map List.length)))).map
      (fun l => l.1.2) = P.map List.length := by
    rw [← hsz]
    have : (fun l : AxI => l.1.2) = (fun q : Ax × Nat => q.2) ∘ Prod.fst := rfl
    rw [this, ← List.map_map, List.map_fst_zip]
    · simp
    · simp [cStrides_length, hl1]
  rw [pairs_closed _ (by
    intro hc
    have hc' := congrArg (List.map fun l : AxI => l.1.2) hc
    rw [hmap] at hc'
    have hP : P = [] := by simpa using hc'
    have : rs.length ≠ 0 := by intro h; exact hne' (List.length_eq_zero_iff.mp h)
    rw [hP] at hl2
    exact this hl2), hmap]
  have hd := dots h j hj
  have key := forward_at x y ((indices (P.map List.length)).map fun idx =>
    ((0 : Int) + dotY ((rs.map fun p => (p.1, p.2.toNat)).zip ((cStrides ds).zip (cStrides (P.map List.length)))) idx,
     (0 : Int) + dotX ((rs.map fun p => (p.1, p.2.toNat)).zip ((cStrides ds).zip (cStrides (P.map List.length)))) idx))
    (by
      rw [List.map_map]
      have e : (indices (P.map List.length)).map ((fun q : Int × Int => q.1) ∘ fun idx =>
          ((0 : Int) + dotY ((rs.map fun p => (p.1, p.2.toNat)).zip ((cStrides ds).zip (cStrides (P.map List.length)))) idx,
           (0 : Int) + dotX ((rs.map fun p => (p.1, p.2.toNat)).zip ((cStrides ds).zip (cStrides (P.map List.length)))) idx)) =
          ((indices (P.map List.length)).map (ravel (P.map List.length))).map (fun k : Nat => (k : Int)) := by
        rw [List.map_map]
        apply List.map_congr_left
        intro idx hidx
        have := (dots h idx ((mem_indices _ _).mp hidx)).1
        simp only [Function.comp, Int.zero_add, this]
      rw [e, indices_ravel]
      exact List.Pairwise.map _ (fun a b hab h => hab (by omega)) List.nodup_range)
    _ (List.mem_map.mpr ⟨j, (mem_indices _ _).mpr hj, rfl⟩)
  simp only [Int.zero_add, hd.1, hd.2] at key
  rw [show (fun idx => ((0:Int) + dotY ((rs.map fun p => (p.1, p.2.toNat)).zip ((cStrides ds).zip (cStrides (P.map List.length)))) idx,
     (0 : Int) + dotX ((rs.map fun p => (p.1, p.2.toNat)).zip ((cStrides ds).zip (cStrides (P.map List.length)))) idx)) =
     (fun idx => (dotY ((rs.map fun p => (p.1, p.2.toNat)).zip ((cStrides ds).zip (cStrides (P.map List.length)))) idx,
     dotX ((rs.map fun p => (p.1, p.2.toNat)).zip ((cStrides ds).zip (cStrides (P.map List.length)))) idx)) from by
    funext idx; simp]
  exact key

end Verif.Index
