import Verif.Fn.Base
/-
Facts about the `do … while (ndi::increment(index, shape))` loop, sums over axes and permutations of axes.
-/
namespace Verif.Fn
open Verif.ND

theorem visit_ge (s : Shape) (n : Nat) (i : List Nat) (h : InBounds s i) (hn : prod s ≤ ravel s i + n) :
    (visitLoop s n i).map (ravel s) = List.range' (ravel s i) (prod s - ravel s i) ∧
    ∀ j ∈ visitLoop s n i, InBounds s j := by
  induction n generalizing i with
  | zero => have := ravel_lt h; omega
  | succ n ih =>
    rcases C33_increment s i h with ⟨h1, h2, h3⟩ | ⟨h1, h2, h3⟩
    · have e : visitLoop s (n + 1) i = i :: visitLoop s n (increment i s).2 := by
        rw [visitLoop]
        cases hh : increment i s with
        | mk b r => rw [hh] at h1; simp only at h1; subst h1; rfl
      obtain ⟨g1, g2⟩ := ih (increment i s).2 h2 (by omega)
      rw [e]
      constructor
      · have hlt := ravel_lt h
        have hlt2 := ravel_lt h2
        have : prod s - ravel s i = (prod s - ravel s (increment i s).2) + 1 := by omega
        rw [List.map_cons, g1, this, List.range'_succ, h3]
      · intro j hj
        rcases List.mem_cons.mp hj with hj | hj
        · rw [hj]; exact h
        · exact g2 j hj
    · have e : visitLoop s (n + 1) i = [i] := by
        rw [visitLoop]
        cases hh : increment i s with
        | mk b r => rw [hh] at h1; simp only at h1; subst h1; rfl
      have : prod s - ravel s i = 1 := by omega
      rw [e, this]
      constructor
      · simp [List.range'_succ]
      · intro j hj
        rw [List.mem_singleton] at hj
        rw [hj]; exact h

theorem map_ravel_inj (s : Shape) (l l' : List (List Nat)) (h : ∀ j ∈ l, InBounds s j)
    (h' : ∀ j ∈ l', InBounds s j) (e : l.map (ravel s) = l'.map (ravel s)) : l = l' := by
  induction l generalizing l' with
  | nil => cases l' with
    | nil => rfl
    | cons _ _ => simp at e
  | cons a l ih => cases l' with
    | nil => simp at e
    | cons b l' =>
      simp only [List.map_cons, List.cons.injEq] at e
      rw [ravel_inj s a b (h a List.mem_cons_self) (h' b List.mem_cons_self) e.1,
        ih l' (fun j hj => h j (List.mem_cons_of_mem _ hj)) (fun j hj => h' j (List.mem_cons_of_mem _ hj)) e.2]

/-- The loop `index = 0; do … while (increment(index, shape))` on a non-empty shape visits exactly the
multi-indices in memory order. -/
theorem visit_eq (s : Shape) (n : Nat) (h : 0 < prod s) (hn : prod s ≤ n) :
    visitLoop s n (zeroIndex s.length) = indices s := by
  obtain ⟨h1, h2⟩ := visit_ge s n (zeroIndex s.length) (zero_inBounds s h) (by omega)
  apply map_ravel_inj s _ _ h2 (fun j hj => (mem_indices s j).mp hj)
  rw [h1, indices_ravel, ravel_zero, List.range_eq_range', Nat.sub_zero]

theorem inBounds_iff (s : Shape) (i : List Nat) :
    InBounds s i ↔ i.length = s.length ∧ ∀ a, a < s.length → i.getD a 0 < s.getD a 0 := by
  induction s generalizing i with
  | nil => cases i <;> simp [InBounds]
  | cons d ds ih => cases i with
    | nil => simp [InBounds]
    | cons k ks =>
      simp only [InBounds, ih, List.length_cons, Nat.add_right_cancel_iff]
      constructor
      · rintro ⟨h1, h2, h3⟩
        refine ⟨h2, ?_⟩
        intro a ha
        cases a with
        | zero => simpa using h1
        | succ a => simpa using h3 a (by omega)
      · rintro ⟨h2, h3⟩
        refine ⟨by simpa using h3 0 (by omega), h2, ?_⟩
        intro a ha
        simpa using h3 (a + 1) (by omega)

theorem nd2flat_sum (i st : List Nat) (h : i.length = st.length) :
    nd2flat i st = ((List.range i.length).map fun a => i.getD a 0 * st.getD a 0).sum := by
  induction i generalizing st with
  | nil => cases st <;> simp [nd2flat]
  | cons k ks ih => cases st with
    | nil => simp at h
    | cons s ss =>
      simp only [nd2flat, List.length_cons, List.range_succ_eq_map, List.map_cons, List.sum_cons, List.map_map]
      rw [ih ss (by simpa using h)]
      simp [Function.comp_def]

theorem nd2flat_map {α} (l : List α) (f g : α → Nat) :
    nd2flat (l.map f) (l.map g) = (l.map fun a => f a * g a).sum := by
  induction l with
  | nil => rfl
  | cons a l ih => simp [nd2flat, ih]

/-- `axes` is a permutation of `0 … n-1`. -/
structure PermAxes (axes : List Nat) (n : Nat) : Prop where
  nodup : axes.Nodup
  lt : ∀ a ∈ axes, a < n
  length : axes.length = n

theorem PermAxes.perm {axes : List Nat} {n : Nat} (h : PermAxes axes n) : axes.Perm (List.range n) := by
  apply (List.Nodup.subperm h.nodup (fun a ha => List.mem_range.mpr (h.lt a ha))).perm_of_length_le
  simp [h.length]

theorem PermAxes.mem {axes : List Nat} {n : Nat} (h : PermAxes axes n) (a : Nat) : a ∈ axes ↔ a < n := by
  rw [h.perm.mem_iff, List.mem_range]

/-- The index of x at output index `j`: position `a` is where axis `a` went. -/
def unperm (axes : List Nat) (n : Nat) (j : List Nat) : List Nat :=
  (List.range n).map fun a => j.getD (axes.idxOf a) 0

theorem getD_map_lt {α β} (l : List α) (f : α → β) (d : β) (e : α) (i : Nat) (h : i < l.length) :
    (l.map f).getD i d = f (l.getD i e) := by
  simp [List.getD_eq_getElem?_getD, List.getElem?_eq_getElem h]

theorem getD_range_map (n : Nat) (f : Nat → Nat) (a : Nat) (h : a < n) : ((List.range n).map f).getD a 0 = f a := by
  simp [List.getD_eq_getElem?_getD, h]

theorem perm_unperm {axes : List Nat} {n : Nat} (h : PermAxes axes n) (j : List Nat) (hj : j.length = n) :
    axes.map ((unperm axes n j).getD · 0) = j := by
  apply List.ext_getElem
  · simp [h.length, hj]
  · intro i h1 h2
    simp only [List.getElem_map]
    have hi : i < axes.length := by simpa using h1
    unfold unperm
    rw [getD_range_map _ _ _ (h.lt _ (List.getElem_mem hi)), h.nodup.idxOf_getElem i hi]
    simp [List.getD_eq_getElem?_getD, List.getElem?_eq_getElem h2]

theorem unperm_perm {axes : List Nat} {n : Nat} (h : PermAxes axes n) (k : List Nat) (hk : k.length = n) :
    unperm axes n (axes.map (k.getD · 0)) = k := by
  apply List.ext_getElem
  · simp [unperm, hk]
  · intro a h1 h2
    have ha : a < n := by omega
    have hm := (h.mem a).mpr ha
    simp only [unperm, List.getElem_map, List.getElem_range]
    rw [getD_map_lt axes _ 0 0 _ (List.idxOf_lt_length_of_mem hm)]
    have : axes.getD (axes.idxOf a) 0 = a := by
      rw [List.getD_eq_getElem?_getD, List.getElem?_idxOf hm]; rfl
    rw [this]
    simp [List.getD_eq_getElem?_getD, List.getElem?_eq_getElem h2]

/-- Permuting the extents and the index keeps the index in bounds. -/
theorem inBounds_perm {axes : List Nat} {s : Shape} (h : PermAxes axes s.length) (k : List Nat)
    (hk : k.length = s.length) :
    InBounds (axes.map (s.getD · 0)) (axes.map (k.getD · 0)) ↔ InBounds s k := by
  rw [inBounds_iff, inBounds_iff]
  simp only [List.length_map, true_and, hk]
  constructor
  · intro hh a ha
    have hm := (h.mem a).mpr ha
    have := hh (axes.idxOf a) (List.idxOf_lt_length_of_mem hm)
    rw [getD_map_lt axes _ 0 0 _ (List.idxOf_lt_length_of_mem hm),
      getD_map_lt axes _ 0 0 _ (List.idxOf_lt_length_of_mem hm)] at this
    have e : axes.getD (axes.idxOf a) 0 = a := by
      rw [List.getD_eq_getElem?_getD, List.getElem?_idxOf hm]; rfl
    rwa [e] at this
  · intro hh i hi
    rw [getD_map_lt axes _ 0 0 _ hi, getD_map_lt axes _ 0 0 _ hi]
    apply hh
    apply h.lt
    rw [List.getD_eq_getElem?_getD, List.getElem?_eq_getElem hi]
    exact List.getElem_mem hi

/-- A strided sum may be taken in any order of the axes. -/
theorem nd2flat_perm {axes : List Nat} {n : Nat} (h : PermAxes axes n) (k st : List Nat) (hk : k.length = n)
    (hs : st.length = n) :
    nd2flat (axes.map (k.getD · 0)) (axes.map (st.getD · 0)) = nd2flat k st := by
  rw [nd2flat_map, nd2flat_sum k st (by omega), hk]
  exact (h.perm.map _).sum_eq

theorem inBounds_pos {s : Shape} {i : List Nat} (h : InBounds s i) : 0 < prod s := by
  have := ravel_lt h; omega

end Verif.Fn
