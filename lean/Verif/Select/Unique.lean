import Verif.Select.Bool
import Mathlib.Data.List.Lex
import Mathlib.Data.List.Sort
/-
NonZero and Unique: models /repo/src/nbla/function/generic/{nonzero,unique}.cpp.
Simplifications: elements come from a linear order (no NaN); `int` is unbounded. std::stable_sort and std::sort are parameters
specified by the C++ standard (IsStableSort); the transpose of unique_preprocess (C72) is represented by the offsets it reads.
-/
namespace Verif.Select
open Verif.Fn Verif.ND Verif.Elem

/-! ### NonZero: model -/

/-- NonZero::non_zero (nonzero.cpp:30-58): the number of non-zero elements; the gathered indexes. The state is
(y, nonzero_index). -/
def nonzeroForward {T} [Zero T] [DecidableEq T] (s : Shape) (x : Mem T) (y : Mem Nat) : Shape × Mem Nat :=
  let num := (List.range (prod s)).foldl (fun c i => c + if x i ≠ 0 then 1 else 0) 0
  let st := (List.range (prod s)).foldl (fun (st : Mem Nat × Nat) i =>
    if x i = 0 then st
    else ((List.range s.length).foldl (fun y dim => put y (dim * num + st.2) ((flat2nd i (cStrides s)).getD dim 0)) st.1, st.2 + 1)) (y, 0)
  ([s.length, num], st.1)

/-! ### Unique: model -/

/-- std::stable_sort of 0, 1, …, n-1 by the strict weak order `key a < key b`: a permutation in which a comes before b only if
its key is smaller, or the keys are equal and a was before b. -/
def IsStableSort {K} [LinearOrder K] (srt : (Nat → Nat → Bool) → List Nat → List Nat) (key : Nat → K) : Prop :=
  ∀ n, (srt (fun a b => decide (key a < key b)) (List.range n)).Perm (List.range n) ∧
    (srt (fun a b => decide (key a < key b)) (List.range n)).Pairwise fun a b => key a < key b ∨ (key a = key b ∧ a < b)

/-- std::sort with distinct keys. -/
def IsSort (srt : (Nat → Nat → Bool) → List Nat → List Nat) : Prop :=
  ∀ (key : Nat → Nat) n, (srt (fun a b => decide (key a < key b)) (List.range n)).Perm (List.range n) ∧
    (srt (fun a b => decide (key a < key b)) (List.range n)).Pairwise fun a b => key a ≤ key b

/-- The loop variables of Unique::unique (unique.cpp:218-241). -/
structure UState where
  arg : Nat → Nat
  num : Nat
  indices : List Nat
  inverse : Nat → Nat
  counts : List Nat

/-- One step (unique.cpp:224-241); `eq a b` is std::equal of the two rows. -/
def uniqueStep (eq : Nat → Nat → Bool) (s : UState) (i : Nat) : UState :=
  let cur := s.arg i
  let prev := s.arg (i - 1)
  if !eq cur prev then
    { arg := put s.arg s.num cur, num := s.num + 1, indices := s.indices ++ [cur],
      inverse := put s.inverse cur s.num, counts := s.counts ++ [1] }
  else
    { s with inverse := put s.inverse cur (s.num - 1), counts := s.counts.set (s.num - 1) (s.counts.getD (s.num - 1) 0 + 1) }

/-- The loop (unique.cpp:216-241) on the sorted indices `a` of `n` ≥ 1 rows; `inv0` is the content of inverse_indices_val,
which is all zero. -/
def uniqueLoop (eq : Nat → Nat → Bool) (n : Nat) (a : Nat → Nat) : UState :=
  (List.range' 1 (n - 1)).foldl (uniqueStep eq)
    { arg := a, num := 1, indices := [a 0], inverse := put (fun _ => 0) (a 0) 0, counts := [1] }

/-- What unique returns apart from y, from which y is copied: the row copied to each position of y, the inverse and the
counts. -/
structure UOut where
  index : List Nat
  inverse : List Nat
  counts : List Nat
deriving DecidableEq, Repr

/-- create_outputs (unique.cpp:29-136): output_order, index, inverse table, counts. -/
def uniqueOutputs (srt : (Nat → Nat → Bool) → List Nat → List Nat) (sorted : Bool) (n : Nat) (s : UState) : UOut :=
  let num := s.indices.length
  let order := if sorted then List.range num
    else srt (fun a b => decide (s.indices.getD a 0 < s.indices.getD b 0)) (List.range num)
  let table := (List.range num).foldl (fun t i => put t (order.getD i 0) i) (fun _ => 0)
  { index := (List.range num).map fun i => s.indices.getD (order.getD i 0) 0
    inverse := (List.range n).map fun i => table (s.inverse i)
    counts := (List.range num).map fun i => s.counts.getD (order.getD i 0) 0 }

/-- Row a of the 2-D view made by unique_preprocess (unique.cpp:138-182): the elements (j, a, t) of x viewed as
(outer, n, inner), in memory order; with flatten outer = inner = 1. -/
def uniqueRow {T} (outer n inner : Nat) (x : Mem T) (a : Nat) : List T :=
  (List.range outer).flatMap fun j => (List.range inner).map fun t => x (off n inner j a t)

/-- y (unique.cpp:44-81): for every output row i, every j: copy_n of `inner` elements, offsets advancing by
num_unique * inner in y and n * inner in x. -/
def uniqueY {T} (outer n inner : Nat) (index : List Nat) (x y : Mem T) : Mem T :=
  (List.range index.length).foldl (fun y i =>
    ((List.range outer).foldl (fun (st : Mem T × (Nat × Nat)) _ =>
      (forPut inner (fun t => st.2.1 + t) (fun t _ => x (st.2.2 + t)) st.1,
        (st.2.1 + index.length * inner, st.2.2 + n * inner))) (y, (i * inner, index.getD i 0 * inner))).1) y

/-- unique(x, flatten, axis, sorted): axis refinement, sizes, sorting, loop, outputs. An empty list of rows makes the code read
arg_indices[0] of an empty vector: undefined. Returns the shape and data of y and the index outputs. -/
def unique {T} [LinearOrder T] (ssrt srt : (Nat → Nat → Bool) → List Nat → List Nat) (flatten : Bool) (axis : Int) (sorted : Bool)
    (s : Shape) (x y : Mem T) : Except String (Shape × Mem T × UOut) :=
  match refineAxis axis s.length with
  | .error e => .error e
  | .ok ax =>
    let outer := if flatten then 1 else prod (s.take ax)
    let n := if flatten then prod s else s.getD ax 0
    let inner := if flatten then 1 else prod (s.drop (ax + 1))
    if n = 0 then .error "arg_indices[0] of an empty vector"
    else
      let key := uniqueRow outer n inner x
      let a := ssrt (fun i j => decide (key i < key j)) (List.range n)
      let o := uniqueOutputs srt sorted n (uniqueLoop (fun i j => decide (key i = key j)) n (fun i => a.getD i 0))
      .ok (if flatten then [o.index.length] else s.set ax o.index.length, uniqueY outer n inner o.index x y, o)

/-! ### NonZero: proofs -/

section nonzero
variable {T : Type} [Zero T] [DecidableEq T]

theorem nz_count (x : Mem T) (n : Nat) : (List.range n).foldl (fun c i => c + if x i ≠ 0 then 1 else 0) 0 = Nat.count (fun i => x i ≠ 0) n := by
  induction n with
  | zero => simp
  | succ n ih => rw [List.range_succ, List.foldl_append, ih, Nat.count_succ]; rfl

theorem nz_inner (D num k : Nat) (hk : k < num) (v : Nat → Nat) (y : Mem Nat) :
    (∀ dim, dim < D → (List.range D).foldl (fun y dim => put y (dim * num + k) (v dim)) y (dim * num + k) = v dim) ∧
    ∀ i, (∀ dim, dim < D → dim * num + k ≠ i) → (List.range D).foldl (fun y dim => put y (dim * num + k) (v dim)) y i = y i :=
  forPut_spec D (fun dim => dim * num + k) (fun dim _ => v dim) y
    (fun _ _ _ _ e => Nat.eq_of_mul_eq_mul_right (show 0 < num by omega) (by omega))

theorem nz_loop (D num : Nat) (x : Mem T) (v : Nat → Nat → Nat) (y : Mem Nat) (c : Nat) (hc : Nat.count (fun i => x i ≠ 0) c ≤ num) :
    let st := (List.range c).foldl (fun (st : Mem Nat × Nat) i =>
      if x i = 0 then st
      else ((List.range D).foldl (fun y dim => put y (dim * num + st.2) (v i dim)) st.1, st.2 + 1)) (y, 0)
    st.2 = Nat.count (fun i => x i ≠ 0) c ∧
    (∀ i, i < c → x i ≠ 0 → ∀ dim, dim < D → st.1 (dim * num + Nat.count (fun i => x i ≠ 0) i) = v i dim) ∧
    ∀ i, D * num ≤ i → st.1 i = y i := by
  induction c with
  | zero => exact ⟨by simp, fun i hi => absurd hi (by omega), fun _ _ => rfl⟩
  | succ c ih =>
    have hs : Nat.count (fun i => x i ≠ 0) (c + 1) = Nat.count (fun i => x i ≠ 0) c + if x c ≠ 0 then 1 else 0 := Nat.count_succ _ _
    obtain ⟨h1, h2, h3⟩ := ih (by omega)
    rw [List.range_succ, List.foldl_append]
    simp only [List.foldl_cons, List.foldl_nil]
    generalize List.foldl _ (y, 0) (List.range c) = st at h1 h2 h3 ⊢
    by_cases hx : x c = 0
    · rw [if_pos hx]
      rw [if_neg (by simpa using hx), add_zero] at hs
      refine ⟨by rw [h1, hs], ?_, h3⟩
      intro i hi hxi
      exact h2 i (by rcases Nat.lt_succ_iff_lt_or_eq.mp hi with h | h; exact h; subst h; exact absurd hx hxi) hxi
    · rw [if_neg hx]
      rw [if_pos hx] at hs
      have hlt : st.2 < num := by rw [h1]; omega
      obtain ⟨p1, p2⟩ := nz_inner D num st.2 hlt (v c) st.1
      refine ⟨by rw [h1, hs], ?_, ?_⟩
      · intro i hi hxi dim hdim
        by_cases e : i = c
        · subst e
          rw [← h1]; exact p1 dim hdim
        · have hi' : i < c := by omega
          have hr : Nat.count (fun i => x i ≠ 0) i < Nat.count (fun i => x i ≠ 0) c := Nat.count_strict_mono (p := fun i => x i ≠ 0) hxi hi'
          show (List.range D).foldl _ st.1 _ = _
          rw [p2, h2 i hi' hxi dim hdim]
          intro d hd he
          have hm := (pair_inj (D := num) (i := d) (j := dim) hlt (by omega) he).2
          omega
      · intro i hi
        show (List.range D).foldl _ st.1 _ = _
        rw [p2, h3 i hi]
        intro d hd he
        have := Nat.mul_le_mul_right num (show d + 1 ≤ D by omega)
        rw [Nat.succ_mul] at this
        omega

end nonzero

/-! ### Unique: proofs -/

section uniq
variable {K : Type} [LinearOrder K]

/-- Invariant of the loop after positions 0 … i have been processed; `a` is the sorted list of indices. -/
structure UInv (key : Nat → K) (a : Nat → Nat) (i : Nat) (s : UState) : Prop where
  arg : ∀ j, i ≤ j → s.arg j = a j
  num : 1 ≤ s.num ∧ s.num ≤ i + 1
  len : s.indices.length = s.num ∧ s.counts.length = s.num
  mem : ∀ k, k < s.num → ∃ j, j ≤ i ∧ s.indices.getD k 0 = a j
  strict : ∀ k l, k < l → l < s.num → key (s.indices.getD k 0) < key (s.indices.getD l 0)
  inv : ∀ j, j ≤ i → s.inverse (a j) < s.num ∧ key (s.indices.getD (s.inverse (a j)) 0) = key (a j) ∧ s.indices.getD (s.inverse (a j)) 0 ≤ a j
  last : s.inverse (a i) = s.num - 1
  count : ∀ k, k < s.num → s.counts.getD k 0 = Nat.count (fun j => key (a j) = key (s.indices.getD k 0)) (i + 1)

theorem getD_append_left' {α} (l : List α) (x d : α) (k : Nat) (h : k < l.length) : (l ++ [x]).getD k d = l.getD k d := by
  simp [List.getD_eq_getElem?_getD, List.getElem?_append_left h]

theorem getD_append_last {α} (l : List α) (x d : α) : (l ++ [x]).getD l.length d = x := by
  simp [List.getD_eq_getElem?_getD]

theorem uniqueStep_inv (key : Nat → K) (a : Nat → Nat) (n i : Nat)
    (hs : ∀ j l, j < l → l < n → key (a j) < key (a l) ∨ (key (a j) = key (a l) ∧ a j < a l))
    (hi : i + 1 < n) (s : UState) (h : UInv key a i s) : UInv key a (i + 1) (uniqueStep (fun x y => decide (key x = key y)) s (i + 1)) := by
  obtain ⟨harg, hnum, hlen, hmem, hstrict, hinv, hlast, hcount⟩ := h
  have hcur : s.arg (i + 1) = a (i + 1) := harg _ (by omega)
  have hprev : s.arg (i + 1 - 1) = a i := by rw [Nat.add_sub_cancel]; exact harg _ (le_refl _)
  have hinj : ∀ j, j ≤ i → a j ≠ a (i + 1) := by
    intro j hj e
    rcases hs j (i + 1) (by omega) hi with h | h
    · rw [e] at h; exact lt_irrefl _ h
    · rw [e] at h; exact lt_irrefl _ h.2
  have hle : ∀ j, j ≤ i → key (a j) ≤ key (a i) := by
    intro j hj
    rcases Nat.lt_or_eq_of_le hj with h | h
    · rcases hs j i h (by omega) with h' | h'
      · exact h'.le
      · exact h'.1.le
    · rw [h]
  unfold uniqueStep
  simp only [hcur, hprev]
  by_cases heq : key (a (i + 1)) = key (a i)
  · -- same value as before
    have hlt : a i < a (i + 1) := by
      rcases hs i (i + 1) (by omega) hi with h | h
      · rw [heq] at h; exact absurd h (lt_irrefl _)
      · exact h.2
    rw [if_neg (by simp [heq])]
    have hn1 : s.num - 1 < s.num := by omega
    obtain ⟨l1, l2, l3⟩ := hinv i (le_refl _)
    rw [hlast] at l2 l3
    refine ⟨fun j hj => harg j (by omega), by simp only; omega, by simp only [List.length_set]; exact hlen,
      fun k hk => ?_, hstrict, ?_, ?_, ?_⟩
    · obtain ⟨j, hj, e⟩ := hmem k hk
      exact ⟨j, by omega, e⟩
    · intro j hj
      simp only
      rcases Nat.lt_or_eq_of_le hj with h | h
      · rw [put_other _ _ (hinj j (by omega))]
        exact hinv j (by omega)
      · subst h
        rw [put_same]
        exact ⟨hn1, by rw [l2, heq], by omega⟩
    · simp
    · intro k hk
      simp only at hk ⊢
      rw [Nat.count_succ]
      by_cases hk' : k = s.num - 1
      · subst hk'
        rw [if_pos (by rw [heq, l2]), ← hcount _ hk]
        simp [List.getD_eq_getElem?_getD, List.getElem?_set, hlen.2, hn1]
      · have hne : key (a (i + 1)) ≠ key (s.indices.getD k 0) := by
          rw [heq, ← l2]
          exact (hstrict k (s.num - 1) (by omega) hn1).ne'
        rw [if_neg hne, add_zero, ← hcount k hk]
        simp [List.getD_eq_getElem?_getD, List.getElem?_set, show s.num - 1 ≠ k from fun e => hk' e.symm]
  · -- a new value
    have hgt : key (a i) < key (a (i + 1)) := by
      rcases hs i (i + 1) (by omega) hi with h | h
      · exact h
      · exact absurd h.1.symm heq
    rw [if_pos (by simp [heq])]
    have hold : ∀ k, k < s.num → (s.indices ++ [a (i + 1)]).getD k 0 = s.indices.getD k 0 := fun k hk =>
      getD_append_left' _ _ _ _ (by rw [hlen.1]; exact hk)
    have hnew : (s.indices ++ [a (i + 1)]).getD s.num 0 = a (i + 1) := by
      conv_lhs => rw [← hlen.1]
      exact getD_append_last _ _ _
    have hbig : ∀ k, k < s.num → key (s.indices.getD k 0) < key (a (i + 1)) := by
      intro k hk
      obtain ⟨j, hj, e⟩ := hmem k hk
      rw [e]
      exact lt_of_le_of_lt (hle j hj) hgt
    refine ⟨?_, by simp only; omega, by simp [hlen.1, hlen.2], ?_, ?_, ?_, ?_, ?_⟩
    · intro j hj
      simp only
      by_cases e : j = s.num
      · have : j = i + 1 := by omega
        subst this
        rw [e, put_same]
      · rw [put_other _ _ e]; exact harg j (by omega)
    · intro k hk
      simp only at hk ⊢
      by_cases e : k = s.num
      · subst e; exact ⟨i + 1, le_refl _, hnew⟩
      · obtain ⟨j, hj, e'⟩ := hmem k (by omega)
        exact ⟨j, by omega, by rw [hold k (by omega)]; exact e'⟩
    · intro k l hkl hl
      simp only at hl ⊢
      rw [hold k (by omega)]
      by_cases e : l = s.num
      · subst e; rw [hnew]; exact hbig k hkl
      · rw [hold l (by omega)]; exact hstrict k l hkl (by omega)
    · intro j hj
      simp only
      rcases Nat.lt_or_eq_of_le hj with h | h
      · rw [put_other _ _ (hinj j (by omega))]
        obtain ⟨q1, q2, q3⟩ := hinv j (by omega)
        rw [hold _ q1]
        exact ⟨by omega, q2, q3⟩
      · subst h
        rw [put_same, hnew]
        exact ⟨by omega, rfl, le_refl _⟩
    · simp
    · intro k hk
      simp only at hk ⊢
      rw [Nat.count_succ]
      by_cases e : k = s.num
      · subst e
        rw [hnew, if_pos rfl]
        have h0 : Nat.count (fun j => key (a j) = key (a (i + 1))) (i + 1) = 0 := by
          rw [Nat.count_iff_forall_not]
          intro j hj e
          have := hle j (by omega)
          rw [e] at this
          exact absurd hgt (not_lt.mpr this)
        rw [h0]
        conv_lhs => rw [← hlen.2]
        exact getD_append_last _ _ _
      · rw [hold k (by omega), if_neg (hbig k (by omega)).ne', add_zero, ← hcount k (by omega)]
        exact getD_append_left' _ _ _ _ (by rw [hlen.2]; omega)

theorem uniqueLoop_inv (key : Nat → K) (a : Nat → Nat) (n : Nat) (hn : 0 < n)
    (hs : ∀ j l, j < l → l < n → key (a j) < key (a l) ∨ (key (a j) = key (a l) ∧ a j < a l)) :
    UInv key a (n - 1) (uniqueLoop (fun x y => decide (key x = key y)) n a) := by
  suffices H : ∀ c, c < n → UInv key a c ((List.range' 1 c).foldl (uniqueStep (fun x y => decide (key x = key y)))
      { arg := a, num := 1, indices := [a 0], inverse := put (fun _ => 0) (a 0) 0, counts := [1] }) from H (n - 1) (by omega)
  intro c
  induction c with
  | zero =>
    intro _
    refine ⟨fun _ _ => rfl, by simp, by simp, ?_, ?_, ?_, by simp, ?_⟩
    · intro k hk
      have hk : k < 1 := hk
      obtain rfl : k = 0 := by omega
      exact ⟨0, le_refl _, rfl⟩
    · intro k l hkl hl
      have hl : l < 1 := hl
      omega
    · intro j hj
      obtain rfl : j = 0 := by omega
      simp
    · intro k hk
      have hk : k < 1 := hk
      obtain rfl : k = 0 := by omega
      simp [Nat.count_succ]
  | succ c ih =>
    intro hc
    rw [List.range'_concat, List.foldl_append]
    simp only [List.foldl_cons, List.foldl_nil, one_mul]
    rw [Nat.add_comm 1 c]
    exact uniqueStep_inv key a n c hs hc _ (ih (by omega))

/-- What the loop has found, independent of the sorting: the distinct keys in increasing order, each with its first
occurrence, the position of every row's key and the number of rows per key. -/
structure UFound (key : Nat → K) (n : Nat) (s : UState) : Prop where
  lenC : s.counts.length = s.indices.length
  lt : ∀ k, k < s.indices.length → s.indices.getD k 0 < n
  strict : ∀ k l, k < l → l < s.indices.length → key (s.indices.getD k 0) < key (s.indices.getD l 0)
  inv : ∀ r, r < n → s.inverse r < s.indices.length ∧ key (s.indices.getD (s.inverse r) 0) = key r ∧ s.indices.getD (s.inverse r) 0 ≤ r
  count : ∀ k, k < s.indices.length → s.counts.getD k 0 = Nat.count (fun r => key r = key (s.indices.getD k 0)) n

theorem count_perm (l : List Nat) (n : Nat) (hp : l.Perm (List.range n)) (p : Nat → Prop) [DecidablePred p] :
    Nat.count (fun j => p (l.getD j 0)) n = Nat.count p n := by
  have hl : l.length = n := by rw [hp.length_eq, List.length_range]
  have h1 : ∀ (q : Nat → Prop) [DecidablePred q], Nat.count q n = (List.range n).countP fun x => decide (q x) := by
    intro q _; exact Nat.count_eq_card_filter_range q n ▸ by
      rw [List.countP_eq_length_filter]
      rfl
  rw [h1, h1, ← hp.countP_eq (fun x => decide (p x))]
  conv_rhs => rw [show l = (List.range n).map (fun j => l.getD j 0) by
    apply List.ext_getElem
    · simp [hl]
    · intro i h2 h3
      simp [List.getD_eq_getElem?_getD, List.getElem?_eq_getElem h2]]
  rw [List.countP_map]
  rfl

theorem uniqueLoop_found (ssrt : (Nat → Nat → Bool) → List Nat → List Nat) (key : Nat → K) (h : IsStableSort ssrt key) (n : Nat) (hn : 0 < n) :
    UFound key n (uniqueLoop (fun x y => decide (key x = key y)) n (fun i => (ssrt (fun i j => decide (key i < key j)) (List.range n)).getD i 0)) := by
  obtain ⟨hp, hpw⟩ := h n
  generalize ssrt (fun i j => decide (key i < key j)) (List.range n) = l at hp hpw
  have hl : l.length = n := by rw [hp.length_eq, List.length_range]
  have hs : ∀ j k, j < k → k < n → key (l.getD j 0) < key (l.getD k 0) ∨ (key (l.getD j 0) = key (l.getD k 0) ∧ l.getD j 0 < l.getD k 0) := by
    intro j k hjk hk
    have := List.pairwise_iff_getElem.mp hpw j k (by omega) (by omega) hjk
    simpa [List.getD_eq_getElem?_getD, List.getElem?_eq_getElem (show j < l.length by omega), List.getElem?_eq_getElem (show k < l.length by omega)] using this
  obtain ⟨_, hnum, hlen, hmem, hstrict, hinv, _, hcount⟩ := uniqueLoop_inv key (fun i => l.getD i 0) n hn hs
  generalize uniqueLoop (fun x y => decide (key x = key y)) n (fun i => l.getD i 0) = s at hnum hlen hmem hstrict hinv hcount
  have hlt : ∀ j, j < n → l.getD j 0 < n := by
    intro j hj
    have : l.getD j 0 ∈ l := by
      rw [List.getD_eq_getElem?_getD, List.getElem?_eq_getElem (show j < l.length by omega)]
      exact List.getElem_mem _
    exact List.mem_range.mp (hp.mem_iff.mp this)
  refine ⟨by omega, ?_, ?_, ?_, ?_⟩
  · intro k hk
    obtain ⟨j, hj, e⟩ := hmem k (by omega)
    rw [e]; exact hlt j (by omega)
  · intro k l' hkl hl'; exact hstrict k l' hkl (by omega)
  · intro r hr
    have : r ∈ l := hp.mem_iff.mpr (List.mem_range.mpr hr)
    obtain ⟨j, hj, e⟩ := List.getElem_of_mem this
    have e' : l.getD j 0 = r := by rw [List.getD_eq_getElem?_getD, List.getElem?_eq_getElem hj]; exact e
    have := hinv j (by omega)
    simp only [e'] at this
    rw [hlen.1]; exact this
  · intro k hk
    rw [hcount k (by omega), Nat.sub_add_cancel (by omega)]
    exact count_perm l n hp (fun r => key r = key (s.indices.getD k 0))

end uniq

end Verif.Select
