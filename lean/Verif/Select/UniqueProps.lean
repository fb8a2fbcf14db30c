import Verif.Select.Unique
/-
C122: nonzero. C123: unique.
-/
namespace Verif.Select
open Verif.Fn Verif.ND Verif.Elem

/-- **C122.** nonzero(x) has shape (ndim, number of non-zero elements); column number `count of non-zeros before j` holds the
multi-index j of every non-zero element, so columns come in memory order; every column is of this kind; nothing is written
outside. -/
theorem C122_nonzero {T : Type} [Zero T] [DecidableEq T] (s : Shape) (x : Mem T) (y : Mem Nat) :
    let num := Nat.count (fun i => x i ≠ 0) (prod s)
    (nonzeroForward s x y).1 = [s.length, num] ∧
    (∀ j, InBounds s j → x (ravel s j) ≠ 0 → ∀ dim, dim < s.length →
      (nonzeroForward s x y).2 (dim * num + Nat.count (fun i => x i ≠ 0) (ravel s j)) = j.getD dim 0) ∧
    (∀ k, k < num → ∃ j, InBounds s j ∧ x (ravel s j) ≠ 0 ∧ Nat.count (fun i => x i ≠ 0) (ravel s j) = k) ∧
    ∀ i, s.length * num ≤ i → (nonzeroForward s x y).2 i = y i := by
  intro num
  have hloop := nz_loop s.length num x (fun i dim => (flat2nd i (cStrides s)).getD dim 0) y (prod s) (le_refl _)
  have hunf : nonzeroForward s x y = ([s.length, num], ((List.range (prod s)).foldl (fun (st : Mem Nat × Nat) i =>
      if x i = 0 then st
      else ((List.range s.length).foldl (fun y dim => put y (dim * num + st.2) ((flat2nd i (cStrides s)).getD dim 0)) st.1, st.2 + 1)) (y, 0)).1) := by
    unfold nonzeroForward
    simp only [nz_count, num]
  rw [hunf]
  refine ⟨rfl, ?_, ?_, hloop.2.2⟩
  · intro j hj hx dim hdim
    have h := hloop.2.1 (ravel s j) (ravel_lt hj) hx dim hdim
    refine h.trans ?_
    show (flat2nd (ravel s j) (cStrides s)).getD dim 0 = _
    rw [flat2nd_ravel s j hj]
  · intro k hk
    have : ∃ b, b < prod s ∧ x b ≠ 0 ∧ Nat.count (fun i => x i ≠ 0) b = k := by
      have hk : k < Nat.count (fun i => x i ≠ 0) (prod s) := hk
      generalize prod s = n at hk
      induction n with
      | zero => simp at hk
      | succ n ih =>
        by_cases h : k < Nat.count (fun i => x i ≠ 0) n
        · obtain ⟨b, h1, h2, h3⟩ := ih h
          exact ⟨b, by omega, h2, h3⟩
        · rw [Nat.count_succ] at hk
          by_cases hx : x n ≠ 0
          · rw [if_pos hx] at hk; exact ⟨n, by omega, hx, by omega⟩
          · rw [if_neg hx] at hk; omega
    obtain ⟨b, h1, h2, h3⟩ := this
    have hb := (C33_bijection s).2 b (by rw [(C33_size s 0).1]; exact h1)
    have e : ravel s (flat2nd b (cStrides s)) = b := by rw [← (C33_offset s _ hb.1).1]; exact hb.2
    exact ⟨_, hb.1, by rw [e]; exact h2, by rw [e]; exact h3⟩

/-! ### unique: outputs -/

section uniq
variable {K : Type} [LinearOrder K]

theorem table_spec (order : List Nat) (num : Nat) (hp : order.Perm (List.range num)) (k : Nat) (hk : k < num) :
    let t := (List.range num).foldl (fun t i => put t (order.getD i 0) i) (fun _ => 0)
    t k < num ∧ order.getD (t k) 0 = k := by
  have hl : order.length = num := by rw [hp.length_eq, List.length_range]
  have hnd : order.Nodup := hp.nodup_iff.mpr List.nodup_range
  have hinj : ∀ i j, i < num → j < num → order.getD i 0 = order.getD j 0 → i = j := by
    intro i j hi hj e
    rw [List.getD_eq_getElem?_getD, List.getD_eq_getElem?_getD, List.getElem?_eq_getElem (by omega), List.getElem?_eq_getElem (by omega)] at e
    exact (List.Nodup.getElem_inj_iff hnd).mp e
  obtain ⟨j, hj, e⟩ := List.getElem_of_mem (hp.mem_iff.mpr (List.mem_range.mpr hk))
  have e' : order.getD j 0 = k := by rw [List.getD_eq_getElem?_getD, List.getElem?_eq_getElem hj]; exact e
  have h1 := (forPut_spec num (fun i => order.getD i 0) (fun i _ => i) (fun _ => 0) hinj).1 j (by omega)
  intro t
  have : t k = j := by rw [← e']; exact h1
  rw [this]
  exact ⟨by omega, e'⟩

theorem getD_mapRange {α} (n : Nat) (f : Nat → α) (d : α) (i : Nat) (h : i < n) : ((List.range n).map f).getD i d = f i := by
  simp [List.getD_eq_getElem?_getD, h]

/-- What a user expects of unique's index outputs for rows with keys `key`: distinct keys, each with the index of its first
occurrence and its multiplicity, a position for every row, in increasing order of keys or in order of first occurrence. -/
structure UniqueOK (key : Nat → K) (n : Nat) (sorted : Bool) (o : UOut) : Prop where
  lenI : o.inverse.length = n
  lenC : o.counts.length = o.index.length
  first : ∀ i, i < o.index.length → o.index.getD i 0 < n ∧ ∀ r, r < n → key r = key (o.index.getD i 0) → o.index.getD i 0 ≤ r
  distinct : ∀ i j, i < o.index.length → j < o.index.length → key (o.index.getD i 0) = key (o.index.getD j 0) → i = j
  inverse : ∀ r, r < n → o.inverse.getD r 0 < o.index.length ∧ key (o.index.getD (o.inverse.getD r 0) 0) = key r
  counts : ∀ i, i < o.index.length → o.counts.getD i 0 = Nat.count (fun r => key r = key (o.index.getD i 0)) n
  order : ∀ i j, i < j → j < o.index.length →
    if sorted then key (o.index.getD i 0) < key (o.index.getD j 0) else o.index.getD i 0 < o.index.getD j 0

theorem uniqueOutputs_ok (srt : (Nat → Nat → Bool) → List Nat → List Nat) (hsrt : IsSort srt) (sorted : Bool) (key : Nat → K) (n : Nat) (s : UState)
    (h : UFound key n s) : UniqueOK key n sorted (uniqueOutputs srt sorted n s) := by
  obtain ⟨hC, hlt, hstrict, hinv, hcount⟩ := h
  -- order is a permutation
  have horder : ∃ order : List Nat, order.Perm (List.range s.indices.length) ∧
      (if sorted then List.range s.indices.length else srt (fun a b => decide (s.indices.getD a 0 < s.indices.getD b 0)) (List.range s.indices.length)) = order ∧
      (sorted = true → order = List.range s.indices.length) ∧
      (sorted = false → order.Pairwise fun a b => s.indices.getD a 0 ≤ s.indices.getD b 0) := by
    cases sorted with
    | true => exact ⟨_, List.Perm.refl _, rfl, fun _ => rfl, fun h => by simp at h⟩
    | false =>
      obtain ⟨p1, p2⟩ := hsrt (fun a => s.indices.getD a 0) s.indices.length
      exact ⟨_, p1, rfl, fun h => by simp at h, fun _ => p2⟩
  obtain ⟨order, hp, he, hS, hU⟩ := horder
  have hl : order.length = s.indices.length := by rw [hp.length_eq, List.length_range]
  have hnd : order.Nodup := hp.nodup_iff.mpr List.nodup_range
  have hget : ∀ i (h : i < order.length), order.getD i 0 = order[i] := by
    intro i h; rw [List.getD_eq_getElem?_getD, List.getElem?_eq_getElem h]; rfl
  have holt : ∀ i, i < s.indices.length → order.getD i 0 < s.indices.length := by
    intro i hi
    rw [hget i (by omega)]
    exact List.mem_range.mp (hp.mem_iff.mp (List.getElem_mem _))
  have hoinj : ∀ i j, i < s.indices.length → j < s.indices.length → order.getD i 0 = order.getD j 0 → i = j := by
    intro i j hi hj e
    rw [hget i (by omega), hget j (by omega)] at e
    exact (List.Nodup.getElem_inj_iff hnd).mp e
  have hkinj : ∀ k l, k < s.indices.length → l < s.indices.length → key (s.indices.getD k 0) = key (s.indices.getD l 0) → k = l := by
    intro k l hk hl e
    rcases Nat.lt_trichotomy k l with h | h | h
    · exact absurd e (hstrict k l h hl).ne
    · exact h
    · exact absurd e (hstrict l k h hk).ne'
  have hfirst : ∀ k, k < s.indices.length → ∀ r, r < n → key r = key (s.indices.getD k 0) → s.indices.getD k 0 ≤ r := by
    intro k hk r hr e
    obtain ⟨q1, q2, q3⟩ := hinv r hr
    have : s.inverse r = k := hkinj _ _ q1 hk (by rw [q2, e])
    rw [← this]; exact q3
  simp only [uniqueOutputs, he]
  have hidx : ∀ i, i < s.indices.length → ((List.range s.indices.length).map fun i => s.indices.getD (order.getD i 0) 0).getD i 0 = s.indices.getD (order.getD i 0) 0 :=
    fun i hi => getD_mapRange _ _ _ _ hi
  refine ⟨by simp, by simp, ?_, ?_, ?_, ?_, ?_⟩
  · intro i hi
    simp only [List.length_map, List.length_range] at hi
    rw [hidx i hi]
    exact ⟨hlt _ (holt i hi), hfirst _ (holt i hi)⟩
  · intro i j hi hj e
    simp only [List.length_map, List.length_range] at hi hj
    rw [hidx i hi, hidx j hj] at e
    exact hoinj i j hi hj (hkinj _ _ (holt i hi) (holt j hj) e)
  · intro r hr
    obtain ⟨q1, q2, q3⟩ := hinv r hr
    obtain ⟨t1, t2⟩ := table_spec order s.indices.length hp (s.inverse r) q1
    rw [getD_mapRange _ _ _ _ hr]
    simp only [List.length_map, List.length_range]
    refine ⟨t1, ?_⟩
    rw [hidx _ t1, t2, q2]
  · intro i hi
    simp only [List.length_map, List.length_range] at hi
    rw [getD_mapRange _ _ _ _ hi, hcount _ (holt i hi), hidx i hi]
  · intro i j hij hj
    simp only [List.length_map, List.length_range] at hj
    rw [hidx i (by omega), hidx j hj]
    cases hsd : sorted with
    | true =>
      have := hS hsd
      simp only [if_true]
      have ei : order.getD i 0 = i := by rw [this]; simp [List.getD_eq_getElem?_getD, show i < s.indices.length by omega]
      have ej : order.getD j 0 = j := by rw [this]; simp [List.getD_eq_getElem?_getD, hj]
      rw [ei, ej]; exact hstrict i j hij hj
    | false =>
      simp only [Bool.false_eq_true, if_false]
      have := List.pairwise_iff_getElem.mp (hU hsd) i j (by omega) (by omega) hij
      rw [← hget i (by omega), ← hget j (by omega)] at this
      refine lt_of_le_of_ne this fun e => ?_
      have := hoinj i j (by omega) hj (hkinj _ _ (holt i (by omega)) (holt j hj) (by rw [e]))
      omega

end uniq

/-! ### unique: y -/

theorem uniqueY_inner {T} (outer n inner num i r : Nat) (x y : Mem T) (hi : i < num) (c : Nat) (hc : c ≤ outer) :
    let st := (List.range c).foldl (fun (st : Mem T × (Nat × Nat)) _ =>
      (forPut inner (fun t => st.2.1 + t) (fun t _ => x (st.2.2 + t)) st.1,
        (st.2.1 + num * inner, st.2.2 + n * inner))) (y, (i * inner, r * inner))
    st.2 = (off num inner c i 0, off n inner c r 0) ∧
    (∀ j t, j < c → t < inner → st.1 (off num inner j i t) = x (off n inner j r t)) ∧
    ∀ k, (∀ j t, j < outer → t < inner → off num inner j i t ≠ k) → st.1 k = y k := by
  induction c with
  | zero => exact ⟨by simp [off], fun j _ hj => absurd hj (by omega), fun _ _ => rfl⟩
  | succ c ih =>
    obtain ⟨h1, h2, h3⟩ := ih (by omega)
    rw [List.range_succ, List.foldl_append]
    simp only [List.foldl_cons, List.foldl_nil]
    generalize List.foldl _ (y, (i * inner, r * inner)) (List.range c) = st at h1 h2 h3 ⊢
    obtain ⟨p1, p2⟩ := forPut_spec inner (fun t => st.2.1 + t) (fun t _ => x (st.2.2 + t)) st.1 (fun _ _ _ _ e => by omega)
    have e1 : ∀ t, st.2.1 + t = off num inner c i t := by intro t; rw [h1]; simp [off]
    have e2 : ∀ t, st.2.2 + t = off n inner c r t := by intro t; rw [h1]; simp [off]
    refine ⟨?_, ?_, ?_⟩
    · rw [h1]
      simp only [off]
      congr 1
      · rw [Nat.succ_mul, Nat.add_mul]; omega
      · rw [Nat.succ_mul, Nat.add_mul]; omega
    · intro j t hj ht
      by_cases e : j = c
      · subst e
        have := p1 t ht
        rw [e1, e2] at this
        exact this
      · rw [p2, h2 j t (by omega) ht]
        intro t' ht' he
        rw [e1] at he
        exact e (off_inj hi ht' hi ht he).1.symm
    · intro k hk
      rw [p2, h3 k hk]
      intro t ht he
      rw [e1] at he
      exact hk c t (by omega) ht he

/-- Element (j, i, t) of y, seen as (outer, number of unique rows, inner), is element (j, index i, t) of x. -/
theorem uniqueY_spec {T} (outer n inner : Nat) (index : List Nat) (x y : Mem T) :
    ∀ j i t, j < outer → i < index.length → t < inner →
      uniqueY outer n inner index x y (off index.length inner j i t) = x (off n inner j (index.getD i 0) t) := by
  suffices H : ∀ c, c ≤ index.length → ∀ j i t, j < outer → i < c → t < inner →
      (List.range c).foldl (fun y i =>
        ((List.range outer).foldl (fun (st : Mem T × (Nat × Nat)) _ =>
          (forPut inner (fun t => st.2.1 + t) (fun t _ => x (st.2.2 + t)) st.1,
            (st.2.1 + index.length * inner, st.2.2 + n * inner))) (y, (i * inner, index.getD i 0 * inner))).1) y (off index.length inner j i t) = x (off n inner j (index.getD i 0) t) from
    H index.length (le_refl _)
  intro c
  induction c with
  | zero => intro _ j i t _ hi; omega
  | succ c ih =>
    intro hc j i t hj hi ht
    rw [List.range_succ, List.foldl_append]
    simp only [List.foldl_cons, List.foldl_nil]
    have sp := fun y => uniqueY_inner outer n inner index.length c (index.getD c 0) x y (by omega) outer (le_refl _)
    by_cases e : i = c
    · subst e; exact (sp _).2.1 j t hj ht
    · rw [(sp _).2.2, ih (by omega) j i t hj (by omega) ht]
      intro j' t' hj' ht' he
      exact e (off_inj (by omega) ht' (by omega) ht he).2.1.symm

/-- **C123.** unique with flatten, on a non-empty array: y consists of the distinct elements; the index output gives the first
occurrence of each, the inverse reconstructs x, the counts are the multiplicities, in increasing order (sorted) or in order of
first occurrence. -/
theorem C123_flatten {T : Type} [LinearOrder T] (ssrt srt : (Nat → Nat → Bool) → List Nat → List Nat) (hsrt : IsSort srt)
    (axis : Int) (sorted : Bool) (s : Shape) (x y : Mem T) (hss : IsStableSort ssrt (uniqueRow 1 (prod s) 1 x)) (hn : 0 < prod s)
    (hax : axis < s.length ∧ axis ≥ -(s.length : Int)) :
    ∃ v o, unique ssrt srt true axis sorted s x y = .ok ([o.index.length], v, o) ∧ UniqueOK x (prod s) sorted o ∧
      ∀ i, i < o.index.length → v i = x (o.index.getD i 0) := by
  have hrow : ∀ a, uniqueRow 1 (prod s) 1 x a = [x a] := by
    intro a; simp [uniqueRow, off, List.range_succ]
  have hf := uniqueLoop_found ssrt _ hss (prod s) hn
  have hok := uniqueOutputs_ok srt hsrt sorted _ _ _ hf
  generalize ho : uniqueOutputs srt sorted (prod s) _ = o at hok
  obtain ⟨k1, k2, k3, k4, k5, k6, k7⟩ := hok
  refine ⟨uniqueY 1 (prod s) 1 o.index x y, o, ?_, ⟨k1, k2, ?_, ?_, ?_, ?_, ?_⟩, ?_⟩
  · unfold unique refineAxis
    rw [if_pos hax]
    simp only [if_true]
    rw [if_neg (by omega)]
    rw [← ho]
    congr!
  · intro i hi
    obtain ⟨a, b⟩ := k3 i hi
    exact ⟨a, fun r hr e => b r hr (by rw [hrow, hrow, e])⟩
  · intro i j hi hj e; exact k4 i j hi hj (by rw [hrow, hrow, e])
  · intro r hr
    obtain ⟨a, b⟩ := k5 r hr
    rw [hrow, hrow] at b
    exact ⟨a, List.head_eq_of_cons_eq b⟩
  · intro i hi
    have := k6 i hi
    simp only [hrow, List.cons.injEq, and_true] at this
    exact this
  · intro i j hij hj
    have := k7 i j hij hj
    cases sorted with
    | true =>
      simp only [if_true] at this ⊢
      rw [hrow, hrow] at this
      have h2 := (List.lex_singleton_iff (r := (· < ·)) (x _) (x _)).mp this
      exact h2
    | false => exact this
  · intro i hi
    have := uniqueY_spec 1 (prod s) 1 _ x y 0 i 0 (by omega) hi (by omega)
    simpa [off] using this

/-- **C123.** unique along an axis of an array of shape A ++ [d] ++ B with d > 0: the rows are the slices x[.., a, ..]; y has the
shape with d replaced by the number of distinct slices and slice i of y is slice index[i] of x; index, inverse, counts and
order as for flattened arrays, slices being compared lexicographically. -/
theorem C123_axis {T : Type} [LinearOrder T] (ssrt srt : (Nat → Nat → Bool) → List Nat → List Nat) (hsrt : IsSort srt)
    (axis : Int) (sorted : Bool) (A B : Shape) (d : Nat) (x y : Mem T) (hss : IsStableSort ssrt (uniqueRow (prod A) d (prod B) x)) (hd : 0 < d)
    (hax : axis = A.length ∨ axis = (A.length : Int) - (A ++ d :: B).length) :
    ∃ v o, unique ssrt srt false axis sorted (A ++ d :: B) x y = .ok (A ++ o.index.length :: B, v, o) ∧
      UniqueOK (uniqueRow (prod A) d (prod B) x) d sorted o ∧
      ∀ a i b, InBounds A a → i < o.index.length → InBounds B b →
        v (ravel (A ++ o.index.length :: B) (a ++ i :: b)) = x (ravel (A ++ d :: B) (a ++ o.index.getD i 0 :: b)) := by
  have hf := uniqueLoop_found ssrt _ hss d hd
  have hok := uniqueOutputs_ok srt hsrt sorted _ _ _ hf
  generalize ho : uniqueOutputs srt sorted d _ = o at hok
  refine ⟨uniqueY (prod A) d (prod B) o.index x y, o, ?_, hok, ?_⟩
  · unfold unique
    rw [refineAxis_ok A.length _ (by simp) axis hax]
    have e1 : (A ++ d :: B).take A.length = A := List.take_left
    have e2 : (A ++ d :: B).getD A.length 0 = d := by simp
    have e3 : (A ++ d :: B).drop (A.length + 1) = B := by
      rw [← List.drop_drop, List.drop_left]; rfl
    have e4 : ∀ k, (A ++ d :: B).set A.length k = A ++ k :: B := by
      intro k; rw [List.set_append_right _ _ (le_refl _), Nat.sub_self]; rfl
    simp only [Bool.false_eq_true, if_false, e1, e2, e3, e4]
    rw [if_neg (by omega)]
    rw [← ho]
    congr!
  · intro a i b ha hi hb
    rw [ravel_off A B _ a b i ha, ravel_off A B d a b _ ha]
    exact uniqueY_spec (prod A) d (prod B) _ x y _ _ _ (ravel_lt ha) hi (ravel_lt hb)

/-- Two slices have the same row exactly when they agree elementwise. -/
theorem uniqueRow_eq_iff {T : Type} (outer n inner : Nat) (x : Mem T) (a b : Nat) :
    uniqueRow outer n inner x a = uniqueRow outer n inner x b ↔ ∀ j t, j < outer → t < inner → x (off n inner j a t) = x (off n inner j b t) := by
  unfold uniqueRow
  induction outer with
  | zero => simp
  | succ m ih =>
    rw [List.range_succ, List.flatMap_append, List.flatMap_append]
    simp only [List.flatMap_cons, List.flatMap_nil, List.append_nil]
    constructor
    · intro h j t hj ht
      have h' := List.append_inj' h (by simp)
      rcases Nat.lt_succ_iff_lt_or_eq.mp hj with hj | hj
      · exact ih.mp h'.1 j t hj ht
      · subst hj
        have := congrArg (fun l => l[t]?) h'.2
        simpa [ht] using this
    · intro h
      congr 1
      · exact ih.mpr fun j t hj ht => h j t (by omega) ht
      · apply List.map_congr_left
        intro t ht
        exact h m t (by omega) (List.mem_range.mp ht)

/-- **C123, refutation for empty arrays.** The code reads the first element of an empty vector. -/
theorem C123_empty_refuted {T : Type} [LinearOrder T] (ssrt srt : (Nat → Nat → Bool) → List Nat → List Nat) (axis : Int) (sorted : Bool) (s : Shape)
    (x y : Mem T) (hn : prod s = 0) : ∃ e, unique ssrt srt true axis sorted s x y = .error e := by
  unfold unique
  cases refineAxis axis s.length with
  | error e => exact ⟨e, rfl⟩
  | ok a =>
    simp only [if_true]
    rw [if_pos hn]
    exact ⟨_, rfl⟩

/-! ### Non-vacuity -/

/-- Sorting by (key, index) is a stable sort of 0 … n-1. -/
theorem exists_stableSort {K} [LinearOrder K] (key : Nat → K) : ∃ srt, IsStableSort srt key := by
  classical
  refine ⟨fun _ l => l.mergeSort (fun a b => decide (key a < key b ∨ (key a = key b ∧ a ≤ b))), fun n => ⟨List.mergeSort_perm _ _, ?_⟩⟩
  have htrans : ∀ a b c : Nat, decide (key a < key b ∨ (key a = key b ∧ a ≤ b)) = true → decide (key b < key c ∨ (key b = key c ∧ b ≤ c)) = true →
      decide (key a < key c ∨ (key a = key c ∧ a ≤ c)) = true := by
    intro a b c h1 h2
    rw [decide_eq_true_eq] at h1 h2 ⊢
    rcases h1 with h1 | h1 <;> rcases h2 with h2 | h2
    · exact Or.inl (h1.trans h2)
    · exact Or.inl (h2.1 ▸ h1)
    · exact Or.inl (h1.1 ▸ h2)
    · exact Or.inr ⟨h1.1.trans h2.1, h1.2.trans h2.2⟩
  have htot : ∀ a b : Nat, (decide (key a < key b ∨ (key a = key b ∧ a ≤ b)) || decide (key b < key a ∨ (key b = key a ∧ b ≤ a))) = true := by
    intro a b
    simp only [Bool.or_eq_true, decide_eq_true_eq]
    rcases lt_trichotomy (key a) (key b) with h | h | h
    · exact Or.inl (Or.inl h)
    · rcases Nat.le_total a b with h' | h'
      · exact Or.inl (Or.inr ⟨h, h'⟩)
      · exact Or.inr (Or.inr ⟨h.symm, h'⟩)
    · exact Or.inr (Or.inl h)
  have hpw := List.pairwise_mergeSort htrans htot (List.range n)
  have hnd : ((List.range n).mergeSort (fun a b => decide (key a < key b ∨ (key a = key b ∧ a ≤ b)))).Nodup :=
    (List.mergeSort_perm _ _).nodup_iff.mpr List.nodup_range
  refine (hpw.and hnd).imp ?_
  intro a b h
  simp only [decide_eq_true_eq] at h
  rcases h.1 with h1 | h1
  · exact Or.inl h1
  · exact Or.inr ⟨h1.1, lt_of_le_of_ne h1.2 h.2⟩

/-- mergeSort by "not greater" is a sort. -/
theorem exists_sort : ∃ srt, IsSort srt := by
  refine ⟨fun lt l => l.mergeSort (fun a b => !lt b a), fun key n => ⟨List.mergeSort_perm _ _, ?_⟩⟩
  have := List.pairwise_mergeSort (le := fun a b : Nat => !decide (key b < key a))
    (fun a b c h1 h2 => by simp only [Bool.not_eq_true', decide_eq_false_iff_not, not_lt] at *; omega)
    (fun a b => by simp only [Bool.or_eq_true, Bool.not_eq_true', decide_eq_false_iff_not, not_lt]; omega) (List.range n)
  exact this.imp fun h => by simpa using h

/-- The hypotheses of C123_flatten are met: the distinct elements of [3, 1, 3, 2]. -/
example : ∃ ssrt srt v o, unique (T := ℤ) ssrt srt true 0 true [4] (fun i => [3, 1, 3, 2].getD i 0) (fun _ => 0) = .ok ([o.index.length], v, o) ∧
    UniqueOK (fun i => ([3, 1, 3, 2] : List ℤ).getD i 0) 4 true o := by
  obtain ⟨ssrt, h1⟩ := exists_stableSort (uniqueRow 1 (prod [4]) 1 (fun i => ([3, 1, 3, 2] : List ℤ).getD i 0))
  obtain ⟨srt, h2⟩ := exists_sort
  obtain ⟨v, o, h, h', _⟩ := C123_flatten ssrt srt h2 0 true [4] (fun i => ([3, 1, 3, 2] : List ℤ).getD i 0) (fun _ => 0) h1 (by decide) (by decide)
  exact ⟨ssrt, srt, v, o, h, h'⟩

example : (uniqueLoop (fun a b => decide ([3, 1, 3, 2].getD a 0 = [3, 1, 3, 2].getD b 0)) 4 (fun i => [1, 3, 0, 2].getD i 0)).indices = [1, 3, 0] ∧
    (uniqueLoop (fun a b => decide ([3, 1, 3, 2].getD a 0 = [3, 1, 3, 2].getD b 0)) 4 (fun i => [1, 3, 0, 2].getD i 0)).counts = [1, 1, 2] := by decide
example : (nonzeroForward (T := ℤ) [2, 2] (fun i => if i = 0 then 0 else 5) (fun _ => 9)).1 = [2, 3] ∧
    (List.range 6).map (nonzeroForward (T := ℤ) [2, 2] (fun i => if i = 0 then 0 else 5) (fun _ => 9)).2 = [0, 1, 1, 1, 0, 1] := by decide

end Verif.Select
