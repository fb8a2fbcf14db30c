import Verif.Fn.Select
/-
gather_nd, scatter_nd, scatter_add: theorems (models in Verif/Fn/Select.lean).
-/
namespace Verif.Fn
open Verif.ND

/-! ### Specification vocabulary -/

/-- The integer `v` is an index of an axis of extent `d`: counted from the start, or from the end if negative. -/
def validIdx (d : Nat) (v : Int) : Prop := -(d : Int) ≤ v ∧ v < d

/-- The position the integer `v` denotes in an axis of extent `d`. -/
def resolveIdx (d : Nat) (v : Int) : Nat := if v < 0 then (d + v).toNat else v.toNat

/-- The multi-index stored in column `k` of the index array `idx` of shape `M.length × K`. -/
def column (M K : Shape) (idx : Nat → Int) (k : List Nat) : List Nat :=
  (List.range M.length).map fun m => resolveIdx (M.getD m 0) (idx (ravel (M.length :: K) (m :: k)))

/-- All stored indices are valid for an array with leading extents `M`. -/
def ValidIndices (M K : Shape) (idx : Nat → Int) : Prop :=
  ∀ m k, m < M.length → InBounds K k → validIdx (M.getD m 0) (idx (ravel (M.length :: K) (m :: k)))

/-! ### Lemmas -/

theorem resolveIdx_lt (d : Nat) (v : Int) (h : validIdx d v) : resolveIdx d v < d := by
  unfold validIdx at h
  unfold resolveIdx
  split <;> omega

theorem column_inBounds (M K : Shape) (idx : Nat → Int) (h : ValidIndices M K idx) (k : List Nat) (hk : InBounds K k) :
    InBounds M (column M K idx k) := by
  rw [inBounds_iff]
  refine ⟨by simp [column], ?_⟩
  intro a ha
  rw [column, getD_range_map _ _ _ ha]
  exact resolveIdx_lt _ _ (h a k ha hk)

theorem exists_ravel (s : Shape) (t : Nat) (h : t < prod s) : ∃ q, InBounds s q ∧ ravel s q = t := by
  have : t ∈ (indices s).map (ravel s) := by rw [indices_ravel]; exact List.mem_range.mpr h
  obtain ⟨q, hq, rfl⟩ := List.mem_map.mp this
  exact ⟨q, (mem_indices _ _).mp hq, rfl⟩

theorem getD_append_lt {α} (A B : List α) (d : α) (m : Nat) (h : m < A.length) : (A ++ B).getD m d = A.getD m d := by
  simp [List.getD_eq_getElem?_getD, List.getElem?_append_left h]

/-- The (unfolded) position of column `i`, with the flat number of the column. -/
def flatColumn (M : Shape) (cols : Nat) (idx : Nat → Int) (i : Nat) : List Nat :=
  (List.range M.length).map fun m => resolveIdx (M.getD m 0) (idx (m * cols + i))

theorem flatColumn_eq (M K : Shape) (idx : Nat → Int) (k : List Nat) :
    flatColumn M (prod K) idx (ravel K k) = column M K idx k := rfl

theorem slicePairs_ok (M K T : Shape) (idx : Nat → Int) (hM : M ≠ []) (hv : ValidIndices M K idx) :
    ∃ ps, slicePairs (M ++ T) (M.length :: K) idx = .ok ps ∧
      Gathers [prod K, prod T] [prod M, prod T]
        (fun j => [ravel M (flatColumn M (prod K) idx (j.getD 0 0)), j.getD 1 0]) ps := by
  have hMl : 0 < M.length := List.length_pos_iff.mpr hM
  have hcols : innerSize (M.length :: K) 1 = prod K := by rw [innerSize, foldl_mul]; simp
  have hv' : ∀ m i, m < M.length → i < prod K → validIdx (M.getD m 0) (idx (m * prod K + i)) := by
    intro m i hm hi
    obtain ⟨k, hk, rfl⟩ := exists_ravel K i hi
    exact hv m k hm hk
  rw [slicePairs]
  simp only [hcols, List.getD_cons_zero]
  by_cases hK : prod K = 0
  · rw [if_pos hK]
    refine ⟨_, rfl, ?_, ?_⟩
    · rw [hK, indices2]; simp
    · intro j hj
      rw [hK] at hj
      match j, hj with
      | [a, b], h => exact absurd h.1 (by omega)
  rw [if_neg hK, if_neg, if_neg (by omega)]
  swap
  · rintro ⟨i, hi, m, hm, hbad⟩
    have := hv' m i hm hi
    rw [getD_append_lt _ _ _ _ hm] at hbad
    unfold validIdx at this
    omega
  have hlen : (ndiStrides (M ++ T)).getD (M.length - 1) 0 = prod T := by
    rw [C33_ndi_strides, List.getD_eq_getElem?_getD, C33_strides _ _ (by simp; omega)]
    simp only [Option.getD_some]
    rw [show M.length - 1 + 1 = M.length by omega, List.drop_left]
  refine ⟨_, rfl, ?_, ?_⟩
  · rw [hlen]
    apply List.Perm.of_eq
    rw [indices2]
    apply List.flatMap_congr
    intro i hi
    apply List.map_congr_left
    intro k _
    have hnd : ((List.range M.length).map fun m =>
        (if idx (m * prod K + i) < 0 then ((M ++ T).getD m 0 : Int) + idx (m * prod K + i) else idx (m * prod K + i)).toNat) =
        flatColumn M (prod K) idx i := by
      apply List.map_congr_left
      intro m hm
      rw [getD_append_lt _ _ _ _ (List.mem_range.mp hm), resolveIdx]
      split <;> rfl
    rw [hnd]
    simp only [List.getD_cons_zero, List.getD_cons_succ]
    rw [nd2flat_ndi, List.length_append, Nat.add_sub_cancel_left, ravel_append _ _ _ _ (by simp [flatColumn]), ravel_zero]
    simp [ravel, prod]
  · intro j hj
    match j, hj with
    | [a, b], ⟨h1, h2, _⟩ =>
      obtain ⟨k, hk, rfl⟩ := exists_ravel K a h1
      simp only [List.getD_cons_zero, List.getD_cons_succ, flatColumn_eq]
      exact ⟨ravel_lt (column_inBounds M K idx hv k hk), h2, trivial⟩

theorem ravel2 (A B : Shape) (a b : List Nat) (ha : InBounds A a) :
    ravel [prod A, prod B] [ravel A a, ravel B b] = ravel (A ++ B) (a ++ b) := by
  rw [ravel_append _ _ _ _ ha.length]; simp [ravel, prod]

theorem prod2 (A B : Shape) : prod [prod A, prod B] = prod (A ++ B) := by rw [prod_append]; simp [prod]

/-! ### gather_nd -/

/-- GatherNd::forward_impl (gather_nd.cpp:58-93). -/
def gatherNdForward {R} (ps : Pairs) (x y : Mem R) : Mem R := fwd ps x y

/-- GatherNd::backward_impl (gather_nd.cpp:95-140); `n` elements in x. -/
def gatherNdBackward {R} [Zero R] [Add R] (n : Nat) (ps : Pairs) (accum : Bool) (dy dx : Mem R) : Mem R :=
  bwdAdd ps dy (if accum then dx else fun i => if i < n then 0 else dx i)

/-- **C78.** `gather_nd(x, indices)` for x of shape `M × T` and indices of shape `|M| × K` (at least one
row, at least one axis in K), all valid: the result has shape `K × T` and element `(k, t)` is `x[p, t]` where p is
column k of indices, negative entries counting from the end of their axis. -/
theorem C78_gather_nd {R} (M K T : Shape) (idx : Nat → Int) (hM : M ≠ []) (hK : K ≠ []) (hv : ValidIndices M K idx) :
    gatherNdSetup (M ++ T) (M.length :: K) = .ok (K ++ T) ∧
    ∃ ps, slicePairs (M ++ T) (M.length :: K) idx = .ok ps ∧
      ∀ (x y : Mem R) k t, InBounds K k → InBounds T t →
        gatherNdForward ps x y (ravel (K ++ T) (k ++ t)) = x (ravel (M ++ T) (column M K idx k ++ t)) := by
  constructor
  · have : 0 < K.length := List.length_pos_iff.mpr hK
    rw [gatherNdSetup, if_neg (by simp; omega), if_neg (by simp)]
    simp
  · obtain ⟨ps, h1, h2⟩ := slicePairs_ok M K T idx hM hv
    refine ⟨ps, h1, ?_⟩
    intro x y k t hk ht
    have := h2.forward x y [ravel K k, ravel T t] ⟨ravel_lt hk, ravel_lt ht, trivial⟩
    rw [ravel2 _ _ _ _ hk] at this
    rw [gatherNdForward, this]
    simp only [List.getD_cons_zero, List.getD_cons_succ, flatColumn_eq]
    rw [ravel2 _ _ _ _ (column_inBounds M K idx hv k hk)]

/-- **C78.** Backward of gather_nd is the transpose of its forward. -/
theorem C78_gather_nd_grad {R} [CommSemiring R] (M K T : Shape) (idx : Nat → Int) (hM : M ≠ []) (hv : ValidIndices M K idx)
    (y : Mem R) :
    ∃ ps, slicePairs (M ++ T) (M.length :: K) idx = .ok ps ∧
      GradOK (prod (M ++ T)) (prod (K ++ T)) (fun x => gatherNdForward ps x y)
        (callBackward (gatherNdBackward (prod (M ++ T)) ps)) := by
  obtain ⟨ps, h1, h2⟩ := slicePairs_ok M K T idx hM hv
  refine ⟨ps, h1, ?_⟩
  rw [← prod2 M T, ← prod2 K T]
  refine h2.gradOK_add y _ ?_
  intro accum dy dx
  cases accum
  · simp only [callBackward, gatherNdBackward, Bool.false_eq_true, if_false]
    congr 1
    funext i
    split <;> rfl
  · rfl

/-- **C78.** An index that is not valid is reported by gather_nd and scatter_nd, before anything is
read or written for it. -/
theorem C78_gather_nd_rejects (M K T : Shape) (idx : Nat → Int) (m : Nat) (k : List Nat) (hm : m < M.length) (hk : InBounds K k)
    (hbad : ¬ validIdx (M.getD m 0) (idx (ravel (M.length :: K) (m :: k)))) :
    ∃ e, slicePairs (M ++ T) (M.length :: K) idx = .error e := by
  have hcols : innerSize (M.length :: K) 1 = prod K := by rw [innerSize, foldl_mul]; simp
  rw [slicePairs]
  simp only [hcols, List.getD_cons_zero]
  rw [if_neg (by have := ravel_lt hk; omega), if_pos]
  · exact ⟨_, rfl⟩
  · refine ⟨ravel K k, ravel_lt hk, m, hm, ?_⟩
    rw [getD_append_lt _ _ _ _ hm]
    unfold validIdx at hbad
    simp only [ravel] at hbad
    omega

example : ∃ ps, slicePairs [2, 3] [2, 2] (fun i => [1, 0, -1, 0].getD i 0) = .ok ps ∧
    (List.range 2).map (gatherNdForward ps (fun i => i) (fun _ => 99)) = [5, 0] := by
  refine ⟨_, rfl, ?_⟩
  decide

example : ValidIndices [2, 3] [2] (fun i => [1, 0, -1, 0].getD i 0) := by
  intro m k hm hk
  match k, hk with
  | [a], ⟨ha, _⟩ =>
    have hm : m = 0 ∨ m = 1 := by simp at hm; omega
    have ha : a = 0 ∨ a = 1 := by omega
    rcases hm with rfl | rfl <;> rcases ha with rfl | rfl <;> simp [validIdx, ravel, prod]

/-! ### scatter_nd -/

theorem scatterNdBackward_false {R} [Add R] (ps : Pairs) (dy dx : Mem R) : scatterNdBackward ps false dy dx = fwd ps dy dx := rfl

theorem nodup_indices (s : Shape) : (indices s).Nodup := (indices_nodup s).of_map _

theorem Gathers.nodup_fst {ysh xsh : Shape} {f : List Nat → List Nat} {ps : Pairs} (h : Gathers ysh xsh f ps) :
    (ps.map (·.1)).Nodup := by
  have := h.perm.map (·.1)
  rw [this.nodup_iff, List.map_map]
  exact indices_nodup ysh

theorem scatterNdBackward_true {R} [AddCommMonoid R] (ps : Pairs) (hn : (ps.map (·.1)).Nodup) (dy dx : Mem R) (k : Nat) :
    scatterNdBackward ps true dy dx k = dx k + scatterNdBackward ps false dy zeros k := by
  have h1 : scatterNdBackward ps true dy dx = bwdAdd (ps.map Prod.swap) dy dx := by
    rw [scatterNdBackward, bwdAdd, List.foldl_map]; rfl
  rw [h1, scatterNdBackward_false]
  by_cases hk : k ∈ ps.map (·.1)
  · obtain ⟨p, hp, rfl⟩ := List.mem_map.mp hk
    have hp' : p.swap ∈ ps.map Prod.swap := List.mem_map.mpr ⟨p, hp, rfl⟩
    have := bwdAdd_mem (ps.map Prod.swap) (by rw [List.map_map]; exact hn) dy dx p.swap hp'
    simp only [Prod.snd_swap, Prod.fst_swap] at this
    rw [this, fwd_mem ps dy zeros p hp]
    intro q hq e
    have := List.inj_on_of_nodup_map hn hq hp e
    rw [this]
  · rw [fwd_not_mem _ _ _ _ hk, bwdAdd_eq]
    have : ((ps.map Prod.swap).map fun p => if p.2 = k then dy p.1 else 0) = (ps.map Prod.swap).map fun _ => (0 : R) := by
      apply List.map_congr_left
      intro p hp
      obtain ⟨q, hq, rfl⟩ := List.mem_map.mp hp
      rw [if_neg]
      intro e
      exact hk (List.mem_map.mpr ⟨q, hq, e⟩)
    rw [this, List.map_const']; simp [zeros]

/-- Backward of scatter_nd (two inputs) for the accumulating forward. -/
theorem scatter_gradOK {R} [CommSemiring R] {ysh xsh : Shape} {f : List Nat → List Nat} {ps : Pairs}
    (h : Gathers ysh xsh f ps) :
    GradOK (prod ysh) (prod xsh) (fun data : Mem R => bwdAdd ps data zeros) (callBackward (scatterNdBackward ps)) := by
  constructor
  · intro dx x dy
    simp only [callBackward, scatterNdBackward_false]
    have := h.adjoint zeros dy x
    simp only [dot] at this ⊢
    rw [Finset.sum_congr rfl (fun i _ => mul_comm (dy i) _), ← this]
    exact Finset.sum_congr rfl (fun i _ => mul_comm _ _)
  · intro dy dx dx' k
    simp only [callBackward, if_true, Bool.false_eq_true, if_false]
    exact scatterNdBackward_true ps h.nodup_fst dy dx k

theorem scatterNdSetup_ok (M K T : Shape) (hK : K ≠ []) :
    scatterNdSetup (K ++ T) (M.length :: K) (M ++ T) = .ok (M ++ T) := by
  have : 0 < K.length := List.length_pos_iff.mpr hK
  rw [scatterNdSetup, if_neg (by simp; omega), if_neg (by simp)]
  simp only [List.getD_cons_zero, List.length_cons, Nat.add_sub_cancel]
  rw [if_neg (by simp; omega), if_neg, if_neg]
  · rintro ⟨i, _, hne⟩
    apply hne
    simp [List.getD_eq_getElem?_getD, List.getElem?_append_right]
  · rintro ⟨i, hi, hne⟩
    apply hne
    simp [List.getD_eq_getElem?_getD, List.getElem?_append_left hi]

/-- **C79.** `scatter_nd(data, indices, shape, add=True)` for data of shape `K × T`, indices of shape `|M| × K`,
all valid, and output shape `M × T`: element `(m, t)` of the result is the sum of `data[k, t]` over the columns k
of indices that denote m (zero if there is none); with a third input `out` these sums are added to it. -/
theorem C79_scatter_nd_add {R} [AddCommMonoid R] (M K T : Shape) (idx : Nat → Int) (hM : M ≠ []) (hK : K ≠ [])
    (hv : ValidIndices M K idx) :
    scatterNdSetup (K ++ T) (M.length :: K) (M ++ T) = .ok (M ++ T) ∧
    ∃ ps, slicePairs (M ++ T) (M.length :: K) idx = .ok ps ∧
      ∀ (data : Mem R) out m t, InBounds M m → InBounds T t →
        scatterNdForward true ps data out (ravel (M ++ T) (m ++ t)) =
          (out.getD zeros) (ravel (M ++ T) (m ++ t)) + ((indices K).map fun k =>
            if column M K idx k = m then data (ravel (K ++ T) (k ++ t)) else 0).sum := by
  refine ⟨scatterNdSetup_ok M K T hK, ?_⟩
  obtain ⟨ps, h1, h2⟩ := slicePairs_ok M K T idx hM hv
  refine ⟨ps, h1, ?_⟩
  intro data out m t hm ht
  simp only [scatterNdForward, if_true]
  rw [h2.backward]
  congr 1
  have hT : ∀ k ∈ indices K,
      ((List.range (prod T)).map fun b => if ravel [prod M, prod T] [ravel M (column M K idx k), b] = ravel (M ++ T) (m ++ t)
        then data (ravel [prod K, prod T] [ravel K k, b]) else 0).sum =
      if column M K idx k = m then data (ravel (K ++ T) (k ++ t)) else 0 := by
    intro k hk
    have hk := (mem_indices _ _).mp hk
    have hc := column_inBounds M K idx hv k hk
    by_cases e : column M K idx k = m
    · rw [if_pos e, ← ravel2 _ _ _ _ hk, e]
      rw [← sum_range_ite (prod T) (ravel T t) (ravel_lt ht) (fun b => data (ravel [prod K, prod T] [ravel K k, b])), sum_range_list]
      congr 1
      apply List.map_congr_left
      intro b hb
      rw [ravel_append _ _ _ _ hm.length]
      simp only [ravel, prod, Nat.mul_one, Nat.add_zero, Nat.add_left_cancel_iff]
      exact if_congr eq_comm rfl rfl
    · rw [if_neg e]
      have : ((List.range (prod T)).map fun b => if ravel [prod M, prod T] [ravel M (column M K idx k), b] = ravel (M ++ T) (m ++ t)
          then data (ravel [prod K, prod T] [ravel K k, b]) else 0) = (List.range (prod T)).map fun _ => (0 : R) := by
        apply List.map_congr_left
        intro b hb
        rw [if_neg]
        intro e'
        rw [ravel_append _ _ _ _ hm.length] at e'
        simp only [ravel, prod, Nat.mul_one, Nat.add_zero] at e'
        have := (divmod_unique (prod T) _ _ _ _ (List.mem_range.mp hb) (ravel_lt ht) e').1
        exact e (ravel_inj M _ _ hc hm this)
      rw [this]; simp
  rw [← List.map_congr_left hT]
  rw [indices2]
  simp only [List.getD_cons_zero, List.getD_cons_succ]
  rw [List.flatMap_def, List.sum_flatten, List.map_map, ← indices_ravel K, List.map_map]
  rfl

/-- **C79.** Backward with respect to the data is the transpose of forward when `add=True`. -/
theorem C79_scatter_nd_add_grad {R} [CommSemiring R] (M K T : Shape) (idx : Nat → Int) (hM : M ≠ []) (hv : ValidIndices M K idx) :
    ∃ ps, slicePairs (M ++ T) (M.length :: K) idx = .ok ps ∧
      GradOK (prod (K ++ T)) (prod (M ++ T)) (fun data : Mem R => scatterNdForward true ps data none)
        (callBackward (scatterNdBackward ps)) := by
  obtain ⟨ps, h1, h2⟩ := slicePairs_ok M K T idx hM hv
  refine ⟨ps, h1, ?_⟩
  rw [← prod2 M T, ← prod2 K T]
  exact scatter_gradOK h2

/-- **C79.** Without `add`, when no two columns of indices denote the same position: position `column k` of the
result holds `data[k, ·]` and the rest is zero, or what `out` held. -/
theorem C79_scatter_nd_set {R} (M K T : Shape) (idx : Nat → Int) (hM : M ≠ []) (hv : ValidIndices M K idx)
    (hd : ∀ k k', InBounds K k → InBounds K k' → column M K idx k = column M K idx k' → k = k') [Zero R] [Add R] :
    ∃ ps, slicePairs (M ++ T) (M.length :: K) idx = .ok ps ∧
      (∀ (data : Mem R) out k t, InBounds K k → InBounds T t →
        scatterNdForward false ps data out (ravel (M ++ T) (column M K idx k ++ t)) = data (ravel (K ++ T) (k ++ t))) ∧
      ∀ (data : Mem R) out m t, InBounds M m → InBounds T t → (∀ k, InBounds K k → column M K idx k ≠ m) →
        scatterNdForward false ps data out (ravel (M ++ T) (m ++ t)) = (out.getD zeros) (ravel (M ++ T) (m ++ t)) := by
  obtain ⟨ps, h1, h2⟩ := slicePairs_ok M K T idx hM hv
  refine ⟨ps, h1, ?_, ?_⟩
  · intro data out k t hk ht
    simp only [scatterNdForward, Bool.false_eq_true, if_false]
    rw [bwdSet_eq_fwd]
    have hp : (ravel (K ++ T) (k ++ t), ravel (M ++ T) (column M K idx k ++ t)) ∈ ps := by
      rw [h2.mem]
      refine ⟨[ravel K k, ravel T t], ⟨ravel_lt hk, ravel_lt ht, trivial⟩, ?_⟩
      simp only [List.getD_cons_zero, List.getD_cons_succ, flatColumn_eq]
      rw [ravel2 _ _ _ _ hk, ravel2 _ _ _ _ (column_inBounds M K idx hv k hk)]
    refine fwd_mem (ps.map Prod.swap) data _ (ravel (M ++ T) (column M K idx k ++ t), ravel (K ++ T) (k ++ t))
      (List.mem_map.mpr ⟨_, hp, rfl⟩) ?_
    intro q' hq' e
    obtain ⟨q, hq, rfl⟩ := List.mem_map.mp hq'
    obtain ⟨j, hj, rfl⟩ := (h2.mem q).mp hq
    match j, hj with
    | [a, b], ⟨ha, hb, _⟩ =>
      obtain ⟨k', hk', rfl⟩ := exists_ravel K a ha
      obtain ⟨t', ht', rfl⟩ := exists_ravel T b hb
      simp only [List.getD_cons_zero, List.getD_cons_succ, flatColumn_eq, Prod.fst_swap, Prod.snd_swap] at e ⊢
      have hc := column_inBounds M K idx hv k hk
      have hc' := column_inBounds M K idx hv k' hk'
      rw [ravel2 _ _ _ _ hc'] at e
      have e := ravel_inj (M ++ T) _ _ ((inBounds_append _ _ _ _ hc'.length).mpr ⟨hc', ht'⟩)
        ((inBounds_append _ _ _ _ hc.length).mpr ⟨hc, ht⟩) e
      have e := List.append_inj e (by rw [hc.length, hc'.length])
      rw [ravel2 _ _ _ _ hk', hd k' k hk' hk e.1, e.2]
  · intro data out m t hm ht hno
    simp only [scatterNdForward, Bool.false_eq_true, if_false]
    rw [bwdSet_eq_fwd, fwd_not_mem]
    intro hmem
    simp only [List.map_map, List.mem_map] at hmem
    obtain ⟨q, hq, e⟩ := hmem
    obtain ⟨j, hj, rfl⟩ := (h2.mem q).mp hq
    match j, hj with
    | [a, b], ⟨ha, hb, _⟩ =>
      obtain ⟨k', hk', rfl⟩ := exists_ravel K a ha
      obtain ⟨t', ht', rfl⟩ := exists_ravel T b hb
      simp only [Function.comp, List.getD_cons_zero, List.getD_cons_succ, flatColumn_eq, Prod.fst_swap] at e
      have hc' := column_inBounds M K idx hv k' hk'
      rw [ravel2 _ _ _ _ hc'] at e
      have e := ravel_inj (M ++ T) _ _ ((inBounds_append _ _ _ _ hc'.length).mpr ⟨hc', ht'⟩)
        ((inBounds_append _ _ _ _ hm.length).mpr ⟨hm, ht⟩) e
      exact hno k' hk' (List.append_inj e (by rw [hm.length, hc'.length])).1

/-- **C79.** Backward without `add` is the transpose of forward when no position is written twice. -/
theorem C79_scatter_nd_set_grad_partial {R} [CommSemiring R] (M K T : Shape) (idx : Nat → Int) (hM : M ≠ []) (hv : ValidIndices M K idx)
    (hd : ∀ k k', InBounds K k → InBounds K k' → column M K idx k = column M K idx k' → k = k') :
    ∃ ps, slicePairs (M ++ T) (M.length :: K) idx = .ok ps ∧
      GradOK (prod (K ++ T)) (prod (M ++ T)) (fun data : Mem R => scatterNdForward false ps data none)
        (callBackward (scatterNdBackward ps)) := by
  obtain ⟨ps, h1, h2⟩ := slicePairs_ok M K T idx hM hv
  refine ⟨ps, h1, ?_⟩
  rw [← prod2 M T, ← prod2 K T]
  have : (fun data : Mem R => scatterNdForward false ps data none) = fun data => bwdAdd ps data zeros := by
    funext data
    simp only [scatterNdForward, Bool.false_eq_true, if_false, Option.getD_none]
    refine h2.bwdSet ?_ data
    intro j j' hj hj' e
    match j, hj, j', hj' with
    | [a, b], ⟨ha, hb, _⟩, [a', b'], ⟨ha', hb', _⟩ =>
      obtain ⟨k, hk, rfl⟩ := exists_ravel K a ha
      obtain ⟨k', hk', rfl⟩ := exists_ravel K a' ha'
      simp only [List.getD_cons_zero, List.getD_cons_succ, flatColumn_eq, List.cons.injEq, and_true] at e
      rw [hd k k' hk hk' (ravel_inj M _ _ (column_inBounds M K idx hv k hk) (column_inBounds M K idx hv k' hk') e.1), e.2]
  rw [this]
  exact scatter_gradOK h2

/-- **C79, refuted part.** Without `add` and with a repeated position the last column wins in forward but
every column receives the gradient in backward: two columns that denote element 0 of a vector. -/
theorem C79_refuted_duplicate :
    ∃ ps, slicePairs [1] [1, 2] (fun _ => 0) = .ok ps ∧
      ¬ Adjoint 2 1 (fun data : Mem Int => scatterNdForward false ps data none)
        (fun dy => callBackward (scatterNdBackward ps) false dy zeros) := by
  refine ⟨_, rfl, ?_⟩
  intro h
  have := h (fun _ => 1) (fun _ => 1)
  revert this
  decide

/-- **C79, refuted part.** With `out` and `add=True`, two columns that denote the same element: forward adds
both, backward gives the gradient to the first only (the output gradient is masked after its first use). -/
theorem C79_refuted_out_add :
    ∃ ps, slicePairs [1] [1, 2] (fun _ => 0) = .ok ps ∧
      scatterNdForward true ps (fun i => if i = 0 then (3 : Int) else 4) (some fun _ => 10) 0 = 17 ∧
      (List.range 2).map (scatterNdBackward3 ps false (fun _ => (1 : Int)) zeros).1 = [1, 0] := by
  refine ⟨_, rfl, ?_, ?_⟩ <;> decide

/-- **C79.** With `out` and distinct positions the gradient of the data is right: the same as without `out`. -/
theorem C79_out_grad_data {R} [AddCommMonoid R] (ps : Pairs) (hn : (ps.map (·.2)).Nodup) (accum : Bool) (dy dx : Mem R) :
    (scatterNdBackward3 ps accum dy dx).1 = scatterNdBackward ps accum dy dx := by
  suffices h : ∀ (dx dy dy' : Mem R), (∀ p ∈ ps, dy' p.2 = dy p.2) →
      (ps.foldl (fun (st : Mem R × Mem R) p => (put st.1 p.1 (if accum then st.1 p.1 + st.2 p.2 else st.2 p.2), put st.2 p.2 0)) (dx, dy')).1 =
      ps.foldl (fun m p => put m p.1 (if accum then m p.1 + dy p.2 else dy p.2)) dx from h dx dy dy (fun _ _ => rfl)
  induction ps with
  | nil => intros; rfl
  | cons q ps ih =>
    intro dx dy dy' hdy
    simp only [List.map_cons, List.nodup_cons] at hn
    simp only [List.foldl_cons]
    rw [hdy q List.mem_cons_self]
    apply ih hn.2
    intro p hp
    rw [put_other, hdy p (List.mem_cons_of_mem _ hp)]
    intro e
    exact hn.1 (List.mem_map.mpr ⟨p, hp, e⟩)

/-- Function::backward of ScatterNd with three inputs, all propagated, gradient of the third input: the buffer is zeroed
when not accumulating and backward_impl (scatter_nd.cpp:119-178) never writes to it. -/
def scatterNdBackwardOut {R} [Zero R] (accum : Bool) (dout : Mem R) : Mem R := if accum then dout else zeros

/-- **C79, refuted part.** `out` gets no gradient: element 1 of the result is element 1 of `out`, and its gradient
is zero whatever the gradient of the result. -/
theorem C79_refuted_out_grad :
    ∃ ps, slicePairs [2] [1, 1] (fun _ => 0) = .ok ps ∧
      (∀ (data out : Mem Int), scatterNdForward false ps data (some out) 1 = out 1) ∧
      ¬ ∀ (data out dy dout : Mem Int),
        dot 2 dy (scatterNdForward false ps data (some out)) =
          dot 2 (scatterNdBackwardOut false dout) out + dot 2 dy (scatterNdForward false ps data (some zeros)) := by
  refine ⟨_, rfl, fun _ _ => rfl, ?_⟩
  intro h
  have := h zeros (fun _ => 1) (fun _ => 1) zeros
  revert this
  decide

/-- The gradient of `out` says nothing about the gradient of the result: when accumulating, what was there stays; otherwise it is
zero. -/
theorem C79_out_grad_lost {R} [Zero R] (dout : Mem R) :
    (∀ i, scatterNdBackwardOut true dout i = dout i) ∧ ∀ i, scatterNdBackwardOut false dout i = 0 := ⟨fun _ => rfl, fun _ => rfl⟩

/-! ### scatter_add -/

theorem getD_set (l : List Nat) (a v b : Nat) : (l.set a v).getD b 0 = if a = b ∧ b < l.length then v else l.getD b 0 := by
  simp only [List.getD_eq_getElem?_getD, List.getElem?_set]
  by_cases h : a = b
  · subst h
    by_cases h2 : a < l.length
    · simp [h2]
    · simp [h2]
  · simp [h]

/-- The shapes scatter_add accepts: same rank, and indices no larger than x1, nor than x0 away from the axis. -/
structure ScatterShapes (axis : Nat) (x0 ish x1 : Shape) : Prop where
  hax : axis < x0.length
  len : ish.length = x0.length
  len1 : x1.length = x0.length
  le0 : ∀ a, a < x0.length → a ≠ axis → ish.getD a 0 ≤ x0.getD a 0
  le1 : ∀ a, a < x0.length → ish.getD a 0 ≤ x1.getD a 0

/-- **C79.** scatter_add accepts exactly these shapes, for an axis counted from the start or the end. -/
theorem C79_scatter_add_setup (axis : Nat) (x0 ish x1 : Shape) (arg : Int) (ha : axis < x0.length)
    (harg : arg = axis ∨ arg = (axis : Int) - x0.length) :
    scatterAddSetup arg x0 ish x1 = .ok (axis : Int) ↔ ScatterShapes axis x0 ish x1 := by
  have hax : (if arg < 0 then (x0.length : Int) + arg else arg) = axis := by
    rcases harg with h | h
    · rw [if_neg (by omega), h]
    · rw [if_pos (by omega), h]; omega
  rw [scatterAddSetup]
  simp only [hax]
  rw [if_neg (by omega)]
  by_cases hl : x0.length = ish.length ∧ x0.length = x1.length
  · rw [if_neg (by omega)]
    by_cases hb : ∃ i, i < ish.length ∧ (((i : Int) ≠ axis ∧ ¬ ish.getD i 0 ≤ x0.getD i 0) ∨ ¬ ish.getD i 0 ≤ x1.getD i 0)
    · rw [if_pos hb]
      constructor
      · intro h; cases h
      · intro h
        obtain ⟨i, hi, hx⟩ := hb
        rcases hx with ⟨h1, h2⟩ | h2
        · exact absurd (h.le0 i (by omega) (by omega)) h2
        · exact absurd (h.le1 i (by omega)) h2
    · rw [if_neg hb]
      refine ⟨fun _ => ?_, fun _ => rfl⟩
      refine ⟨ha, hl.1.symm, hl.2.symm, ?_, ?_⟩
      · intro a ha1 ha2
        exact Decidable.byContradiction fun h => hb ⟨a, by omega, .inl ⟨by omega, h⟩⟩
      · intro a ha1
        exact Decidable.byContradiction fun h => hb ⟨a, by omega, .inr h⟩
  · rw [if_pos (by omega)]
    constructor
    · intro h; cases h
    · intro h
      exact absurd ⟨h.len.symm, h.len1.symm⟩ hl

/-- The element of the result that element `i` of x1 is added to. -/
def target (axis : Nat) (ish : Shape) (idx : Nat → Int) (i : List Nat) : List Nat := i.set axis (idx (ravel ish i)).toNat

section ScatterAdd
variable {axis : Nat} {x0 ish x1 : Shape} {idx : Nat → Int}

theorem scatterAdd_bounds (hs : ScatterShapes axis x0 ish x1)
    (hidx : ∀ i, InBounds ish i → 0 ≤ idx (ravel ish i) ∧ idx (ravel ish i) < x0.getD axis 0) (i : List Nat) (hi : InBounds ish i) :
    InBounds x1 i ∧ InBounds x0 (target axis ish idx i) := by
  have hi' := (inBounds_iff _ _).mp hi
  have hl := hs.len
  have hl1 := hs.len1
  constructor
  · rw [inBounds_iff]
    refine ⟨by omega, ?_⟩
    intro a ha
    have := hi'.2 a (by omega)
    have := hs.le1 a (by omega)
    omega
  · rw [inBounds_iff]
    refine ⟨by simp [target]; omega, ?_⟩
    intro a ha
    rw [target, getD_set]
    by_cases e : axis = a ∧ a < i.length
    · rw [if_pos e]
      have := hidx i hi
      rw [← e.1]; omega
    · rw [if_neg e]
      have := hi'.2 a (by omega)
      have := hs.le0 a ha (by intro e'; exact e ⟨e'.symm, by omega⟩)
      omega

theorem scatterAddPairs_ok (hidx : ∀ i, InBounds ish i → 0 ≤ idx (ravel ish i) ∧ idx (ravel ish i) < x0.getD axis 0) :
    scatterAddPairs axis x0 ish x1 idx = .ok ((indices ish).map fun i => (ravel x1 i, ravel x0 (target axis ish idx i))) := by
  rw [scatterAddPairs, if_neg]
  · congr 1
    rw [← indices_ravel, List.map_map]
    apply List.map_congr_left
    intro i hi
    simp only [Function.comp, nd2flat_ndi]
    rw [C33_ndi_strides, flat2nd_ravel ish i ((mem_indices _ _).mp hi)]
    rfl
  · rintro ⟨t, ht, hbad⟩
    obtain ⟨i, hi, rfl⟩ := exists_ravel ish t ht
    exact hbad (hidx i hi)

theorem scatterAdd_nodup (hs : ScatterShapes axis x0 ish x1)
    (hidx : ∀ i, InBounds ish i → 0 ≤ idx (ravel ish i) ∧ idx (ravel ish i) < x0.getD axis 0) :
    (((indices ish).map fun i => (ravel x1 i, ravel x0 (target axis ish idx i))).map (·.1)).Nodup := by
  rw [List.map_map]
  apply List.Nodup.map_on
  · intro i hi j hj e
    exact ravel_inj x1 i j (scatterAdd_bounds hs hidx i ((mem_indices _ _).mp hi)).1
      (scatterAdd_bounds hs hidx j ((mem_indices _ _).mp hj)).1 e
  · exact nodup_indices ish

end ScatterAdd

/-- **C79.** `scatter_add(x0, indices, x1, axis)` with accepted shapes and all indices in range: element j of the
result is `x0[j]` plus the sum of `x1[i]` over the positions i of indices that become j when their coordinate
`axis` is replaced by `indices[i]`. -/
theorem C79_scatter_add {R} [AddCommMonoid R] (axis : Nat) (x0 ish x1 : Shape) (idx : Nat → Int)
    (hs : ScatterShapes axis x0 ish x1)
    (hidx : ∀ i, InBounds ish i → 0 ≤ idx (ravel ish i) ∧ idx (ravel ish i) < x0.getD axis 0) :
    ∃ ps, scatterAddPairs axis x0 ish x1 idx = .ok ps ∧
      ∀ (a b y : Mem R) j, InBounds x0 j →
        scatterAddForward (prod x0) ps a b y (ravel x0 j) = a (ravel x0 j) + ((indices ish).map fun i =>
          if i.set axis (idx (ravel ish i)).toNat = j then b (ravel x1 i) else 0).sum := by
  refine ⟨_, scatterAddPairs_ok hidx, ?_⟩
  intro a b y j hj
  rw [scatterAddForward, bwdAdd_eq, if_pos (ravel_lt hj), List.map_map]
  congr 2
  apply List.map_congr_left
  intro i hi
  simp only [Function.comp]
  refine if_congr ?_ rfl rfl
  constructor
  · intro e
    exact ravel_inj x0 _ _ (scatterAdd_bounds hs hidx i ((mem_indices _ _).mp hi)).2 hj e
  · intro e; rw [target, e]

/-- ScatterAdd::backward_impl, gradient of x0 (scatter_add.cpp:108-117). -/
def scatterAddBackward0 {R} [Add R] (n : Nat) (accum : Bool) (dy dx : Mem R) : Mem R :=
  fun i => if i < n then (if accum then dx i + dy i else dy i) else dx i

theorem dot_add_right {R} [CommSemiring R] (n : Nat) (a b c : Mem R) :
    dot n a (fun i => b i + c i) = dot n a b + dot n a c := by
  simp only [dot, mul_add, Finset.sum_add_distrib]

theorem dot_comm {R} [CommSemiring R] (n : Nat) (a b : Mem R) : dot n a b = dot n b a :=
  Finset.sum_congr rfl fun i _ => mul_comm _ _

/-- **C79.** The gradients of scatter_add: with respect to x1, the transpose of the map it adds with; with
respect to x0, the output gradient; both also when gradients accumulate. -/
theorem C79_scatter_add_grad {R} [CommSemiring R] (axis : Nat) (x0 ish x1 : Shape) (idx : Nat → Int)
    (hs : ScatterShapes axis x0 ish x1)
    (hidx : ∀ i, InBounds ish i → 0 ≤ idx (ravel ish i) ∧ idx (ravel ish i) < x0.getD axis 0) :
    ∃ ps, scatterAddPairs axis x0 ish x1 idx = .ok ps ∧
      (∀ a y : Mem R, GradAffine (prod x1) (prod x0) (fun b => scatterAddForward (prod x0) ps a b y)
        (callBackward (scatterAddBackward1 (prod x1) ps))) ∧
      (∀ b y dy dx a : Mem R, dot (prod x0) dy (scatterAddForward (prod x0) ps a b y) =
        dot (prod x0) (callBackward (scatterAddBackward0 (prod x0)) false dy dx) a +
        dot (prod x0) dy (scatterAddForward (prod x0) ps zeros b y)) ∧
      ∀ (dy dx dx' : Mem R) k, k < prod x0 → callBackward (scatterAddBackward0 (prod x0)) true dy dx k =
        dx k + callBackward (scatterAddBackward0 (prod x0)) false dy dx' k := by
  have hn := scatterAdd_nodup hs hidx
  have hb : ∀ p ∈ (indices ish).map (fun i => (ravel x1 i, ravel x0 (target axis ish idx i))),
      p.1 < prod x1 ∧ p.2 < prod x0 := by
    intro p hp
    obtain ⟨i, hi, rfl⟩ := List.mem_map.mp hp
    have := scatterAdd_bounds hs hidx i ((mem_indices _ _).mp hi)
    exact ⟨ravel_lt this.1, ravel_lt this.2⟩
  refine ⟨_, scatterAddPairs_ok hidx, ?_, ?_, ?_⟩
  · intro a y
    generalize (indices ish).map (fun i => (ravel x1 i, ravel x0 (target axis ish idx i))) = ps at hn hb
    have hz : ∀ dx : Mem R, ∀ dy, callBackward (scatterAddBackward1 (prod x1) ps) false dy dx = bwdAdd (ps.map Prod.swap) dy zeros := by
      intro dx dy
      have h0 : (fun i => if i < prod x1 then (0 : R) else zeros i) = zeros := by funext i; split <;> rfl
      show scatterNdBackward ps false dy (fun i => if i < prod x1 then (0 : R) else zeros i) = _
      rw [h0]
      have h1 : scatterNdBackward ps true dy zeros = bwdAdd (ps.map Prod.swap) dy zeros := by
        rw [scatterNdBackward, bwdAdd, List.foldl_map]; rfl
      rw [← h1]
      funext k
      rw [scatterNdBackward_true ps hn]; simp [zeros]
    constructor
    · intro dx b dy
      rw [hz]
      have e1 : ∀ b, scatterAddForward (prod x0) ps a b y = fun k => (fun i => if i < prod x0 then a i else y i) k + bwdAdd ps b zeros k := by
        intro b; funext k; exact bwdAdd_accum _ _ _ _
      simp only [e1]
      rw [dot_add_right, dot_add_right]
      have e2 : dot (prod x0) dy (bwdAdd ps b zeros) = dot (prod x1) (bwdAdd (ps.map Prod.swap) dy zeros) b := by
        rw [dot_comm, dot_bwdAdd _ _ (fun p hp => (hb p hp).2), dot_bwdAdd]
        · rw [List.map_map]
          congr 1
          apply List.map_congr_left
          intro p _
          simp [mul_comm]
        · intro p hp
          obtain ⟨q, hq, rfl⟩ := List.mem_map.mp hp
          exact (hb q hq).1
      have e3 : dot (prod x0) dy (bwdAdd ps zeros zeros) = 0 := by
        rw [dot_comm, dot_bwdAdd _ _ (fun p hp => (hb p hp).2)]
        simp [zeros]
      rw [e2, e3, add_zero, add_comm]
    · intro dy dx dx' k
      rw [hz]
      have h1 : callBackward (scatterAddBackward1 (prod x1) ps) true dy dx = bwdAdd (ps.map Prod.swap) dy dx := by
        rw [bwdAdd, List.foldl_map]; rfl
      rw [h1, bwdAdd_accum]
  · intro b y dy dx a
    have e1 : ∀ a : Mem R, dot (prod x0) dy (scatterAddForward (prod x0) ((indices ish).map fun i => (ravel x1 i, ravel x0 (target axis ish idx i))) a b y) =
        dot (prod x0) dy a + dot (prod x0) dy (bwdAdd ((indices ish).map fun i => (ravel x1 i, ravel x0 (target axis ish idx i))) b zeros) := by
      intro a
      rw [← dot_add_right]
      apply Finset.sum_congr rfl
      intro k hk
      rw [scatterAddForward, bwdAdd_accum, if_pos (Finset.mem_range.mp hk)]
    rw [e1, e1]
    have e2 : dot (prod x0) dy zeros = 0 := by simp [dot, zeros]
    have e3 : dot (prod x0) (callBackward (scatterAddBackward0 (prod x0)) false dy dx) a = dot (prod x0) dy a := by
      apply Finset.sum_congr rfl
      intro k hk
      rw [callBackward, scatterAddBackward0, if_pos (Finset.mem_range.mp hk)]
      rfl
    rw [e2, e3, zero_add]
  · intro dy dx dx' k hk
    simp only [callBackward, scatterAddBackward0, if_pos hk, if_true]
    simp

/-- **C79.** scatter_add reports an index out of range. -/
theorem C79_scatter_add_rejects (axis : Nat) (x0 ish x1 : Shape) (idx : Nat → Int) (i : List Nat) (hi : InBounds ish i)
    (hbad : ¬ (0 ≤ idx (ravel ish i) ∧ idx (ravel ish i) < x0.getD axis 0)) :
    ∃ e, scatterAddPairs axis x0 ish x1 idx = .error e := by
  rw [scatterAddPairs, if_pos ⟨ravel ish i, ravel_lt hi, hbad⟩]
  exact ⟨_, rfl⟩

/-- **C79, refuted part.** Axes outside of `-ndim … ndim-1` pass the checks of scatter_add (forward then reads the
extent and writes the coordinate of an axis that does not exist). -/
theorem C79_refuted_axis : scatterAddSetup 1 [2] [2] [2] = .ok 1 ∧ scatterAddSetup (-2) [2] [2] [2] = .ok (-1) := by decide

example : ScatterShapes 0 [3, 2] [4, 1] [4, 2] := by
  refine ⟨by decide, by decide, by decide, ?_, ?_⟩
  · intro a ha hne
    have : a = 1 := by simp at ha; omega
    subst this; decide
  · intro a ha
    have : a = 0 ∨ a = 1 := by simp at ha; omega
    rcases this with rfl | rfl <;> decide

example : ∃ ps, scatterAddPairs 0 [3, 2] [4, 1] [4, 2] (fun i => [2, 0, 2, 1].getD i 0) = .ok ps ∧
    (List.range 6).map (scatterAddForward 6 ps (fun _ => (100 : Int)) (fun i => i) (fun _ => 7)) =
      [102, 100, 106, 100, 104, 100] := by
  refine ⟨_, rfl, ?_⟩
  decide

end Verif.Fn
