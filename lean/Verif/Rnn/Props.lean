import Verif.Rnn.Lemmas
/-! # C34: packing and padding sequences -/

namespace Verif.Rnn

variable {α : Type}

/-! ## The C++ loops -/

/-- C34. Layout of a packed sequence: time steps one after the other, in step `t` the first `bs t`
sequences; with `accum` the values are added. Nothing is stored past the `N * D` elements. -/
theorem pack_layout [Add α] (accum bf : Bool) (x : Mem α) (bs : Nat → Nat) (g : Mem α)
    (S T B D : Nat) :
    (∀ t b d, t < T → b < bs t → d < D →
      pack accum bf x bs g S T B D ((rowsBefore bs t + b) * D + d)
        = if accum then g ((rowsBefore bs t + b) * D + d) + x (addr bf S B D (t, b, d))
          else x (addr bf S B D (t, b, d))) ∧
    (∀ a, rowsBefore bs T * D ≤ a → pack accum bf x bs g S T B D a = g a) := by
  obtain ⟨_, h2, h3⟩ := packFold_spec accum x (addr bf S B D) (idx T bs D) 0 g
  refine ⟨?_, ?_⟩
  · intro t b d ht hb hd
    obtain ⟨g1, g2⟩ := List.getElem?_eq_some_iff.1 (idx_get T bs D t b d ht hb hd)
    have := h2 _ g1
    rw [g2, Nat.zero_add] at this
    exact this
  · intro a ha
    exact h3 a (Or.inr (by rw [length_idx]; omega))

/-- C34. `unpack` stores the packed elements at their `(t, b)` and zero elsewhere (with `accum` it adds
them and leaves the rest). -/
theorem unpack_layout [Add α] [Zero α] (accum bf : Bool) (y : Mem α) (bs : Nat → Nat) (g : Mem α)
    (S T B D : Nat) (hT : T ≤ S) (hB : ∀ t, t < T → bs t ≤ B) (t b d : Nat) (ht : t < S) (hb : b < B)
    (hd : d < D) :
    unpack accum bf y bs g S T B D (addr bf S B D (t, b, d))
      = if t < T ∧ b < bs t then
          (if accum then g (addr bf S B D (t, b, d)) + y ((rowsBefore bs t + b) * D + d)
            else y ((rowsBefore bs t + b) * D + d))
        else (if accum then g (addr bf S B D (t, b, d)) else 0) := by
  have hmem : ∀ {e}, e ∈ idx S (fun _ => B) D ↔ e.1 < S ∧ e.2.1 < B ∧ e.2.2 < D := mem_idx
  obtain ⟨h1, _⟩ := unpackFold_spec accum y (inSeq T bs) (addr bf S B D) (idx S (fun _ => B) D) 0 g
    (nodup_idx _ _ _) (fun e he e' he' h => by
      obtain ⟨a1, a2, a3⟩ := hmem.1 he
      obtain ⟨b1, b2, b3⟩ := hmem.1 he'
      exact addr_inj a1 a2 a3 b1 b2 b3 h)
  have := h1 (t, b, d) (hmem.2 ⟨ht, hb, hd⟩)
  unfold unpack
  rw [this, filter_idx S T bs B D hT hB]
  by_cases hc : t < T ∧ b < bs t
  · rw [if_pos hc, if_pos (by simp [inSeq, hc.1, hc.2]), idxOf_idx T bs D t b d hc.1 hc.2 hd, Nat.zero_add]
  · rw [if_neg hc, if_neg (by simpa [inSeq] using hc)]

/-- C34. `batch_sizes[t]` is the number of sequences longer than `t`, for every `t` below the longest
length; later entries are not written. -/
theorem batch_sizes_spec (lengths : List Nat) (g : Mem Nat) (t : Nat) :
    computeBatchSizes lengths g t = if above lengths t ≠ 0 then above lengths t else g t :=
  countLoop_nat lengths g t

/-- The longest length is `T` (specification). -/
def Longest (lengths : List Nat) (T : Nat) : Prop := T ∈ lengths ∧ ∀ l ∈ lengths, l ≤ T

theorem bs_eq {lengths : List Nat} {T : Nat} (h : Longest lengths T) (g : Mem Nat) {t : Nat}
    (ht : t < T) : computeBatchSizes lengths g t = above lengths t := by
  rw [batch_sizes_spec, if_pos ((above_pos_iff _ _).2 ⟨T, h.1, ht⟩)]

theorem foldr_max_eq (l : List Nat) (m : Nat) (h1 : ∀ x ∈ l, x ≤ m) (h2 : m ∈ l) :
    l.foldr max 0 = m := by
  have hle : ∀ (l : List Nat), (∀ x ∈ l, x ≤ m) → l.foldr max 0 ≤ m := by
    intro l
    induction l with
    | nil => simp
    | cons a l ih =>
      intro h
      simp only [List.foldr_cons]
      exact max_le (h a (by simp)) (ih (fun x hx => h x (by simp [hx])))
  have hge : ∀ (l : List Nat), m ∈ l → m ≤ l.foldr max 0 := by
    intro l
    induction l with
    | nil => simp
    | cons a l ih =>
      intro h
      simp only [List.foldr_cons]
      rcases List.mem_cons.1 h with rfl | h
      · exact le_max_left _ _
      · exact le_max_of_le_right (ih h)
  exact le_antisymm (hle l h1) (hge l h2)

theorem above_zero {lengths : List Nat} (hpos : ∀ l ∈ lengths, 0 < l) :
    above lengths 0 = lengths.length := by
  unfold above
  rw [List.countP_eq_length]
  intro x hx; simpa using hpos x hx

/-- The batch size is recovered, when every sequence has at least one step. -/
theorem batchOf_eq {lengths : List Nat} {T : Nat} (h : Longest lengths T)
    (hpos : ∀ l ∈ lengths, 0 < l) (g : Mem Nat) :
    batchOf (computeBatchSizes lengths g) T = lengths.length := by
  have hT : 0 < T := hpos T h.1
  unfold batchOf
  apply foldr_max_eq
  · intro x hx
    obtain ⟨t, ht, rfl⟩ := List.mem_map.1 hx
    rw [bs_eq h g (List.mem_range.1 ht)]
    exact above_le_length _ _
  · refine List.mem_map.2 ⟨0, List.mem_range.2 hT, ?_⟩
    rw [bs_eq h g hT, above_zero hpos]

/-- C34. The lengths are recovered from the batch sizes. -/
theorem lengths_recovered {lengths : List Nat} {T : Nat} (h : Longest lengths T)
    (hs : lengths.Pairwise (· ≥ ·)) (hpos : ∀ l ∈ lengths, 0 < l) (g gl : Mem Nat) (b : Nat)
    (hb : b < lengths.length) :
    computeLengths (firstN (computeBatchSizes lengths g) T) gl b = lengths.getD b 0 := by
  have hmem : lengths.getD b 0 ∈ lengths := by
    rw [List.getD_eq_getElem?_getD, List.getElem?_eq_getElem hb]; exact List.getElem_mem _
  unfold computeLengths
  rw [countLoop_nat]
  have e : above (firstN (computeBatchSizes lengths g) T) b = lengths.getD b 0 := by
    unfold above firstN
    rw [List.countP_map]
    have : (List.range T).countP ((fun x => decide (b < x)) ∘ computeBatchSizes lengths g)
        = (List.range T).countP (fun t => decide (t < lengths.getD b 0)) := by
      apply List.countP_congr
      intro t ht
      simp only [Function.comp_apply, decide_eq_true_eq]
      rw [bs_eq h g (List.mem_range.1 ht)]
      exact lt_above_iff hs t b
    rw [this, countP_range_lt T _ (h.2 _ hmem)]
  rw [e, if_pos]
  have := hpos _ hmem
  omega

theorem le_totalOf (total T : Nat) : T ≤ totalOf total T := by
  unfold totalOf; split <;> omega

/-- C34. Packing then padding, for sequences sorted by decreasing length, each with at least one step,
`T` being the longest length: every element inside its sequence comes back, every element outside is
zero, and the lengths come back. The initial contents of the buffers do not matter. -/
theorem pad_pack_sorted [Add α] [Zero α] (bf : Bool) (x : Mem α) (T D : Nat) (lengths : List Nat)
    (hT : Longest lengths T) (hs : lengths.Pairwise (· ≥ ·)) (hpos : ∀ l ∈ lengths, 0 < l)
    (total : Nat) (pv : α) (gp gp' : Mem α) (gb gl : Mem Nat) :
    let r := padForward bf pv total (packForward bf x T D lengths gp gb).1
      (packForward bf x T D lengths gp gb).2 T D gp' gl
    (∀ t b d, t < totalOf total T → b < lengths.length → d < D →
      r.1 (addr bf (totalOf total T) lengths.length D (t, b, d))
        = if t < lengths.getD b 0 then x (addr bf T lengths.length D (t, b, d)) else 0) ∧
    firstN r.2 (batchOf (packForward bf x T D lengths gp gb).2 T) = lengths := by
  intro r
  have hbs : (packForward bf x T D lengths gp gb).2 = computeBatchSizes lengths gb := rfl
  have hB := batchOf_eq hT hpos gb
  refine ⟨?_, ?_⟩
  · intro t b d ht hb hd
    have hle : ∀ t, t < T → computeBatchSizes lengths gb t ≤ lengths.length := by
      intro t ht; rw [bs_eq hT gb ht]; exact above_le_length _ _
    have hr : r.1 = unpack false bf (packForward bf x T D lengths gp gb).1
        (computeBatchSizes lengths gb) gp' (totalOf total T) T lengths.length D := by
      show unpack false bf _ (packForward bf x T D lengths gp gb).2 gp' (totalOf total T) T
        (batchOf (packForward bf x T D lengths gp gb).2 T) D = _
      rw [hbs, hB]
    rw [hr, unpack_layout false bf _ _ gp' _ _ _ _ (le_totalOf total T) hle t b d ht hb hd]
    have hiff : (t < T ∧ b < computeBatchSizes lengths gb t) ↔ t < lengths.getD b 0 := by
      have hmem : lengths.getD b 0 ∈ lengths := by
        rw [List.getD_eq_getElem?_getD, List.getElem?_eq_getElem hb]; exact List.getElem_mem _
      constructor
      · rintro ⟨h1, h2⟩
        rw [bs_eq hT gb h1] at h2
        exact (lt_above_iff hs t b).1 h2
      · intro h
        have h1 : t < T := lt_of_lt_of_le h (hT.2 _ hmem)
        exact ⟨h1, by rw [bs_eq hT gb h1]; exact (lt_above_iff hs t b).2 h⟩
    by_cases hc : t < lengths.getD b 0
    · rw [if_pos hc, if_pos (hiff.2 hc)]
      simp only [Bool.false_eq_true, if_false]
      obtain ⟨h1, h2⟩ := hiff.2 hc
      have := (pack_layout false bf x (computeBatchSizes lengths gb) gp T T lengths.length D).1 t b d h1 h2 hd
      simp only [Bool.false_eq_true, if_false] at this
      exact this
    · rw [if_neg hc, if_neg (fun h => hc (hiff.1 h))]; simp
  · rw [hbs, hB]
    apply List.ext_getElem
    · simp [firstN]
    · intro b h1 h2
      simp only [firstN, List.getElem_map, List.getElem_range]
      have := lengths_recovered hT hs hpos gb gl b h2
      rw [List.getD_eq_getElem?_getD, List.getElem?_eq_getElem h2] at this
      exact this

example : Longest [3, 2, 2] 3 ∧ [3, 2, 2].Pairwise (· ≥ ·) ∧ ∀ l ∈ [3, 2, 2], 0 < l := by
  refine ⟨⟨by simp, by simp⟩, by decide, by simp⟩

/-! ## The python layer -/

/-- Stores at distinct addresses. -/
theorem foldUpd_spec {β : Type} (L : List β) (a : β → Nat) (v : β → α) (m : Mem α) (hn : L.Nodup)
    (hinj : ∀ e ∈ L, ∀ e' ∈ L, a e = a e' → e = e') :
    (∀ e ∈ L, L.foldl (fun m e => upd m (a e) (v e)) m (a e) = v e) ∧
    (∀ k, (∀ e ∈ L, k ≠ a e) → L.foldl (fun m e => upd m (a e) (v e)) m k = m k) := by
  induction L generalizing m with
  | nil => exact ⟨by simp, fun _ _ => rfl⟩
  | cons e L ih =>
    obtain ⟨n1, n2⟩ := List.nodup_cons.1 hn
    obtain ⟨i1, i2⟩ := ih (upd m (a e) (v e)) n2 (fun x hx y hy => hinj x (by simp [hx]) y (by simp [hy]))
    refine ⟨?_, ?_⟩
    · intro e' he'
      rw [List.foldl_cons]
      rcases List.mem_cons.1 he' with rfl | he'
      · rw [i2 (a e') (fun e'' h'' h => n1 ((hinj e' (by simp) e'' (by simp [h'']) h) ▸ h''))]
        simp [upd]
      · exact i1 e' he'
    · intro k hk
      rw [List.foldl_cons, i2 k (fun e' he' => hk e' (by simp [he']))]
      unfold upd; rw [if_neg (hk e (by simp))]

theorem gather_spec (bf : Bool) (S B D : Nat) (x : Mem α) (ix : List Nat) (t b d : Nat) (ht : t < S)
    (hb : b < ix.length) (hd : d < D) :
    gatherBatch bf S B D x ix (addr bf S ix.length D (t, b, d))
      = x (addr bf S B D (t, ix.getD b 0, d)) := by
  have hmem : ∀ {e}, e ∈ idx S (fun _ => ix.length) D ↔ e.1 < S ∧ e.2.1 < ix.length ∧ e.2.2 < D := mem_idx
  exact (foldUpd_spec (idx S (fun _ => ix.length) D) (addr bf S ix.length D)
    (fun e => x (addr bf S B D (e.1, ix.getD e.2.1 0, e.2.2))) x (nodup_idx _ _ _)
    (fun e he e' he' h => by
      obtain ⟨a1, a2, a3⟩ := hmem.1 he
      obtain ⟨b1, b2, b3⟩ := hmem.1 he'
      exact addr_inj a1 a2 a3 b1 b2 b3 h)).1 (t, b, d) (hmem.2 ⟨ht, hb, hd⟩)

theorem scatter_spec {ix : List Nat} (hn : ix.Nodup) (i : Nat) (hi : i < ix.length) :
    scatterArange ix (ix.getD i 0) = i := by
  have hmem : (ix[i], i) ∈ ix.zipIdx := by
    rw [List.mem_zipIdx_iff_getElem?]; simp [hi]
  have hz : ∀ p ∈ ix.zipIdx, ix[p.2]? = some p.1 := fun p hp => List.mem_zipIdx_iff_getElem?.1 hp
  have hnd : ix.zipIdx.Nodup := by
    refine List.Nodup.of_map (·.2) ?_
    rw [show ix.zipIdx.map (·.2) = List.range ix.length by simp [List.zipIdx_map_snd, List.range_eq_range']]
    exact List.nodup_range
  have := (foldUpd_spec ix.zipIdx (fun e => e.1) (fun e => e.2) (fun _ => 0) hnd
    (fun e he e' he' h => by
      have h1 := hz e he
      have h2 := hz e' he'
      obtain ⟨l1, g1⟩ := List.getElem?_eq_some_iff.1 h1
      obtain ⟨l2, g2⟩ := List.getElem?_eq_some_iff.1 h2
      have h3 : e.1 = e'.1 := h
      have : e.2 = e'.2 := (List.Nodup.getElem_inj_iff hn).1 (by rw [g1, g2, h3])
      exact Prod.ext h3 this)).1 _ hmem
  rw [List.getD_eq_getElem?_getD, List.getElem?_eq_getElem hi]
  exact this

/-- What `F.sort(lengths, reverse=True, with_index=True)` returns (specification): indices of all
sequences, longest first; the order among equal lengths is free. -/
def SortIndex (lengths ix : List Nat) : Prop :=
  ix.Perm (List.range lengths.length) ∧ (ix.map (fun i => lengths.getD i 0)).Pairwise (· ≥ ·)

/-- C34. `pad_packed_sequence(pack_padded_sequence(x, lengths))`: with `enforce_sorted=True` and
lengths in decreasing order, or with `enforce_sorted=False` and any order, the result has every
element inside its sequence, zero elsewhere, and the lengths; with `total_length` it is padded up to
it. Hypotheses: every sequence has at least one step and the time axis is the longest length. -/
theorem pad_pack_roundtrip_partial [Add α] [Zero α] (bf : Bool) (x : Mem α) (T D : Nat) (lengths : List Nat)
    (hT : Longest lengths T) (hpos : ∀ l ∈ lengths, 0 < l) (sort : Option (List Nat))
    (hsort : match sort with
      | none => lengths.Pairwise (· ≥ ·)
      | some ix => SortIndex lengths ix)
    (total : Nat) (htot : total = 0 ∨ T ≤ total) (pv : α) (gp gp' : Mem α) (gb gl : Mem Nat) :
    ∃ y, padPacked bf pv total (packPadded bf x T D lengths sort gp gb) D gp' gl = some (y, lengths) ∧
      ∀ t b d, t < totalOf total T → b < lengths.length → d < D →
        y (addr bf (totalOf total T) lengths.length D (t, b, d))
          = if t < lengths.getD b 0 then x (addr bf T lengths.length D (t, b, d)) else 0 := by
  cases sort with
  | none =>
    obtain ⟨h1, h2⟩ := pad_pack_sorted bf x T D lengths hT hsort hpos total pv gp gp' gb gl
    refine ⟨_, ?_, h1⟩
    unfold padPacked packPadded
    simp only
    rw [if_neg (by omega), h2]
  | some ix =>
    obtain ⟨hp, hs⟩ := hsort
    have hlen : ix.length = lengths.length := by rw [hp.length_eq]; simp
    have hnd : ix.Nodup := hp.nodup_iff.2 List.nodup_range
    have hlt : ∀ i ∈ ix, i < lengths.length := fun i hi => List.mem_range.1 (hp.mem_iff.1 hi)
    set L := ix.map (fun i => lengths.getD i 0) with hL
    have hLlen : L.length = lengths.length := by rw [hL, List.length_map, hlen]
    have hLget : ∀ i, i < ix.length → L.getD i 0 = lengths.getD (ix.getD i 0) 0 := by
      intro i hi
      rw [hL, List.getD_eq_getElem?_getD, List.getElem?_map, List.getElem?_eq_getElem hi]
      simp [List.getD_eq_getElem?_getD, hi]
    have hLmem : ∀ l ∈ L, l ∈ lengths := by
      intro l hl
      obtain ⟨i, hi, rfl⟩ := List.mem_map.1 hl
      rw [List.getD_eq_getElem?_getD, List.getElem?_eq_getElem (hlt i hi)]; exact List.getElem_mem _
    have hLT : Longest L T := by
      refine ⟨?_, fun l hl => hT.2 l (hLmem l hl)⟩
      obtain ⟨j, hj, hjT⟩ := List.getElem_of_mem hT.1
      refine List.mem_map.2 ⟨j, hp.mem_iff.2 (List.mem_range.2 hj), ?_⟩
      rw [List.getD_eq_getElem?_getD, List.getElem?_eq_getElem hj]; exact hjT
    have hLpos : ∀ l ∈ L, 0 < l := fun l hl => hpos l (hLmem l hl)
    obtain ⟨h1, h2⟩ := pad_pack_sorted bf (gatherBatch bf T lengths.length D x ix) T D L hLT hs hLpos
      total pv gp gp' gb gl
    have hB : batchOf (packForward bf (gatherBatch bf T lengths.length D x ix) T D L gp gb).2 T
        = lengths.length := by
      rw [← hLlen]; exact batchOf_eq hLT hLpos gb
    -- the unsorted indices
    have hun : ∀ b, b < lengths.length → scatterArange ix b < ix.length ∧ ix.getD (scatterArange ix b) 0 = b := by
      intro b hb
      obtain ⟨i, hi, hib⟩ := List.getElem_of_mem (hp.mem_iff.2 (List.mem_range.2 hb))
      have e : ix.getD i 0 = b := by
        rw [List.getD_eq_getElem?_getD, List.getElem?_eq_getElem hi]; exact hib
      have := scatter_spec hnd i hi
      rw [e] at this
      rw [this]
      exact ⟨hi, e⟩
    set r := padForward bf pv total (packForward bf (gatherBatch bf T lengths.length D x ix) T D L gp gb).1
      (packForward bf (gatherBatch bf T lengths.length D x ix) T D L gp gb).2 T D gp' gl with hr
    have hfn : (firstN (scatterArange ix) ix.length).length = lengths.length := by simp [firstN, hlen]
    have hfget : ∀ b, b < lengths.length →
        (firstN (scatterArange ix) ix.length).getD b 0 = scatterArange ix b := by
      intro b hb
      rw [List.getD_eq_getElem?_getD, firstN, List.getElem?_map, List.getElem?_range (by omega)]
      rfl
    refine ⟨gatherBatch bf (totalOf total T) lengths.length D r.1 (firstN (scatterArange ix) ix.length), ?_, ?_⟩
    · unfold padPacked packPadded
      simp only
      rw [if_neg (by omega), hB]
      congr 2
      -- the lengths
      apply List.ext_getElem
      · rw [List.length_map, hfn]
      · intro b g1 g2
        rw [List.getElem_map]
        have e1 : (firstN (scatterArange ix) ix.length)[b]'(by simpa using g1) = scatterArange ix b := by
          simp [firstN]
        rw [e1]
        obtain ⟨u1, u2⟩ := hun b g2
        have h3 : r.2 (scatterArange ix b) = L.getD (scatterArange ix b) 0 := by
          rw [hB] at h2
          conv_rhs => rw [← h2]
          rw [List.getD_eq_getElem?_getD, firstN, List.getElem?_map,
            List.getElem?_range (by rw [← hlen]; exact u1)]
          rfl
        rw [h3, hLget _ u1, u2, List.getD_eq_getElem?_getD, List.getElem?_eq_getElem g2]
        rfl
    · intro t b d ht hb hd
      obtain ⟨u1, u2⟩ := hun b hb
      have hg := gather_spec bf (totalOf total T) lengths.length D r.1
        (firstN (scatterArange ix) ix.length) t b d ht (by rw [hfn]; exact hb) hd
      rw [hfn, hfget b hb] at hg
      rw [hg]
      have h4 := h1 t (scatterArange ix b) d ht (by rw [hLlen, ← hlen]; exact u1) hd
      rw [hLlen] at h4
      rw [h4, hLget _ u1, u2]
      by_cases hc : t < lengths.getD b 0
      · rw [if_pos hc, if_pos hc]
        have htT : t < T := by
          refine lt_of_lt_of_le hc (hT.2 _ ?_)
          rw [List.getD_eq_getElem?_getD, List.getElem?_eq_getElem hb]; exact List.getElem_mem _
        have hg2 := gather_spec bf T lengths.length D x ix t (scatterArange ix b) d htT u1 hd
        rw [hlen, u2] at hg2
        exact hg2
      · rw [if_neg hc, if_neg hc]

/-- Unsorted lengths with a tie. -/
example : SortIndex [1, 3, 1, 2] [1, 3, 2, 0] := by
  refine ⟨by decide, by decide⟩

/-- A raised error is exactly a `total_length` below the longest length. -/
theorem padPacked_raises [Add α] [Zero α] (bf : Bool) (pv : α) (total : Nat) (p : Packed α) (D : Nat)
    (gp : Mem α) (gl : Mem Nat) :
    padPacked bf pv total p D gp gl = none ↔ total ≠ 0 ∧ total < p.T := by
  unfold padPacked
  by_cases h : total ≠ 0 ∧ total < p.T
  · simp [h]
  · rw [if_neg h]
    simp only [h, iff_false]
    cases p.indices with
    | none => simp
    | some q => simp

/-! ### pad_sequence and the whole chain -/

/-- C34. `pad_sequence(seqs)[t, b]` is row `t` of sequence `b`, or the padding value. -/
theorem padSequence_spec (bf : Bool) (pv : α) (T D : Nat) (seqs : List (List (Nat → α)))
    (hT : ∀ s ∈ seqs, s.length ≤ T) (t b d : Nat) (ht : t < T) (hb : b < seqs.length) (hd : d < D) :
    padSequence bf pv T D seqs (addr bf T seqs.length D (t, b, d))
      = match seqs[b][t]? with
        | some row => row d
        | none => pv := by
  let L := seqs.zipIdx.flatMap (fun sb =>
      sb.1.zipIdx.flatMap (fun rt => (List.range D).map (fun d => (rt.1 d, (rt.2, sb.2, d)))))
  have hmem : ∀ e, e ∈ L ↔ ∃ (hb : e.2.2.1 < seqs.length) (ht : e.2.1 < seqs[e.2.2.1].length),
      e.2.2.2 < D ∧ e.1 = seqs[e.2.2.1][e.2.1] e.2.2.2 := by
    rintro ⟨v, t, b, d⟩
    simp only [L, List.mem_flatMap, List.mem_map, List.mem_range, Prod.mk.injEq, Prod.exists,
      List.mem_zipIdx_iff_getElem?]
    constructor
    · rintro ⟨s, b', h1, row, t', h2, d', h3, rfl, rfl, rfl, rfl⟩
      obtain ⟨l1, rfl⟩ := List.getElem?_eq_some_iff.1 h1
      obtain ⟨l2, rfl⟩ := List.getElem?_eq_some_iff.1 h2
      exact ⟨l1, l2, h3, rfl⟩
    · rintro ⟨l1, l2, h3, h4⟩
      exact ⟨seqs[b], b, List.getElem?_eq_getElem l1, seqs[b][t], t, List.getElem?_eq_getElem l2, d, h3,
        h4.symm, rfl, rfl, rfl⟩
  -- the store that decides the value: addresses determine the triple, the triple the value
  have key : ∀ (l : List (α × Nat × Nat × Nat)) (m : Mem α), (∀ e ∈ l, e ∈ L) →
      l.foldl (fun m e => upd m (addr bf T seqs.length D e.2) e.1) m (addr bf T seqs.length D (t, b, d))
        = if (∃ e ∈ l, e.2 = (t, b, d)) then
            (match seqs[b][t]? with
            | some row => row d
            | none => pv)
          else m (addr bf T seqs.length D (t, b, d)) := by
    intro l
    induction l with
    | nil => intro m _; simp
    | cons e l ih =>
      intro m hl
      rw [List.foldl_cons, ih _ (fun e' he' => hl e' (by simp [he']))]
      by_cases h1 : ∃ e ∈ l, e.2 = (t, b, d)
      · rw [if_pos h1, if_pos]
        obtain ⟨e', he', h⟩ := h1
        exact ⟨e', by simp [he'], h⟩
      · rw [if_neg h1]
        obtain ⟨q1, q2, q3, q4⟩ := (hmem e).1 (hl e (by simp))
        by_cases h2 : e.2 = (t, b, d)
        · rw [if_pos ⟨e, by simp, h2⟩]
          unfold upd
          rw [if_pos (by rw [h2]), q4]
          obtain ⟨v, t', b', d'⟩ := e
          simp only [Prod.mk.injEq] at h2
          obtain ⟨rfl, rfl, rfl⟩ := h2
          simp only at q2 ⊢
          rw [List.getElem?_eq_getElem q2]
        · rw [if_neg]
          · unfold upd
            rw [if_neg]
            intro hc
            apply h2
            refine (addr_inj ht hb hd (lt_of_lt_of_le q2 (hT _ (List.getElem_mem _))) q1 q3 hc).symm
          · rintro ⟨e', he', h⟩
            rcases List.mem_cons.1 he' with rfl | he'
            · exact h2 h
            · exact h1 ⟨e', he', h⟩
  have hk := key L (fun _ => pv) (fun _ h => h)
  have hd' : padSequence bf pv T D seqs = L.foldl (fun m e => upd m (addr bf T seqs.length D e.2) e.1)
      (fun _ => pv) := rfl
  rw [hd', hk]
  by_cases hc : ∃ e ∈ L, e.2 = (t, b, d)
  · rw [if_pos hc]
  · rw [if_neg hc]
    have : seqs[b][t]? = none := by
      rw [List.getElem?_eq_none_iff]
      by_contra hlt
      exact hc ⟨(seqs[b][t] d, t, b, d), (hmem _).2 ⟨hb, Nat.not_le.1 hlt, hd, rfl⟩, rfl⟩
    rw [this]

/-- C34, the whole chain: `pad_packed_sequence(pack_padded_sequence(pad_sequence(seqs), lengths,
enforce_sorted=False))` gives every row of every sequence back, zero elsewhere, and the lengths. -/
theorem sequences_recovered_partial [Add α] [Zero α] (bf : Bool) (pv pv' : α) (T D : Nat)
    (seqs : List (List (Nat → α))) (hT : Longest (seqs.map List.length) T)
    (hpos : ∀ s ∈ seqs, s ≠ []) (ix : List Nat) (hix : SortIndex (seqs.map List.length) ix)
    (gp gp' : Mem α) (gb gl : Mem Nat) :
    ∃ y, padPacked bf pv' 0
        (packPadded bf (padSequence bf pv T D seqs) T D (seqs.map List.length) (some ix) gp gb) D gp' gl
          = some (y, seqs.map List.length) ∧
      ∀ t b d, t < T → (hb : b < seqs.length) → d < D →
        y (addr bf T seqs.length D (t, b, d)) = match seqs[b][t]? with
          | some row => row d
          | none => 0 := by
  obtain ⟨y, h1, h2⟩ := pad_pack_roundtrip_partial bf (padSequence bf pv T D seqs) T D
    (seqs.map List.length) hT (by
      intro l hl
      obtain ⟨s, hs, rfl⟩ := List.mem_map.1 hl
      exact List.length_pos_iff.2 (hpos s hs)) (some ix) hix 0 (Or.inl rfl) pv' gp gp' gb gl
  refine ⟨y, h1, ?_⟩
  intro t b d ht hb hd
  have h3 := h2 t b d (by simpa [totalOf] using ht) (by simpa using hb) hd
  simp only [totalOf, Nat.not_lt_zero, gt_iff_lt, if_false, List.length_map] at h3
  rw [h3]
  have hg : (seqs.map List.length).getD b 0 = seqs[b].length := by
    rw [List.getD_eq_getElem?_getD, List.getElem?_map, List.getElem?_eq_getElem hb]; rfl
  rw [hg]
  by_cases hc : t < seqs[b].length
  · rw [if_pos hc, padSequence_spec bf pv T D seqs
      (fun s hs => hT.2 _ (List.mem_map_of_mem hs)) t b d ht hb hd, List.getElem?_eq_getElem hc]
  · rw [if_neg hc, List.getElem?_eq_none (by omega)]

/-- Two sequences given in the wrong order. -/
example : Longest (([[fun _ => 7], [fun _ => 1, fun _ => 2]] : List (List (Nat → Int))).map List.length) 2 ∧
    SortIndex (([[fun _ => 7], [fun _ => 1, fun _ => 2]] : List (List (Nat → Int))).map List.length)
      [1, 0] := by
  refine ⟨⟨by simp, by simp⟩, by decide, by decide⟩

/-! ## C64: the backward functions -/

theorem sum_mask {β R : Type} [AddCommMonoid R] (L : List β) (m : β → Bool) (f : β → R) :
    (L.map (fun e => if m e then f e else 0)).sum = ((L.filter m).map f).sum := by
  induction L with
  | nil => simp
  | cons e L ih =>
    by_cases h : m e = true
    · rw [List.filter_cons_of_pos h]; simp [h, ih]
    · rw [List.filter_cons_of_neg h]; simp [h, ih]

/-- Inner product of two packed arrays with `n` elements (specification). -/
def dotPacked {R : Type} [CommSemiring R] (n : Nat) (x y : Mem R) : R :=
  ((List.range n).map (fun k => x k * y k)).sum

/-- Inner product of two padded arrays `S × B × D` (specification). -/
def dotPadded {R : Type} [CommSemiring R] (bf : Bool) (S B D : Nat) (x y : Mem R) : R :=
  ((idx S (fun _ => B) D).map (fun e => x (addr bf S B D e) * y (addr bf S B D e))).sum

/-- C64. Pack and unpack are transposes of each other, so that the backward of each function is the
transpose of its forward: `⟨pack x, y⟩ = ⟨x, unpack y⟩` for all `x`, `y`, both layouts and every total
length. -/
theorem pack_adjoint {R : Type} [CommSemiring R] (bf : Bool) (bs : Nat → Nat) (S T B D : Nat)
    (hT : T ≤ S) (hB : ∀ t, t < T → bs t ≤ B) (x y g g' : Mem R) :
    dotPacked (rowsBefore bs T * D) (pack false bf x bs g S T B D) y
      = dotPadded bf S B D x (unpack false bf y bs g' S T B D) := by
  have hmem : ∀ {e}, e ∈ idx S (fun _ => B) D ↔ e.1 < S ∧ e.2.1 < B ∧ e.2.2 < D := mem_idx
  unfold dotPacked dotPadded
  have h1 : (idx S (fun _ => B) D).map (fun e => x (addr bf S B D e)
        * unpack false bf y bs g' S T B D (addr bf S B D e))
      = (idx S (fun _ => B) D).map (fun e => if inSeq T bs e then
          x (addr bf S B D e) * y ((idx T bs D).idxOf e) else 0) := by
    apply List.map_congr_left
    rintro ⟨t, b, d⟩ he
    obtain ⟨a1, a2, a3⟩ := hmem.1 he
    simp only at a1 a2 a3
    rw [unpack_layout false bf y bs g' S T B D hT hB t b d a1 a2 a3]
    by_cases hc : t < T ∧ b < bs t
    · have hin : inSeq T bs (t, b, d) = true := by simp [inSeq, hc.1, hc.2]
      rw [if_pos hc, if_pos hin, idxOf_idx T bs D t b d hc.1 hc.2 a3]
      simp only [Bool.false_eq_true, if_false]
    · have hin : ¬ inSeq T bs (t, b, d) = true := by simpa [inSeq] using hc
      rw [if_neg hc, if_neg hin]
      simp only [Bool.false_eq_true, if_false, mul_zero]
  rw [h1, sum_mask, filter_idx S T bs B D hT hB, ← length_idx]
  congr 1
  apply List.ext_getElem
  · simp
  · intro k k1 k2
    simp only [List.getElem_map, List.getElem_range]
    have hk : k < (idx T bs D).length := by simpa using k1
    rw [(nodup_idx T bs D).idxOf_getElem k hk]
    have := (packFold_spec false x (addr bf S B D) (idx T bs D) 0 g).2.1 k hk
    simp only [Nat.zero_add, Bool.false_eq_true, if_false] at this
    unfold pack
    rw [this]

/-- C64. With `accum`, both backward functions add to the gradient what they store without it. -/
theorem backward_accum {R : Type} [CommSemiring R] (bf : Bool) (bs : Mem Nat) (total T B D : Nat)
    (hB : ∀ t, t < T → bs t ≤ B) (y g g' : Mem R) :
    (∀ t b d, t < T → b < B → d < D →
      packBackward true bf y bs T B D g (addr bf T B D (t, b, d))
        = g (addr bf T B D (t, b, d)) + packBackward false bf y bs T B D g' (addr bf T B D (t, b, d))) ∧
    (∀ t b d, t < T → b < bs t → d < D →
      padBackward true bf total y bs T D g ((rowsBefore bs t + b) * D + d)
        = g ((rowsBefore bs t + b) * D + d)
          + padBackward false bf total y bs T D g' ((rowsBefore bs t + b) * D + d)) := by
  refine ⟨?_, ?_⟩
  · intro t b d ht hb hd
    unfold packBackward
    rw [unpack_layout true bf y bs g T T B D le_rfl hB t b d ht hb hd,
      unpack_layout false bf y bs g' T T B D le_rfl hB t b d ht hb hd]
    by_cases hc : t < T ∧ b < bs t
    · simp [hc]
    · rw [if_neg hc, if_neg hc]; simp
  · intro t b d ht hb hd
    unfold padBackward
    rw [(pack_layout true bf y bs g _ T _ D).1 t b d ht hb hd,
      (pack_layout false bf y bs g' _ T _ D).1 t b d ht hb hd]
    simp

example : dotPacked (rowsBefore (fun t => if t = 0 then 2 else 1) 2 * 1)
      (pack false false (fun a => (a : Int) + 1) (fun t => if t = 0 then 2 else 1) (fun _ => 0) 2 2 2 1)
      (fun a => 10 * a) = 80 := by decide

/-! ## What fails outside the hypotheses -/

/-- Refuted: `padding_value` is ignored; the padded positions are zero whatever it is. -/
theorem padding_value_ignored :
    ∃ y, padPacked false (7 : Int) 0 (packPadded false (fun a => (a : Int) + 1) 2 1 [2, 1] none
        (fun _ => 0) (fun _ => 0)) 1 (fun _ => 0) (fun _ => 0) = some (y, [2, 1]) ∧
      y (addr false 2 2 1 (1, 1, 0)) = 0 := by
  obtain ⟨y, h1, h2⟩ := pad_pack_roundtrip_partial false (fun a => (a : Int) + 1) 2 1 [2, 1]
    ⟨by simp, by simp⟩ (by simp) none (by decide) 0 (Or.inl rfl) 7 (fun _ => 0) (fun _ => 0)
    (fun _ => 0) (fun _ => 0)
  exact ⟨y, h1, h2 1 1 0 (by decide) (by decide) (by decide)⟩

/-- Refuted: a sequence of length zero disappears: two sequences go in, one comes out. -/
theorem empty_sequence_lost (gp : Mem Int) (gb : Mem Nat) :
    batchOf (packForward false (fun a => (a : Int)) 1 1 [1, 0] gp gb).2 1 = 1 := by
  have : computeBatchSizes [1, 0] gb 0 = 1 := by
    rw [batch_sizes_spec, if_pos (by decide)]; decide
  show (firstN (computeBatchSizes [1, 0] gb) 1).foldr max 0 = 1
  simp [firstN, this]

/-- Refuted: when the time axis is longer than the longest sequence, the batch sizes past it are
whatever the buffer held before; here the result depends on it. -/
theorem long_axis_reads_garbage :
    (packForward false (fun a => (a : Int)) 2 1 [1] (fun _ => 0) (fun _ => 0)).2 1
      ≠ (packForward false (fun a => (a : Int)) 2 1 [1] (fun _ => 0) (fun _ => 5)).2 1 := by
  show computeBatchSizes [1] (fun _ => 0) 1 ≠ computeBatchSizes [1] (fun _ => 5) 1
  rw [batch_sizes_spec, batch_sizes_spec]; decide

/-- Refuted: `enforce_sorted=True` does not check the order; with lengths [1, 2] the last element of
the second sequence is lost and a padding element is taken for the first. -/
theorem unsorted_mixes (g : Mem Int) (gb : Mem Nat) :
    (packForward false (fun a => (a : Int)) 2 1 [1, 2] g gb).1 2 = 2 ∧
      addr false 2 2 1 (1, 0, 0) = 2 := by
  refine ⟨?_, by decide⟩
  have h0 : computeBatchSizes [1, 2] gb 0 = 2 := by
    rw [batch_sizes_spec, if_pos (by decide)]; decide
  have h1 : computeBatchSizes [1, 2] gb 1 = 1 := by
    rw [batch_sizes_spec, if_pos (by decide)]; decide
  have := (pack_layout false false (fun a => (a : Int)) (computeBatchSizes [1, 2] gb) g 2 2 2 1).1
    1 0 0 (by decide) (by rw [h1]; decide) (by decide)
  simp only [rowsBefore, List.range_succ, List.range_zero, List.nil_append, List.map_cons, List.map_nil,
    List.sum_cons, List.sum_nil, h0] at this
  exact this

end Verif.Rnn
