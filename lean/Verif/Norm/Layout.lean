/-
Both ways in which tensor normalization uses batch normalization are layouts in the sense of View.
-/
import Verif.Norm.Adapter

namespace Verif.Norm
open Verif.Fn Verif.Elem Verif.BatchNorm Verif.ND

/-- The layout of the parameters: one per channel, at the position of the channel of each element. -/
structure PView (sh : Shape) (axes : List Nat) (a : Args) (π : List Nat → Nat) (psh : Shape) (πp : List Nat → Nat) : Prop where
  perm : ((indices psh).map πp).Perm (List.range a.n1)
  inb : ∀ k, InBounds sh k → InBounds psh (mask axes k)
  link : ∀ k, InBounds sh k → πp (mask axes k) = chan a (π k)

theorem prod_ones (l : List Nat) (h : ∀ d ∈ l, d = 1) : prod l = 1 := by
  induction l with
  | nil => rfl
  | cons d l ih => simp [prod, h d List.mem_cons_self, ih (fun e he => h e (List.mem_cons_of_mem _ he))]

theorem ravel_ones (l i : List Nat) (h : ∀ d ∈ l, d = 1) (hi : InBounds l i) : ravel l i = 0 := by
  have := ravel_lt hi
  rw [prod_ones l h] at this; omega

/-- Laying all elements out in a transposed array is a bijection. -/
theorem transposed_layout {p : List Nat} {s : Shape} (h : PermAxes p s.length) :
    ((indices s).map fun k => ravel (transposedShape p s) (p.map (k.getD · 0))).Perm (List.range (prod s)) := by
  refine PermAxes.perm ⟨?_, ?_, by rw [List.length_map, indices_length]⟩
  · have hnd : (indices s).Nodup := List.Nodup.of_map _ (indices_nodup s)
    refine hnd.map_on ?_
    intro k hk k' hk' e
    have hk := (mem_indices _ _).1 hk
    have hk' := (mem_indices _ _).1 hk'
    have := ravel_inj _ _ _ (transposed_inb h hk) (transposed_inb h hk') e
    rw [← unperm_perm h k hk.length, this, unperm_perm h k' hk'.length]
  · intro q hq
    obtain ⟨k, hk, rfl⟩ := List.mem_map.1 hq
    have := ravel_lt (transposed_inb h ((mem_indices _ _).1 hk))
    rwa [transposed_prod h] at this

theorem mask_getD (axes : List Nat) (k : List Nat) (i : Nat) (hi : i < k.length) : (mask axes k).getD i 0 = if i ∈ axes then k.getD i 0 else 0 := by
  rw [mask, getD_map_lt _ _ _ 0 _ (by simpa using hi)]
  simp [hi]

theorem mask_length (axes k : List Nat) : (mask axes k).length = k.length := by simp [mask]

theorem mask_inb {sh : Shape} {axes : List Nat} (ha : ∀ b ∈ axes, b < sh.length) {k : List Nat} (hk : InBounds sh k) :
    InBounds (paramShape sh axes) (mask axes k) := by
  obtain ⟨h1, h2⟩ := paramShape_spec sh axes ha
  obtain ⟨h3, h4⟩ := (inBounds_iff _ _).1 hk
  refine (inBounds_iff _ _).2 ⟨by rw [mask_length, h1, h3], fun i hi => ?_⟩
  rw [h1] at hi
  rw [mask_getD _ _ _ (by omega), h2 i hi]
  split
  · exact h4 i hi
  · omega

theorem paramShape_pos {sh : Shape} {axes : List Nat} (ha : ∀ b ∈ axes, b < sh.length) (hpos : 0 < prod sh) : 0 < prod (paramShape sh axes) := by
  obtain ⟨q, hq, -⟩ := exists_ravel sh 0 hpos
  have := ravel_lt (mask_inb ha hq)
  omega

section adapter
variable {sh : Shape} {axes : List Nat}

/-- The other axes. -/
def outerAxes (n : Nat) (axes : List Nat) : List Nat := (List.range n).filter fun i => decide (i ∉ axes.mergeSort)

theorem adapterAxes_eq (n : Nat) : adapterAxes n axes = outerAxes n axes ++ axes.mergeSort := rfl

theorem mem_sorted (b : Nat) : b ∈ axes.mergeSort ↔ b ∈ axes := (List.mergeSort_perm _ _).mem_iff

theorem outer_length (hn : axes.Nodup) (ha : ∀ b ∈ axes, b < sh.length) : (outerAxes sh.length axes).length = sh.length - axes.length := by
  have := (adapter_perm sh.length axes hn ha).length
  rw [adapterAxes_eq, List.length_append, List.length_mergeSort] at this
  omega

theorem tshape_eq (s : Shape) (n : Nat) : transposedShape (adapterAxes n axes) s =
    (outerAxes n axes).map (s.getD · 0) ++ axes.mergeSort.map (s.getD · 0) := by
  rw [transposedShape, adapterAxes_eq, List.map_append]

theorem adapter_setup (eps : ℝ) (hn : axes.Nodup) (ha : ∀ b ∈ axes, b < sh.length) (hpos : 0 < prod sh) (h1 : axes.length ≠ 1) :
    setup sh axes eps = .ok ⟨some (adapterAxes sh.length axes),
      ⟨eps, 0, prod ((outerAxes sh.length axes).map (sh.getD · 0)), prod (axes.mergeSort.map (sh.getD · 0)), 1⟩, paramShape sh axes⟩ := by
  have hp := adapter_perm sh.length axes hn ha
  have hol := outer_length (sh := sh) hn ha
  have hprod := transposed_prod (s := sh) hp
  rw [tshape_eq, prod_append] at hprod
  have hbn : bnShape (sh.length - axes.length) (transposedShape (adapterAxes sh.length axes) sh) =
      (if sh.length - axes.length = 0 then [1] else (outerAxes sh.length axes).map (sh.getD · 0)) ++
        prod (axes.mergeSort.map (sh.getD · 0)) :: [] := by
    rw [tshape_eq, bnShape, ← hol, List.take_left' (by simp), List.drop_left' (by simp)]
    simp only [List.length_append, List.length_map, List.length_cons, List.length_nil]
    by_cases h0 : (outerAxes sh.length axes).length = 0
    · have : outerAxes sh.length axes = [] := List.eq_nil_of_length_eq_zero h0
      simp [this]
    · rw [if_neg (by omega), if_neg h0]
  have hA : prod (if sh.length - axes.length = 0 then [1] else (outerAxes sh.length axes).map (sh.getD · 0)) =
      prod ((outerAxes sh.length axes).map (sh.getD · 0)) := by
    split
    · rename_i h0
      have : outerAxes sh.length axes = [] := List.eq_nil_of_length_eq_zero (by omega)
      simp [this, prod]
    · rfl
  have hlen : (if sh.length - axes.length = 0 then 1 else sh.length - axes.length) =
      (if sh.length - axes.length = 0 then [1] else (outerAxes sh.length axes).map (sh.getD · 0)).length := by
    split
    · rfl
    · rw [List.length_map, hol]
  simp only [setup, argsOf]
  rw [if_pos h1, hbn, hlen, C83_setup _ _ _ _ (Or.inl rfl)]
  · simp only [hA, prod]
  · rw [prod_append, hA]
    simp only [prod, Nat.mul_one]
    rw [hprod]; exact hpos

theorem adapter_view (eps : ℝ) (hn : axes.Nodup) (ha : ∀ b ∈ axes, b < sh.length) :
    View sh axes ⟨eps, 0, prod ((outerAxes sh.length axes).map (sh.getD · 0)), prod (axes.mergeSort.map (sh.getD · 0)), 1⟩
      (fun k => ravel (transposedShape (adapterAxes sh.length axes) sh) ((adapterAxes sh.length axes).map (k.getD · 0))) := by
  have hp := adapter_perm sh.length axes hn ha
  have hprod := transposed_prod (s := sh) hp
  rw [tshape_eq, prod_append] at hprod
  have hch : ∀ k, InBounds sh k → InBounds (axes.mergeSort.map (sh.getD · 0)) (axes.mergeSort.map (k.getD · 0)) ∧
      chan ⟨eps, 0, prod ((outerAxes sh.length axes).map (sh.getD · 0)), prod (axes.mergeSort.map (sh.getD · 0)), 1⟩
        (ravel (transposedShape (adapterAxes sh.length axes) sh) ((adapterAxes sh.length axes).map (k.getD · 0))) =
      ravel (axes.mergeSort.map (sh.getD · 0)) (axes.mergeSort.map (k.getD · 0)) := by
    intro k hk
    have hin := transposed_inb hp hk
    rw [tshape_eq, adapterAxes_eq, List.map_append] at hin
    have h2 := ((inBounds_append _ _ _ _ (by simp)).1 hin).2
    refine ⟨h2, ?_⟩
    rw [tshape_eq, adapterAxes_eq, List.map_append, ravel_append _ _ _ _ (by simp), chan]
    simp only [Nat.div_one]
    rw [Nat.add_comm, Nat.add_mul_mod_self_right, Nat.mod_eq_of_lt (ravel_lt h2)]
  refine ⟨?_, ?_⟩
  · have := transposed_layout hp
    simp only [Nat.mul_one]
    rw [hprod]; exact this
  · intro k k' hk hk'
    rw [(hch k hk).2, (hch k' hk').2]
    constructor
    · intro e b hb
      have := ravel_inj _ _ _ (hch k hk).1 (hch k' hk').1 e
      exact (List.map_inj_left.1 this) b ((mem_sorted b).2 hb)
    · intro e
      congr 1
      exact List.map_congr_left fun b hb => e b ((mem_sorted b).1 hb)

theorem adapter_pview (eps : ℝ) (hn : axes.Nodup) (ha : ∀ b ∈ axes, b < sh.length) :
    PView sh axes ⟨eps, 0, prod ((outerAxes sh.length axes).map (sh.getD · 0)), prod (axes.mergeSort.map (sh.getD · 0)), 1⟩
      (fun k => ravel (transposedShape (adapterAxes sh.length axes) sh) ((adapterAxes sh.length axes).map (k.getD · 0)))
      (paramShape sh axes)
      (fun k => ravel (transposedShape (adapterAxes sh.length axes) (paramShape sh axes)) ((adapterAxes sh.length axes).map (k.getD · 0))) := by
  have hp := adapter_perm sh.length axes hn ha
  obtain ⟨hl, hg⟩ := paramShape_spec sh axes ha
  have hp' : PermAxes (adapterAxes sh.length axes) (paramShape sh axes).length := by rw [hl]; exact hp
  have hout : ∀ d ∈ (outerAxes sh.length axes).map ((paramShape sh axes).getD · 0), d = 1 := by
    intro d hd
    obtain ⟨b, hb, rfl⟩ := List.mem_map.1 hd
    obtain ⟨h1, h2⟩ := List.mem_filter.1 hb
    rw [hg b (List.mem_range.1 h1), if_neg]
    rw [← mem_sorted]; simpa using h2
  have hin : axes.mergeSort.map ((paramShape sh axes).getD · 0) = axes.mergeSort.map (sh.getD · 0) := by
    refine List.map_congr_left fun b hb => ?_
    have hb := (mem_sorted b).1 hb
    rw [hg b (ha b hb), if_pos hb]
  refine ⟨?_, fun k hk => mask_inb ha hk, fun k hk => ?_⟩
  · have h1 := transposed_layout hp'
    have h2 := transposed_prod (s := paramShape sh axes) hp'
    rw [tshape_eq, prod_append, prod_ones _ hout, hin, Nat.one_mul] at h2
    rw [← h2] at h1; exact h1
  · have hm := transposed_inb hp' (mask_inb ha hk)
    have hk2 := transposed_inb hp hk
    show ravel _ _ = chan _ (ravel _ _)
    rw [tshape_eq, adapterAxes_eq, List.map_append] at hm hk2 ⊢
    rw [← adapterAxes_eq, tshape_eq, adapterAxes_eq, List.map_append]
    have hm' := (inBounds_append _ _ _ _ (by simp)).1 hm
    have hk' := (inBounds_append _ _ _ _ (by simp)).1 hk2
    rw [ravel_append _ _ _ _ (by simp), ravel_append _ _ _ _ (by simp), ravel_ones _ _ hout hm'.1, chan, hin]
    simp only [Nat.div_one, Nat.zero_mul, Nat.zero_add]
    rw [Nat.add_comm (ravel _ _ * _), Nat.add_mul_mod_self_right, Nat.mod_eq_of_lt (ravel_lt hk'.2)]
    congr 1
    refine List.map_congr_left fun b hb => ?_
    have hb := (mem_sorted b).1 hb
    rw [mask_getD _ _ _ (by rw [hk.length]; exact ha b hb), if_pos hb]
end adapter

section single
variable {sh : Shape} {b : Nat}

theorem split_at (hb : b < sh.length) : sh = sh.take b ++ sh.getD b 0 :: sh.drop (b + 1) := by
  conv_lhs => rw [← List.take_append_drop b sh, List.drop_eq_getElem_cons hb]
  simp [List.getD_eq_getElem?_getD, hb]

theorem single_setup (eps : ℝ) (hb : b < sh.length) (hpos : 0 < prod sh) :
    setup sh [b] eps = .ok ⟨none, ⟨eps, 0, prod (sh.take b), sh.getD b 0, prod (sh.drop (b + 1))⟩, paramShape sh [b]⟩ := by
  simp only [setup, argsOf]
  rw [if_neg (by simp)]
  have hl : (sh.take b).length = b := by simp; omega
  have e := C83_setup (sh.take b) (sh.drop (b + 1)) (sh.getD b 0) ((b : Nat) : Int) (Or.inl (by rw [hl])) (by rw [← split_at hb]; exact hpos)
  rw [← split_at hb] at e
  have : ([b] : List Nat).getD 0 0 = b := rfl
  rw [this, e]

theorem single_split {k : List Nat} (hb : b < sh.length) (hk : InBounds sh k) :
    InBounds (sh.take b) (k.take b) ∧ k.getD b 0 < sh.getD b 0 ∧ InBounds (sh.drop (b + 1)) (k.drop (b + 1)) ∧
      ravel sh k = off (sh.getD b 0) (prod (sh.drop (b + 1))) (ravel (sh.take b) (k.take b)) (k.getD b 0) (ravel (sh.drop (b + 1)) (k.drop (b + 1))) := by
  have hbk : b < k.length := by rw [hk.length]; exact hb
  have hl : (k.take b).length = (sh.take b).length := by simp [hk.length]
  have h2 := hk
  rw [split_at hb, split_at hbk] at h2
  obtain ⟨h3, h4, h5⟩ := (inBounds_append _ _ _ _ hl).1 h2
  refine ⟨h3, h4, h5, ?_⟩
  conv_lhs => rw [split_at hb, split_at hbk]
  rw [ravel_off _ _ _ _ _ _ h3]

theorem single_view (eps : ℝ) (hb : b < sh.length) :
    View sh [b] ⟨eps, 0, prod (sh.take b), sh.getD b 0, prod (sh.drop (b + 1))⟩ (ravel sh) := by
  have hc : ∀ k, InBounds sh k → chan ⟨eps, 0, prod (sh.take b), sh.getD b 0, prod (sh.drop (b + 1))⟩ (ravel sh k) = k.getD b 0 := by
    intro k hk
    obtain ⟨-, h2, h3, h4⟩ := single_split hb hk
    rw [h4]
    exact chan_off ⟨eps, 0, prod (sh.take b), sh.getD b 0, prod (sh.drop (b + 1))⟩ h2 (ravel_lt h3)
  refine ⟨?_, ?_⟩
  · rw [indices_ravel]
    have : prod sh = prod (sh.take b) * sh.getD b 0 * prod (sh.drop (b + 1)) := by
      conv_lhs => rw [split_at hb, prod_append]
      simp only [prod]; ring
    rw [this]
  · intro k k' hk hk'
    rw [hc k hk, hc k' hk']
    simp

theorem single_pview (eps : ℝ) (hb : b < sh.length) :
    PView sh [b] ⟨eps, 0, prod (sh.take b), sh.getD b 0, prod (sh.drop (b + 1))⟩ (ravel sh) (paramShape sh [b]) (ravel (paramShape sh [b])) := by
  have ha : ∀ c ∈ [b], c < sh.length := by simpa using hb
  obtain ⟨hl, hg⟩ := paramShape_spec sh [b] ha
  have hbp : b < (paramShape sh [b]).length := by rw [hl]; exact hb
  have hd : (paramShape sh [b]).getD b 0 = sh.getD b 0 := by rw [hg b hb]; simp
  have hmem : ∀ i, i < sh.length → i ≠ b → (paramShape sh [b]).getD i 0 = 1 := fun i hi hne => by rw [hg i hi]; simp [hne]
  have h1 : ∀ d ∈ (paramShape sh [b]).take b, d = 1 := by
    intro d hd
    obtain ⟨i, hi, rfl⟩ := List.getElem_of_mem hd
    rw [List.length_take] at hi
    have := hmem i (by omega) (by omega)
    rw [List.getD_eq_getElem?_getD, List.getElem?_eq_getElem (by omega)] at this
    simpa using this
  have h2 : ∀ d ∈ (paramShape sh [b]).drop (b + 1), d = 1 := by
    intro d hd
    obtain ⟨i, hi, rfl⟩ := List.getElem_of_mem hd
    rw [List.length_drop] at hi
    have := hmem (b + 1 + i) (by omega) (by omega)
    rw [List.getD_eq_getElem?_getD, List.getElem?_eq_getElem (by omega)] at this
    simpa using this
  refine ⟨?_, fun k hk => mask_inb ha hk, fun k hk => ?_⟩
  · rw [indices_ravel]
    have : prod (paramShape sh [b]) = sh.getD b 0 := by
      conv_lhs => rw [split_at hbp, prod_append, prod_ones _ h1]
      simp only [prod]
      rw [prod_ones _ h2, hd]; ring
    rw [this]
  · obtain ⟨m1, m2, m3, m4⟩ := single_split hbp (mask_inb ha hk)
    obtain ⟨-, k2, k3, k4⟩ := single_split hb hk
    rw [k4, m4, ravel_ones _ _ h1 m1, ravel_ones _ _ h2 m3, prod_ones _ h2]
    rw [show chan ⟨eps, 0, prod (sh.take b), sh.getD b 0, prod (sh.drop (b + 1))⟩ _ = _ from
      chan_off ⟨eps, 0, prod (sh.take b), sh.getD b 0, prod (sh.drop (b + 1))⟩ k2 (ravel_lt k3)]
    rw [mask_getD _ _ _ (by rw [hk.length]; exact hb)]
    simp [off]
end single

end Verif.Norm
