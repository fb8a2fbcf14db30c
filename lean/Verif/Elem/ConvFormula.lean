import Verif.Elem.ConvProps
/-
C88, C89: the values computed by convolution and deconvolution, in multi-indices.
-/
namespace Verif.Elem
open Verif.Fn Verif.ND

theorem sum_indices (s : Shape) (f : Nat → ℝ) : ∑ k ∈ Finset.range (prod s), f k = ((indices s).map fun i => f (ravel s i)).sum := by
  rw [← map_range_sum, ← indices_ravel, List.map_map]
  rfl

theorem list_sum_zero {α} (l : List α) (f : α → ℝ) (h : ∀ a ∈ l, f a = 0) : (l.map f).sum = 0 := by
  induction l with
  | nil => rfl
  | cons a l ih => rw [List.map_cons, List.sum_cons, h a (List.mem_cons_self ..), ih fun b hb => h b (List.mem_cons_of_mem _ hb), add_zero]

namespace Conv

theorem sumR (c : Conv) (f : Nat → ℝ) : ∑ r ∈ Finset.range c.R, f r =
    ∑ i ∈ Finset.range c.cg, ((indices (kers c.ws)).map fun κ => f (i * prod (kers c.ws) + ravel (kers c.ws) κ)).sum := by
  unfold R
  rw [sum_mul_range]
  exact Finset.sum_congr rfl fun i _ => sum_indices _ _

theorem src_group (c : Conv) (h : c.WF) {g i : Nat} {κ pos : List Nat} (hg : g < c.group) (hi : i < c.cg) (hκ : InBounds (kers c.ws) κ)
    (hp : InBounds (outs c.ws) pos) :
    src c.chI c.ws (g * c.R + (i * prod (kers c.ws) + ravel (kers c.ws) κ)) (ravel (outs c.ws) pos) =
      (srcIndex c.ws κ pos).map fun s => ravel (c.chI :: inps c.ws) ((g * c.cg + i) :: s) := by
  have hc : g * c.cg + i < c.chI := by rw [h.hi]; exact row_lt hg hi
  have e : g * c.R + (i * prod (kers c.ws) + ravel (kers c.ws) κ) = ravel (c.chI :: kers c.ws) ((g * c.cg + i) :: κ) := by
    simp only [ravel, R]; ring
  rw [e, src_eq c.chI c.ws _ κ pos hc hκ hp]

/-- **C88.** Element (a, j, pos) of a convolution: the sum over the channels of j's group and the kernel's elements of the
weight times the element of the data it sees when the window is at pos (0 in the padding), plus the bias of j. -/
theorem C88_conv (c : Conv) (h : c.WF) (A : Shape) (hA : c.outer = prod A) (x w : Mem ℝ) (bias : Option (Mem ℝ)) (col y : Mem ℝ)
    (a : List Nat) (j : Nat) (pos : List Nat) (ha : InBounds A a) (hj : j < c.chO) (hp : InBounds (outs c.ws) pos) :
    c.forward x w bias col y (ravel (A ++ c.chO :: outs c.ws) (a ++ j :: pos)) =
      ∑ i ∈ Finset.range c.cg, ((indices (kers c.ws)).map fun κ => w (ravel (c.chO :: c.cg :: kers c.ws) (j :: i :: κ)) *
        (srcIndex c.ws κ pos).elim 0 fun s => x (ravel (A ++ c.chI :: inps c.ws) (a ++ (j / (c.chO / c.group) * c.cg + i) :: s))).sum +
      bias.elim 0 (· j) := by
  have e : ravel (A ++ c.chO :: outs c.ws) (a ++ j :: pos) = ravel A a * c.Y + (j * c.O + ravel (outs c.ws) pos) := by
    rw [ravel_append _ _ _ _ ha.length]; rfl
  rw [e, (c.forward_spec h x w bias col y).1 _ j _ (by rw [hA]; exact ravel_lt ha) hj (ravel_lt hp)]
  congr 1
  rw [c.sumR]
  refine Finset.sum_congr rfl fun i hi => ?_
  congr 1
  refine List.map_congr_left fun κ hκ => ?_
  have hκ := (mem_indices _ _).mp hκ
  have e1 : j * c.R + (i * prod (kers c.ws) + ravel (kers c.ws) κ) = ravel (c.chO :: c.cg :: kers c.ws) (j :: i :: κ) := rfl
  have e2 : c.cval x (ravel A a) (j / c.M * c.R + (i * prod (kers c.ws) + ravel (kers c.ws) κ)) (ravel (outs c.ws) pos) =
      (srcIndex c.ws κ pos).elim 0 fun s => x (ravel (A ++ c.chI :: inps c.ws) (a ++ (j / (c.chO / c.group) * c.cg + i) :: s)) := by
    rw [cval, c.src_group h (c.row_of h hj).1 (Finset.mem_range.mp hi) hκ hp]
    cases srcIndex c.ws κ pos with
    | none => rfl
    | some s =>
      simp only [Option.map_some, Option.elim_some]
      congr 1
      rw [ravel_append _ _ _ _ ha.length]
      rfl
  rw [e1, e2]

/-- **C89.** Element (a, ch, q) of a deconvolution, ch being channel i of group g: the sum over the kernel elements κ and
the window positions pos at which κ sees q, over the input channels j of the group, of data[a, j, pos] * weight[j, i, κ], plus
the bias of ch. (The transpose of convolution.) -/
theorem C89_deconv (c : Conv) (h : c.WF) (A : Shape) (hA : c.outer = prod A) (y w : Mem ℝ) (bias : Option (Mem ℝ)) (col x : Mem ℝ)
    (a : List Nat) (g i : Nat) (q : List Nat) (ha : InBounds A a) (hg : g < c.group) (hi : i < c.cg) (hq : InBounds (inps c.ws) q) :
    c.deForward y w bias col x (ravel (A ++ c.chI :: inps c.ws) (a ++ (g * c.cg + i) :: q)) =
      ((indices (kers c.ws)).map fun κ => ((indices (outs c.ws)).map fun pos => if srcIndex c.ws κ pos = some q then
        ∑ m ∈ Finset.range (c.chO / c.group), w (ravel (c.chO :: c.cg :: kers c.ws) ((g * (c.chO / c.group) + m) :: i :: κ)) *
          y (ravel (A ++ c.chO :: outs c.ws) (a ++ (g * (c.chO / c.group) + m) :: pos)) else 0).sum).sum +
      bias.elim 0 (· (g * c.cg + i)) := by
  have hc : g * c.cg + i < c.chI := by rw [h.hi]; exact row_lt hg hi
  have e : ravel (A ++ c.chI :: inps c.ws) (a ++ (g * c.cg + i) :: q) = ravel A a * c.I + ((g * c.cg + i) * c.P + ravel (inps c.ws) q) := by
    rw [ravel_append _ _ _ _ ha.length]; rfl
  have term : ∀ g' i' κ pos, g' < c.group → i' < c.cg → InBounds (kers c.ws) κ → InBounds (outs c.ws) pos →
      ((src c.chI c.ws (g' * c.R + (i' * prod (kers c.ws) + ravel (kers c.ws) κ)) (ravel (outs c.ws) pos)).elim 0 fun s =>
        if ravel A a * c.I + s = ravel A a * c.I + ((g * c.cg + i) * c.P + ravel (inps c.ws) q) then
          c.colv w y (ravel A a) g' (i' * prod (kers c.ws) + ravel (kers c.ws) κ) (ravel (outs c.ws) pos) else 0) =
      if g' = g ∧ i' = i ∧ srcIndex c.ws κ pos = some q then
          c.colv w y (ravel A a) g' (i' * prod (kers c.ws) + ravel (kers c.ws) κ) (ravel (outs c.ws) pos) else 0 := by
    intro g' i' κ pos hg' hi' hκ hp
    rw [c.src_group h hg' hi' hκ hp]
    cases hs : srcIndex c.ws κ pos with
    | none => simp
    | some s =>
      simp only [Option.map_some, Option.elim_some]
      have hl : κ.length = c.ws.length := by simpa [kers] using hκ.length
      have hsb := srcIndex_bound c.ws κ pos s hl hp hs
      have hc' : g' * c.cg + i' < c.chI := by rw [h.hi]; exact row_lt hg' hi'
      refine if_congr ?_ rfl rfl
      constructor
      · intro e
        have e2 : ravel (c.chI :: inps c.ws) ((g' * c.cg + i') :: s) = ravel (c.chI :: inps c.ws) ((g * c.cg + i) :: q) := by
          simp only [ravel, P] at e ⊢; omega
        have := ravel_inj (c.chI :: inps c.ws) ((g' * c.cg + i') :: s) ((g * c.cg + i) :: q) ⟨hc', hsb⟩ ⟨hc, hq⟩ e2
        simp only [List.cons.injEq] at this
        obtain ⟨e3, rfl⟩ := this
        have := at_inj (p := 0) hi' hi (by unfold at_; omega : at_ 0 c.cg g' i' = at_ 0 c.cg g i)
        exact ⟨this.1, this.2, rfl⟩
      · rintro ⟨rfl, rfl, e'⟩
        rw [Option.some.inj e']; rfl
  rw [e, (c.deForward_spec h y w bias col x).1 _ _ _ (by rw [hA]; exact ravel_lt ha) hc (ravel_lt hq)]
  congr 1
  have inner : ∀ g', g' < c.group → ∀ i', i' < c.cg →
      ((indices (kers c.ws)).map fun κ => ∑ o ∈ Finset.range c.O, ((src c.chI c.ws (g' * c.R + (i' * prod (kers c.ws) + ravel (kers c.ws) κ)) o).elim 0 fun s =>
        if ravel A a * c.I + s = ravel A a * c.I + ((g * c.cg + i) * c.P + ravel (inps c.ws) q) then
          c.colv w y (ravel A a) g' (i' * prod (kers c.ws) + ravel (kers c.ws) κ) o else 0)).sum =
      ((indices (kers c.ws)).map fun κ => ((indices (outs c.ws)).map fun pos => if g' = g ∧ i' = i ∧ srcIndex c.ws κ pos = some q then
          c.colv w y (ravel A a) g' (i' * prod (kers c.ws) + ravel (kers c.ws) κ) (ravel (outs c.ws) pos) else 0).sum).sum := by
    intro g' hg' i' hi'
    congr 1
    refine List.map_congr_left fun κ hκ => ?_
    rw [O, sum_indices]
    congr 1
    exact List.map_congr_left fun pos hp => term g' i' κ pos hg' hi' ((mem_indices _ _).mp hκ) ((mem_indices _ _).mp hp)
  unfold foldInc
  rw [Finset.sum_eq_single_of_mem g (Finset.mem_range.mpr hg), c.sumR, Finset.sum_eq_single_of_mem i (Finset.mem_range.mpr hi)]
  · rw [inner g hg i hi]
    congr 1
    refine List.map_congr_left fun κ hκ => ?_
    congr 1
    refine List.map_congr_left fun pos hp => ?_
    refine if_congr (by simp) ?_ rfl
    refine Finset.sum_congr rfl fun m _ => ?_
    rw [ravel_append _ _ _ _ ha.length]; rfl
  · intro i' hi' hne
    rw [inner g hg i' (Finset.mem_range.mp hi')]
    exact list_sum_zero _ _ fun κ _ => list_sum_zero _ _ fun pos _ => if_neg fun hh => hne hh.2.1
  · intro g' hg' hne
    rw [c.sumR]
    refine Finset.sum_eq_zero fun i' hi' => ?_
    rw [inner g' (Finset.mem_range.mp hg') i' (Finset.mem_range.mp hi')]
    exact list_sum_zero _ _ fun κ _ => list_sum_zero _ _ fun pos _ => if_neg fun hh => hne hh.1

end Conv
end Verif.Elem
