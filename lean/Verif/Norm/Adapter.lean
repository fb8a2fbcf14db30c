/-
The adapter of tensor normalization lays the elements out as batch normalization needs them.
-/
import Verif.Norm.View
import Verif.Fn.Chunk
import Mathlib.Data.List.Sort
import Mathlib.Data.List.GetD

namespace Verif.Norm
open Verif.Fn Verif.Elem Verif.BatchNorm Verif.ND

theorem getD_set (s : List Nat) (a v i : Nat) (ha : a < s.length) : (s.set a v).getD i 0 = if i = a then v else s.getD i 0 := by
  rw [List.getD_eq_getElem?_getD, List.getElem?_set, List.getD_eq_getElem?_getD]
  by_cases h : a = i
  · subst h; simp [ha]
  · rw [if_neg h, if_neg (Ne.symm h)]

theorem paramShape_spec (sh : Shape) (axes : List Nat) (ha : ∀ b ∈ axes, b < sh.length) :
    (paramShape sh axes).length = sh.length ∧
    ∀ i < sh.length, (paramShape sh axes).getD i 0 = if i ∈ axes then sh.getD i 0 else 1 := by
  have main : ∀ (l : List Nat) (s : Shape), (∀ b ∈ l, b < s.length) →
      (l.foldl (fun s a => s.set a (sh.getD a 0)) s).length = s.length ∧
      ∀ i, (l.foldl (fun s a => s.set a (sh.getD a 0)) s).getD i 0 = if i ∈ l then sh.getD i 0 else s.getD i 0 := by
    intro l
    induction l with
    | nil => intro s _; exact ⟨rfl, fun i => by simp⟩
    | cons b l ih =>
      intro s hs
      obtain ⟨h1, h2⟩ := ih (s.set b (sh.getD b 0)) (fun c hc => by rw [List.length_set]; exact hs c (List.mem_cons_of_mem _ hc))
      refine ⟨by rw [List.foldl_cons, h1, List.length_set], fun i => ?_⟩
      rw [List.foldl_cons, h2, getD_set _ _ _ _ (hs b List.mem_cons_self)]
      by_cases hi : i ∈ l
      · simp [hi]
      · by_cases hb : i = b
        · subst hb; simp
        · simp [hi, hb]
  obtain ⟨h1, h2⟩ := main axes (List.replicate sh.length 1) (by simpa using ha)
  refine ⟨by rw [paramShape, h1, List.length_replicate], fun i hi => ?_⟩
  rw [paramShape, h2]
  congr 1
  simp [List.getD_eq_getElem?_getD, hi]

/-! ### The permutations -/

theorem adapter_perm (n : Nat) (axes : List Nat) (hn : axes.Nodup) (hl : ∀ b ∈ axes, b < n) : PermAxes (adapterAxes n axes) n := by
  have hp : axes.mergeSort.Perm axes := List.mergeSort_perm _ _
  have hnd : (adapterAxes n axes).Nodup := by
    unfold adapterAxes
    refine List.Nodup.append ((List.nodup_range).filter _) (hp.nodup_iff.2 hn) ?_
    intro x h1 h2
    have := (List.mem_filter.1 h1).2
    simp [h2] at this
  have hlt : ∀ b ∈ adapterAxes n axes, b < n := by
    intro b hb
    rcases List.mem_append.1 hb with h | h
    · exact List.mem_range.1 (List.mem_filter.1 h).1
    · exact hl b (hp.mem_iff.1 h)
  refine ⟨hnd, hlt, ?_⟩
  have : (adapterAxes n axes).Perm (List.range n) := by
    refine (List.perm_ext_iff_of_nodup hnd List.nodup_range).2 fun b => ⟨fun h => List.mem_range.2 (hlt b h), fun h => ?_⟩
    unfold adapterAxes
    by_cases hb : b ∈ axes.mergeSort
    · exact List.mem_append_right _ hb
    · exact List.mem_append_left _ (List.mem_filter.2 ⟨h, by simpa using hb⟩)
  simpa using this.length_eq

/-- The order of `std::sort` on pairs. -/
def lexLe (a b : Nat × Nat) : Bool := decide (a.1 < b.1 ∨ (a.1 = b.1 ∧ a.2 ≤ b.2))

theorem invAxes_eq (p : List Nat) (n : Nat) (h : PermAxes p n) : invAxes p = (List.range n).map (p.idxOf ·) := by
  have e : p.zipIdx.mergeSort lexLe = (List.range n).map fun b => (b, p.idxOf b) := by
    refine List.Perm.eq_of_pairwise (le := fun a b => lexLe a b = true) ?_ ?_ ?_ ?_
    · intro a b _ _ h1 h2
      simp only [lexLe, decide_eq_true_eq] at h1 h2
      exact Prod.ext (by omega) (by omega)
    · refine List.pairwise_mergeSort ?_ ?_ _
      · intro a b c h1 h2
        simp only [lexLe, decide_eq_true_eq] at h1 h2 ⊢
        omega
      · intro a b
        simp only [lexLe, Bool.or_eq_true, decide_eq_true_eq]
        omega
    · rw [List.pairwise_map]
      refine List.Pairwise.imp ?_ List.pairwise_lt_range
      intro a b hab
      simp only [lexLe, decide_eq_true_eq]
      exact Or.inl hab
    · refine (List.mergeSort_perm _ _).trans ?_
      have e2 : p.zipIdx = p.map fun b => (b, p.idxOf b) := by
        apply List.ext_getElem
        · simp
        · intro i h1 h2
          simp only [List.length_zipIdx] at h1
          rw [List.getElem_zipIdx, List.getElem_map, h.nodup.idxOf_getElem i h1]
          simp
      rw [e2]
      exact h.perm.map _
  have : invAxes p = (p.zipIdx.mergeSort lexLe).map (·.2) := rfl
  rw [this, e, List.map_map]
  rfl

theorem invAxes_map (p : List Nat) (n : Nat) (h : PermAxes p n) (j : List Nat) : (invAxes p).map (j.getD · 0) = unperm p n j := by
  rw [invAxes_eq p n h, List.map_map]; rfl

theorem invAxes_perm (p : List Nat) (n : Nat) (h : PermAxes p n) : PermAxes (invAxes p) n := by
  rw [invAxes_eq p n h]
  refine ⟨?_, ?_, by simp⟩
  · refine List.Nodup.map_on ?_ List.nodup_range
    intro a ha b hb e
    exact (List.idxOf_inj (h.perm.mem_iff.2 ha)).1 e
  · intro b hb
    obtain ⟨c, hc, rfl⟩ := List.mem_map.1 hb
    have := List.idxOf_lt_length_iff.2 (h.perm.mem_iff.2 hc)
    rw [h.length] at this; exact this

/-! ### What the transpositions do to the elements -/

/-- Backward of an injective gather, element by element. -/
theorem backward_at {ysh xsh : Shape} {f : List Nat → List Nat} {ps : Pairs} (h : Gathers ysh xsh f ps)
    (inj : ∀ j j', InBounds ysh j → InBounds ysh j' → f j = f j' → j = j') (dy dx : Mem ℝ) {j : List Nat} (hj : InBounds ysh j) :
    bwdAdd ps dy dx (ravel xsh (f j)) = dx (ravel xsh (f j)) + dy (ravel ysh j) := by
  rw [h.backward]
  congr 1
  have e : ((indices ysh).map fun j' => if ravel xsh (f j') = ravel xsh (f j) then dy (ravel ysh j') else 0) =
      ((indices ysh).map (ravel ysh)).map fun q => if q = ravel ysh j then dy q else 0 := by
    rw [List.map_map]
    refine List.map_congr_left fun j' hj' => ?_
    have hj' := (mem_indices _ _).1 hj'
    by_cases e : j' = j
    · subst e; simp
    · have h1 : ravel xsh (f j') ≠ ravel xsh (f j) := fun e1 =>
        e (inj j' j hj' hj (ravel_inj xsh _ _ (h.bound j' hj') (h.bound j hj) e1))
      have h2 : ravel ysh j' ≠ ravel ysh j := fun e1 => e (ravel_inj ysh _ _ hj' hj e1)
      simp only [Function.comp_apply, if_neg h1, if_neg h2]
  rw [e, indices_ravel, list_sum_range, Finset.sum_ite_eq', if_pos (Finset.mem_range.2 (ravel_lt hj))]

variable {p : List Nat} {s : Shape}

theorem transposed_len (h : PermAxes p s.length) : (transposedShape p s).length = s.length := by simp [transposedShape, h.length]

theorem transposed_prod (h : PermAxes p s.length) : prod (transposedShape p s) = prod s := perm_prod h

theorem transposed_inb (h : PermAxes p s.length) {k : List Nat} (hk : InBounds s k) : InBounds (transposedShape p s) (p.map (k.getD · 0)) :=
  (inBounds_perm h k hk.length).2 hk

theorem tn2bn_at (h : PermAxes p s.length) (hpos : 0 < prod s) (x : Mem ℝ) {k : List Nat} (hk : InBounds s k) :
    tn2bn p s x (ravel (transposedShape p s) (p.map (k.getD · 0))) = x (ravel s k) := by
  have := (tr_pairs p s h hpos).1.forward x zeros _ (transposed_inb h hk)
  rw [unperm_perm h k hk.length] at this
  exact this

theorem tr_backward_at (h : PermAxes p s.length) (hpos : 0 < prod s) (accum : Bool) (dy dx : Mem ℝ) {k : List Nat} (hk : InBounds s k) :
    callBackward (trBackward (trState p s)) accum dy dx (ravel s k) =
      accOf accum (dx (ravel s k)) (dy (ravel (transposedShape p s) (p.map (k.getD · 0)))) := by
  obtain ⟨g1, g2⟩ := tr_pairs p s h hpos
  have inj : ∀ j j', InBounds (p.map (s.getD · 0)) j → InBounds (p.map (s.getD · 0)) j' →
      unperm p s.length j = unperm p s.length j' → j = j' := by
    intro j j' hj hj' e
    have hl : ∀ j, InBounds (p.map (s.getD · 0)) j → j.length = s.length := fun j hj => by rw [hj.length, List.length_map, h.length]
    rw [← perm_unperm h j (hl j hj), e, perm_unperm h j' (hl j' hj')]
  have g3 : Gathers (p.map (s.getD · 0)) s (unperm p s.length) (trBwdPairs (trState p s)) := ⟨g2.trans g1.perm, g1.bound⟩
  have hj := transposed_inb h hk
  have hu := unperm_perm h k hk.length
  have key := fun dx => backward_at g3 inj dy dx hj
  rw [hu] at key
  cases accum
  · simp only [callBackward, trBackward, Bool.false_eq_true, if_false, accOf]
    rw [g3.bwdSet inj, key]
    simp [zeros, transposedShape]
  · simp only [callBackward, trBackward, if_true, accOf]
    exact key dx

theorem bn2tn_shape (h : PermAxes p s.length) : (invAxes p).map ((transposedShape p s).getD · 0) = s := by
  rw [invAxes_map p s.length h]; exact unperm_perm h s rfl

theorem bn2tn_index (h : PermAxes p s.length) {k : List Nat} (hk : InBounds s k) : (invAxes p).map ((p.map (k.getD · 0)).getD · 0) = k := by
  rw [invAxes_map p s.length h]; exact unperm_perm h k hk.length

theorem bn2tn_at (h : PermAxes p s.length) (hpos : 0 < prod s) (x y : Mem ℝ) {k : List Nat} (hk : InBounds s k) :
    bn2tn p s x y (ravel s k) = x (ravel (transposedShape p s) (p.map (k.getD · 0))) := by
  have hi : PermAxes (invAxes p) (transposedShape p s).length := by rw [transposed_len h]; exact invAxes_perm p _ h
  have hj := transposed_inb h hk
  have := (tr_pairs (invAxes p) (transposedShape p s) hi (by rw [transposed_prod h]; exact hpos)).1.forward x y _
    (transposed_inb hi hj)
  rw [unperm_perm hi _ hj.length, bn2tn_shape h, bn2tn_index h hk] at this
  exact this

theorem bn2tn_backward_at (h : PermAxes p s.length) (hpos : 0 < prod s) (dy : Mem ℝ) {k : List Nat} (hk : InBounds s k) :
    bn2tnBackward p s dy (ravel (transposedShape p s) (p.map (k.getD · 0))) = dy (ravel s k) := by
  have hi : PermAxes (invAxes p) (transposedShape p s).length := by rw [transposed_len h]; exact invAxes_perm p _ h
  have hj := transposed_inb h hk
  have := tr_backward_at hi (by rw [transposed_prod h]; exact hpos) false dy zeros hj
  rw [bn2tn_index h hk] at this
  have e : transposedShape (invAxes p) (transposedShape p s) = s := bn2tn_shape h
  rw [e] at this
  exact this

end Verif.Norm
