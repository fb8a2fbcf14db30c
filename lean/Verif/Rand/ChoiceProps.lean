import Verif.Rand.Choice
import Mathlib.Algebra.Order.BigOperators.Group.Finset
/-
C133: theorems about RandomChoice.
-/
namespace Verif.Rand
open Verif.Fn

section
variable {R : Type} [CommRing R] [LinearOrder R] [IsStrictOrderedRing R]

/-- The distribution returns numbers in [0, total). -/
def UnifOK {G} (unif : Unif G R) : Prop := ∀ total g, 0 < total → 0 ≤ (unif total g).1 ∧ (unif total g).1 < total

/-- The numbers drawn by `n` successive calls with the same total. -/
def variates {G} (unif : Unif G R) (total : R) : Nat → G → List R
  | 0, _ => []
  | n + 1, g => (unif total g).1 :: variates unif total n (unif total g).2

/-- C133 (with replacement, one draw). For weights without a negative one and a number `u` in [0, sum of weights), the
index chosen is `i` exactly when `u` falls in the i-th of the consecutive intervals of lengths w[0], w[1], …:
an index is chosen with probability proportional to its weight, and one of weight zero never. -/
theorem C133_choice_interval (w : Mem R) (size : Nat) (hs : 0 < size) (hw : ∀ i, i < size → 0 ≤ w i) (u : R) (hu : 0 ≤ u)
    (ht : u < before w size) (i : Nat) (hi : i < size) :
    (firstBelow (wsum w) u size).getD (size - 1) = i ↔ before w i ≤ u ∧ u < before w i + w i := by
  have hb : ∀ i, before w (i + 1) = before w i + w i := fun i => Finset.sum_range_succ _ _
  have hlast : u < wsum w (size - 1) := by rw [wsum_eq, Nat.sub_add_cancel hs]; exact ht
  obtain ⟨a, ha⟩ := firstBelow_total (wsum w) u size hs hlast
  rw [ha, Option.getD_some]
  obtain ⟨h1, h2, h3⟩ := (firstBelow_some _ _ _ _).mp ha
  have key : before w a ≤ u ∧ u < before w a + w a := by
    refine ⟨?_, by rw [← hb, ← wsum_eq]; exact h2⟩
    cases a with
    | zero => simpa [before] using hu
    | succ a => have := h3 a (by omega); rwa [wsum_eq] at this
  constructor
  · rintro rfl; exact key
  · rintro ⟨g1, g2⟩
    rcases Nat.lt_trichotomy a i with h | h | h
    · exfalso
      cases i with
      | zero => omega
      | succ i =>
        have := wsum_mono w size hw a i (by omega) (by omega)
        rw [wsum_eq w i] at this
        have := lt_of_lt_of_le h2 this
        linarith
    · exact h
    · exfalso
      have := h3 i h
      rw [wsum_eq, hb] at this
      linarith

/-- C133 (with replacement, one row): the i-th output is chosen by the i-th number drawn. -/
theorem C133_choice_row {G} (unif : Unif G R) (hU : UnifOK unif) (size : Nat) (hs : 0 < size) (w : Mem R)
    (hc : checkReplace size w = true) (n : Nat) (g : G) :
    List.Forall₂ (fun i u => i < size ∧ 0 < w i ∧ before w i ≤ u ∧ u < before w i + w i)
      (rowReplace unif size w n g).1 (variates unif (before w size) n g) := by
  unfold checkReplace at hc
  rw [Bool.and_eq_true, List.all_eq_true] at hc
  have hw : ∀ i, i < size → 0 ≤ w i := by
    intro i hi
    have := hc.1 i (List.mem_range.mpr hi)
    simpa using this
  have ht : 0 < wsum w (size - 1) := by simpa using hc.2
  have e : wsum w (size - 1) = before w size := by rw [wsum_eq, Nat.sub_add_cancel hs]
  induction n generalizing g with
  | zero => exact List.Forall₂.nil
  | succ n ih =>
    simp only [rowReplace, variates]
    rw [e] at ht ⊢
    have hu := hU _ g ht
    refine List.Forall₂.cons ?_ (by simpa only [e] using ih (unif (before w size) g).2)
    obtain ⟨a, ha⟩ := firstBelow_total (wsum w) (unif (before w size) g).1 size hs (by rw [e]; exact hu.2)
    have hlt := ((firstBelow_some _ _ _ _).mp ha).1
    have hi := (C133_choice_interval w size hs hw _ hu.1 hu.2 a hlt).mp (by rw [ha]; rfl)
    rw [ha, Option.getD_some]
    refine ⟨hlt, ?_, hi⟩
    exact firstBelow_pos w _ size a hu.1 ha

/-! ### Without replacement -/

/-- State of the loops: the indices chosen so far are distinct, in range and had positive weights, which are now zero;
other weights are unchanged. -/
structure ChoiceInv (size : Nat) (w : Mem R) (st : Mem R × List Nat) : Prop where
  nodup : st.2.Nodup
  range : ∀ i ∈ st.2, i < size ∧ 0 < w i ∧ st.1 i = 0
  other : ∀ i, i ∉ st.2 → st.1 i = w i

theorem tryOne_inv (size : Nat) (w s : Mem R) (u : R) (st : Mem R × List Nat) (h : ChoiceInv size w st) :
    ChoiceInv size w (tryOne size s u st) ∧ st.2.length ≤ (tryOne size s u st).2.length ∧
      (tryOne size s u st).2.length ≤ st.2.length + 1 := by
  unfold tryOne
  cases hf : firstBelow s u size with
  | none => exact ⟨h, by simp, by simp⟩
  | some i =>
    simp only
    by_cases hp : 0 < st.1 i
    · rw [if_pos hp]
      have hni : i ∉ st.2 := by
        intro hm
        have := (h.range i hm).2.2
        rw [this] at hp
        exact lt_irrefl _ hp
      refine ⟨⟨?_, ?_, ?_⟩, by simp, by simp⟩
      · rw [List.nodup_append]
        refine ⟨h.nodup, List.nodup_singleton _, ?_⟩
        intro a ha b hb
        rw [List.mem_singleton] at hb
        subst hb
        rintro rfl
        exact hni ha
      · intro k hk
        rw [List.mem_append, List.mem_singleton] at hk
        by_cases e : k = i
        · subst e
          refine ⟨((firstBelow_some _ _ _ _).mp hf).1, ?_, put_same _ _ _⟩
          rw [← h.other k hni]; exact hp
        · have hk' : k ∈ st.2 := by rcases hk with hk | hk
                                    · exact hk
                                    · exact absurd hk e
          obtain ⟨a, b, c⟩ := h.range k hk'
          exact ⟨a, b, by show put st.1 i 0 k = 0; rw [put_other _ _ e]; exact c⟩
      · intro k hk
        rw [List.mem_append, List.mem_singleton, not_or] at hk
        show put st.1 i 0 k = w k
        rw [put_other _ _ hk.2]
        exact h.other k hk.1
    · rw [if_neg hp]; exact ⟨h, by simp, by simp⟩

theorem tryMany_inv {G} (unif : Unif G R) (size : Nat) (w s : Mem R) (need : Nat) (st : (Mem R × List Nat) × G)
    (h : ChoiceInv size w st.1) :
    ChoiceInv size w (tryMany unif size s need st).1 ∧ st.1.2.length ≤ (tryMany unif size s need st).1.2.length ∧
      (tryMany unif size s need st).1.2.length ≤ st.1.2.length + need := by
  induction need generalizing st with
  | zero => exact ⟨h, by simp [tryMany], by simp [tryMany]⟩
  | succ need ih =>
    obtain ⟨h1, h2, h3⟩ := tryOne_inv size w s (unif (s (size - 1)) st.2).1 st.1 h
    obtain ⟨g1, g2, g3⟩ := ih (tryOne size s (unif (s (size - 1)) st.2).1 st.1, (unif (s (size - 1)) st.2).2) h1
    simp only [tryMany]
    exact ⟨g1, by simp only at g2; omega, by simp only at g3; omega⟩

theorem rounds_inv {G} (unif : Unif G R) (size n : Nat) (w : Mem R) (fuel : Nat) (st : (Mem R × List Nat) × G)
    (h : ChoiceInv size w st.1) (hl : st.1.2.length ≤ n) (r : List Nat × G) (hr : rounds unif size n fuel st = some r) :
    r.1.length = n ∧ r.1.Nodup ∧ ∀ i ∈ r.1, i < size ∧ 0 < w i := by
  induction fuel generalizing st with
  | zero =>
    unfold rounds at hr
    split at hr
    · rename_i hn
      simp only [Option.some.injEq] at hr
      subst hr
      exact ⟨by simp only; omega, h.nodup, fun i hi => ⟨(h.range i hi).1, (h.range i hi).2.1⟩⟩
    · cases hr
  | succ fuel ih =>
    unfold rounds at hr
    split at hr
    · rename_i hn
      simp only [Option.some.injEq] at hr
      subst hr
      exact ⟨by simp only; omega, h.nodup, fun i hi => ⟨(h.range i hi).1, (h.range i hi).2.1⟩⟩
    · obtain ⟨g1, g2, g3⟩ := tryMany_inv unif size w (wsum st.1.1) (n - st.1.2.length) st h
      exact ih _ g1 (by omega) hr

theorem init_inv (size : Nat) (w : Mem R) : ChoiceInv size w (w, []) where
  nodup := List.nodup_nil
  range := by simp
  other := by simp

/-- C133 (without replacement, one row). Whatever is drawn, when the loop ends it has chosen exactly the requested number
of different indices, all with positive weights. -/
theorem C133_choice_distinct {G} (unif : Unif G R) (size n fuel : Nat) (w : Mem R) (g : G) (r : List Nat × G)
    (h : rowNoReplace unif size n fuel w g = some r) : r.1.length = n ∧ r.1.Nodup ∧ ∀ i ∈ r.1, i < size ∧ 0 < w i :=
  rounds_inv unif size n w fuel ((w, []), g) (init_inv size w) (by simp) r h

/-- The sum of the current weights is positive while an index with a positive weight is left. -/
theorem before_pos (v : Mem R) (size : Nat) (hv : ∀ i, i < size → 0 ≤ v i) (i : Nat) (hi : i < size) (hp : 0 < v i) :
    0 < before v size := by
  unfold before
  have : v i ≤ ∑ k ∈ Finset.range size, v k :=
    Finset.single_le_sum (f := v) (fun k hk => hv k (Finset.mem_range.mp hk)) (Finset.mem_range.mpr hi)
  exact lt_of_lt_of_le hp this

theorem left_over (size n : Nat) (w : Mem R) (hc : checkNoReplace size n w = true) (st : Mem R × List Nat)
    (h : ChoiceInv size w st) (hl : st.2.length < n) : ∃ i, i < size ∧ 0 < st.1 i := by
  by_contra hno
  have hno' : ∀ i, i < size → ¬ 0 < st.1 i := fun i hi hp => hno ⟨i, hi, hp⟩
  unfold checkNoReplace at hc
  rw [decide_eq_true_eq] at hc
  have hsub : ∀ i ∈ (List.range size).filter (fun i => decide (0 < w i)), i ∈ st.2 := by
    intro i hi
    rw [List.mem_filter, List.mem_range, decide_eq_true_eq] at hi
    by_contra hni
    exact hno' i hi.1 (by rw [h.other i hni]; exact hi.2)
  have hnd : ((List.range size).filter (fun i => decide (0 < w i))).Nodup := List.nodup_range.filter _
  have := (hnd.subperm hsub).length_le
  omega

theorem tryMany_progress {G} (unif : Unif G R) (hU : UnifOK unif) (size : Nat) (w : Mem R) (need : Nat) (hneed : 0 < need)
    (st : (Mem R × List Nat) × G) (h : ChoiceInv size w st.1) (hw : ∀ i, i < size → 0 ≤ w i)
    (hex : ∃ i, i < size ∧ 0 < st.1.1 i) :
    st.1.2.length < (tryMany unif size (wsum st.1.1) need st).1.2.length := by
  cases need with
  | zero => omega
  | succ need =>
    obtain ⟨i, hi, hp⟩ := hex
    have hs : 0 < size := by omega
    have hv : ∀ i, i < size → 0 ≤ st.1.1 i := by
      intro i hi
      by_cases hm : i ∈ st.1.2
      · rw [(h.range i hm).2.2]
      · rw [h.other i hm]; exact hw i hi
    have e : wsum st.1.1 (size - 1) = before st.1.1 size := by rw [wsum_eq, Nat.sub_add_cancel hs]
    have ht : 0 < wsum st.1.1 (size - 1) := by rw [e]; exact before_pos _ size hv i hi hp
    obtain ⟨u0, u1⟩ := hU _ st.2 ht
    obtain ⟨a, ha⟩ := firstBelow_total (wsum st.1.1) (unif (wsum st.1.1 (size - 1)) st.2).1 size hs u1
    have hpos := firstBelow_pos st.1.1 _ size a u0 ha
    have hlen : (tryOne size (wsum st.1.1) (unif (wsum st.1.1 (size - 1)) st.2).1 st.1).2.length = st.1.2.length + 1 := by
      unfold tryOne
      rw [ha]
      simp only
      rw [if_pos hpos]
      simp
    obtain ⟨h1, _, _⟩ := tryOne_inv size w (wsum st.1.1) (unif (wsum st.1.1 (size - 1)) st.2).1 st.1 h
    obtain ⟨_, g2, _⟩ := tryMany_inv unif size w (wsum st.1.1) need
      (tryOne size (wsum st.1.1) (unif (wsum st.1.1 (size - 1)) st.2).1 st.1, (unif (wsum st.1.1 (size - 1)) st.2).2) h1
    simp only [tryMany]
    simp only at g2
    omega

/-- C133 (without replacement): for weights without a negative one the loop ends after at most as many rounds as there
are indices to choose, whatever is drawn.
What is missing for the full claim: negative weights are not rejected (see `C133_negative_unchecked`). -/
theorem C133_choice_terminates_partial {G} (unif : Unif G R) (hU : UnifOK unif) (size n : Nat) (w : Mem R)
    (hw : ∀ i, i < size → 0 ≤ w i) (hc : checkNoReplace size n w = true) (g : G) :
    ∃ r, rowNoReplace unif size n n w g = some r := by
  have key : ∀ fuel (st : (Mem R × List Nat) × G), ChoiceInv size w st.1 → st.1.2.length ≤ n → n ≤ st.1.2.length + fuel →
      ∃ r, rounds unif size n fuel st = some r := by
    intro fuel
    induction fuel with
    | zero =>
      intro st _ _ h
      unfold rounds
      rw [if_pos (by omega)]
      exact ⟨_, rfl⟩
    | succ fuel ih =>
      intro st hi hl hf
      unfold rounds
      by_cases hn : n ≤ st.1.2.length
      · rw [if_pos hn]; exact ⟨_, rfl⟩
      · rw [if_neg hn]
        obtain ⟨g1, g2, g3⟩ := tryMany_inv unif size w (wsum st.1.1) (n - st.1.2.length) st hi
        have := tryMany_progress unif hU size w (n - st.1.2.length) (by omega) st hi hw (left_over size n w hc st.1 hi (by omega))
        exact ih _ g1 (by omega) (by omega)
  exact key n ((w, []), g) (init_inv size w) (by simp) (by simp)

/-- C133, refuted part: without replacement a row with a negative weight passes the check although the sum of its weights,
the upper end of the range of the random numbers, is negative; with replacement the same row is rejected. -/
theorem C133_negative_unchecked : checkNoReplace 2 1 (fun i => if i = 0 then (1 : Int) else -5) = true ∧
    before (fun i => if i = 0 then (1 : Int) else -5) 2 < 0 ∧
    checkReplace 2 (fun i => if i = 0 then (1 : Int) else -5) = false := by
  decide

end

/-- C133 (gradient): the gradient of each input gets the output gradients of exactly the places where it was chosen. -/
theorem C133_choice_grad {R} [CommSemiring R] (size n : Nat) (rows : List (List Nat)) (hr : ∀ row ∈ rows, row.length = n ∧ ∀ a ∈ row, a < size)
    (dy dx : Mem R) (b a : Nat) (hb : b < rows.length) (ha : a < size) :
    bwdAdd (choicePairs size rows 0 0) dy dx (b * size + a) =
      dx (b * size + a) + ((List.range n).map fun i => if (rows.getD b []).getD i 0 = a then dy (b * n + i) else 0).sum := by
  rw [bwdAdd_eq]
  congr 1
  have key : ∀ (rows : List (List Nat)) (yo xo b : Nat), (∀ row ∈ rows, row.length = n ∧ ∀ a ∈ row, a < size) → b < rows.length →
      ((choicePairs size rows yo xo).map fun p => if p.2 = xo + (b * size + a) then dy p.1 else 0).sum =
        ((List.range n).map fun i => if (rows.getD b []).getD i 0 = a then dy (yo + (b * n + i)) else 0).sum := by
    intro rows
    induction rows with
    | nil => intro yo xo b _ hb; simp at hb
    | cons row rows ih =>
      intro yo xo b hr hb
      obtain ⟨hl, hlt⟩ := hr row List.mem_cons_self
      have hrow : ∀ (t : Nat), (((row.mapIdx fun i c => (yo + i, xo + c)).map fun p => if p.2 = t then dy p.1 else 0)) =
          (List.range n).map fun i => if xo + row.getD i 0 = t then dy (yo + i) else 0 := by
        intro t
        apply List.ext_getElem
        · simp [hl]
        · intro i h1 h2
          simp only [List.length_map, List.length_mapIdx] at h1
          simp [h1]
      have hzero : ∀ l : List (Nat × Nat), ∀ t, (∀ p ∈ l, p.2 ≠ t) → (l.map fun p => if p.2 = t then dy p.1 else 0).sum = 0 := by
        intro l t h
        induction l with
        | nil => rfl
        | cons p l ihl =>
          simp only [List.map_cons, List.sum_cons]
          rw [if_neg (h p List.mem_cons_self), ihl (fun q hq => h q (List.mem_cons_of_mem _ hq)), add_zero]
      have hge : ∀ (rows : List (List Nat)) (yo xo : Nat), ∀ p ∈ choicePairs size rows yo xo, xo ≤ p.2 := by
        intro rows
        induction rows with
        | nil => intro yo xo p hp; simp [choicePairs] at hp
        | cons r rs ih =>
          intro yo xo p hp
          simp only [choicePairs, List.mem_append] at hp
          rcases hp with hp | hp
          · rw [List.mem_mapIdx] at hp
            obtain ⟨i, hi, rfl⟩ := hp
            simp only; omega
          · have := ih _ _ p hp; omega
      simp only [choicePairs, List.map_append, List.sum_append]
      cases b with
      | zero =>
        rw [hzero (choicePairs size rows _ _) _ (by
          intro p hp
          have := hge _ _ _ p hp
          omega), add_zero, hrow]
        congr 1
        apply List.map_congr_left
        intro i _
        simp
      | succ b =>
        have hb' : b < rows.length := by simpa using hb
        rw [hzero (row.mapIdx fun i c => (yo + i, xo + c)) _ (by
          intro p hp
          rw [List.mem_mapIdx] at hp
          obtain ⟨i, hi, rfl⟩ := hp
          have := hlt row[i] (List.getElem_mem hi)
          simp only
          rw [Nat.add_mul]
          omega), zero_add]
        have := ih (yo + row.length) (xo + size) b (fun r h => hr r (List.mem_cons_of_mem _ h)) hb'
        rw [show xo + size + (b * size + a) = xo + ((b + 1) * size + a) by rw [Nat.add_mul]; omega] at this
        rw [this]
        congr 1
        apply List.map_congr_left
        intro i _
        rw [show yo + row.length + (b * n + i) = yo + ((b + 1) * n + i) by rw [hl, Nat.add_mul]; omega]
        simp
  have := key rows 0 0 b hr hb
  simpa using this

/-- Weights 1, 0, 3 and a "generator" that walks through 0, 1/4 of the total, …: index 1 is never chosen, three draws with
replacement give 0, 2, 2; without replacement 0 and 2 are chosen. -/
example : (rowReplace (R := Int) (fun _ (g : Int) => (g, g + 1)) 3 (fun i => if i = 0 then 1 else if i = 2 then 3 else 0) 3 0).1 = [0, 2, 2] ∧
    (rowNoReplace (R := Int) (fun _ (g : Int) => (g, g + 1)) 3 2 2 (fun i => if i = 0 then 1 else if i = 2 then 3 else 0) 0).map (·.1) = some [0, 2] ∧
    checkReplace 3 (fun i => if i = 0 then (1 : Int) else if i = 2 then 3 else 0) = true ∧
    checkNoReplace 3 2 (fun i => if i = 0 then (1 : Int) else if i = 2 then 3 else 0) = true := by
  decide

/-- A distribution as required exists: always zero. -/
example : UnifOK (R := Int) (fun _ (g : Nat) => (0, g + 1)) := fun _ _ h => ⟨le_refl _, h⟩

end Verif.Rand
