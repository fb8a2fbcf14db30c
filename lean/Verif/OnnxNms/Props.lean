import Verif.OnnxNms.Model
/-
Properties C214 to C216: non-maximum suppression with the ONNX interface.
-/
namespace Verif.OnnxNms
open Verif.Detect

variable {K : Type} [Field K] [LinearOrder K]

/-! ### Specification -/

/-- `kept` is the list of boxes that greedy suppression keeps: in descending order of score, all with a score of at least `st`, no two
overlapping by more than `t`, and every other box of sufficient score overlaps by more than `t` with a kept box of at least its score. -/
structure Kept (N : Nat) (ov : Nat → Nat → K) (t st : K) (score : Nat → K) (kept : List Nat) : Prop where
  nodup : kept.Nodup
  range : ∀ i ∈ kept, i < N
  order : kept.Pairwise fun i j => score i ≥ score j
  good : ∀ i ∈ kept, score i ≥ st
  apart : ∀ i ∈ kept, ∀ j ∈ kept, i ≠ j → ov i j ≤ t
  reason : ∀ i, i < N → score i ≥ st → i ∉ kept → ∃ j ∈ kept, score j ≥ score i ∧ ov j i > t

/-! ### Lemmas -/

theorem suppress_eq (ov : Nat → Nat → K) (t : K) (box : Nat) : ∀ (L : List Nat) (f : Nat → Bool) (x : Nat),
    suppress ov t box f L x = (f x && !decide (x ∈ L ∧ ov box x > t))
  | [], f, x => by simp [suppress]
  | j :: rest, f, x => by
    rw [suppress, suppress_eq ov t box rest]
    by_cases hx : x = j
    · subst hx
      by_cases hf : f x = true
      · by_cases ho : ov box x > t
        · simp [hf, ho, set]
        · simp [hf, ho]
      · simp [hf]
    · have : (if (!f j) = true then f else if ov box j > t then set f j false else f) x = f x := by
        split
        · rfl
        · split
          · simp [set, hx]
          · rfl
      rw [this]
      simp [hx]

theorem select_notMem (ov : Nat → Nat → K) (t : K) : ∀ (L : List Nat) (f : Nat → Bool) (x : Nat), x ∉ L → select ov t f L x = f x
  | [], f, x, _ => rfl
  | i :: rest, f, x, hx => by
    rw [select, select_notMem ov t rest _ x (fun h => hx (by simp [h]))]
    split
    · rfl
    · rw [suppress_eq]
      have : x ∉ rest := fun h => hx (by simp [h])
      simp [this]

theorem select_spec (ov : Nat → Nat → K) (t : K) : ∀ (L : List Nat) (f : Nat → Bool), L.Nodup →
    (∀ x, select ov t f L x = true → f x = true) ∧
    (L.Pairwise fun x y => select ov t f L x = true → select ov t f L y = true → ov x y ≤ t) ∧
    (∀ y ∈ L, f y = true → select ov t f L y = false → ∃ x, [x, y].Sublist L ∧ select ov t f L x = true ∧ ov x y > t)
  | [], f, _ => by simp [select]
  | i :: rest, f, hnd => by
    obtain ⟨hi, hnd'⟩ := List.nodup_cons.1 hnd
    rw [select]
    obtain ⟨h1, h2, h3⟩ := select_spec ov t rest (if (!f i) = true then f else suppress ov t i f rest) hnd'
    have hfi : select ov t (if (!f i) = true then f else suppress ov t i f rest) rest i = f i := by
      rw [select_notMem ov t rest _ i hi]
      split
      · rfl
      · rw [suppress_eq]; simp [hi]
    have hle : ∀ x, (if (!f i) = true then f else suppress ov t i f rest) x = true → f x = true := by
      intro x
      split
      · exact id
      · rw [suppress_eq]; intro h; exact (Bool.and_eq_true _ _ ▸ h).1
    refine ⟨fun x hx => hle x (h1 x hx), List.pairwise_cons.2 ⟨?_, h2⟩, ?_⟩
    · intro y hy hsi hsy
      rw [hfi] at hsi
      have hy' := h1 y hsy
      rw [hsi, if_neg (by simp), suppress_eq] at hy'
      simp only [Bool.and_eq_true, Bool.not_eq_true', decide_eq_false_iff_not, not_and, not_lt] at hy'
      exact hy'.2 hy
    · intro y hy hfy hsy
      rcases List.mem_cons.1 hy with rfl | hy
      · rw [hfi] at hsy; simp [hfy] at hsy
      · by_cases hf' : (if (!f i) = true then f else suppress ov t i f rest) y = true
        · obtain ⟨x, hx1, hx2, hx3⟩ := h3 y hy hf' hsy
          exact ⟨x, hx1.trans (List.sublist_cons_self _ _), hx2, hx3⟩
        · have hfit : f i = true := by
            by_contra hn
            rw [if_pos (by simpa using hn)] at hf'
            exact hf' hfy
          rw [hfit, if_neg (by simp), suppress_eq] at hf'
          have : ov i y > t := by
            by_contra hno
            exact hf' (by simp [hfy, hno])
          refine ⟨i, ?_, by rw [hfi]; exact hfit, this⟩
          exact List.Sublist.cons_cons i (List.singleton_sublist.2 hy)

theorem fillOut_eq (mx : Nat) (f : Nat → Bool) : ∀ (L : List Nat) (count : Nat), count < mx →
    fillOut mx f L count = (L.filter f).take (mx - count)
  | [], count, _ => by simp [fillOut]
  | i :: rest, count, hc => by
    rw [fillOut]
    by_cases hf : f i = true
    · rw [if_pos hf, List.filter_cons_of_pos hf]
      by_cases hm : count + 1 ≥ mx
      · rw [if_pos hm, show mx - count = 1 by omega]; rfl
      · rw [if_neg hm, fillOut_eq mx f rest (count + 1) (by omega), show mx - count = (mx - (count + 1)) + 1 by omega]; rfl
    · rw [if_neg hf, List.filter_cons_of_neg hf, fillOut_eq mx f rest count hc]

theorem classOut_spec (srt : (Nat → Nat → Bool) → List Nat → List Nat) (hsrt : IsSortDesc K srt) (N mx : Nat) (hmx : 0 < mx)
    (ov : Nat → Nat → K) (hsym : ∀ i j, ov i j = ov j i) (t st : K) (score : Nat → K) :
    ∃ kept, Kept N ov t st score kept ∧ classOut srt N mx ov t st score = kept.take mx := by
  obtain ⟨hp, hs⟩ := hsrt score N
  unfold classOut
  simp only
  generalize srt (fun i j => decide (score i > score j)) (List.range N) = ord at hp hs
  have hnd : ord.Nodup := hp.nodup_iff.2 List.nodup_range
  obtain ⟨h1, h2, h3⟩ := select_spec ov t ord (fun i => decide (score i ≥ st)) hnd
  refine ⟨ord.filter (select ov t (fun i => decide (score i ≥ st)) ord), ⟨hnd.filter _, ?_, hs.filter _, ?_, ?_, ?_⟩, ?_⟩
  · intro i hi
    exact List.mem_range.1 (hp.mem_iff.1 (List.mem_of_mem_filter hi))
  · intro i hi
    simpa using h1 i (List.mem_filter.1 hi).2
  · have hpw : (ord.filter (select ov t (fun i => decide (score i ≥ st)) ord)).Pairwise fun x y => ov x y ≤ t := by
      rw [List.pairwise_filter]
      exact h2
    intro i hi j hj hij
    have hsymm : Std.Symm fun x y => ov x y ≤ t := ⟨fun x y h => by rw [hsym]; exact h⟩
    exact hpw.forall hi hj hij
  · intro i hi hsc hno
    have hio : i ∈ ord := hp.mem_iff.2 (List.mem_range.2 hi)
    have hsel : select ov t (fun i => decide (score i ≥ st)) ord i = false := by
      by_contra h
      exact hno (List.mem_filter.2 ⟨hio, by simpa using h⟩)
    obtain ⟨x, hx1, hx2, hx3⟩ := h3 i hio (by simpa using hsc) hsel
    refine ⟨x, List.mem_filter.2 ⟨hx1.subset (by simp), hx2⟩, ?_, hx3⟩
    have := hs.sublist hx1
    simpa using this
  · rw [fillOut_eq _ _ _ _ hmx, Nat.sub_zero]

/-! ### C215: the overlap ratio -/

theorem overlapRange_comm (a1 a2 b1 b2 : K) : overlapRange a1 a2 b1 b2 = overlapRange b1 b2 a1 a2 := by
  unfold overlapRange; rw [min_comm, max_comm]

theorem ratio_comm (wi hi wa ha wb hb : K) : ratio wi hi wa ha wb hb = ratio wi hi wb hb wa ha := by
  unfold ratio; rw [add_comm (wa * ha)]

/-- C215. The overlap ratio is symmetric, in both box formats. -/
theorem C215_iou_symm (center : Nat) (a b : Nat → K) : iou center a b = iou center b a := by
  unfold iou overlapCenter
  split
  · simp only
    rw [ratio_comm, overlapRange_comm (min (a 1) (a 3)), overlapRange_comm (min (a 0) (a 2))]
  · rw [ratio_comm, overlapRange_comm (a 0 - _), overlapRange_comm (a 1 - _)]

/-- C215. In the corner format it does not matter which diagonal pair of corners is given, nor in which order. -/
theorem C215_iou_corners (a a' b : Nat → K) (hy : (a' 0 = a 0 ∧ a' 2 = a 2) ∨ (a' 0 = a 2 ∧ a' 2 = a 0))
    (hx : (a' 1 = a 1 ∧ a' 3 = a 3) ∨ (a' 1 = a 3 ∧ a' 3 = a 1)) : iou 0 a' b = iou 0 a b := by
  unfold iou
  rcases hy with ⟨h1, h2⟩ | ⟨h1, h2⟩ <;> rcases hx with ⟨h3, h4⟩ | ⟨h3, h4⟩ <;> simp only [h1, h2, h3, h4, if_true]
  · rw [min_comm (a 3), max_comm (a 3)]
  · rw [min_comm (a 2), max_comm (a 2)]
  · rw [min_comm (a 3), max_comm (a 3), min_comm (a 2), max_comm (a 2)]

theorem overlapRange_le (a1 a2 b1 b2 : K) [IsStrictOrderedRing K] : overlapRange a1 a2 b1 b2 ≤ a2 - a1 := by
  unfold overlapRange
  have h1 := min_le_left a2 b2
  have h2 := le_max_left a1 b1
  linarith

theorem ratio_range [IsStrictOrderedRing K] (wi hi wa ha wb hb : K) (h1 : wi ≤ wa) (h2 : hi ≤ ha) (h3 : wi ≤ wb) (h4 : hi ≤ hb) :
    0 ≤ ratio wi hi wa ha wb hb ∧ ratio wi hi wa ha wb hb ≤ 1 := by
  unfold ratio
  by_cases hc : wi ≤ 0 ∨ hi ≤ 0
  · rw [if_pos hc]; exact ⟨le_refl _, zero_le_one⟩
  rw [if_neg hc]
  push Not at hc
  simp only
  have hw : 0 < wi * hi := mul_pos hc.1 hc.2
  have e1 : wi * hi ≤ wa * ha := mul_le_mul h1 h2 hc.2.le (by linarith)
  have e2 : wi * hi ≤ wb * hb := mul_le_mul h3 h4 hc.2.le (by linarith)
  have hd : 0 < wa * ha + wb * hb - wi * hi := by linarith
  exact ⟨div_nonneg hw.le hd.le, (div_le_one hd).2 (by linarith)⟩

/-- C215. The overlap ratio lies between 0 and 1, for all boxes in both formats, also those with negative sizes. -/
theorem C215_iou_range [IsStrictOrderedRing K] (center : Nat) (a b : Nat → K) : 0 ≤ iou center a b ∧ iou center a b ≤ 1 := by
  unfold iou overlapCenter
  split
  · simp only
    refine ratio_range _ _ _ _ _ _ (overlapRange_le _ _ _ _) (overlapRange_le _ _ _ _) ?_ ?_
    · rw [overlapRange_comm]; exact overlapRange_le _ _ _ _
    · rw [overlapRange_comm]; exact overlapRange_le _ _ _ _
  · have e : ∀ x w : K, x + w / 2 - (x - w / 2) = w := fun x w => by ring
    refine ratio_range _ _ _ _ _ _ ?_ ?_ ?_ ?_
    · have := overlapRange_le (a 0 - a 2 / 2) (a 0 + a 2 / 2) (b 0 - b 2 / 2) (b 0 + b 2 / 2); rwa [e] at this
    · have := overlapRange_le (a 1 - a 3 / 2) (a 1 + a 3 / 2) (b 1 - b 3 / 2) (b 1 + b 3 / 2); rwa [e] at this
    · rw [overlapRange_comm]
      have := overlapRange_le (b 0 - b 2 / 2) (b 0 + b 2 / 2) (a 0 - a 2 / 2) (a 0 + a 2 / 2); rwa [e] at this
    · rw [overlapRange_comm]
      have := overlapRange_le (b 1 - b 3 / 2) (b 1 + b 3 / 2) (a 1 - a 3 / 2) (a 1 + a 3 / 2); rwa [e] at this

/-- C215. The two formats agree: a box of the centre format and the box of the corner format with the same edges. -/
theorem C215_iou_formats [IsStrictOrderedRing K] (a b a' b' : Nat → K) (ha : 0 ≤ a 2) (ha' : 0 ≤ a 3) (hb : 0 ≤ b 2) (hb' : 0 ≤ b 3)
    (h1 : a' 0 = a 1 - a 3 / 2) (h2 : a' 2 = a 1 + a 3 / 2) (h3 : a' 1 = a 0 - a 2 / 2) (h4 : a' 3 = a 0 + a 2 / 2)
    (h5 : b' 0 = b 1 - b 3 / 2) (h6 : b' 2 = b 1 + b 3 / 2) (h7 : b' 1 = b 0 - b 2 / 2) (h8 : b' 3 = b 0 + b 2 / 2) :
    iou 0 a' b' = iou 1 a b := by
  have hmin : ∀ x w : K, 0 ≤ w → min (x - w / 2) (x + w / 2) = x - w / 2 := fun x w hw => min_eq_left (by linarith)
  have hmax : ∀ x w : K, 0 ≤ w → max (x - w / 2) (x + w / 2) = x + w / 2 := fun x w hw => max_eq_right (by linarith)
  have e : ∀ x w : K, x + w / 2 - (x - w / 2) = w := fun x w => by ring
  unfold iou overlapCenter
  simp only [if_true, h1, h2, h3, h4, h5, h6, h7, h8, hmin _ _ ha, hmin _ _ ha', hmin _ _ hb, hmin _ _ hb', hmax _ _ ha, hmax _ _ ha',
    hmax _ _ hb, hmax _ _ hb', e, one_ne_zero, if_false]

/-- C215. Equal boxes of positive size overlap fully. -/
theorem C215_iou_self [IsStrictOrderedRing K] (a : Nat → K) (hw : 0 < a 2) (hh : 0 < a 3) : iou 1 a a = 1 := by
  have e : ∀ x w : K, x + w / 2 - (x - w / 2) = w := fun x w => by ring
  unfold iou overlapCenter overlapRange ratio
  simp only [one_ne_zero, if_false, min_self, max_self, e]
  rw [if_neg (by push Not; exact ⟨hw, hh⟩), show a 2 * a 3 + a 2 * a 3 - a 2 * a 3 = a 2 * a 3 by ring]
  exact div_self (mul_pos hw hh).ne'

example : iou 0 (fun c => [0, 0, 2, 2].getD c 0 : Nat → ℚ) (fun c => [1, 1, 3, 3].getD c 0) = 1 / 7 := by
  norm_num [iou, ratio, overlapRange]

/-! ### C214 -/

theorem nms_eq (srt : (Nat → Nat → Bool) → List Nat → List Nat) (B N C center mx : Nat) (hmx : 0 < mx) (t st : K)
    (boxes scores : Nat → Nat → Nat → K) :
    nms srt B N C center mx t st boxes scores = (List.range B).flatMap fun b => (List.range C).flatMap fun k =>
      (classOut srt N mx (fun i j => iou center (boxes b i) (boxes b j)) t st (scores b k)).map fun i => (b, k, i) := by
  have aux : ∀ {α : Type} (L : List Nat) (g : Nat → List α) (out : List α),
      L.foldl (fun out k => out ++ g k) out = out ++ L.flatMap g := by
    intro α L g
    induction L with
    | nil => intro out; simp
    | cons a L ih => intro out; rw [List.foldl_cons, ih, List.flatMap_cons, List.append_assoc]
  unfold nms
  rw [if_neg (by omega)]
  simp only [aux, List.nil_append]

/-- C214. The rows for batch b and class k, in their order, are the first max_output_boxes_per_class boxes that greedy suppression keeps
for the boxes of b and the scores of k; there are no other rows. -/
theorem C214_onnx_nms (srt : (Nat → Nat → Bool) → List Nat → List Nat) (hsrt : IsSortDesc K srt) (B N C center mx : Nat) (t st : K)
    (boxes scores : Nat → Nat → Nat → K) :
    (∀ b k, b < B → k < C → ∃ kept, Kept N (fun i j => iou center (boxes b i) (boxes b j)) t st (scores b k) kept ∧
      (nms srt B N C center mx t st boxes scores).filter (fun r => r.1 = b ∧ r.2.1 = k) = (kept.take mx).map fun i => (b, k, i)) ∧
    ∀ r ∈ nms srt B N C center mx t st boxes scores, r.1 < B ∧ r.2.1 < C ∧ r.2.2 < N := by
  have hsym : ∀ (b i j : Nat), iou center (boxes b i) (boxes b j) = iou center (boxes b j) (boxes b i) := fun b i j =>
    C215_iou_symm _ _ _
  rcases Nat.eq_zero_or_pos mx with rfl | hmx
  · refine ⟨fun b k _ _ => ?_, ?_⟩
    · obtain ⟨kept, hk, _⟩ := classOut_spec srt hsrt N 1 (by omega) (fun i j => iou center (boxes b i) (boxes b j)) (hsym b) t st (scores b k)
      exact ⟨kept, hk, by simp [nms]⟩
    · simp [nms]
  rw [nms_eq _ _ _ _ _ _ hmx]
  refine ⟨fun b k hb hk => ?_, ?_⟩
  · obtain ⟨kept, hkept, he⟩ := classOut_spec srt hsrt N mx hmx (fun i j => iou center (boxes b i) (boxes b j)) (hsym b) t st (scores b k)
    refine ⟨kept, hkept, ?_⟩
    rw [← he]
    have inner : ∀ (n : Nat) (g : Nat → List (Nat × Nat × Nat)) (p : Nat × Nat × Nat → Bool) (b : Nat), b < n →
        (∀ b', b' ≠ b → (g b').filter p = []) → ((List.range n).flatMap g).filter p = (g b).filter p := by
      intro n g p b hb hg
      induction n with
      | zero => omega
      | succ n ih =>
        rw [List.range_succ, List.flatMap_append, List.filter_append, List.flatMap_singleton]
        rcases Nat.lt_succ_iff_lt_or_eq.1 hb with h | h
        · rw [ih h, hg n (by omega), List.append_nil]
        · subst h
          have : ((List.range b).flatMap g).filter p = [] := by
            rw [List.filter_eq_nil_iff]
            intro r hr
            obtain ⟨b', hb', hr'⟩ := List.mem_flatMap.1 hr
            have hne : b' ≠ b := by have := List.mem_range.1 hb'; omega
            exact List.filter_eq_nil_iff.1 (hg b' hne) r hr'
          rw [this, List.nil_append]
    rw [inner B _ _ b hb, inner C _ _ k hk]
    · rw [List.filter_eq_self]
      intro r hr
      obtain ⟨i, _, rfl⟩ := List.mem_map.1 hr
      simp
    · intro k' hk'
      rw [List.filter_eq_nil_iff]
      intro r hr
      obtain ⟨i, _, rfl⟩ := List.mem_map.1 hr
      simp [hk']
    · intro b' hb'
      rw [List.filter_eq_nil_iff]
      intro r hr
      obtain ⟨k', _, hr⟩ := List.mem_flatMap.1 hr
      obtain ⟨i, _, rfl⟩ := List.mem_map.1 hr
      simp [hb']
  · intro r hr
    obtain ⟨b, hb, hr⟩ := List.mem_flatMap.1 hr
    obtain ⟨k, hk, hr⟩ := List.mem_flatMap.1 hr
    obtain ⟨i, hi, rfl⟩ := List.mem_map.1 hr
    obtain ⟨kept, hkept, he⟩ := classOut_spec srt hsrt N mx hmx (fun i j => iou center (boxes b i) (boxes b j)) (hsym b) t st (scores b k)
    rw [he] at hi
    exact ⟨List.mem_range.1 hb, List.mem_range.1 hk, hkept.range i (List.mem_of_mem_take hi)⟩

/-- C214. The rows are grouped by batch, then by class: their (batch, class) pairs are in ascending order. -/
theorem C214_rows_grouped (srt : (Nat → Nat → Bool) → List Nat → List Nat) (B N C center mx : Nat) (t st : K)
    (boxes scores : Nat → Nat → Nat → K) :
    (nms srt B N C center mx t st boxes scores).Pairwise fun r r' => r.1 < r'.1 ∨ (r.1 = r'.1 ∧ r.2.1 ≤ r'.2.1) := by
  rcases Nat.eq_zero_or_pos mx with rfl | hmx
  · simp [nms]
  rw [nms_eq _ _ _ _ _ _ hmx, List.pairwise_flatMap]
  refine ⟨fun b _ => ?_, ?_⟩
  · rw [List.pairwise_flatMap]
    refine ⟨fun k _ => ?_, ?_⟩
    · rw [List.pairwise_map]
      exact List.pairwise_of_forall fun _ _ => Or.inr ⟨rfl, le_refl _⟩
    · refine List.pairwise_lt_range.imp fun {k k'} hkk x hx y hy => ?_
      obtain ⟨i, _, rfl⟩ := List.mem_map.1 hx
      obtain ⟨j, _, rfl⟩ := List.mem_map.1 hy
      exact Or.inr ⟨rfl, hkk.le⟩
  · refine List.pairwise_lt_range.imp fun {b b'} hbb x hx y hy => ?_
    obtain ⟨k, _, hx⟩ := List.mem_flatMap.1 hx
    obtain ⟨i, _, rfl⟩ := List.mem_map.1 hx
    obtain ⟨k', _, hy⟩ := List.mem_flatMap.1 hy
    obtain ⟨j, _, rfl⟩ := List.mem_map.1 hy
    exact Or.inl hbb

/-- Three boxes, the second overlapping the first, scores 0.5, 0.9, 0.7 for class 0: with insertion sort as std::sort. -/
def boxes0 (_ i c : Nat) : ℚ := ([[0, 0, 2, 2], [0, 0, 2, 2], [5, 5, 6, 6]].getD i []).getD c 0
def scores0 (_ _ i : Nat) : ℚ := [1 / 2, 9 / 10, 7 / 10].getD i 0
def isort (r : Nat → Nat → Bool) (l : List Nat) : List Nat := l.insertionSort fun i j => !r j i

example : IsSortDesc ℚ isort := by
  intro key n
  refine ⟨List.perm_insertionSort _ _, ?_⟩
  have : (isort (fun i j => decide (key i > key j)) (List.range n)).Pairwise fun i j => (!decide (key j > key i)) = true := by
    have ht : IsTrans Nat fun i j => (!decide (key j > key i)) = true :=
      ⟨fun a b c h1 h2 => by simp at h1 h2 ⊢; exact h2.trans h1⟩
    have hto : Std.Total fun i j : Nat => (!decide (key j > key i)) = true := ⟨fun a b => by simp; exact le_total _ _⟩
    exact List.pairwise_insertionSort _ _
  exact this.imp fun h => by simpa using h

example : nms isort 1 3 1 0 10 (1 / 2) 0 boxes0 scores0 = [(0, 0, 1), (0, 0, 2)] := by decide +kernel
example : nms isort 1 3 1 0 1 (1 / 2) 0 boxes0 scores0 = [(0, 0, 1)] := by decide +kernel

/-! ### C216: when the selection is computed -/

/-- What a program does with the function: it changes the input arrays, has the function set up (when the graph is built or the shapes
change), or runs it. -/
inductive Ev (K : Type) where
  | data (x : Inputs K)
  | setup
  | forward

/-- The state: the inputs, the inputs of the last successful set up, the output. -/
structure St (K : Type) where
  cur : Inputs K
  last : Option (Inputs K)
  out : List (Nat × Nat × Nat)

def step (srt : (Nat → Nat → Bool) → List Nat → List Nat) (center mx : ℤ) (t st : K) (s : St K) : Ev K → St K
  | .data x => { s with cur := x }
  | .setup =>
    let r := setup srt center mx t st s.cur s.out
    { s with last := if r.1.toBool then some s.cur else s.last, out := r.2 }
  | .forward => { s with out := forward s.cur s.out }

/-- C216. After any history the output is the selection for the inputs at the last successful set up; running the function does not
compute it again, so it is the selection for the current inputs only if they have not changed since. -/
theorem C216_output_of_last_setup_partial (srt : (Nat → Nat → Bool) → List Nat → List Nat) (center mx : ℤ) (t st : K) (s : St K)
    (hs : s.last = none) (evs : List (Ev K)) (x : Inputs K) (hx : (evs.foldl (step srt center mx t st) s).last = some x) :
    ∃ B N C, x.boxesShape = [B, N, 4] ∧ x.scoresShape = [B, C, N] ∧
      (evs.foldl (step srt center mx t st) s).out = nms srt B N C center.toNat mx.toNat t st x.boxes x.scores := by
  have hcheck : ∀ (x : Inputs K) B N C, check x center mx = .ok (B, N, C) → x.boxesShape = [B, N, 4] ∧ x.scoresShape = [B, C, N] := by
    intro x B N C h
    obtain ⟨bs, bx, ss, sx⟩ := x
    unfold check at h
    simp only at h
    split at h; · simp at h
    split at h; · simp at h
    split at h; · simp at h
    split at h; · simp at h
    split at h; · simp at h
    split at h; · simp at h
    split at h; · simp at h
    rename_i h1 h2 h3 h4 h5 h6 h7
    simp only [not_not] at h1 h2 h3 h4 h5
    match bs, h1 with
    | [b0, b1, b2], _ =>
      match ss, h3 with
      | [s0, s1, s2], _ =>
        simp at h h2 h4 h5
        obtain ⟨rfl, rfl, rfl⟩ := h
        simp [h2, h4, h5]
  suffices H : ∀ (evs : List (Ev K)) (s : St K),
      (∀ x, s.last = some x → ∃ B N C, check x center mx = .ok (B, N, C) ∧ s.out = nms srt B N C center.toNat mx.toNat t st x.boxes x.scores) →
      ∀ x, (evs.foldl (step srt center mx t st) s).last = some x → ∃ B N C, check x center mx = .ok (B, N, C) ∧
        (evs.foldl (step srt center mx t st) s).out = nms srt B N C center.toNat mx.toNat t st x.boxes x.scores by
    obtain ⟨B, N, C, h1, h2⟩ := H evs s (by simp [hs]) x hx
    exact ⟨B, N, C, (hcheck x B N C h1).1, (hcheck x B N C h1).2, h2⟩
  intro evs
  induction evs with
  | nil => intro s h x hx; exact h x hx
  | cons e evs ih =>
    intro s h
    rw [List.foldl_cons]
    refine ih _ ?_
    intro x hx
    cases e with
    | data y => exact h x hx
    | forward => exact h x hx
    | setup =>
      cases hc : check s.cur center mx with
      | error e =>
        have he : setup srt center mx t st s.cur s.out = (.error e, s.out) := by unfold setup; rw [hc]
        simp only [step, he, Except.toBool, Bool.false_eq_true, if_false] at hx ⊢
        exact h x hx
      | ok p =>
        obtain ⟨B, N, C⟩ := p
        have he : setup srt center mx t st s.cur s.out =
            (.ok (), nms srt B N C center.toNat mx.toNat t st s.cur.boxes s.cur.scores) := by unfold setup; rw [hc]
        simp only [step, he, Except.toBool, if_true, Option.some.injEq] at hx ⊢
        subst hx
        exact ⟨B, N, C, hc, rfl⟩

/-- The witness: scores changed after the set up, then the function is run: the output is the old selection. -/
def in0 : Inputs ℚ := ⟨[1, 3, 4], boxes0, [1, 1, 3], scores0⟩
def in1 : Inputs ℚ := ⟨[1, 3, 4], boxes0, [1, 1, 3], fun _ _ i => [9 / 10, 1 / 2, 7 / 10].getD i 0⟩

example : ([.data in0, .setup, .data in1, .forward].foldl (step isort 0 10 (1 / 2) 0) ⟨in1, none, []⟩).out = [(0, 0, 1), (0, 0, 2)] := by
  decide +kernel
example : nms isort 1 3 1 0 10 (1 / 2) 0 in1.boxes in1.scores = [(0, 0, 0), (0, 0, 2)] := by decide +kernel

end Verif.OnnxNms
