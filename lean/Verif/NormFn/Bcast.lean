import Verif.NormFn.Norm
/-
Lemmas about an array combined with one of its reductions (kept dimensions) or with a vector along one axis.
-/
namespace Verif.NormFn
open Verif.Fn Verif.ND Verif.Elem

theorem getD_pos (s : Shape) (h : 0 < prod s) (a : Nat) (ha : a < s.length) : 0 < s.getD a 0 := by
  induction s generalizing a with
  | nil => simp at ha
  | cons d s ih =>
    simp only [prod] at h
    cases a with
    | zero => exact Nat.pos_of_mul_pos_right h
    | succ a => simpa using ih (Nat.pos_of_mul_pos_left h) a (by simpa using ha)

/-- An array combined with one that has, axis by axis, the same extent or extent 1. -/
theorem binary_same (s s1 : Shape) (hl : s1.length = s.length) (hpos : 0 < prod s)
    (h : ∀ a, a < s.length → s1.getD a 0 = s.getD a 0 ∨ s1.getD a 0 = 1) : binarySetup s s1 = .ok s := by
  rw [C81_setup]
  refine ⟨⟨hl.symm, ?_⟩, rfl, ?_⟩
  · intro p hp
    obtain ⟨a, ha, e⟩ := List.mem_iff_getElem.mp hp
    have ha' : a < s.length := by simp at ha; omega
    have hp' := getD_pos s hpos a ha'
    have := h a ha'
    simp only [List.getElem_zip] at e
    simp only [List.getD_eq_getElem?_getD, List.getElem?_eq_getElem ha', List.getElem?_eq_getElem (show a < s1.length by omega), Option.getD_some] at this hp'
    rw [← e]
    rcases this with h | h
    · exact Or.inl h.symm
    · exact Or.inr (Or.inr ⟨h, hp'⟩)
  · intro a ha
    have hp' := getD_pos s hpos a ha
    rcases h a ha with h | h <;> rw [h]
    · simp
    · omega

theorem bcast_getD (s j : List Nat) (hl : j.length = s.length) (a : Nat) (ha : a < s.length) :
    (bcast s j).length = s.length ∧ (bcast s j).getD a 0 = if s.getD a 0 = 1 then 0 else j.getD a 0 := by
  induction s generalizing j a with
  | nil => simp at ha
  | cons d s ih =>
    match j, hl with
    | k :: j, hl =>
      have hl' : j.length = s.length := by simpa using hl
      have hlen : (bcast s j).length = s.length := by
        by_cases h0 : 0 < s.length
        · exact (ih j hl' 0 h0).1
        · have : s = [] := by match s with | [] => rfl | _ :: _ => simp at h0
          subst this
          match j, hl' with | [], _ => rfl
      refine ⟨by simp [bcast, hlen], ?_⟩
      cases a with
      | zero => simp [bcast]
      | succ a => simpa [bcast] using (ih j hl' a (by simpa using ha)).2

theorem bcast_length (s j : List Nat) (hl : j.length = s.length) : (bcast s j).length = s.length := by
  by_cases h0 : 0 < s.length
  · exact (bcast_getD s j hl 0 h0).1
  · have : s = [] := by match s with | [] => rfl | _ :: _ => simp at h0
    subst this
    match j, hl with | [], _ => rfl

theorem ext_getD {l m : List Nat} (hl : l.length = m.length) (h : ∀ a, a < l.length → l.getD a 0 = m.getD a 0) : l = m := by
  apply List.ext_getElem hl
  intro a h1 h2
  have := h a h1
  simpa [List.getD_eq_getElem?_getD, List.getElem?_eq_getElem h1, List.getElem?_eq_getElem h2] using this

theorem inBounds_getD {s j : List Nat} (h : InBounds s j) (a : Nat) (ha : a < s.length) : j.getD a 0 < s.getD a 0 := by
  induction s generalizing j a with
  | nil => simp at ha
  | cons d s ih =>
    match j, h with
    | k :: j, h =>
      cases a with
      | zero => simpa using h.1
      | succ a => simpa using ih h.2 a (by simpa using ha)

theorem bcast_self (s j : List Nat) (h : InBounds s j) : bcast s j = j := by
  refine ext_getD (by rw [bcast_length s j h.length, h.length]) ?_
  intro a ha
  rw [bcast_length s j h.length] at ha
  rw [(bcast_getD s j h.length a ha).2]
  have := inBounds_getD h a ha
  by_cases e : s.getD a 0 = 1
  · rw [if_pos e]; omega
  · rw [if_neg e]

theorem outShape_keep_length (red : List Nat) (s : Shape) : (outShape true red s).length = s.length := by simp [outShape]

theorem outShape_keep_getD (red : List Nat) (s : Shape) (a : Nat) (ha : a < s.length) :
    (outShape true red s).getD a 0 = if a ∈ red then 1 else s.getD a 0 := by
  simp [outShape, List.getD_eq_getElem?_getD, ha]

theorem keep_setup (red : List Nat) (s : Shape) (hpos : 0 < prod s) : binarySetup s (outShape true red s) = .ok s := by
  refine binary_same s _ (outShape_keep_length red s) hpos ?_
  intro a ha
  rw [outShape_keep_getD red s a ha]
  by_cases h : a ∈ red
  · exact Or.inr (if_pos h)
  · exact Or.inl (if_neg h)

theorem keep_bcast (red : List Nat) (s : Shape) (j : List Nat) (h : InBounds s j) :
    bcast (outShape true red s) j = outIndex true red s.length j := by
  have hl : j.length = (outShape true red s).length := by rw [outShape_keep_length, h.length]
  refine ext_getD (by rw [bcast_length _ j hl, outShape_keep_length]; simp [outIndex]) ?_
  intro a ha
  rw [bcast_length _ j hl, outShape_keep_length] at ha
  rw [(bcast_getD _ j hl a (by rw [outShape_keep_length]; exact ha)).2, outShape_keep_getD red s a ha]
  have e : (outIndex true red s.length j).getD a 0 = if a ∈ red then 0 else j.getD a 0 := by
    simp [outIndex, List.getD_eq_getElem?_getD, ha]
  rw [e]
  have := inBounds_getD h a ha
  by_cases hr : a ∈ red
  · simp [hr]
  · simp only [if_neg hr]
    by_cases h1 : s.getD a 0 = 1
    · rw [if_pos h1]; omega
    · rw [if_neg h1]

/-- Element by element: an array combined with a broadcast one. -/
theorem binary_value (f : ℝ → ℝ → ℝ) (s s1 : Shape) (h : binarySetup s s1 = .ok s) (x0 x1 y : Mem ℝ) (j : List Nat) (hj : InBounds s j) :
    binaryForward f s s1 (prod s) x0 x1 y (ravel s j) = f (x0 (ravel s j)) (x1 (ravel s1 (bcast s1 j))) ∧ InBounds s1 (bcast s1 j) := by
  obtain ⟨h1, _, h3⟩ := C81_forward f s s1 s h x0 x1 y j hj
  rw [bcast_self s j hj] at h1
  exact ⟨h1, h3⟩

/-- The gradient kernels: accumulation, and nothing written outside. -/
theorem binary_accum (g : ℝ → ℝ → ℝ → ℝ → ℝ) (s0 s1 out : Shape) (h : binarySetup s0 s1 = .ok out) (side : Bool) (x0 x1 y dy : Mem ℝ) :
    let m := prod (if side then s1 else s0)
    ∀ acc dx, (∀ k, k < m → binaryBackward g s0 s1 (prod out) m side x0 x1 y acc dy dx k =
        (if acc then dx k else 0) + binaryBackward g s0 s1 (prod out) m side x0 x1 y false dy (fun _ => 0) k) ∧
      ∀ k, m ≤ k → binaryBackward g s0 s1 (prod out) m side x0 x1 y acc dy dx k = dx k := by
  intro m acc dx
  constructor
  · intro k hk
    obtain ⟨j, hj, rfl⟩ := exists_ravel _ k hk
    rw [C81_backward g s0 s1 out h side acc x0 x1 y dy dx j hj, C81_backward g s0 s1 out h side false x0 x1 y dy _ j hj]
    simp
  · intro k hk
    have ho : ∀ i, i < prod out → binaryOff s0 s1 side i < m := by
      intro i hi
      obtain ⟨j, hj, rfl⟩ := exists_ravel _ i hi
      have hf := C81_forward (fun a b : Nat × Nat => (a.1, b.2)) s0 s1 out h (fun i => (i, i)) (fun i => (i, i)) (fun i => (i, i)) j hj
      rw [binaryForward_lt, if_pos (ravel_lt hj)] at hf
      simp only [Prod.mk.injEq] at hf
      cases side
      · rw [hf.1.1]; exact ravel_lt hf.2.1
      · rw [hf.1.2]; exact ravel_lt hf.2.2
    have hfold : ∀ n d, n ≤ prod out → (List.range n).foldl (fun d i => put d (binaryOff s0 s1 side i) (d (binaryOff s0 s1 side i) +
        g (dy i) (x0 (binaryOff s0 s1 false i)) (x1 (binaryOff s0 s1 true i)) (y i))) d k = d k := by
      intro n d hn
      induction n with
      | zero => rfl
      | succ n ih =>
        rw [List.range_succ, List.foldl_append]
        simp only [List.foldl_cons, List.foldl_nil]
        rw [put_other _ _ (by have := ho n (by omega); omega), ih (by omega)]
    rw [binaryBackward, hfold _ _ (Nat.le_refl _)]
    cases acc
    · simp; omega
    · rfl

/-- Sorted natural axes are set up as they are. -/
theorem reduceSetup_sorted (keep : Bool) (red : List Nat) (s : Shape) (hs : red.Pairwise (· < ·)) (hhi : ∀ a ∈ red, a < s.length) :
    reduceSetup (reduceNew (red.map fun a : Nat => (a : Int)) keep) s = .ok (readyObj keep red s, outShape keep red s) := by
  have e : (reduceNew (red.map fun a : Nat => (a : Int)) keep).axes = red.map fun a : Nat => (a : Int) := by
    unfold reduceNew
    by_cases h : (red.map fun a : Nat => (a : Int)).length ≤ 1
    · simp only [if_pos h]
    · simp only [if_neg h]
      apply List.Pairwise.insertionSort_eq
      rw [List.pairwise_map]
      exact hs.imp fun h => by omega
  rw [reduceSetup_eq _ red s hs hhi (by rw [e]; exact refineAxes_nat red s.length hhi)]
  rfl

end Verif.NormFn
