import Verif.Fn.Lookup
/-
Broadcasting binary operations: models /repo/include/nbla/function/utils/base_transform_binary.hpp
(setup with compression of axes, forward, and the gradient loops).
Simplification: unbounded integers; the element type is an arbitrary type (no rounding, no conversion
between half and float).
-/
namespace Verif.Fn
open Verif.ND

/-- The shape checks and the output shape (base_transform_binary.hpp:64-82). -/
def binarySetup (s0 s1 : Shape) : Except String Shape :=
  if ¬ s0.length = s1.length then .error "Dimensions of inputs must match."
  else if ∃ p ∈ s0.zip s1, p.1 ≠ p.2 ∧ ¬ min p.1 p.2 = 1 then .error "Broadcast dimension must be one."
  else .ok ((s0.zip s1).map fun p => max p.1 p.2)

/-- Two adjacent axes are broadcast in the same way (base_transform_binary.hpp:131-148). -/
def sameCase (p q : Nat × Nat) : Bool :=
  ((p.1 == p.2) && (q.1 == q.2)) ||
  ((p.1 == 1 && p.2 != 1) && (q.1 == 1 && q.2 != 1)) ||
  ((p.1 != 1 && p.2 == 1) && (q.1 != 1 && q.2 == 1))

/-- The compression loop with its three accumulators (base_transform_binary.hpp:116-165): extents of x0, x1, y per
compressed axis. -/
def compressLoop : Nat → Nat → Nat → List (Nat × Nat) → List (Nat × Nat × Nat)
  | _, _, _, [] => []
  | t0, t1, ty, [p] => [(t0 * p.1, t1 * p.2, ty * max p.1 p.2)]
  | t0, t1, ty, p :: q :: r =>
    if sameCase p q then compressLoop (t0 * p.1) (t1 * p.2) (ty * max p.1 p.2) (q :: r)
    else (t0 * p.1, t1 * p.2, ty * max p.1 p.2) :: compressLoop 1 1 1 (q :: r)

/-- Padding to three axes (base_transform_binary.hpp:167-174). -/
def pad3 (l : List (Nat × Nat × Nat)) : List (Nat × Nat × Nat) := List.replicate (3 - l.length) (1, 1, 1) ++ l

/-- Strides of one input: C-contiguous strides of its compressed shape, 0 where the extent differs from that of y
(base_transform_binary.hpp:177-222). -/
def binaryStrides (cx cy : List Nat) : List Nat :=
  ((cStrides cx).zip (cx.zip cy)).map fun p => if p.2.1 = p.2.2 then p.1 else 0

/-- The inner loop of transform_binary (base_transform_binary.hpp:289-294): the offset in an input of the element
that belongs to offset `idx` of y. -/
def binaryIdx (stry shy strx : List Nat) (idx : Nat) : Nat :=
  (stry.zip (shy.zip strx)).foldl (fun acc p => acc + idx / p.1 % p.2.1 * p.2.2) 0

/-- What setup stores: compressed extents of x0, x1, y. -/
def binaryComp (s0 s1 : Shape) : List (Nat × Nat × Nat) := pad3 (compressLoop 1 1 1 (s0.zip s1))

/-- Offset in x0 (`side = false`) or x1 for an offset in y. -/
def binaryOff (s0 s1 : Shape) (side : Bool) (idx : Nat) : Nat :=
  let c := binaryComp s0 s1
  let cy := c.map (·.2.2)
  let cx := c.map fun t => if side then t.2.1 else t.1
  binaryIdx (cStrides cy) cy (binaryStrides cx cy) idx

/-- (offset in y, offset in x0 or x1), in execution order; `n` elements in y. -/
def binaryPairs (s0 s1 : Shape) (side : Bool) (n : Nat) : Pairs := (List.range n).map fun i => (i, binaryOff s0 s1 side i)

/-- transform_binary (base_transform_binary.hpp:278-299). -/
def binaryForward {R} (op : R → R → R) (s0 s1 : Shape) (n : Nat) (x0 x1 y : Mem R) : Mem R :=
  (List.range n).foldl (fun m i => put m i (op (x0 (binaryOff s0 s1 false i)) (x1 (binaryOff s0 s1 true i)))) y

/-- transform_binary_grad0/1 (base_transform_binary.hpp:301-337), after backward_impl's zeroing when not
accumulating (base_transform_binary.hpp:385-401); `g dy x0 x1 y` is the op's gradient formula, `m` the number of
elements of the input. -/
def binaryBackward {R} [Zero R] [Add R] (g : R → R → R → R → R) (s0 s1 : Shape) (n m : Nat) (side : Bool) (x0 x1 y : Mem R)
    (accum : Bool) (dy dx : Mem R) : Mem R :=
  (List.range n).foldl (fun d i => put d (binaryOff s0 s1 side i) (d (binaryOff s0 s1 side i) +
    g (dy i) (x0 (binaryOff s0 s1 false i)) (x1 (binaryOff s0 s1 true i)) (y i)))
    (if accum then dx else fun i => if i < m then 0 else dx i)

/-! ### Specification -/

/-- The shapes can be broadcast against each other: same rank, and axis by axis equal or one of them 1 and the other
not 0. -/
def Broadcastable (s0 s1 : Shape) : Prop :=
  s0.length = s1.length ∧ ∀ p ∈ s0.zip s1, p.1 = p.2 ∨ (p.1 = 1 ∧ 1 ≤ p.2) ∨ (p.2 = 1 ∧ 1 ≤ p.1)

/-- The element of an array of shape `s` that position `j` of the result uses: coordinate 0 along axes of extent 1. -/
def bcast : Shape → List Nat → List Nat
  | d :: s, k :: j => (if d = 1 then 0 else k) :: bcast s j
  | _, _ => []

/-! ### Proofs -/

/-- The offset as a structural recursion over (extent of x, extent of y). -/
def ev : List (Nat × Nat) → Nat → Nat
  | [], _ => 0
  | (a, b) :: r, idx => idx / prod (r.map (·.2)) % b * (if a = b then prod (r.map (·.1)) else 0) + ev r idx

theorem foldl_acc {α} (l : List α) (f : α → Nat) (a : Nat) : l.foldl (fun acc p => acc + f p) a = a + (l.map f).sum := by
  induction l generalizing a with
  | nil => simp
  | cons p l ih => rw [List.foldl_cons, ih, List.map_cons, List.sum_cons]; omega

theorem binaryIdx_ev (l : List (Nat × Nat)) (idx : Nat) :
    binaryIdx (cStrides (l.map (·.2))) (l.map (·.2)) (binaryStrides (l.map (·.1)) (l.map (·.2))) idx = ev l idx := by
  rw [binaryIdx, foldl_acc, Nat.zero_add]
  induction l with
  | nil => rfl
  | cons p l ih =>
    obtain ⟨a, b⟩ := p
    have h1 : binaryStrides (a :: l.map (·.1)) (b :: l.map (·.2)) =
        (if a = b then prod (l.map (·.1)) else 0) :: binaryStrides (l.map (·.1)) (l.map (·.2)) := by
      simp only [binaryStrides, cStrides_cons, List.zip_cons_cons, List.map_cons]
    simp only [List.map_cons, h1, cStrides_cons, List.zip_cons_cons, List.sum_cons, ev]
    rw [ih]

/-- Adjacent axes that may be merged, seen from one input. -/
def Merge (p q : Nat × Nat) : Prop := (p.1 = p.2 ∧ q.1 = q.2) ∨ (p.1 = 1 ∧ q.1 = 1 ∧ p.2 ≠ 1 ∧ q.2 ≠ 1)

theorem ev_merge (p q : Nat × Nat) (h : Merge p q) (r : List (Nat × Nat)) (idx : Nat) :
    ev (p :: q :: r) idx = ev ((p.1 * q.1, p.2 * q.2) :: r) idx := by
  obtain ⟨a, b⟩ := p
  obtain ⟨c, d⟩ := q
  simp only [ev, List.map_cons, prod]
  rcases h with ⟨h1, h2⟩ | ⟨h1, h2, h3, h4⟩
  · simp only at h1 h2
    subst h1; subst h2
    simp only [if_true]
    rw [← Nat.add_assoc]
    congr 1
    rw [Nat.mul_comm a c, Nat.mod_mul, Nat.mul_comm c (prod _), Nat.div_div_eq_div_mul]
    ring
  · simp only at h1 h2 h3 h4
    subst h1; subst h2
    rw [if_neg (Ne.symm h3), if_neg (Ne.symm h4), if_neg]
    · simp
    · intro e
      exact h3 (Nat.eq_one_of_mul_eq_one_right e.symm)

/-- The view of one input of a compressed list. -/
def view (side : Bool) (l : List (Nat × Nat × Nat)) : List (Nat × Nat) := l.map fun t => (if side then t.2.1 else t.1, t.2.2)

/-- The uncompressed view. -/
def pview (side : Bool) (l : List (Nat × Nat)) : List (Nat × Nat) := l.map fun p => (if side then p.2 else p.1, max p.1 p.2)

theorem pview_prod (side : Bool) (t0 t1 ty : Nat) (l : List (Nat × Nat)) (hl : l ≠ []) :
    prod ((view side (compressLoop t0 t1 ty l)).map (·.1)) = (if side then t1 else t0) * prod ((pview side l).map (·.1)) ∧
    prod ((view side (compressLoop t0 t1 ty l)).map (·.2)) = ty * prod ((pview side l).map (·.2)) := by
  induction l generalizing t0 t1 ty with
  | nil => exact absurd rfl hl
  | cons p r ih =>
    match r, ih with
    | [], _ => cases side <;> simp [compressLoop, view, pview, prod]
    | q :: r, ih =>
      rw [compressLoop]
      split
      · have := ih (t0 * p.1) (t1 * p.2) (ty * max p.1 p.2) (by simp)
        rw [this.1, this.2]
        cases side <;> simp [pview, prod, Nat.mul_assoc]
      · have := ih 1 1 1 (by simp)
        simp only [view, List.map_cons, prod] at this ⊢
        rw [this.1, this.2]
        cases side <;> simp [pview, prod, Nat.mul_assoc]

/-- The state of the accumulators after multiplying in the axis `p`. -/
def AccOK (p : Nat × Nat) (u0 u1 uy : Nat) : Prop :=
  (p.1 = p.2 → u0 = uy ∧ u1 = uy) ∧ (p.1 = 1 → p.2 ≠ 1 → u0 = 1 ∧ u1 = uy ∧ uy ≠ 1) ∧
    (p.1 ≠ 1 → p.2 = 1 → u0 = uy ∧ u1 = 1 ∧ uy ≠ 1)

/-- One axis is broadcastable. -/
def AxisOK (p : Nat × Nat) : Prop := p.1 = p.2 ∨ (p.1 = 1 ∧ 1 ≤ p.2) ∨ (p.2 = 1 ∧ 1 ≤ p.1)

theorem accOK_one (p : Nat × Nat) (h : AxisOK p) : AccOK p (1 * p.1) (1 * p.2) (1 * max p.1 p.2) := by
  unfold AxisOK at h
  refine ⟨?_, ?_, ?_⟩ <;> intros <;> omega

theorem accOK_step (p q : Nat × Nat) (hq : AxisOK q) (u0 u1 uy : Nat) (h : AccOK p u0 u1 uy) (hs : sameCase p q = true) :
    AccOK q (u0 * q.1) (u1 * q.2) (uy * max q.1 q.2) := by
  unfold AxisOK at hq
  simp only [sameCase, Bool.or_eq_true, Bool.and_eq_true, beq_iff_eq, bne_iff_ne] at hs
  rcases hs with (⟨h1, h2⟩ | ⟨⟨h1, h2⟩, h3, h4⟩) | ⟨⟨h1, h2⟩, h3, h4⟩
  · obtain ⟨e0, e1⟩ := h.1 h1
    refine ⟨?_, ?_, ?_⟩
    · intro _
      rw [e0, e1, h2, Nat.max_self]; exact ⟨rfl, rfl⟩
    · intros; omega
    · intros; omega
  · obtain ⟨e0, e1, e2⟩ := h.2.1 h1 h2
    refine ⟨?_, ?_, ?_⟩
    · intros; omega
    · intro _ _
      rw [e0, e1, h3, Nat.max_eq_right (by omega)]
      refine ⟨rfl, rfl, ?_⟩
      intro e; exact e2 (Nat.eq_one_of_mul_eq_one_right e)
    · intros; omega
  · obtain ⟨e0, e1, e2⟩ := h.2.2 h1 h2
    refine ⟨?_, ?_, ?_⟩
    · intros; omega
    · intros; omega
    · intro _ _
      rw [e0, e1, h4, Nat.max_eq_left (by omega)]
      refine ⟨rfl, rfl, ?_⟩
      intro e; exact e2 (Nat.eq_one_of_mul_eq_one_right e)

theorem accOK_merge (p q : Nat × Nat) (hq : AxisOK q) (u0 u1 uy : Nat) (h : AccOK p u0 u1 uy) (hs : sameCase p q = true) (side : Bool) :
    Merge (if side then u1 else u0, uy) (if side then q.2 else q.1, max q.1 q.2) := by
  unfold AxisOK at hq
  simp only [sameCase, Bool.or_eq_true, Bool.and_eq_true, beq_iff_eq, bne_iff_ne] at hs
  rcases hs with (⟨h1, h2⟩ | ⟨⟨h1, h2⟩, h3, h4⟩) | ⟨⟨h1, h2⟩, h3, h4⟩
  · obtain ⟨e0, e1⟩ := h.1 h1
    left
    cases side <;> simp [e0, e1, h2]
  · obtain ⟨e0, e1, e2⟩ := h.2.1 h1 h2
    cases side
    · right; simp only [Bool.false_eq_true, if_false]; exact ⟨e0, h3, e2, by omega⟩
    · left; simp only [if_true]; exact ⟨e1, by omega⟩
  · obtain ⟨e0, e1, e2⟩ := h.2.2 h1 h2
    cases side
    · left; simp only [Bool.false_eq_true, if_false]; exact ⟨e0, by omega⟩
    · right; simp only [if_true]; exact ⟨e1, h4, e2, by omega⟩

theorem ev_compress (side : Bool) (idx : Nat) (p : Nat × Nat) (r : List (Nat × Nat)) (hr : ∀ q ∈ r, AxisOK q) (t0 t1 ty : Nat)
    (h : AccOK p (t0 * p.1) (t1 * p.2) (ty * max p.1 p.2)) :
    ev (view side (compressLoop t0 t1 ty (p :: r))) idx =
      ev ((if side then t1 * p.2 else t0 * p.1, ty * max p.1 p.2) :: pview side r) idx := by
  induction r generalizing p t0 t1 ty with
  | nil => cases side <;> rfl
  | cons q r ih =>
    rw [compressLoop]
    have hq := hr q List.mem_cons_self
    have hr' : ∀ q ∈ r, AxisOK q := fun q hq => hr q (List.mem_cons_of_mem _ hq)
    by_cases hs : sameCase p q = true
    · rw [if_pos hs, ih q hr' _ _ _ (accOK_step p q hq _ _ _ h hs)]
      have hm := ev_merge _ _ (accOK_merge p q hq _ _ _ h hs side) (pview side r) idx
      show _ = ev (_ :: (if side then q.2 else q.1, max q.1 q.2) :: pview side r) idx
      rw [hm]
      cases side <;> rfl
    · rw [if_neg hs]
      have h1 := pview_prod side 1 1 1 (q :: r) (by simp)
      show ev ((if side then t1 * p.2 else t0 * p.1, ty * max p.1 p.2) :: view side (compressLoop 1 1 1 (q :: r))) idx = _
      simp only [ev]
      rw [h1.1, h1.2, ih q hr' 1 1 1 (accOK_one q hq)]
      cases side <;> simp [pview]

theorem ev_one (r : List (Nat × Nat)) (n idx : Nat) : ev (List.replicate n (1, 1) ++ r) idx = ev r idx := by
  induction n with
  | zero => rfl
  | succ n ih => rw [List.replicate_succ, List.cons_append, ev, ih, Nat.mod_one]; simp

theorem binaryOff_ev (s0 s1 : Shape) (hb : Broadcastable s0 s1) (side : Bool) (idx : Nat) :
    binaryOff s0 s1 side idx = ev (pview side (s0.zip s1)) idx := by
  have h1 : binaryOff s0 s1 side idx = ev (view side (binaryComp s0 s1)) idx := by
    rw [← binaryIdx_ev]
    simp only [binaryOff, view, List.map_map]
    rfl
  rw [h1, binaryComp, pad3]
  have h2 : view side (List.replicate (3 - (compressLoop 1 1 1 (s0.zip s1)).length) (1, 1, 1) ++ compressLoop 1 1 1 (s0.zip s1)) =
      List.replicate (3 - (compressLoop 1 1 1 (s0.zip s1)).length) (1, 1) ++ view side (compressLoop 1 1 1 (s0.zip s1)) := by
    simp only [view, List.map_append, List.map_replicate]
    cases side <;> rfl
  rw [h2, ev_one]
  have hax : ∀ p ∈ s0.zip s1, AxisOK p := hb.2
  match hz : s0.zip s1 with
  | [] => rfl
  | p :: r =>
    rw [hz] at hax
    rw [ev_compress side idx p r (fun q hq => hax q (List.mem_cons_of_mem _ hq)) 1 1 1 (accOK_one p (hax p List.mem_cons_self))]
    cases side <;> simp [pview]

theorem ev_add (l : List (Nat × Nat)) (k r : Nat) (hp : 0 < prod (l.map (·.2))) : ev l (k * prod (l.map (·.2)) + r) = ev l r := by
  induction l generalizing k with
  | nil => rfl
  | cons p l ih =>
    obtain ⟨a, b⟩ := p
    simp only [List.map_cons, prod] at hp
    have hp' : 0 < prod (l.map (·.2)) := Nat.pos_of_mul_pos_left hp
    simp only [ev, List.map_cons, prod]
    rw [← Nat.mul_assoc, ih (k * b) hp', Nat.add_comm (k * b * _) r, Nat.add_mul_div_right _ _ hp', Nat.add_mul_mod_self_right]

theorem ev_ravel (s sy : Shape) (hl : s.length = sy.length) (hs : ∀ p ∈ s.zip sy, p.1 = p.2 ∨ p.1 = 1) (j : List Nat) (hj : InBounds sy j) :
    ev (s.zip sy) (ravel sy j) = ravel s (bcast s j) ∧ InBounds s (bcast s j) := by
  induction s generalizing sy j with
  | nil =>
    match sy, hl, j, hj with
    | [], _, [], _ => exact ⟨rfl, trivial⟩
  | cons d s ih =>
    match sy, hl, j, hj with
    | e :: sy, hl, k :: j, hj =>
      have hl : s.length = sy.length := by simpa using hl
      obtain ⟨h1, h2⟩ := ih sy hl (fun p hp => hs p (List.mem_cons_of_mem _ hp)) j hj.2
      have hlt := ravel_lt hj.2
      have e1 : ((s.zip sy).map (·.2)) = sy := List.map_snd_zip (by omega)
      have e2 : ((s.zip sy).map (·.1)) = s := List.map_fst_zip (by omega)
      simp only [List.zip_cons_cons, ev, e1, e2, ravel, bcast]
      have e3 : ev (s.zip sy) (k * prod sy + ravel sy j) = ev (s.zip sy) (ravel sy j) := by
        have := ev_add (s.zip sy) k (ravel sy j) (by rw [e1]; omega)
        rwa [e1] at this
      rw [e3, h1, Nat.add_comm (k * prod sy), Nat.add_mul_div_right _ _ (by omega), Nat.div_eq_of_lt hlt, Nat.zero_add,
        Nat.mod_eq_of_lt hj.1]
      have hke : k < e := hj.1
      have hd := hs (d, e) List.mem_cons_self
      simp only at hd
      by_cases hd1 : d = 1
      · subst hd1
        rw [if_pos rfl]
        refine ⟨?_, ⟨Nat.one_pos, h2⟩⟩
        by_cases he : 1 = e
        · rw [if_pos he]
          have : k = 0 := by omega
          rw [this]
        · rw [if_neg he]; simp
      · have hde : d = e := by rcases hd with h | h; exact h; exact absurd h hd1
        subst hde
        rw [if_neg hd1, if_pos rfl]
        exact ⟨rfl, hj.1, h2⟩

theorem pview_zip (s0 s1 : Shape) (hl : s0.length = s1.length) (side : Bool) :
    pview side (s0.zip s1) = (if side then s1 else s0).zip ((s0.zip s1).map fun p => max p.1 p.2) := by
  induction s0 generalizing s1 with
  | nil => cases s1 <;> cases side <;> simp [pview] at *
  | cons a s0 ih =>
    match s1, hl with
    | b :: s1, hl =>
      have := ih s1 (by simpa using hl)
      cases side
      · simp only [pview, List.zip_cons_cons, List.map_cons, Bool.false_eq_true, if_false] at this ⊢
        rw [this]
      · simp only [pview, List.zip_cons_cons, List.map_cons, if_true] at this ⊢
        rw [this]

theorem binary_gathers (s0 s1 : Shape) (hb : Broadcastable s0 s1) (side : Bool) :
    Gathers ((s0.zip s1).map fun p => max p.1 p.2) (if side then s1 else s0) (bcast (if side then s1 else s0))
      (binaryPairs s0 s1 side (prod ((s0.zip s1).map fun p => max p.1 p.2))) := by
  refine Gathers.of_range (binaryOff s0 s1 side) ?_
  intro j hj
  rw [binaryOff_ev s0 s1 hb, pview_zip s0 s1 hb.1]
  refine ev_ravel _ _ ?_ ?_ j hj
  · have := hb.1
    cases side <;> simp <;> omega
  · intro p hp
    rw [← pview_zip s0 s1 hb.1] at hp
    obtain ⟨q, hq, rfl⟩ := List.mem_map.mp hp
    have := hb.2 q hq
    cases side
    · simp only [Bool.false_eq_true, if_false]; omega
    · simp only [if_true]; omega

/-- **C81.** A binary operation accepts exactly the shapes that can be broadcast against each other, and its
result has the larger extent on each axis. -/
theorem C81_setup (s0 s1 out : Shape) : binarySetup s0 s1 = .ok out ↔
    Broadcastable s0 s1 ∧ out.length = s0.length ∧ ∀ a, a < s0.length → out.getD a 0 = max (s0.getD a 0) (s1.getD a 0) := by
  have hmax : ∀ hl : s0.length = s1.length, (out = (s0.zip s1).map fun p => max p.1 p.2) ↔
      (out.length = s0.length ∧ ∀ a, a < s0.length → out.getD a 0 = max (s0.getD a 0) (s1.getD a 0)) := by
    intro hl
    constructor
    · rintro rfl
      refine ⟨by simp; omega, ?_⟩
      intro a ha
      have h1 : a < s1.length := by omega
      simp [List.getD_eq_getElem?_getD, List.getElem?_zip_eq_some, List.getElem?_map, List.getElem?_eq_getElem ha, List.getElem?_eq_getElem h1, List.getElem?_eq_getElem (show a < (s0.zip s1).length by simp; omega)]
    · rintro ⟨h1, h2⟩
      apply List.ext_getElem
      · simp; omega
      · intro a ha hb
        have h3 : a < s0.length := by omega
        have h4 : a < s1.length := by omega
        have := h2 a h3
        simp only [List.getD_eq_getElem?_getD, List.getElem?_eq_getElem ha, List.getElem?_eq_getElem h3, List.getElem?_eq_getElem h4, Option.getD_some] at this
        simp [this]
  rw [binarySetup]
  by_cases hl : s0.length = s1.length
  · rw [if_neg (by omega)]
    by_cases hb : ∃ p ∈ s0.zip s1, p.1 ≠ p.2 ∧ ¬ min p.1 p.2 = 1
    · rw [if_pos hb]
      constructor
      · intro h; cases h
      · rintro ⟨⟨_, h⟩, _⟩
        obtain ⟨p, hp, h1, h2⟩ := hb
        have := h p hp
        omega
    · rw [if_neg hb]
      have hbc : Broadcastable s0 s1 := by
        refine ⟨hl, ?_⟩
        intro p hp
        have : ¬ (p.1 ≠ p.2 ∧ ¬ min p.1 p.2 = 1) := fun h => hb ⟨p, hp, h⟩
        omega
      rw [← hmax hl]
      constructor
      · intro h; injection h with h; exact ⟨hbc, h.symm⟩
      · rintro ⟨_, h⟩; rw [h]
  · rw [if_pos hl]
    constructor
    · intro h; cases h
    · rintro ⟨⟨h, _⟩, _⟩; exact absurd h hl

theorem binaryForward_lt {R} (op : R → R → R) (s0 s1 : Shape) (n : Nat) (x0 x1 y : Mem R) (i : Nat) :
    binaryForward op s0 s1 n x0 x1 y i =
      if i < n then op (x0 (binaryOff s0 s1 false i)) (x1 (binaryOff s0 s1 true i)) else y i := by
  unfold binaryForward
  induction n with
  | zero => simp
  | succ n ih =>
    rw [List.range_succ, List.foldl_append]
    simp only [List.foldl_cons, List.foldl_nil]
    by_cases e : i = n
    · subst e; rw [put_same, if_pos (by omega)]
    · rw [put_other _ _ e, ih]
      by_cases h : i < n
      · rw [if_pos h, if_pos (by omega)]
      · rw [if_neg h, if_neg (by omega)]

/-- **C81.** Every binary operation with broadcasting: element j of the result is the operation applied to the elements
of x0 and x1 at j, with coordinate 0 along the axes of extent 1. Each access is inside its array. -/
theorem C81_forward {R} (op : R → R → R) (s0 s1 out : Shape) (h : binarySetup s0 s1 = .ok out) (x0 x1 y : Mem R)
    (j : List Nat) (hj : InBounds out j) :
    binaryForward op s0 s1 (prod out) x0 x1 y (ravel out j) =
      op (x0 (ravel s0 (bcast s0 j))) (x1 (ravel s1 (bcast s1 j))) ∧
    InBounds s0 (bcast s0 j) ∧ InBounds s1 (bcast s1 j) := by
  have hb := ((C81_setup s0 s1 out).mp h).1
  have ho : out = (s0.zip s1).map fun p => max p.1 p.2 := by
    rw [binarySetup] at h
    split at h
    · cases h
    · split at h
      · cases h
      · injection h with h; exact h.symm
  subst ho
  have g0 := binary_gathers s0 s1 hb false
  have g1 := binary_gathers s0 s1 hb true
  simp only [Bool.false_eq_true, if_false, if_true] at g0 g1
  refine ⟨?_, g0.bound j hj, g1.bound j hj⟩
  rw [binaryForward_lt, if_pos (ravel_lt hj)]
  have h0 := (g0.mem (ravel _ j, binaryOff s0 s1 false (ravel _ j))).mp (List.mem_map.mpr ⟨_, List.mem_range.mpr (ravel_lt hj), rfl⟩)
  have h1 := (g1.mem (ravel _ j, binaryOff s0 s1 true (ravel _ j))).mp (List.mem_map.mpr ⟨_, List.mem_range.mpr (ravel_lt hj), rfl⟩)
  obtain ⟨j0, hj0, e0⟩ := h0
  obtain ⟨j1, hj1, e1⟩ := h1
  rw [Prod.mk.injEq] at e0 e1
  have := ravel_inj _ _ _ hj hj0 e0.1
  subst this
  have := ravel_inj _ _ _ hj hj1 e1.1
  subst this
  rw [e0.2, e1.2]

/-- **C81.** The gradient of either input at k is its old value (when accumulating) plus the sum, over the positions
of the result that use element k, of the operation's gradient formula there. -/
theorem C81_backward {R} [AddCommMonoid R] (g : R → R → R → R → R) (s0 s1 out : Shape) (h : binarySetup s0 s1 = .ok out) (side accum : Bool)
    (x0 x1 y dy dx : Mem R) (k : List Nat) (hk : InBounds (if side then s1 else s0) k) :
    binaryBackward g s0 s1 (prod out) (prod (if side then s1 else s0)) side x0 x1 y accum dy dx (ravel (if side then s1 else s0) k) =
      (if accum then dx (ravel (if side then s1 else s0) k) else 0) + ((indices out).map fun j =>
        if bcast (if side then s1 else s0) j = k then
          g (dy (ravel out j)) (x0 (ravel s0 (bcast s0 j))) (x1 (ravel s1 (bcast s1 j))) (y (ravel out j)) else 0).sum := by
  have hb := ((C81_setup s0 s1 out).mp h).1
  have hf := fun j hj => C81_forward (fun a b : Nat × Nat => (a.1, b.2)) s0 s1 out h (fun i => (i, i)) (fun i => (i, i)) (fun i => (i, i)) j hj
  have ho : out = (s0.zip s1).map fun p => max p.1 p.2 := by
    rw [binarySetup] at h
    split at h
    · cases h
    · split at h
      · cases h
      · injection h with h; exact h.symm
  have gs := binary_gathers s0 s1 hb side
  rw [← ho] at gs
  have e1 : ∀ d0 : Mem R, (List.range (prod out)).foldl (fun d i => put d (binaryOff s0 s1 side i) (d (binaryOff s0 s1 side i) +
      g (dy i) (x0 (binaryOff s0 s1 false i)) (x1 (binaryOff s0 s1 true i)) (y i))) d0 =
      bwdAdd (binaryPairs s0 s1 side (prod out)) (fun i => g (dy i) (x0 (binaryOff s0 s1 false i)) (x1 (binaryOff s0 s1 true i)) (y i)) d0 := by
    intro d0
    rw [bwdAdd, binaryPairs, List.foldl_map]
  rw [binaryBackward, e1, gs.backward]
  congr 1
  · cases accum
    · simp [ravel_lt hk]
    · rfl
  · congr 1
    apply List.map_congr_left
    intro j hj
    have hj := (mem_indices _ _).mp hj
    have hfj := hf j hj
    rw [binaryForward_lt, if_pos (ravel_lt hj)] at hfj
    simp only [Prod.mk.injEq] at hfj
    rw [hfj.1.1, hfj.1.2]
    refine if_congr ?_ rfl rfl
    constructor
    · intro e
      exact ravel_inj _ _ _ (gs.bound j hj) hk e
    · intro e; rw [e]

example : binarySetup [2, 3] [2, 4] = .error "Broadcast dimension must be one." := by decide
example : binarySetup [2, 1, 3] [2, 4, 1] = .ok [2, 4, 3] := by decide
example : (List.range 12).map (binaryForward (· + ·) [2, 1, 3] [1, 2, 1] 12 (fun i => 10 * i) (fun i => i) (fun _ => 99)) =
    [0, 10, 20, 1, 11, 21, 30, 40, 50, 31, 41, 51] := by decide

example : (List.range 3).map (binaryBackward (fun dy _ b _ => dy * b) [1, 3] [2, 1] 6 3 false (fun i => i) (fun i => i + 1) (fun _ => 0) true
    (fun i => 10 ^ i) (fun _ => 7)) = [2008, 20017, 200107] := by decide

end Verif.Fn
