import Verif.Warp.Grad
import Verif.Interp.Axis
/-
BroadcastTo (/repo/src/nbla/function/generic/broadcast_to.cpp). Simplifications: the copy loops and std::fill are lists of
(destination, source) pairs; a read of the shape vector behind its end gives the arbitrary number `oob`.
-/
namespace Verif.BcastTo
open Verif.ND Verif.Fn Verif.Act Verif.Elem Verif.Interp Verif.Warp

/-! ### Model -/

/-- BroadcastTo::setup_impl (broadcast_to.cpp:25-65). -/
def setup (oob : Nat) (axis : ℤ) (xs ys : Shape) : Except String Shape :=
  if ¬ xs.length ≥ ys.length then .error "BroadcastTo expects Y (variable to be broadcasted) to be smaller than or equal to X"
  else if axis < 0 then
    if ∀ i < ys.length, xs.getD (xs.length - ys.length + i) 0 = ys.getD i 0 then .ok xs
    else .error "Dimension's size of X and Y do not match"
  else if ¬ axis < xs.length then .error "Specified axis index must be within the size of the actual input dimension"
  else if ∀ i < ys.length, xs.getD (i + axis.toNat) oob = ys.getD i 0 then .ok xs
  else .error "Dimension's size of X and Y do not match"

/-- copy_block_to_tail (broadcast_to.cpp:68-79). -/
def blockToTail (xs : Shape) (xdim ydim ysize : Nat) : Pairs :=
  (List.range ((xs.take (xdim - ydim)).foldl (· * ·) 1)).flatMap fun i => (List.range ysize).map fun t => (i * ysize + t, t)

/-- copy_value_to_block (broadcast_to.cpp:82-90); z is the offset of the destination. -/
def valueToBlock (z yNum blockSize : Nat) : Pairs :=
  (List.range yNum).flatMap fun i => (List.range blockSize).map fun t => (z + (i * blockSize + t), i)

/-- copy_value_vertically_to_block (broadcast_to.cpp:92-104). -/
def valueVertically (z blockNum yNum blockWidth blockSize : Nat) : Pairs :=
  (List.range blockNum).flatMap fun b => (List.range yNum).flatMap fun v => (List.range blockWidth).map fun t =>
    (z + (b * blockSize + (v * blockWidth + t)), v)

/-- copy_buf_vertically_to_block (broadcast_to.cpp:106-121). -/
def bufVertically (z blockNum yWidth height width : Nat) : Pairs :=
  (List.range blockNum).flatMap fun b => (List.range height).flatMap fun v => (List.range width).map fun t =>
    (z + (b * (height * width) + (v * width + t)), b * yWidth + v)

/-- The switches of BroadcastTo::forward_impl for a given axis (broadcast_to.cpp:145-298). -/
def axisPairs (axis : Nat) (xs ys : Shape) (ysize : Nat) : Except String Pairs :=
  let tail := blockToTail xs xs.length ys.length ysize
  let x0 := xs.getD 0 0
  let x1 := xs.getD 1 0
  let x2 := xs.getD 2 0
  let x3 := xs.getD 3 0
  if ¬ xs.length ≥ 2 then .error "X's dimension size should be greater than 1"
  else match xs.length with
  | 2 => match axis with
    | 0 => .ok (valueToBlock 0 x0 x1)
    | 1 => .ok tail
    | _ => .error "Unexpected axis value"
  | 3 => match ys.length with
    | 1 => match axis with
      | 0 => .ok (valueToBlock 0 x0 (x1 * x2))
      | 1 => .ok (valueVertically 0 x0 x1 x2 (x1 * x2))
      | 2 => .ok tail
      | _ => .error "Unexpected axis value"
    | 2 => match axis with
      | 0 => .ok (bufVertically 0 x0 (ys.getD 1 0) x1 x2)
      | 1 => .ok tail
      | _ => .error "Unexpected axis value"
    | _ => .error "Unexpected Y dimension size"
  | 4 => match ys.length with
    | 1 => match axis with
      | 0 => .ok (valueToBlock 0 x0 (x1 * x2 * x3))
      | 1 => .ok ((List.range x0).flatMap fun i => valueToBlock (i * (x1 * (x2 * x3))) x1 (x2 * x3))
      | 2 => .ok ((List.range x0).flatMap fun i => valueVertically (i * (x1 * (x2 * x3))) x1 x2 x3 (x2 * x3))
      | 3 => .ok tail
      | _ => .error "Unexpected axis value"
    | 2 => match axis with
      | 0 => .ok (bufVertically 0 x0 (ys.getD 1 0) x1 (x2 * x3))
      | 1 => .ok ((List.range x0).flatMap fun i => bufVertically (i * (x1 * (x2 * x3))) x1 (ys.getD 1 0) x2 x3)
      | 2 => .ok tail
      | _ => .error "Unexpected axis value"
    | 3 => match axis with
      | 0 => .ok ((List.range x0).flatMap fun n => (List.range x1).flatMap fun c => (List.range x2).flatMap fun h => (List.range x3).map fun t =>
          (n * (x1 * (x2 * x3)) + (c * (x2 * x3) + (h * x3 + t)), n * (ys.getD 1 0 * ys.getD 2 0) + (c * ys.getD 2 0 + h)))
      | 1 => .ok tail
      | _ => .error "Unexpected axis value"
    | _ => .error "Unexpected Y dimension size"
  | _ => .error "Unexpected X dimension size"

/-- BroadcastTo::forward_impl (broadcast_to.cpp:123-299). -/
def forward {R} (axis : ℤ) (xs ys : Shape) (y z : Mem R) : Except String (Mem R) :=
  if xs.length = ys.length then .ok (fwd ((List.range (prod ys)).map fun t => (t, t)) y z)
  else if axis < 0 then .ok (fwd (blockToTail xs xs.length ys.length (prod ys)) y z)
  else match axisPairs axis.toNat xs ys (prod ys) with
    | .ok ps => .ok (fwd ps y z)
    | .error e => .error e

/-! ### Specification -/

/-- The axis of x at which y starts. -/
def start (axis : ℤ) (xs ys : Shape) : Nat := if axis < 0 then xs.length - ys.length else axis.toNat

/-! ### Proofs -/

/-- A nest of copy loops that visits the positions of an array once. -/
theorem nest {R} (s : Shape) (src : List Nat → Nat) (ps : Pairs) (hps : ps = (indices s).map fun o => (ravel s o, src o)) (y z : Mem R)
    (o : List Nat) (ho : InBounds s o) : fwd ps y z (ravel s o) = y (src o) := by
  subst hps
  refine fwd_mem _ y z (ravel s o, src o) (List.mem_map.mpr ⟨o, (mem_indices _ _).mpr ho, rfl⟩) ?_
  intro q hq e
  rw [List.mem_map] at hq
  obtain ⟨o', ho', rfl⟩ := hq
  rw [ravel_inj s o' o ((mem_indices _ _).mp ho') ho e]

theorem nest2 {R} (A B : Nat) (src : Nat → Nat → Nat) (y z : Mem R) (a b : Nat) (ha : a < A) (hb : b < B) :
    fwd ((List.range A).flatMap fun a => (List.range B).map fun b => (a * B + b, src a b)) y z (a * B + b) = y (src a b) := by
  have h := nest [A, B] (fun o => src (o.getD 0 0) (o.getD 1 0)) _ rfl y z [a, b] ⟨ha, hb, trivial⟩
  rw [Interp.indices2] at h
  simp only [List.map_flatMap, List.map_cons, List.map_nil, ravel, prod, mul_one, add_zero, List.getD_cons_zero, List.getD_cons_succ] at h
  simpa only [List.map_eq_flatMap] using h

theorem nest3 {R} (A B C : Nat) (src : Nat → Nat → Nat → Nat) (y z : Mem R) (a b c : Nat) (ha : a < A) (hb : b < B) (hc : c < C) :
    fwd ((List.range A).flatMap fun a => (List.range B).flatMap fun b => (List.range C).map fun c => (a * (B * C) + (b * C + c), src a b c)) y z
      (a * (B * C) + (b * C + c)) = y (src a b c) := by
  have h := nest [A, B, C] (fun o => src (o.getD 0 0) (o.getD 1 0) (o.getD 2 0)) _ rfl y z [a, b, c] ⟨ha, hb, hc, trivial⟩
  rw [Interp.indices3] at h
  simp only [List.map_flatMap, List.map_cons, List.map_nil, ravel, prod, mul_one, add_zero, List.getD_cons_zero, List.getD_cons_succ] at h
  simpa only [List.map_eq_flatMap] using h

theorem nest4 {R} (A B C D : Nat) (src : Nat → Nat → Nat → Nat → Nat) (y z : Mem R) (a b c d : Nat) (ha : a < A) (hb : b < B) (hc : c < C) (hd : d < D) :
    fwd ((List.range A).flatMap fun a => (List.range B).flatMap fun b => (List.range C).flatMap fun c => (List.range D).map fun d =>
      (a * (B * (C * D)) + (b * (C * D) + (c * D + d)), src a b c d)) y z (a * (B * (C * D)) + (b * (C * D) + (c * D + d))) = y (src a b c d) := by
  have h := nest [A, B, C, D] (fun o => src (o.getD 0 0) (o.getD 1 0) (o.getD 2 0) (o.getD 3 0)) _ rfl y z [a, b, c, d] ⟨ha, hb, hc, hd, trivial⟩
  rw [indices, Interp.indices3] at h
  simp only [List.map_flatMap, List.map_cons, List.map_nil, ravel, prod, mul_one, add_zero, List.getD_cons_zero, List.getD_cons_succ] at h
  simpa only [List.map_eq_flatMap] using h

theorem foldl_prod (s : Shape) : s.foldl (· * ·) 1 = prod s := by
  have : ∀ (s : Shape) (a : Nat), s.foldl (· * ·) a = a * prod s := by
    intro s
    induction s with
    | nil => intro a; simp [prod]
    | cons d s ih => intro a; rw [List.foldl_cons, ih, prod, mul_assoc]
  rw [this, one_mul]

theorem tail_at {R} (pre ys : Shape) (y z : Mem R) (j : List Nat) (hj : InBounds (pre ++ ys) j) :
    fwd (blockToTail (pre ++ ys) (pre ++ ys).length ys.length (prod ys)) y z (ravel (pre ++ ys) j) = y (ravel ys (j.drop pre.length)) := by
  have hlen : ∀ (s : Shape) (j : List Nat), InBounds s j → j.length = s.length := by
    intro s
    induction s with
    | nil => intro j h; cases j with
      | nil => rfl
      | cons _ _ => exact h.elim
    | cons d s ih => intro j h; cases j with
      | nil => exact h.elim
      | cons a j => simp only [List.length_cons]; rw [ih j h.2]
  have hl := hlen _ _ hj
  rw [List.length_append] at hl
  have e : j = j.take pre.length ++ j.drop pre.length := (List.take_append_drop _ _).symm
  have hlt : (j.take pre.length).length = pre.length := by rw [List.length_take]; omega
  rw [e, inBounds_append _ _ _ _ hlt] at hj
  conv_lhs => rw [e, ravel_append _ _ _ _ hlt]
  unfold blockToTail
  rw [List.length_append, Nat.add_sub_cancel, List.take_left', foldl_prod]
  · exact nest2 (prod pre) (prod ys) (fun _ t => t) y z _ _ (ravel_lt hj.1) (ravel_lt hj.2)
  · rfl

theorem inb_len (s : Shape) : ∀ j : List Nat, InBounds s j → j.length = s.length := by
  induction s with
  | nil => intro j h; cases j with
    | nil => rfl
    | cons _ _ => exact h.elim
  | cons d s ih => intro j h; cases j with
    | nil => exact h.elim
    | cons a j => simp only [List.length_cons]; rw [ih j h.2]

theorem getD_get (l : List Nat) (d : Nat) {n : Nat} (hn : n < l.length) : l.getD n d = l[n] := by
  simp [List.getD_eq_getElem?_getD, hn]

theorem split_tail (xs ys : Shape) (hl : ys.length ≤ xs.length) (h : ∀ i < ys.length, xs.getD (xs.length - ys.length + i) 0 = ys.getD i 0) :
    ∃ pre, xs = pre ++ ys := by
  refine ⟨xs.take (xs.length - ys.length), ?_⟩
  conv_lhs => rw [← List.take_append_drop (xs.length - ys.length) xs]
  congr 1
  apply List.ext_getElem?
  intro i
  rw [List.getElem?_drop]
  by_cases hi : i < ys.length
  · have := h i hi
    rw [getD_get _ _ (by omega), getD_get _ _ hi] at this
    rw [List.getElem?_eq_getElem (by omega), List.getElem?_eq_getElem hi, this]
  · rw [List.getElem?_eq_none (by omega), List.getElem?_eq_none (by omega)]

theorem tail_case {R} (xs pre ys : Shape) (e : xs = pre ++ ys) (y z : Mem R) (j : List Nat) (hj : InBounds xs j) (a : Nat) (ha : a = pre.length) :
    fwd (blockToTail xs xs.length ys.length (prod ys)) y z (ravel xs j) = y (ravel ys ((j.drop a).take ys.length)) := by
  subst e ha
  have hl := inb_len _ _ hj
  rw [List.length_append] at hl
  rw [tail_at pre ys y z j hj, List.take_of_length_le (by rw [List.length_drop]; omega)]

/-- C210: broadcasting y to the shape of x. Element j of the output is the element of y whose index is the part of j at the axes
of y: those starting at `axis`, or the last ones. -/
theorem C210_broadcast_to_partial {R} (oob : Nat) (axis : ℤ) (xs ys osh : Shape) (y z res : Mem R) (hs : setup oob axis xs ys = .ok osh)
    (hfit : start axis xs ys + ys.length ≤ xs.length) (h0 : 0 ≤ axis → xs.length ≠ ys.length → ys ≠ []) (hf : forward axis xs ys y z = .ok res) :
    osh = xs ∧ ∀ j, InBounds xs j → res (ravel xs j) = y (ravel ys ((j.drop (start axis xs ys)).take ys.length)) := by
  unfold setup at hs
  by_cases c1 : ¬ xs.length ≥ ys.length
  · rw [if_pos c1] at hs; cases hs
  rw [if_neg c1] at hs
  rw [not_not] at c1
  by_cases hneg : axis < 0
  · rw [if_pos hneg] at hs
    split at hs
    swap; · cases hs
    rename_i hm
    refine ⟨by injection hs with hs; exact hs.symm, fun j hj => ?_⟩
    obtain ⟨pre, e⟩ := split_tail xs ys c1 hm
    have hst : start axis xs ys = pre.length := by
      rw [start, if_pos hneg, e, List.length_append]; omega
    unfold forward at hf
    by_cases hlen : xs.length = ys.length
    · rw [if_pos hlen] at hf
      injection hf with hf
      have hp : pre = [] := by
        rw [e, List.length_append] at hlen
        exact List.length_eq_zero_iff.mp (by omega)
      subst hp
      simp only [List.nil_append] at e
      subst e
      rw [← hf, hst, List.length_nil, List.drop_zero, List.take_of_length_le (by rw [inb_len _ _ hj])]
      exact nest xs (ravel xs) _ (by rw [← indices_ravel, List.map_map]; rfl) y z j hj
    · rw [if_neg hlen, if_pos hneg] at hf
      injection hf with hf
      rw [← hf]
      exact tail_case xs pre ys e y z j hj _ hst
  rw [if_neg hneg] at hs
  split at hs; · cases hs
  split at hs
  swap; · cases hs
  rename_i c2 hm
  refine ⟨by injection hs with hs; exact hs.symm, fun j hj => ?_⟩
  have hst : start axis xs ys = axis.toNat := by rw [start, if_neg hneg]
  rw [hst] at hfit ⊢
  unfold forward at hf
  by_cases hlen : xs.length = ys.length
  · rw [if_pos hlen] at hf
    injection hf with hf
    have ha : axis.toNat = 0 := by omega
    rw [ha] at hm ⊢
    obtain ⟨pre, e⟩ := split_tail xs ys c1 (by
      intro i hi
      have := hm i hi
      rw [getD_get _ _ (by omega)] at this
      rw [getD_get _ _ (by omega), ← this]
      congr 1; omega)
    have hp : pre = [] := by
      rw [e, List.length_append] at hlen
      exact List.length_eq_zero_iff.mp (by omega)
    subst hp
    simp only [List.nil_append] at e
    subst e
    rw [← hf, List.drop_zero, List.take_of_length_le (by rw [inb_len _ _ hj])]
    exact nest xs (ravel xs) _ (by rw [← indices_ravel, List.map_map]; rfl) y z j hj
  rw [if_neg hlen, if_neg hneg] at hf
  have hne := h0 (by omega) hlen
  generalize axis.toNat = a at hf hfit hm ⊢
  have pos2 : ∀ {p q b c : Nat}, b < p → c < q → b * q + c < p * q := by
    intro p q b c hb hc
    calc b * q + c < b * q + q := by omega
      _ = (b + 1) * q := by ring
      _ ≤ p * q := Nat.mul_le_mul_right _ hb
  match xs, ys with
  | _, [] => exact absurd rfl hne
  | [], _ :: _ => simp at c1; try omega
  | [_], [_] => simp at hlen
  | [_], _ :: _ :: _ => simp at c1; try omega
  | [x0, x1], [y0] =>
    have e0 := hm 0 (by simp)
    match j, hj with
    | [j0, j1], hj =>
      obtain ⟨h1, h2, -⟩ := hj
      have hlt : a < 2 := by simp at hfit; omega
      interval_cases a
      · simp only [List.getD_cons_zero, Nat.zero_add] at e0
        injection hf with hf
        rw [← hf]
        have := nest2 x0 x1 (fun i _ => i) y z j0 j1 h1 h2
        simpa [valueToBlock, ravel, prod] using this
      · simp only [List.getD_cons_zero, List.getD_cons_succ, Nat.zero_add] at e0
        injection hf with hf
        rw [← hf]
        exact tail_case [x0, x1] [x0] [y0] (by rw [e0]; rfl) y z [j0, j1] ⟨h1, h2, trivial⟩ 1 rfl
  | [x0, x1], [_, _] => simp at hlen
  | [x0, x1], _ :: _ :: _ :: _ => simp at c1; try omega
  | [x0, x1, x2], [y0] =>
    have e0 := hm 0 (by simp)
    match j, hj with
    | [j0, j1, j2], hj =>
      obtain ⟨h1, h2, h3, -⟩ := hj
      have hlt : a < 3 := by simp at hfit; omega
      interval_cases a
      · simp only [List.getD_cons_zero, Nat.zero_add] at e0
        injection hf with hf
        rw [← hf]
        have := nest2 x0 (x1 * x2) (fun i _ => i) y z j0 (j1 * x2 + j2) h1 (pos2 h2 h3)
        simpa [valueToBlock, ravel, prod] using this
      · simp only [List.getD_cons_zero, List.getD_cons_succ, Nat.zero_add] at e0
        injection hf with hf
        rw [← hf]
        have := nest3 x0 x1 x2 (fun _ v _ => v) y z j0 j1 j2 h1 h2 h3
        simpa [valueVertically, ravel, prod] using this
      · simp only [List.getD_cons_zero, List.getD_cons_succ, Nat.zero_add] at e0
        injection hf with hf
        rw [← hf]
        exact tail_case [x0, x1, x2] [x0, x1] [y0] (by rw [e0]; rfl) y z [j0, j1, j2] ⟨h1, h2, h3, trivial⟩ 2 rfl
  | [x0, x1, x2], [y0, y1] =>
    have e0 := hm 0 (by simp)
    have e1 := hm 1 (by simp)
    match j, hj with
    | [j0, j1, j2], hj =>
      obtain ⟨h1, h2, h3, -⟩ := hj
      have hlt : a < 2 := by simp at hfit; omega
      interval_cases a
      · simp only [List.getD_cons_zero, List.getD_cons_succ, Nat.zero_add] at e0 e1
        injection hf with hf
        rw [← hf]
        have := nest3 x0 x1 x2 (fun b v _ => b * y1 + v) y z j0 j1 j2 h1 h2 h3
        simpa [bufVertically, ravel, prod] using this
      · simp only [List.getD_cons_zero, List.getD_cons_succ, Nat.zero_add] at e0 e1
        injection hf with hf
        rw [← hf]
        exact tail_case [x0, x1, x2] [x0] [y0, y1] (by rw [e0, e1]; rfl) y z [j0, j1, j2] ⟨h1, h2, h3, trivial⟩ 1 rfl
  | [x0, x1, x2], [_, _, _] => simp at hlen
  | [x0, x1, x2], _ :: _ :: _ :: _ :: _ => simp at c1; try omega
  | [x0, x1, x2, x3], [y0] =>
    have e0 := hm 0 (by simp)
    match j, hj with
    | [j0, j1, j2, j3], hj =>
      obtain ⟨h1, h2, h3, h4, -⟩ := hj
      have hlt : a < 4 := by simp at hfit; omega
      interval_cases a
      · simp only [List.getD_cons_zero, Nat.zero_add] at e0
        injection hf with hf
        rw [← hf]
        have := nest2 x0 (x1 * (x2 * x3)) (fun i _ => i) y z j0 (j1 * (x2 * x3) + (j2 * x3 + j3)) h1 (pos2 h2 (pos2 h3 h4))
        simpa [valueToBlock, ravel, prod, mul_assoc] using this
      · simp only [List.getD_cons_zero, List.getD_cons_succ, Nat.zero_add] at e0
        injection hf with hf
        rw [← hf]
        have := nest3 x0 x1 (x2 * x3) (fun _ v _ => v) y z j0 j1 (j2 * x3 + j3) h1 h2 (pos2 h3 h4)
        simpa [valueToBlock, ravel, prod] using this
      · simp only [List.getD_cons_zero, List.getD_cons_succ, Nat.zero_add] at e0
        injection hf with hf
        rw [← hf]
        have := nest4 x0 x1 x2 x3 (fun _ _ v _ => v) y z j0 j1 j2 j3 h1 h2 h3 h4
        simpa [valueVertically, ravel, prod] using this
      · simp only [List.getD_cons_zero, List.getD_cons_succ, Nat.zero_add] at e0
        injection hf with hf
        rw [← hf]
        exact tail_case [x0, x1, x2, x3] [x0, x1, x2] [y0] (by rw [e0]; rfl) y z [j0, j1, j2, j3] ⟨h1, h2, h3, h4, trivial⟩ 3 rfl
  | [x0, x1, x2, x3], [y0, y1] =>
    have e0 := hm 0 (by simp)
    have e1 := hm 1 (by simp)
    match j, hj with
    | [j0, j1, j2, j3], hj =>
      obtain ⟨h1, h2, h3, h4, -⟩ := hj
      have hlt : a < 3 := by simp at hfit; omega
      interval_cases a
      · simp only [List.getD_cons_zero, List.getD_cons_succ, Nat.zero_add] at e0 e1
        injection hf with hf
        rw [← hf]
        have := nest3 x0 x1 (x2 * x3) (fun b v _ => b * y1 + v) y z j0 j1 (j2 * x3 + j3) h1 h2 (pos2 h3 h4)
        simpa [bufVertically, ravel, prod] using this
      · simp only [List.getD_cons_zero, List.getD_cons_succ, Nat.zero_add] at e0 e1
        injection hf with hf
        rw [← hf]
        have := nest4 x0 x1 x2 x3 (fun _ b v _ => b * y1 + v) y z j0 j1 j2 j3 h1 h2 h3 h4
        simpa [bufVertically, ravel, prod] using this
      · simp only [List.getD_cons_zero, List.getD_cons_succ, Nat.zero_add] at e0 e1
        injection hf with hf
        rw [← hf]
        exact tail_case [x0, x1, x2, x3] [x0, x1] [y0, y1] (by rw [e0, e1]; rfl) y z [j0, j1, j2, j3] ⟨h1, h2, h3, h4, trivial⟩ 2 rfl
  | [x0, x1, x2, x3], [y0, y1, y2] =>
    have e0 := hm 0 (by simp)
    have e1 := hm 1 (by simp)
    have e2 := hm 2 (by simp)
    match j, hj with
    | [j0, j1, j2, j3], hj =>
      obtain ⟨h1, h2, h3, h4, -⟩ := hj
      have hlt : a < 2 := by simp at hfit; omega
      interval_cases a
      · simp only [List.getD_cons_zero, List.getD_cons_succ, Nat.zero_add] at e0 e1 e2
        injection hf with hf
        rw [← hf]
        have := nest4 x0 x1 x2 x3 (fun n c h _ => n * (y1 * y2) + (c * y2 + h)) y z j0 j1 j2 j3 h1 h2 h3 h4
        simpa [ravel, prod] using this
      · simp only [List.getD_cons_zero, List.getD_cons_succ, Nat.zero_add] at e0 e1 e2
        injection hf with hf
        rw [← hf]
        exact tail_case [x0, x1, x2, x3] [x0] [y0, y1, y2] (by rw [e0, e1, e2]; rfl) y z [j0, j1, j2, j3] ⟨h1, h2, h3, h4, trivial⟩ 1 rfl
  | [x0, x1, x2, x3], [_, _, _, _] => simp at hlen
  | [x0, x1, x2, x3], _ :: _ :: _ :: _ :: _ :: _ => simp at c1; try omega
  | _ :: _ :: _ :: _ :: _ :: _, _ :: _ => injection hf

/-- C210: forward succeeds on everything that setup accepts without an axis, and with an axis on x of 2, 3 or 4 dimensions. -/
theorem C210_succeeds {R} (axis : ℤ) (xs ys : Shape) (y z : Mem R)
    (h : axis < 0 ∨ xs.length = ys.length ∨ (2 ≤ xs.length ∧ xs.length ≤ 4 ∧ 1 ≤ ys.length ∧ axis.toNat + ys.length ≤ xs.length)) :
    ∃ res, forward axis xs ys y z = .ok res := by
  unfold forward
  by_cases hl : xs.length = ys.length
  · rw [if_pos hl]; exact ⟨_, rfl⟩
  rw [if_neg hl]
  by_cases ha : axis < 0
  · rw [if_pos ha]; exact ⟨_, rfl⟩
  rw [if_neg ha]
  obtain ⟨h2, h4, h1, hf⟩ : 2 ≤ xs.length ∧ xs.length ≤ 4 ∧ 1 ≤ ys.length ∧ axis.toNat + ys.length ≤ xs.length := by tauto
  generalize axis.toNat = a at hf
  suffices ∃ ps, axisPairs a xs ys (prod ys) = .ok ps by
    obtain ⟨ps, e⟩ := this
    rw [e]; exact ⟨_, rfl⟩
  unfold axisPairs
  generalize xs.length = m at *
  generalize ys.length = n at *
  have hn : n < m := by omega
  rw [if_neg (by omega)]
  interval_cases m <;> interval_cases n <;> (have ha' : a < 4 := by omega) <;> interval_cases a <;>
    first | exact ⟨_, rfl⟩ | omega

/-- C210, what is missing: x of five and more dimensions with an axis is accepted by setup but refused when it is run. -/
theorem C210_five (oob : Nat) (y z : Mem ℝ) :
    setup oob 0 [2, 3, 4, 5, 6] [2] = .ok [2, 3, 4, 5, 6] ∧ forward 0 [2, 3, 4, 5, 6] [2] y z = .error "Unexpected X dimension size" := by
  constructor
  · simp [setup]
  · rfl

/-- C210, what is missing: a scalar y with axis 0 is accepted for a matrix x, and forward reads behind the single element of y. -/
theorem C210_scalar (oob : Nat) (y z : Mem ℝ) :
    setup oob 0 [2, 3] [] = .ok [2, 3] ∧ ∃ res, forward 0 [2, 3] [] y z = .ok res ∧ prod [] = 1 ∧ res (ravel [2, 3] [1, 0]) = y 1 := by
  refine ⟨by simp [setup], _, rfl, rfl, ?_⟩
  have := nest2 2 3 (fun i _ => i) y z 1 0 (by decide) (by decide)
  simpa [valueToBlock, ravel, prod] using this

/-- C210, what is missing: the axes of y may extend beyond those of x. What is compared is then read behind the end of the shape of x;
if it happens to equal the extent of y, forward writes behind the end of the output. -/
theorem C210_overhang (y z : Mem ℝ) :
    setup 4 1 [2, 3] [3, 4] = .ok [2, 3] ∧ ∃ res, forward 1 [2, 3] [3, 4] y z = .ok res ∧ prod [2, 3] = 6 ∧ ∀ k < 12, res k = y k := by
  refine ⟨by decide, _, rfl, rfl, fun k hk => ?_⟩
  exact fwd_mem _ y z (k, k) (by simp only [List.mem_map, List.mem_range, prod]; exact ⟨k, by omega, rfl⟩) (by
    intro q hq e
    rw [List.mem_map] at hq
    obtain ⟨t, -, rfl⟩ := hq
    exact e)

/-- Non-vacuous: y of shape (3, 4) in x of shape (2, 3, 4, 5) from axis 1. -/
example (y z : Mem ℝ) : setup 0 1 [2, 3, 4, 5] [3, 4] = .ok [2, 3, 4, 5] ∧ start 1 [2, 3, 4, 5] [3, 4] + 2 ≤ 4 ∧
    ∃ res, forward 1 [2, 3, 4, 5] [3, 4] y z = .ok res := by
  exact ⟨by decide, by decide, C210_succeeds _ _ _ _ _ (by decide)⟩

end Verif.BcastTo
