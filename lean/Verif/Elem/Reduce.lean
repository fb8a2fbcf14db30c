import Verif.Elem.Slices
import Verif.Fn.Props
import Mathlib.Data.List.Sort
/-
Reductions over axes: Sum, Mean, Prod, Max, Min. Models /repo/include/nbla/function/sum.hpp,
/repo/src/nbla/function/generic/{sum,mean,prod,max,min}.cpp over the real numbers. Simplifications: exact reals (so the
order of Eigen's rowwise sum does not matter); `size / reduction_size` with a zero divisor, undefined in C++, is an
error; ndim and sizes are unbounded.
-/
namespace Verif.Elem
open Verif.Fn Verif.ND

/-! ### Model -/

/-- Members of Sum (sum.hpp:41-44). -/
structure ReduceObj where
  axes : List Int
  keep : Bool
  fTranspose : Option (List Nat)
  reductionSize : Nat
deriving DecidableEq, Repr

/-- Constructor (sum.hpp:47-54): more than one axis are sorted. -/
def reduceNew (axes : List Int) (keep : Bool) : ReduceObj :=
  { axes := if axes.length ≤ 1 then axes else axes.insertionSort (· ≤ ·), keep := keep, fTranspose := none, reductionSize := 1 }

/-- The loop over axes_ in Sum::setup_impl (sum.cpp:51-65), `next` being prev_a + 1: collects the transpose axes, the output
shape and the reduction size. -/
def reduceLoop (keep : Bool) (s : Shape) : List Nat → Nat → List Nat × Shape × Nat → List Nat × Shape × Nat
  | [], next, (tr, out, red) =>
    let bs := List.range' next (s.length - next)
    (tr ++ bs, out ++ bs.map (s.getD · 0), red)
  | a :: as, next, (tr, out, red) =>
    let bs := List.range' next (a - next)
    reduceLoop keep s as (a + 1) (tr ++ bs, out ++ bs.map (s.getD · 0) ++ (if keep then [1] else []), red * s.getD a 0)

/-- Sum::setup_impl (sum.cpp:37-75): new members and output shape. -/
def reduceSetup (o : ReduceObj) (s : Shape) : Except String (ReduceObj × Shape) :=
  match refineAxes s.length o.axes with
  | .error e => .error e
  | .ok refined =>
    let axes := refined.map Int.toNat
    let r := reduceLoop o.keep s axes 0 ([], [], 1)
    let tr := r.1 ++ axes
    .ok ({ o with axes := refined, reductionSize := r.2.2,
                  fTranspose := if tr ≠ List.range s.length then some tr else o.fTranspose }, r.2.1)

/-- The loop over rows of every forward_impl_reduce: `y[o] = f(row o)`. -/
def rowForward (f : Mem ℝ → ℝ) (outer R : Nat) (x y : Mem ℝ) : Mem ℝ :=
  (List.range outer).foldl (fun y o => put y o (f fun i => x (o * R + i))) y

/-- Sum::forward_impl (sum.cpp:77-94) with the row function `f` of the class (the size of a row is its first argument).
`buf` is the content of the fresh buffer of the transposed input. -/
def reduceForward (f : Nat → Mem ℝ → ℝ) (o : ReduceObj) (s : Shape) (x buf y : Mem ℝ) : Except String (Mem ℝ) :=
  if o.reductionSize = 0 then .error "division by zero"
  else
    let outer := size s / o.reductionSize
    match o.fTranspose with
    | none => .ok (rowForward (f o.reductionSize) outer o.reductionSize x y)
    | some tr =>
      match trSetup (tr.map fun a : Nat => (a : Int)) s with
      | .error e => .error e
      | .ok (_, st) => .ok (rowForward (f o.reductionSize) outer o.reductionSize (trForward st x buf) y)

/-- `mx.rowwise().sum()` (sum.cpp:121-128). -/
noncomputable def sumRow (R : Nat) (row : Mem ℝ) : ℝ := ∑ i ∈ Finset.range R, row i

/-- `mx.rowwise().sum() / reduction_size` (mean.cpp:24-31). -/
noncomputable def meanRow (R : Nat) (row : Mem ℝ) : ℝ := (∑ i ∈ Finset.range R, row i) / R

/-- Prod::forward_impl_reduce (prod.cpp:22-32). -/
def prodRow (R : Nat) (row : Mem ℝ) : ℝ := (List.range R).foldl (fun v i => v * row i) 1

open Classical in
/-- The inner loop of Max::forward_impl_reduce (max.cpp:47-56): maximum and its position, starting from -1e+8. -/
noncomputable def maxLoop (R : Nat) (row : Mem ℝ) : ℝ × Nat :=
  (List.range R).foldl (fun m i => if row i > m.1 then (row i, i) else m) (-100000000, 0)

open Classical in
/-- The inner loop of Min::forward_impl_reduce (min.cpp:30-39). -/
noncomputable def minLoop (R : Nat) (row : Mem ℝ) : ℝ × Nat :=
  (List.range R).foldl (fun m i => if row i < m.1 then (row i, i) else m) (100000000, 0)

/-- backward_impl_reduce of Sum, Mean, Prod: `dx[o R + i] (+)= g o i`. -/
def rowBackward (g : Nat → Nat → ℝ) (outer R : Nat) (accum : Bool) (dx : Mem ℝ) : Mem ℝ :=
  (List.range outer).foldl (fun m o => forPut R (fun i => o * R + i) (fun i v => (if accum then v else 0) + g o i) m) dx

/-- Sum (sum.cpp:130-140). -/
def sumGrad (dy : Mem ℝ) (o _i : Nat) : ℝ := dy o

/-- Mean (mean.cpp:33-43). -/
noncomputable def meanGrad (R : Nat) (dy : Mem ℝ) (o _i : Nat) : ℝ := dy o / R

open Classical in
/-- Prod (prod.cpp:66-83). -/
noncomputable def prodGrad (R : Nat) (x y dy : Mem ℝ) (o i : Nat) : ℝ := if x (o * R + i) = 0 then 0 else dy o * y o / x (o * R + i)

/-- Max::backward_impl_reduce (max.cpp:59-68), also inherited by Min; `ind` is the index buffer. -/
def indBackward (ind : Nat → Nat) (outer R : Nat) (accum : Bool) (dy dx : Mem ℝ) : Mem ℝ :=
  (List.range outer).foldl (fun m o => put m (o * R + ind o) (m (o * R + ind o) + dy o))
    (if accum then dx else fun i => if i < outer * R then 0 else dx i)

/-- Sum::backward_impl (sum.cpp:96-119), Prod::backward_impl (prod.cpp:34-64): `bw` is backward_impl_reduce, given the
(transposed) input, the accumulate flag, the output gradient and the gradient buffer. -/
def reduceBackward (bw : Nat → Nat → Mem ℝ → Bool → Mem ℝ → Mem ℝ → Mem ℝ) (o : ReduceObj) (s : Shape) (x buf gbuf : Mem ℝ) (accum : Bool)
    (dy dx : Mem ℝ) : Except String (Mem ℝ) :=
  if o.reductionSize = 0 then .error "division by zero"
  else
    let outer := size s / o.reductionSize
    match o.fTranspose with
    | none => .ok (bw outer o.reductionSize x accum dy dx)
    | some tr =>
      match trSetup (tr.map fun a : Nat => (a : Int)) s with
      | .error e => .error e
      | .ok (_, st) => .ok (callBackward (trBackward st) accum (bw outer o.reductionSize (trForward st x buf) false dy gbuf) dx)

/-! ### Specification -/

/-- The axes that stay. -/
def keptAxes (n : Nat) (red : List Nat) : List Nat := (List.range n).filter (· ∉ red)

/-- Coordinates of an index on some axes. -/
def pick (axes i : List Nat) : List Nat := axes.map (i.getD · 0)

/-- Shape of the result: the reduced axes disappear, or have extent 1 with keep_dims. -/
def outShape (keep : Bool) (red : List Nat) (s : Shape) : Shape :=
  if keep then (List.range s.length).map fun a => if a ∈ red then 1 else s.getD a 0 else pick (keptAxes s.length red) s

/-- The element of the result the element at `i` of the input contributes to. -/
def outIndex (keep : Bool) (red : List Nat) (n : Nat) (i : List Nat) : List Nat :=
  if keep then (List.range n).map fun a => if a ∈ red then 0 else i.getD a 0 else pick (keptAxes n red) i

/-- The input indices that contribute to the same element of the result as `i`. -/
def fiber (red : List Nat) (s : Shape) (i : List Nat) : List (List Nat) :=
  (indices s).filter fun i' => outIndex false red s.length i' = outIndex false red s.length i

/-! ### Setup -/

theorem range'_split (n a : Nat) (h : n ≤ a) (m : Nat) (hm : a < m) :
    List.range' n (m - n) = List.range' n (a - n) ++ a :: List.range' (a + 1) (m - (a + 1)) := by
  have e : m - n = (a - n) + (1 + (m - (a + 1))) := by omega
  rw [e, ← List.range'_append_1, ← List.range'_append_1]
  have e2 : n + (a - n) = a := by omega
  rw [e2]
  simp

/-- What the loop computes, for ascending axes. -/
theorem reduceLoop_eq (keep : Bool) (s : Shape) (red : List Nat) (next : Nat) (tr : List Nat) (out : Shape) (r : Nat)
    (hs : red.Pairwise (· < ·)) (hlo : ∀ a ∈ red, next ≤ a) (hhi : ∀ a ∈ red, a < s.length) :
    reduceLoop keep s red next (tr, out, r) =
      (tr ++ (List.range' next (s.length - next)).filter (· ∉ red),
        out ++ (if keep then (List.range' next (s.length - next)).map (fun a => if a ∈ red then 1 else s.getD a 0)
          else ((List.range' next (s.length - next)).filter (· ∉ red)).map (s.getD · 0)),
        r * prod (red.map (s.getD · 0))) := by
  induction red generalizing next tr out r with
  | nil => cases keep <;> simp [reduceLoop, prod]
  | cons a as ih =>
    have ha := hlo a List.mem_cons_self
    have hm := hhi a List.mem_cons_self
    rw [List.pairwise_cons] at hs
    have hnext : ∀ b ∈ as, a + 1 ≤ b := fun b hb => hs.1 b hb
    simp only [reduceLoop]
    rw [ih (a + 1) _ _ _ hs.2 hnext (fun b hb => hhi b (List.mem_cons_of_mem _ hb)), range'_split next a ha s.length hm]
    have h1 : ∀ b ∈ List.range' next (a - next), b ∉ a :: as := by
      intro b hb
      simp only [List.mem_range'_1] at hb
      simp only [List.mem_cons, not_or]
      refine ⟨by omega, fun hb' => ?_⟩
      have := hnext b hb'
      omega
    have h2 : ∀ b ∈ List.range' (a + 1) (s.length - (a + 1)), (b ∈ a :: as ↔ b ∈ as) := by
      intro b hb
      simp only [List.mem_range'_1] at hb
      simp only [List.mem_cons]
      constructor
      · rintro (h | h)
        · omega
        · exact h
      · exact Or.inr
    have f1 : (List.range' next (a - next)).filter (· ∉ a :: as) = List.range' next (a - next) :=
      List.filter_eq_self.mpr fun b hb => by simpa using h1 b hb
    have f2 : (List.range' (a + 1) (s.length - (a + 1))).filter (· ∉ a :: as) = (List.range' (a + 1) (s.length - (a + 1))).filter (· ∉ as) :=
      List.filter_congr fun b hb => by simp only [h2 b hb]
    have g1 : (List.range' next (a - next)).map (fun b => if b ∈ a :: as then 1 else s.getD b 0) = (List.range' next (a - next)).map (s.getD · 0) :=
      List.map_congr_left fun b hb => by rw [if_neg (h1 b hb)]
    have g2 : (List.range' (a + 1) (s.length - (a + 1))).map (fun b => if b ∈ a :: as then 1 else s.getD b 0) =
        (List.range' (a + 1) (s.length - (a + 1))).map (fun b => if b ∈ as then 1 else s.getD b 0) :=
      List.map_congr_left fun b hb => by simp only [h2 b hb]
    have hh : decide (a ∉ a :: as) = false := by simp
    rw [List.filter_append, List.map_append, List.filter_cons, f1, f2, List.map_cons, g1, g2]
    simp only [hh, List.mem_cons_self, if_true, Bool.false_eq_true, if_false, List.map_append, List.append_assoc, prod, List.map_cons]
    cases keep <;> simp [Nat.mul_assoc]

theorem sorted_nat (red : List Nat) (hs : red.Pairwise (· < ·)) : (red.map fun a : Nat => (a : Int)).insertionSort (· ≤ ·) = red.map fun a : Nat => (a : Int) := by
  apply List.Pairwise.insertionSort_eq
  rw [List.pairwise_map]
  exact hs.imp fun h => by omega

/-- The state after setup for ascending non-negative axes. -/
def readyObj (keep : Bool) (red : List Nat) (s : Shape) : ReduceObj :=
  { axes := red.map (fun a : Nat => (a : Int)), keep := keep,
    fTranspose := if keptAxes s.length red ++ red ≠ List.range s.length then some (keptAxes s.length red ++ red) else none,
    reductionSize := prod (pick red s) }

theorem reduceSetup_eq (o : ReduceObj) (red : List Nat) (s : Shape) (hs : red.Pairwise (· < ·)) (hhi : ∀ a ∈ red, a < s.length)
    (h : refineAxes s.length o.axes = .ok (red.map fun a : Nat => (a : Int))) :
    reduceSetup o s = .ok (⟨red.map (fun a : Nat => (a : Int)), o.keep,
      if keptAxes s.length red ++ red ≠ List.range s.length then some (keptAxes s.length red ++ red) else o.fTranspose,
      prod (pick red s)⟩, outShape o.keep red s) := by
  unfold reduceSetup
  rw [h]
  have e1 : (red.map fun a : Nat => (a : Int)).map Int.toNat = red := by simp [Function.comp_def]
  simp only [e1]
  rw [reduceLoop_eq o.keep s red 0 [] [] 1 hs (fun _ _ => Nat.zero_le _) hhi]
  simp only [List.nil_append, Nat.sub_zero, ← List.range_eq_range', Nat.one_mul]
  rfl

/-- The refined, sorted axes. -/
theorem refine_sorted (axes : List Int) (n : Nat) (hr : ∀ a ∈ axes, -(n : Int) ≤ a ∧ a < n) (hnd : axes.Nodup)
    (hsign : (∀ a ∈ axes, 0 ≤ a) ∨ ∀ a ∈ axes, a < 0) :
    ∃ red : List Nat, red.Pairwise (· < ·) ∧ (∀ a ∈ red, a < n) ∧
      (∀ a : Nat, a ∈ red ↔ ((a : Int) ∈ axes ∨ (a : Int) - n ∈ axes) ∧ a < n) ∧
      ∀ l : List Int, l.Perm axes → l.Pairwise (· ≤ ·) → refineAxes n l = .ok (red.map fun a : Nat => (a : Int)) := by
  have hf : ∀ a ∈ axes, (0 : Int) ≤ (if a < 0 then n + a else a) := by
    intro a ha; have := hr a ha; split <;> omega
  refine ⟨(axes.insertionSort (· ≤ ·)).map fun a => (if a < 0 then (n : Int) + a else a).toNat, ?_, ?_, ?_, ?_⟩
  · rw [List.pairwise_map]
    have hp := List.perm_insertionSort (· ≤ ·) axes
    have hsort := List.pairwise_insertionSort (· ≤ · : Int → Int → Prop) axes
    have hnd' : (axes.insertionSort (· ≤ ·)).Nodup := hp.nodup_iff.mpr hnd
    refine (hsort.and hnd').imp_of_mem ?_
    rintro a b ha hb ⟨h1, h2⟩
    have ha := hp.mem_iff.mp ha
    have hb := hp.mem_iff.mp hb
    have hra := hr a ha
    have hrb := hr b hb
    rcases hsign with hs | hs
    · have := hs a ha
      have := hs b hb
      rw [if_neg (by omega), if_neg (by omega)]
      omega
    · have := hs a ha
      have := hs b hb
      rw [if_pos (by omega), if_pos (by omega)]
      omega
  · intro a ha
    obtain ⟨b, hb, rfl⟩ := List.mem_map.mp ha
    have hb := (List.perm_insertionSort (· ≤ ·) axes).mem_iff.mp hb
    have := hr b hb
    split <;> omega
  · intro a
    simp only [List.mem_map, (List.perm_insertionSort (· ≤ ·) axes).mem_iff]
    constructor
    · rintro ⟨b, hb, rfl⟩
      have h1 := hr b hb
      by_cases h : b < 0
      · rw [if_pos h]
        refine ⟨Or.inr ?_, by omega⟩
        have : (((n : Int) + b).toNat : Int) - n = b := by omega
        rwa [this]
      · rw [if_neg h]
        refine ⟨Or.inl ?_, by omega⟩
        have : (b.toNat : Int) = b := by omega
        rwa [this]
    · rintro ⟨h | h, hlt⟩
      · exact ⟨a, h, by rw [if_neg (by omega)]; omega⟩
      · exact ⟨(a : Int) - n, h, by rw [if_pos (by omega)]; omega⟩
  · intro l hl hsort
    have e : l = axes.insertionSort (· ≤ ·) :=
      (hl.trans (List.perm_insertionSort (· ≤ ·) axes).symm).eq_of_pairwise' hsort (List.pairwise_insertionSort _ axes)
    subst e
    rw [refineAxes_ok _ _ fun a ha => hr a ((List.perm_insertionSort (· ≤ ·) axes).mem_iff.mp ha), List.map_map]
    congr 1
    apply List.map_congr_left
    intro a ha
    have := hf a ((List.perm_insertionSort (· ≤ ·) axes).mem_iff.mp ha)
    simp only [Function.comp]
    omega

/-- **C85.** Setting up a reduction: axes in range, without repetition, and either all counted from the front or all from the
end. The reduced axes disappear from (or become 1 in) the shape. -/
theorem C85_setup_partial (axes : List Int) (keep : Bool) (s : Shape) (hr : ∀ a ∈ axes, -(s.length : Int) ≤ a ∧ a < s.length) (hnd : axes.Nodup)
    (hsign : (∀ a ∈ axes, 0 ≤ a) ∨ ∀ a ∈ axes, a < 0) :
    ∃ red : List Nat, red.Pairwise (· < ·) ∧ (∀ a ∈ red, a < s.length) ∧
      (∀ a : Nat, a ∈ red ↔ ((a : Int) ∈ axes ∨ (a : Int) - s.length ∈ axes) ∧ a < s.length) ∧
      reduceSetup (reduceNew axes keep) s = .ok (readyObj keep red s, outShape keep red s) := by
  obtain ⟨red, h1, h2, h3, h4⟩ := refine_sorted axes s.length hr hnd hsign
  refine ⟨red, h1, h2, h3, ?_⟩
  rw [reduceSetup_eq _ red s h1 h2]
  · rfl
  · unfold reduceNew
    by_cases hl : axes.length ≤ 1
    · simp only [if_pos hl]
      refine h4 axes (List.Perm.refl _) ?_
      match axes, hl with
      | [], _ => exact List.Pairwise.nil
      | [a], _ => exact List.pairwise_singleton _ _
    · simp only [if_neg hl]
      exact h4 _ (List.perm_insertionSort (· ≤ ·) axes) (List.pairwise_insertionSort _ axes)

/-- **C85.** Setting up again for another shape of the same rank gives what a fresh setup gives. -/
theorem C85_resetup (keep : Bool) (red : List Nat) (s s' : Shape) (hs : red.Pairwise (· < ·)) (hhi : ∀ a ∈ red, a < s.length)
    (hl : s'.length = s.length) :
    reduceSetup (readyObj keep red s) s' = .ok (readyObj keep red s', outShape keep red s') := by
  rw [reduceSetup_eq (readyObj keep red s) red s' hs (by rw [hl]; exact hhi) (refineAxes_nat red s'.length (by rw [hl]; exact hhi))]
  simp only [readyObj, hl]
  by_cases h : keptAxes s.length red ++ red ≠ List.range s.length
  · simp only [if_pos h]
  · simp only [if_neg h]

/-- **C85, refuted part.** Axes counted from different ends: they are sorted before being made non-negative, the axis list of
the internal transpose is no permutation and forward fails. -/
theorem C85_mixed_axes_refuted :
    reduceSetup (reduceNew [0, -1] false) [2, 3, 4] = .ok (⟨[2, 0], false, some [0, 1, 1, 2, 2, 0], 8⟩, [2, 3, 3, 4]) ∧
    ∀ f x buf y, ∃ e, reduceForward f ⟨[2, 0], false, some [0, 1, 1, 2, 2, 0], 8⟩ [2, 3, 4] x buf y = .error e := by
  refine ⟨by decide, ?_⟩
  intro f x buf y
  have : trSetup (([0, 1, 1, 2, 2, 0] : List Nat).map fun a : Nat => (a : Int)) [2, 3, 4] = .error "Length of axes must be same as ndim of input." := by decide
  simp only [reduceForward, this]
  exact ⟨_, rfl⟩

/-- **C85, refuted part.** An empty list of axes reduces nothing, although the documentation of the argument says that all
dimensions are reduced to a scalar. -/
theorem C85_empty_axes_refuted (s : Shape) (keep : Bool) :
    reduceSetup (reduceNew [] keep) s = .ok (⟨[], keep, none, 1⟩, s) := by
  have hr : (List.range s.length).map (fun a => s.getD a 0) = s := by
    apply List.ext_getElem
    · simp
    · intro i h1 h2; simp [List.getD_eq_getElem?_getD, List.getElem?_eq_getElem h2]
  have hk : keptAxes s.length [] = List.range s.length := by simp [keptAxes]
  rw [reduceSetup_eq (reduceNew [] keep) [] s List.Pairwise.nil (by simp) rfl, hk]
  simp only [List.append_nil, ne_eq, not_true_eq_false, if_false, reduceNew, List.length_nil]
  simp only [List.getD_eq_getElem?_getD] at hr
  cases keep <;> simp [outShape, pick, prod, hk, hr]

/-- **C85, refuted part.** The internal transpose is never dropped: reduce axis 1 of a 3-D array, then of a 2-D array, and
forward fails although a fresh function works. -/
theorem C85_stale_transpose_refuted :
    reduceSetup (reduceNew [1] false) [2, 3, 4] = .ok (⟨[1], false, some [0, 2, 1], 3⟩, [2, 4]) ∧
    reduceSetup ⟨[1], false, some [0, 2, 1], 3⟩ [2, 3] = .ok (⟨[1], false, some [0, 2, 1], 3⟩, [2]) ∧
    (∀ f x buf y, ∃ e, reduceForward f ⟨[1], false, some [0, 2, 1], 3⟩ [2, 3] x buf y = .error e) ∧
    reduceSetup (reduceNew [1] false) [2, 3] = .ok (⟨[1], false, none, 3⟩, [2]) ∧
    ∀ f x buf y, ∃ r, reduceForward f ⟨[1], false, none, 3⟩ [2, 3] x buf y = .ok r := by
  refine ⟨by decide, by decide, ?_, by decide, fun f x buf y => ⟨_, rfl⟩⟩
  intro f x buf y
  have : trSetup (([0, 2, 1] : List Nat).map fun a : Nat => (a : Int)) [2, 3] = .error "each axis element must be in the range of [-ndim, ndim)." := by decide
  simp only [reduceForward, this]
  exact ⟨_, rfl⟩

end Verif.Elem
