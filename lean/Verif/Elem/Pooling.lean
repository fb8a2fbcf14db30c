import Verif.Elem.ConvFormula
/-
Max, average and sum pooling: models /repo/include/nbla/function/utils/base_pooling.hpp,
/repo/src/nbla/function/utils/base_pooling.cpp and /repo/src/nbla/function/generic/{max,average,sum}_pooling.cpp over the real
numbers. The code has one copy of each loop nest for 2 and one for 3 axes; the model has one for any number of axes.
Simplifications: channel_last = false (the CPU functions reject true); strides are natural numbers; C++ int does not overflow; the
k-th iteration of the loops over y_idx is at the k-th multi-index in row-major order, where *y++ is y[k].
-/
namespace Verif.Elem
open Verif.Fn Verif.ND

/-! ### Specification -/

/-- One pooled axis. -/
structure PAxis where
  inp : Nat
  ker : Nat
  pad : Int
  stride : Nat
deriving DecidableEq, Repr

/-- Element i of the axis lies in the window at output position p: p * stride ≤ i + pad < p * stride + kernel. -/
def PAxis.sees (a : PAxis) (p i : Nat) : Bool := decide ((p : Int) * a.stride ≤ i + a.pad ∧ (i : Int) + a.pad < p * a.stride + a.ker)

def inWin : List PAxis → List Nat → List Nat → Bool
  | a :: as, p :: ps, i :: is => a.sees p i && inWin as ps is
  | _, _, _ => true

/-- The elements of a map of extents inps that lie in the window at `pos`, in row-major order. -/
def window (as : List PAxis) (pos : List Nat) : List (List Nat) := (indices (as.map (·.inp))).filter (inWin as pos)

/-! ### Model -/

/-- Output extent of an axis (base_pooling.cpp:63-69): C++ integer division. -/
def PAxis.outInt (a : PAxis) (ignoreBorder : Bool) : Int :=
  ((a.inp : Int) + a.pad - (if ignoreBorder then (a.ker : Int) - a.pad else 1)).tdiv a.stride + 1

/-- pool_start and pool_end before clipping (max_pooling.cpp:57-59). -/
def PAxis.raw (a : PAxis) (p : Nat) : Int × Int :=
  let s : Int := (p : Int) * a.stride - a.pad
  (s, min (s + a.ker) (a.inp + a.pad))

/-- pool_start and pool_end (max_pooling.cpp:60-61). -/
def PAxis.clip (a : PAxis) (p : Nat) : Int × Int := (max (a.raw p).1 0, min (a.raw p).2 a.inp)

def clips (as : List PAxis) (pos : List Nat) : List (Int × Int) := (as.zip pos).map fun q => q.1.clip q.2

/-- The loops for (i0 = pool_start[0]; i0 < pool_end[0]; ++i0) for (i1 ...) (max_pooling.cpp:65-66). -/
def loops : List (Int × Int) → List (List Nat)
  | [] => [[]]
  | (s, e) :: r => ((List.range (e - s).toNat).map (s.toNat + ·)).flatMap fun i => (loops r).map (i :: ·)

/-- The members and the sizes forward and backward derive from the shapes: number of maps, axes, output extents. -/
structure Pool where
  nmap : Nat
  axes : List PAxis
  outs : Shape
deriving DecidableEq, Repr

namespace Pool
def inps (c : Pool) : Shape := c.axes.map (·.inp)
/-- x_map_size. -/
def X (c : Pool) : Nat := prod c.inps
/-- y_map_size. -/
def Y (c : Pool) : Nat := prod c.outs
/-- y_idx in the k-th iteration. -/
def pos (c : Pool) (k : Nat) : List Nat := (indices c.outs).getD k []
/-- The offsets i0 * x_stride[0] + ... visited for output k. -/
def cells (c : Pool) (k : Nat) : List Nat := (loops (clips c.axes (c.pos k))).map fun i => nd2flat i (cStrides c.inps)

/-- max_pooling forward_map for one output (max_pooling.cpp:63-74): (max_idx, max_val); `xn` is the map. -/
noncomputable def maxAt (c : Pool) (xn : Mem ℝ) (k : Nat) : Nat × ℝ :=
  let start := nd2flat ((clips c.axes (c.pos k)).map fun b => b.1.toNat) (cStrides c.inps)
  (c.cells k).foldl (fun s i => if s.2 < xn i then (i, xn i) else s) (start, xn start)

/-- MaxPooling::forward_impl (max_pooling.cpp:140-191): the output and max_idx_. -/
noncomputable def maxForward (c : Pool) (x : Mem ℝ) (y : Mem ℝ) (m : Mem Nat) : Mem ℝ × Mem Nat :=
  (List.range c.nmap).foldl (fun s n => (forPut c.Y (fun k => n * c.Y + k) (fun k _ => (c.maxAt (fun i => x (n * c.X + i)) k).2) s.1,
    forPut c.Y (fun k => n * c.Y + k) (fun k _ => (c.maxAt (fun i => x (n * c.X + i)) k).1) s.2)) (y, m)

/-- MaxPooling::backward_impl (max_pooling.cpp:193-228). -/
noncomputable def maxBackward (c : Pool) (m : Mem Nat) (accum : Bool) (dy dx : Mem ℝ) : Mem ℝ :=
  (List.range c.nmap).foldl (fun d n => (List.range c.Y).foldl (fun d k =>
    put d (n * c.X + m (n * c.Y + k)) (d (n * c.X + m (n * c.Y + k)) + dy (n * c.Y + k))) d) (startGrad (c.nmap * c.X) accum dx)

/-- pool_size (average_pooling.cpp:60-73): of the window cut to the padded axes, or to the data. -/
noncomputable def poolSize (c : Pool) (incl : Bool) (k : Nat) : ℝ :=
  if incl then (((c.axes.zip (c.pos k)).map fun q => (((q.1.raw q.2).2 - (q.1.raw q.2).1 : Int) : ℝ)).prod)
  else ((clips c.axes (c.pos k)).map fun b => ((b.2 - b.1 : Int) : ℝ)).prod

/-- What pool_sum and the gradient are divided by: pool_size for average pooling, nothing for sum pooling. -/
noncomputable def divisor (c : Pool) (mode : Option Bool) (k : Nat) : ℝ := mode.elim 1 fun incl => c.poolSize incl k

/-- AveragePooling::forward_impl (mode = some including_pad; average_pooling.cpp:50-84, 207-252) and SumPooling::forward_impl
(mode = none; sum_pooling.cpp:48-73). -/
noncomputable def sumForward (c : Pool) (mode : Option Bool) (x y : Mem ℝ) : Mem ℝ :=
  (List.range c.nmap).foldl (fun y n => forPut c.Y (fun k => n * c.Y + k)
    (fun k _ => ((c.cells k).foldl (fun s i => s + x (n * c.X + i)) 0) / c.divisor mode k) y) y

/-- AveragePooling::backward_impl (average_pooling.cpp:127-165, 254-320) and SumPooling::backward_impl. -/
noncomputable def sumBackward (c : Pool) (mode : Option Bool) (accum : Bool) (dy dx : Mem ℝ) : Mem ℝ :=
  (List.range c.nmap).foldl (fun d n => (List.range c.Y).foldl (fun d k =>
    (c.cells k).foldl (fun d i => put d (n * c.X + i) (d (n * c.X + i) + dy (n * c.Y + k) / c.divisor mode k)) d) d) (startGrad (c.nmap * c.X) accum dx)

end Pool

def mkAxes : List Nat → List Nat → List Int → List Nat → List PAxis
  | i :: is, k :: ks, p :: ps, s :: ss => ⟨i, k, p, s⟩ :: mkAxes is ks ps ss
  | _, _, _, _ => []

/-- PoolingConfiguration and the sizes of forward_impl (base_pooling.cpp:19-96, max_pooling.cpp:150-157): an empty stride means
the kernel. There is no check of the output extents: negative ones would be passed to reshape, which the model reports as an error. -/
def poolSetup (xs : Shape) (kernel stride : List Nat) (pad : List Int) (ignoreBorder : Bool) : Except String (Pool × Shape) :=
  let stride := if stride.isEmpty then kernel else stride
  if kernel.length ≠ stride.length then .error "Length of kernel and stride must be same."
  else if ¬ kernel.length ≤ xs.length then .error "Length of kernel must be less than or equal to length of inshape."
  else if ¬ (kernel.length ≥ 2 ∧ kernel.length ≤ 3) then .error "2D and 3D Pooling are only supported so far."
  else if kernel.length ≠ pad.length then .error "Size of kernel and pad must be same."
  else
    let s := xs.length - kernel.length
    let axes := mkAxes (xs.drop s) kernel pad stride
    if axes.any (fun a => a.stride == 0) then .error "division by zero"
    else if axes.any (fun a => decide (a.outInt ignoreBorder < 0)) then .error "negative extent"
    else
      let outs := axes.map fun a => (a.outInt ignoreBorder).toNat
      .ok (⟨prod (xs.take s), axes, outs⟩, xs.take s ++ outs)

/-! ### The visited cells are the window -/

theorem range_filter (n a b : Nat) : (List.range n).filter (fun i => decide (a ≤ i ∧ i < b)) = (List.range (min b n - a)).map (a + ·) := by
  induction n with
  | zero => simp
  | succ n ih =>
    rw [List.range_succ, List.filter_append, ih]
    by_cases h : a ≤ n ∧ n < b
    · rw [List.filter_singleton]
      simp only [h, and_self, decide_true, if_true]
      rw [show min b (n + 1) - a = (min b n - a) + 1 by omega, List.range_succ, List.map_append]
      simp
      omega
    · rw [List.filter_singleton]
      simp only [h, decide_false]
      rw [show min b (n + 1) - a = min b n - a by omega]
      simp

theorem filter_flatMap_cons (l : List Nat) (f : Nat → Bool) (L : List (List Nat)) (g : List Nat → Bool) :
    (l.flatMap fun i => L.map (i :: ·)).filter (fun i => match i with | x :: is => f x && g is | _ => true) =
      (l.filter f).flatMap fun i => (L.filter g).map (i :: ·) := by
  induction l with
  | nil => rfl
  | cons x l ih =>
    rw [List.flatMap_cons, List.filter_append, ih]
    have e : (L.map (x :: ·)).filter (fun i => match i with | x :: is => f x && g is | _ => true) = if f x then (L.filter g).map (x :: ·) else [] := by
      clear ih
      induction L with
      | nil => simp
      | cons y L ihL =>
        rw [List.map_cons, List.filter_cons, ihL]
        cases hf : f x <;> cases hg : g y <;> simp [hf, hg]
    rw [e, List.filter_cons]
    cases f x <;> simp

theorem clip_range (a : PAxis) (p : Nat) (hp : 0 ≤ a.pad) :
    ((List.range ((a.clip p).2 - (a.clip p).1).toNat).map ((a.clip p).1.toNat + ·)) = (List.range a.inp).filter (a.sees p) := by
  have e : (List.range a.inp).filter (a.sees p) = (List.range a.inp).filter fun i => decide ((max ((p : Int) * a.stride - a.pad) 0).toNat ≤ i ∧
      i < ((p : Int) * a.stride - a.pad + a.ker).toNat) := by
    refine List.filter_congr fun i _ => ?_
    unfold PAxis.sees
    rw [decide_eq_decide]
    omega
  rw [e, range_filter]
  simp only [PAxis.clip, PAxis.raw]
  congr 2
  omega

theorem loops_eq (as : List PAxis) (pos : List Nat) (h : pos.length = as.length) (hp : ∀ a ∈ as, 0 ≤ a.pad) : loops (clips as pos) = window as pos := by
  induction as generalizing pos with
  | nil => cases pos with
    | nil => rfl
    | cons _ _ => simp at h
  | cons a as ih => cases pos with
    | nil => simp at h
    | cons p pos =>
      have ih := ih pos (by simpa using h) fun b hb => hp b (List.mem_cons_of_mem _ hb)
      have e : clips (a :: as) (p :: pos) = a.clip p :: clips as pos := rfl
      have e2 : loops (a.clip p :: clips as pos) = ((List.range ((a.clip p).2 - (a.clip p).1).toNat).map ((a.clip p).1.toNat + ·)).flatMap
          fun i => (loops (clips as pos)).map (i :: ·) := rfl
      rw [e, e2, clip_range a p (hp a (List.mem_cons_self ..)), ih]
      have e3 : window (a :: as) (p :: pos) = ((List.range a.inp).flatMap fun i => (indices (as.map (·.inp))).map (i :: ·)).filter
          (fun i => match i with | x :: is => a.sees p x && inWin as pos is | _ => true) := by
        unfold window
        simp only [List.map_cons, indices]
        refine List.filter_congr fun i _ => ?_
        cases i <;> rfl
      rw [e3, filter_flatMap_cons]
      rfl

theorem posAt (s : Shape) (j : List Nat) (h : InBounds s j) : (indices s).getD (ravel s j) [] = j := by
  have hl : (indices s).length = prod s := by
    have := congrArg List.length (indices_ravel s); simpa using this
  have hlt : ravel s j < (indices s).length := by rw [hl]; exact ravel_lt h
  have hm : InBounds s (indices s)[ravel s j] := (mem_indices _ _).mp (List.getElem_mem hlt)
  have e : ravel s (indices s)[ravel s j] = ravel s j := by
    have := congrArg (fun l => l[ravel s j]?) (indices_ravel s)
    simp only [List.getElem?_map, List.getElem?_eq_getElem hlt, Option.map_some, List.getElem?_range (ravel_lt h)] at this
    exact Option.some.inj this
  rw [List.getD_eq_getElem?_getD, List.getElem?_eq_getElem hlt, Option.getD_some]
  exact ravel_inj s _ _ hm h e

end Verif.Elem
