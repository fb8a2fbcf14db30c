import Verif.Elem.Softmax
import Mathlib.Algebra.Order.Field.Basic
import Mathlib.Algebra.Order.Field.Rat
import Mathlib.Tactic.Linarith
import Mathlib.Tactic.FieldSimp
import Mathlib.Data.Finset.Prod
/-
Models /repo/src/nbla/function/generic/{nms_detection2d,confusion_matrix}.cpp.
Simplifications: elements come from an ordered field (no rounding, no NaN); `int` is unbounded; std::sort is a parameter
specified by the C++ standard; an access outside an array is an error.
-/
namespace Verif.Detect
open Verif.Fn Verif.ND Verif.Elem

section nms
variable {K : Type} [Field K] [LinearOrder K]

/-- calculate_overlap (nms_detection2d.cpp:43-46). -/
def overlap (x1 w1 x2 w2 : K) : K := min (x1 + w1 / 2) (x2 + w2 / 2) - max (x1 - w1 / 2) (x2 - w2 / 2)

/-- calculate_iou (nms_detection2d.cpp:48-76). -/
def iouOf (x1 y1 w1 h1 x2 y2 w2 h2 : K) : K :=
  let w := overlap x1 w1 x2 w2
  let h := overlap y1 h1 y2 h2
  if w ≤ 0 ∨ h ≤ 0 then 0
  else
    let inter := w * h
    inter / (w1 * h1 + w2 * h2 - inter)

/-- calculate_iou on the boxes i and j of batch b in memory; the channel c of box i of batch b is at off N C b i c, which is
(b * num_nhw + i) * num_c + c (nms_detection2d.cpp:141-150, 211-217). -/
def iouAt (N C b : Nat) (y : Mem K) (i j : Nat) : K :=
  iouOf (y (off N C b i 0)) (y (off N C b i 1)) (y (off N C b i 2)) (y (off N C b i 3))
    (y (off N C b j 0)) (y (off N C b j 1)) (y (off N C b j 2)) (y (off N C b j 3))

/-- suppress_under_thresh (nms_detection2d.cpp:85-87). -/
def sup (t v : K) : K := if v < t then 0 else v

/-- "Fill outputs first" (nms_detection2d.cpp:103-121 and 182-200). -/
def fill (B N C : Nat) (t : K) (x y : Mem K) : Mem K :=
  (List.range (B * N)).foldl (fun y i =>
    let y := put y (i * C + 0) (x (i * C + 0))
    let y := put y (i * C + 1) (x (i * C + 1))
    let y := put y (i * C + 2) (x (i * C + 2))
    let y := put y (i * C + 3) (x (i * C + 3))
    let y := put y (i * C + 4) (sup t (x (i * C + 4)))
    (List.range (C - 5)).foldl (fun y k => put y (i * C + (5 + k)) (sup t (sup t (x (i * C + 4)) * x (i * C + (5 + k))))) y) y

/-- NMS for class k and batch b (nms_detection2d.cpp:131-160): sort by score, then every box that is not suppressed suppresses
the later boxes it overlaps. -/
def nmsClass (srt : (Nat → Nat → Bool) → List Nat → List Nat) (N C : Nat) (nms : K) (k b : Nat) (y : Mem K) : Mem K :=
  let ord := srt (fun i j => decide (y (off N C b i (5 + k)) > y (off N C b j (5 + k)))) (List.range N)
  (List.range N).foldl (fun y i =>
    if y (off N C b (ord.getD i 0) (5 + k)) = 0 then y
    else (List.range' (i + 1) (N - 1 - i)).foldl (fun y j =>
      if y (off N C b (ord.getD j 0) (5 + k)) = 0 then y
      else if iouAt N C b y (ord.getD i 0) (ord.getD j 0) > nms then put y (off N C b (ord.getD j 0) (5 + k)) 0
      else y) y) y

/-- forward_impl_per_class (nms_detection2d.cpp:89-164); `sched` lists the classes in the order in which their iterations are
executed (0, 1, … sequentially, any permutation when they are shared among OpenMP threads). -/
def nmsPerClass (srt : (Nat → Nat → Bool) → List Nat → List Nat) (sched : List Nat) (B N C : Nat) (t nms : K) (x y : Mem K) : Mem K :=
  sched.foldl (fun y k => (List.range B).foldl (fun y b => nmsClass srt N C nms k b y) y) (fill B N C t x y)

/-- "objectness = 0; all class probabilities = 0" (nms_detection2d.cpp:219-222). -/
def zeroBox (N C b i : Nat) (y : Mem K) : Mem K :=
  (List.range (C - 5)).foldl (fun y k => put y (off N C b i (5 + k)) 0) (put y (off N C b i 4) 0)

/-- The body of the loop over i (nms_detection2d.cpp:209-226). -/
def nmsBox (N C b : Nat) (nms : K) (ord : List Nat) (i : Nat) (y : Mem K) : Mem K :=
  if y (off N C b (ord.getD i 0) 4) = 0 then y
  else (List.range i).reverse.foldl (fun y j =>
    if iouAt N C b y (ord.getD i 0) (ord.getD j 0) > nms then zeroBox N C b (ord.getD i 0) y else y) y

/-- NMS of one batch by objectness (nms_detection2d.cpp:203-227); `sched` lists the iterations of the loop over i in the order
in which they are executed (N-1, …, 0 sequentially, any permutation when they are shared among OpenMP threads). -/
def nmsBatch (srt : (Nat → Nat → Bool) → List Nat → List Nat) (sched : List Nat) (N C : Nat) (nms : K) (b : Nat) (y : Mem K) : Mem K :=
  let ord := srt (fun i j => decide (y (off N C b i 4) > y (off N C b j 4))) (List.range N)
  sched.foldl (fun y i => nmsBox N C b nms ord i y) y

/-- forward_impl with nms_per_class = false (nms_detection2d.cpp:166-228). -/
def nmsObjectness (srt : (Nat → Nat → Bool) → List Nat → List Nat) (sched : Nat → List Nat) (B N C : Nat) (t nms : K) (x y : Mem K) : Mem K :=
  (List.range B).foldl (fun y b => nmsBatch srt (sched b) N C nms b y) (fill B N C t x y)

/-- std::sort with the comparison `key i > key j` (index_sort_ascend, nms_detection2d.cpp:78-83) on 0, …, n-1: a permutation with
descending keys; the order of equal keys is unspecified. -/
def IsSortDesc (K : Type) [LinearOrder K] (srt : (Nat → Nat → Bool) → List Nat → List Nat) : Prop :=
  ∀ (key : Nat → K) n, (srt (fun i j => decide (key i > key j)) (List.range n)).Perm (List.range n) ∧
    (srt (fun i j => decide (key i > key j)) (List.range n)).Pairwise fun i j => key i ≥ key j

end nms

/-! ### ConfusionMatrix -/

/-- setup_impl (confusion_matrix.cpp:30-67): label shape checks, output shape, sizes. -/
def cmSetup (axis : Int) (s l : Shape) : Except String (Shape × (Nat × Nat × Nat)) :=
  match refineAxis axis s.length with
  | .error e => .error e
  | .ok a =>
    if l.length ≠ s.length then .error "The length of each input dimension must match."
    else if ∃ i, i < l.length ∧ (if i = a then l.getD i 0 ≠ 1 else l.getD i 0 ≠ s.getD i 0) then .error "Dimensions of inputs must match except axis."
    else match sliceSetup axis s with
      | .error e => .error e
      | .ok z => .ok ([s.getD a 0, s.getD a 0], z)

/-- The index of the estimated class (confusion_matrix.cpp:83-89). -/
def cmIndex {T} [LinearOrder T] (n1 n2 : Nat) (p : Mem T) (i0 i2 : Nat) : Nat :=
  (List.range' 1 (n1 - 1)).foldl (fun index i1 => if p (i0 * n1 * n2 + i2 + i1 * n2) > p (i0 * n1 * n2 + i2 + index * n2) then i1 else index) 0

/-- The body of the loops (confusion_matrix.cpp:80-90): y[label * size1 + index]++; outside of the array this is undefined. -/
def cmBody {T} [LinearOrder T] (n1 n2 : Nat) (p : Mem T) (l : Mem Int) (i0 i2 : Nat) (y : Mem Nat) : Except String (Mem Nat) :=
  let pos := l (i0 * n2 + i2) * n1 + cmIndex n1 n2 p i0 i2
  if 0 ≤ pos ∧ pos < n1 * n1 then .ok (put y pos.toNat (y pos.toNat + 1)) else .error "write outside of the array"

/-- forward_impl (confusion_matrix.cpp:69-93); memset to zero first. -/
def cmForward {T} [LinearOrder T] (n0 n1 n2 : Nat) (p : Mem T) (l : Mem Int) (y : Mem Nat) : Except String (Mem Nat) :=
  (List.range n0).foldlM (fun y i0 => (List.range n2).foldlM (fun y i2 => cmBody n1 n2 p l i0 i2 y) y)
    (fun i => if i < n1 * n1 then 0 else y i)

end Verif.Detect
