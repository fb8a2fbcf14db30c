import Verif.Detect.Props
/-
Models /repo/src/nbla/function/generic/onnx_non_max_suppression.cpp.
Simplifications: elements come from an ordered field (no rounding, no NaN, no overflow); boxes and scores are functions of the indices that
the pointer arithmetic (row-major, shapes (B, N, 4) and (B, C, N)) stands for; std::sort is a parameter specified by the C++ standard
(Verif.Detect.IsSortDesc); the memory reserved for batch * classes * max_output_boxes entries is available.
-/
namespace Verif.OnnxNms
open Verif.Detect

variable {K : Type} [Field K] [LinearOrder K]

/-- calculate_overlap_with_range (onnx_non_max_suppression.cpp:23-27). -/
def overlapRange (a1 a2 b1 b2 : K) : K := min a2 b2 - max a1 b1

/-- calculate_overlap_with_center (onnx_non_max_suppression.cpp:29-33). -/
def overlapCenter (xa wa xb wb : K) : K := overlapRange (xa - wa / 2) (xa + wa / 2) (xb - wb / 2) (xb + wb / 2)

/-- The end of calculate_iou (onnx_non_max_suppression.cpp:72-82). -/
def ratio (wi hi wa ha wb hb : K) : K :=
  if wi ≤ 0 ∨ hi ≤ 0 then 0
  else
    let inter := wi * hi
    inter / (wa * ha + wb * hb - inter)

/-- calculate_iou (onnx_non_max_suppression.cpp:35-83); std::minmax gives the smaller and the larger of two numbers. -/
def iou (center : Nat) (a b : Nat → K) : K :=
  if center = 0 then
    let ya1 := min (a 0) (a 2)
    let ya2 := max (a 0) (a 2)
    let xa1 := min (a 1) (a 3)
    let xa2 := max (a 1) (a 3)
    let yb1 := min (b 0) (b 2)
    let yb2 := max (b 0) (b 2)
    let xb1 := min (b 1) (b 3)
    let xb2 := max (b 1) (b 3)
    ratio (overlapRange xa1 xa2 xb1 xb2) (overlapRange ya1 ya2 yb1 yb2) (xa2 - xa1) (ya2 - ya1) (xb2 - xb1) (yb2 - yb1)
  else ratio (overlapCenter (a 0) (a 2) (b 0) (b 2)) (overlapCenter (a 1) (a 3) (b 1) (b 3)) (a 2) (a 3) (b 2) (b 3)

/-- selected_boxes[x] = v. -/
def set (f : Nat → Bool) (x : Nat) (v : Bool) : Nat → Bool := fun y => if y = x then v else f y

/-- The loop over j (onnx_non_max_suppression.cpp:131-143): the boxes after box_index in the order of scores. -/
def suppress (ov : Nat → Nat → K) (t : K) (box : Nat) (f : Nat → Bool) : List Nat → Nat → Bool
  | [] => f
  | j :: rest => suppress ov t box (if !f j then f else if ov box j > t then set f j false else f) rest

/-- The loop over i (onnx_non_max_suppression.cpp:125-144), over the rest of the sorted list of indices. -/
def select (ov : Nat → Nat → K) (t : K) (f : Nat → Bool) : List Nat → Nat → Bool
  | [] => f
  | i :: rest => select ov t (if !f i then f else suppress ov t i f rest) rest

/-- "Fill outputs" (onnx_non_max_suppression.cpp:146-157). -/
def fillOut (mx : Nat) (f : Nat → Bool) : List Nat → Nat → List Nat
  | [], _ => []
  | i :: rest, count =>
    if f i then (if count + 1 ≥ mx then [i] else i :: fillOut mx f rest (count + 1))
    else fillOut mx f rest count

/-- One class of one batch (onnx_non_max_suppression.cpp:107-157): the boxes selected, in order. -/
def classOut (srt : (Nat → Nat → Bool) → List Nat → List Nat) (N mx : Nat) (ov : Nat → Nat → K) (t st : K) (score : Nat → K) : List Nat :=
  let ord := srt (fun i j => decide (score i > score j)) (List.range N)
  fillOut mx (select ov t (fun i => decide (score i ≥ st)) ord) ord 0

/-- non_max_suppression_impl (onnx_non_max_suppression.cpp:86-160): the (batch, class, box) triples. -/
def nms (srt : (Nat → Nat → Bool) → List Nat → List Nat) (B N C center mx : Nat) (t st : K) (boxes : Nat → Nat → Nat → K)
    (scores : Nat → Nat → Nat → K) : List (Nat × Nat × Nat) :=
  if mx = 0 then []
  else (List.range B).foldl (fun out b => (List.range C).foldl (fun out k =>
    out ++ (classOut srt N mx (fun i j => iou center (boxes b i) (boxes b j)) t st (scores b k)).map fun i => (b, k, i)) out) []

/-- The inputs: shapes and elements. -/
structure Inputs (K : Type) where
  boxesShape : List Nat
  boxes : Nat → Nat → Nat → K
  scoresShape : List Nat
  scores : Nat → Nat → Nat → K

/-- The checks of setup_impl (onnx_non_max_suppression.cpp:166-205): batch size, number of boxes, number of classes. -/
def check (x : Inputs K) (center mx : ℤ) : Except String (Nat × Nat × Nat) :=
  if x.boxesShape.length ≠ 3 then .error "The number of dimension of boxes must be 3."
  else if x.boxesShape.getD 2 0 ≠ 4 then .error "The shape of boxes is illegal."
  else if x.scoresShape.length ≠ 3 then .error "The number of dimension of scores must be 3."
  else if x.scoresShape.getD 0 0 ≠ x.boxesShape.getD 0 0 then .error "must be same as batch size"
  else if x.scoresShape.getD 2 0 ≠ x.boxesShape.getD 1 0 then .error "must be same as the number of boxes"
  else if ¬ (0 ≤ center ∧ center ≤ 1) then .error "center_point_box must be 0 or 1."
  else if mx < 0 then .error "max_output_boxes_per_class must be non-negative."
  else .ok (x.boxesShape.getD 0 0, x.boxesShape.getD 1 0, x.scoresShape.getD 1 0)

/-- setup_impl (onnx_non_max_suppression.cpp:164-209): the selection is computed here, and the output (one row per triple) is written;
`out` is the output before. The members of the last successful check are not kept in the model because they are set again before use. -/
def setup (srt : (Nat → Nat → Bool) → List Nat → List Nat) (center mx : ℤ) (t st : K) (x : Inputs K) (out : List (Nat × Nat × Nat)) :
    Except String Unit × List (Nat × Nat × Nat) :=
  match check x center mx with
  | .error e => (.error e, out)
  | .ok (B, N, C) => (.ok (), nms srt B N C center.toNat mx.toNat t st x.boxes x.scores)

/-- forward_impl (onnx_non_max_suppression.cpp:211-216): empty. -/
def forward (_ : Inputs K) (out : List (Nat × Nat × Nat)) : List (Nat × Nat × Nat) := out

end Verif.OnnxNms
