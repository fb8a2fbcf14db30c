import Verif.ND.Model
/-
Basic indexing `x[key]`: models
/repo/python/src/nnabla/_indexing.pyx (basic_getsetitem_prepare, basic_getsetitem_result_shape,
basic_getitem), /repo/python/src/nnabla/functions.py (slice) and
/repo/src/nbla/function/generic/slice.cpp (setup_impl, slice_forward_recursive,
slice_backward_recursive).
Simplifications: `int` is unbounded; memory is a function from (integer) offsets to elements so that
out-of-range accesses are expressible; pointer increments `p += stride` repeated `i` times are written
`i * stride`; `start_`, `stop_`, `step_` always have one row (slice.hpp:63-68), so `slice_index` is 0;
the memcpy case is the loop with stride 1.
-/
namespace Verif.Index
open Verif.ND

/-- A Python slice object `start:stop:step`. -/
structure PySlice where
  start : Option Int
  stop : Option Int
  step : Option Int
deriving DecidableEq, Repr

/-- `slice(None)`. -/
def PySlice.full : PySlice := ⟨none, none, none⟩

/-- One item of a basic-indexing key. -/
inductive Item
  | newaxis
  | int (i : Int)
  | slice (s : PySlice)
  | ellipsis
deriving DecidableEq, Repr

/-- Arguments of the C++ Slice function for one axis. -/
structure Ax where
  start : Int
  stop : Int
  step : Int
deriving DecidableEq, Repr

/-- SLICE_NONE (slice.hpp:57). -/
def sliceNone : Int := 0x7fffffff

/-- functions.py:352-369 `slice`: Python-side handling of `None`. -/
def pyArgs (dim : Nat) (s : PySlice) : Ax :=
  let neg : Bool := match s.step with
    | some t => decide (t < 0)
    | none => false
  { start := match s.start with
      | some v => v
      | none => if neg then -1 else 0
    stop := match s.stop with
      | some v => v
      | none => if neg then -(dim : Int) - 1 else dim
    step := match s.step with
      | some v => v
      | none => 1 }

/-- slice.cpp:66-119, body of the loop over axes: the new start/stop/step and the output extent. -/
def setupAxis (dim : Nat) (a : Ax) : Except String (Ax × Int) :=
  if a.step = 0 then .error "slice step cannot be zero"
  else
    let step := if a.step = sliceNone then 1 else a.step
    let start := if a.start < 0 then a.start + dim else a.start
    let stop := if a.stop < 0 then a.stop + dim else a.stop
    let start := if start = sliceNone then (if step > 0 then 0 else (dim : Int) - 1) else start
    let stop := if stop = sliceNone then (if step > 0 then (dim : Int) else -1) else stop
    let size : Int :=
      if step < 0 ∧ start > stop then (start - 1 - stop).tdiv (-step) + 1
      else if step > 0 ∧ start < stop then
        if stop ≤ dim then (stop - 1 - start).tdiv step + 1
        else ((dim : Int) - 1 - start).tdiv step + 1
      else 0
    .ok (⟨start, stop, step⟩, size)

/-- slice.cpp:43-47: missing leading axes are filled with the whole axis. -/
def fillAxes (shape : Shape) (axes : List Ax) : List Ax :=
  (shape.take (shape.length - axes.length)).map (fun d : Nat => (⟨0, d, 1⟩ : Ax)) ++ axes

/-- slice.cpp:66-120 over all axes (after the length checks :49-61). -/
def setupAxes : Shape → List Ax → Except String (List (Ax × Int))
  | [], [] => .ok []
  | d :: ds, a :: as =>
    match setupAxis d a with
    | .error e => .error e
    | .ok r =>
      match setupAxes ds as with
      | .error e => .error e
      | .ok rs => .ok (r :: rs)
  | _, _ => .error "Size of start must be same as input size"

/-- Slice::setup_impl (slice.cpp:29-124). Returns the stored axes (which replace `start_`, `stop_`,
`step_`) and the output extents. -/
def setup (shape : Shape) (axes : List Ax) : Except String (List (Ax × Int)) :=
  setupAxes shape (fillAxes shape axes)

/-- Slice::slice_forward_recursive / slice_backward_recursive (slice.cpp:126-199): the pairs
(y offset, x offset) they touch, in order. Each entry of the first argument is the axis' arguments,
its output extent, the input stride and the output stride. -/
def pairs : List ((Ax × Nat) × (Nat × Nat)) → Int → Int → List (Int × Int)
  | [], _, _ => []
  | [((a, n), (xs, ys))], xo, yo =>
    (List.range n).map fun i : Nat => (yo + i * ys, (xo + xs * a.start) + i * (xs * a.step))
  | ((a, n), (xs, ys)) :: rest, xo, yo =>
    (List.range n).flatMap fun i : Nat =>
      pairs rest ((xo + xs * a.start) + i * (xs * a.step)) (yo + i * ys)

/-- The touched pairs for a set-up function. -/
def slicePairs (shape : Shape) (r : List (Ax × Int)) : List (Int × Int) :=
  let ysh := r.map fun p => p.2.toNat
  pairs ((r.map fun p => (p.1, p.2.toNat)).zip ((cStrides shape).zip (cStrides ysh))) 0 0

/-- Memory write. -/
def write {α} (m : Int → α) (i : Int) (v : α) : Int → α := fun j => if j = i then v else m j

/-- Slice::forward_impl (slice.cpp:201-211): `y[yo] = x[xo]` for the touched pairs. -/
def forward {α} (x y : Int → α) (ps : List (Int × Int)) : Int → α :=
  ps.foldl (fun m p => write m p.1 (x p.2)) y

/-- Slice::backward_impl (slice.cpp:213-231): `dx[xo] += dy[yo]` for the touched pairs. -/
def backward {α} [Add α] (dy dx : Int → α) (ps : List (Int × Int)) : Int → α :=
  ps.foldl (fun m p => write m p.2 (m p.2 + dy p.1)) dx

/-- Replace the first Ellipsis by `ins` full slices (`l[pos:pos+1] = ins * [slice(None)]`). -/
def replaceEllipsis (ins : Nat) : List Item → List Item
  | [] => []
  | .ellipsis :: r => List.replicate ins (.slice .full) ++ r
  | k :: r => k :: replaceEllipsis ins r

/-- _indexing.pyx:76-84: integers become one-element slices. -/
def itemToSlice (d : Nat) : Item → Except String PySlice
  | .int i =>
    if 0 ≤ i ∧ i < d then .ok ⟨some i, some (i + 1), some 1⟩
    else if -(d : Int) ≤ i ∧ i < 0 then .ok ⟨some (d + i), some (d + i + 1), some 1⟩
    else .error "index is out of bounds"
  | .slice s => .ok s
  | _ => .error "unreachable"

/-- The loop `for i, s in enumerate(self.shape)` (_indexing.pyx:76-84). -/
def itemsToSlices : Shape → List Item → Except String (List PySlice)
  | d :: ds, k :: ks =>
    match itemToSlice d k with
    | .error e => .error e
    | .ok s =>
      match itemsToSlices ds ks with
      | .error e => .error e
      | .ok ss => .ok (s :: ss)
  | _, _ => .ok []

/-- basic_getsetitem_prepare (_indexing.pyx:48-91). -/
def prepare (shape : Shape) (key : List Item) : Except String (List Item × List PySlice) :=
  let ndim := shape.length
  let idx := key.filter (· != .newaxis)
  let (idx, key) :=
    if idx = [] then (List.replicate ndim (.slice .full), key ++ List.replicate ndim (.slice .full))
    else (idx, key)
  let (idx, key) :=
    if Item.ellipsis ∈ idx then
      let ins := ndim + 1 - idx.length
      (replaceEllipsis ins idx, replaceEllipsis ins key)
    else (idx, key)
  if Item.ellipsis ∈ idx then .error "an index can only have a single ellipsis"
  else if idx.length > ndim then .error "too many indices"
  else
    let idx := idx ++ List.replicate (ndim - idx.length) (.slice .full)
    let key := key ++ List.replicate (ndim - key.length) (.slice .full)
    match itemsToSlices shape idx with
    | .error e => .error e
    | .ok ss => if ss = [] then .error "not enough values to unpack" else .ok (key, ss)

/-- basic_getsetitem_result_shape (_indexing.pyx:94-105); the list is the sliced array's shape from
the running count on. -/
def resultShape : List Item → Shape → Shape
  | [], _ => []
  | .int _ :: k, s => resultShape k (s.drop 1)
  | .newaxis :: k, s => 1 :: resultShape k s
  | _ :: k, s => s.headD 0 :: resultShape k (s.drop 1)

/-- basic_getitem (_indexing.pyx:108-126): result shape and data. `x` is the array's memory, `y0` the
initial content of the output memory. A negative extent (possible for out-of-range bounds, see
`C18_refuted_negative_extent`) is cut to 0 here. F.reshape keeps the flat data and fails when the number of
elements differs. -/
def getitem {α} (shape : Shape) (x y0 : Int → α) (key : List Item) : Except String (Shape × (Int → α)) :=
  match prepare shape key with
  | .error e => .error e
  | .ok (key, ss) =>
    match setup shape ((shape.zip ss).map fun p => pyArgs p.1 p.2) with
    | .error e => .error e
    | .ok r =>
      let ysh := r.map fun p => p.2.toNat
      let sh := resultShape key ysh
      if sh ≠ ysh ∧ size sh ≠ size ysh then .error "reshape: size mismatch"
      else .ok (sh, forward x y0 (slicePairs shape r))

end Verif.Index
