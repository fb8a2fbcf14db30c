import Verif.Fn.Masked
import Verif.Fn.Props
import Verif.Fn.ChunkProps
/-
Gather, GatherNd, ScatterNd, ScatterAdd, Embed: models
/repo/src/nbla/function/generic/{gather,gather_nd,scatter_nd,scatter_add,embed}.cpp.
Simplifications: integers are unbounded and index arrays hold integers (their conversion from float is not
modelled); a failed bounds check inside a kernel loop is an error of the whole call (in C++ the elements
before it have been written already, but the call throws); integer division by zero and out-of-range
`vector::at` are errors.
-/
namespace Verif.Fn
open Verif.ND

/-! ### Gather -/

/-- Gather::setup_impl (gather.cpp:28-72): refined axis and output shape. -/
def gatherSetup (axisArg : Int) (bd : Nat) (xsh ish : Shape) : Except String (Nat × Shape) :=
  match refineAxis axisArg xsh.length with
  | .error e => .error e
  | .ok axis =>
    if ¬ xsh.length ≥ bd then .error "ndim of inputs[0] must be greater than or equal to batch_dims."
    else if ¬ ish.length ≥ bd then .error "ndim of inputs[1] must be greater than or equal to batch_dims."
    else if ∃ b, b < bd ∧ xsh.getD b 0 ≠ ish.getD b 0 then .error "inputs[0].shape must equal to inputs[1].shape."
    else .ok (axis, xsh.take axis ++ ish.drop bd ++ xsh.drop (axis + 1))

/-- The lambda `prod` (gather.cpp:88-91). -/
def foldProd (s : Shape) (b e : Nat) : Nat := ((s.take e).drop b).foldl (· * ·) 1

/-- The loops of forward and backward (gather.cpp:93-143, 163-217): (offset in y, offset in x). -/
def gatherPairs (axis bd : Nat) (xsh ish ysh : Shape) (idx : Nat → Int) : Except String Pairs :=
  let xs1 := xsh.getD axis 0
  let xs2 := foldProd xsh (axis + 1) xsh.length
  let is0 := foldProd ish 0 bd
  let is1 := foldProd ish bd ish.length
  let ys0 := foldProd ysh 0 axis
  let xstr := ndiStrides [foldProd xsh 0 axis, xs1, xs2]
  let istr := ndiStrides [is0, is1]
  let ystr := ndiStrides [ys0, is1, xs2]
  if is0 = 0 then .error "division by zero"
  else
    let lstr := ndiStrides [is0, ys0 / is0]
    if ys0 / is0 = 0 ∧ ys0 > 0 then .error "division by zero"
    else
      let g := fun i j => idx (nd2flat [(flat2nd i lstr).getD 0 0, j] istr)
      if ∃ i, i < ys0 ∧ ∃ j, j < is1 ∧ ¬ (0 ≤ g i j ∧ g i j < xs1) then .error "Out-of-bounds index"
      else .ok ((List.range ys0).flatMap fun i => (List.range is1).flatMap fun j => (List.range xs2).map fun k =>
        (nd2flat [i, j, k] ystr, nd2flat [i, (g i j).toNat, k] xstr))

/-! ### GatherNd and ScatterNd -/

/-- GatherNd::setup_impl (gather_nd.cpp:27-56): output shape. -/
def gatherNdSetup (srcSh idxSh : Shape) : Except String Shape :=
  if ¬ idxSh.length ≥ 2 then .error "gather_nd requires the map to have at least 2 dimensions"
  else if ¬ idxSh.getD 0 0 ≤ srcSh.length then .error "Number of indices exceeds data dimension"
  else .ok (idxSh.drop 1 ++ srcSh.drop (idxSh.getD 0 0))

/-- The loops over columns, rows and the slice, shared by GatherNd and ScatterNd
(gather_nd.cpp:73-93, 117-139; scatter_nd.cpp:88-116): (position among the slices, position in the indexed
array of shape `sh`). -/
def slicePairs (sh idxSh : Shape) (idx : Nat → Int) : Except String Pairs :=
  let rows := idxSh.getD 0 0
  let cols := innerSize idxSh 1
  let str := ndiStrides sh
  if cols = 0 then .ok []
  else if ∃ i, i < cols ∧ ∃ m, m < rows ∧
      ¬ (idx (m * cols + i) < sh.getD m 0 ∧ idx (m * cols + i) ≥ -(sh.getD m 0 : Int)) then .error "index overflows shape"
  else if rows = 0 then .error "vector::at"
  else
    let len := str.getD (rows - 1) 0
    .ok ((List.range cols).flatMap fun i =>
      let ndi := (List.range rows).map fun m =>
        (if idx (m * cols + i) < 0 then (sh.getD m 0 : Int) + idx (m * cols + i) else idx (m * cols + i)).toNat
      (List.range len).map fun k => (i * len + k, nd2flat (ndi ++ zeroIndex (sh.length - rows)) str + k))

/-- ScatterNd::setup_impl (scatter_nd.cpp:27-66): output shape. -/
def scatterNdSetup (dataSh idxSh shape : Shape) : Except String Shape :=
  if ¬ idxSh.length ≥ 2 then .error "scatter_nd requires indices to have at least 2 dimensions"
  else if ¬ idxSh.getD 0 0 ≤ shape.length then .error "Number of indices exceeds output dimension"
  else
    let M := idxSh.getD 0 0
    let K := idxSh.length - 1
    if ¬ shape.length + K = dataSh.length + M then .error "Output shape size does not match input data and indices."
    else if ∃ i, i < K ∧ dataSh.getD i 0 ≠ idxSh.getD (i + 1) 0 then .error "Shape error"
    else if ∃ i, i < shape.length - M ∧ dataSh.getD (K + i) 0 ≠ shape.getD (M + i) 0 then .error "Shape error"
    else .ok shape

/-- ScatterNd::forward_impl (scatter_nd.cpp:68-117); `out` is the third input, if any (the output shares its
array). -/
def scatterNdForward {R} [Zero R] [Add R] (add : Bool) (ps : Pairs) (data : Mem R) (out : Option (Mem R)) : Mem R :=
  let y := out.getD zeros
  if add then bwdAdd ps data y else bwdSet ps data y

/-- ScatterNd::backward_impl with two inputs (scatter_nd.cpp:137-155). -/
def scatterNdBackward {R} [Add R] (ps : Pairs) (accum : Bool) (dy dx : Mem R) : Mem R :=
  ps.foldl (fun m p => put m p.1 (if accum then m p.1 + dy p.2 else dy p.2)) dx

/-- ScatterNd::backward_impl with three inputs (scatter_nd.cpp:156-178): the gradient of the data, and the
output gradient, which is masked on the way. The gradient of the third input is not written. -/
def scatterNdBackward3 {R} [Zero R] [Add R] (ps : Pairs) (accum : Bool) (dy dx : Mem R) : Mem R × Mem R :=
  ps.foldl (fun st p => (put st.1 p.1 (if accum then st.1 p.1 + st.2 p.2 else st.2 p.2), put st.2 p.2 0)) (dx, dy)

/-! ### ScatterAdd -/

/-- ScatterAdd::setup_impl (scatter_add.cpp:27-58): the axis. -/
def scatterAddSetup (axisArg : Int) (x0 ish x1 : Shape) : Except String Int :=
  let axis := if axisArg < 0 then (x0.length : Int) + axisArg else axisArg
  if ¬ axis ≤ x0.length then .error "Shape error, input dimension must be greater than axis"
  else if ¬ (x0.length = ish.length ∧ x0.length = x1.length) then .error "Shape error. all inputs must have same dimension"
  else if ∃ i, i < ish.length ∧ (((i : Int) ≠ axis ∧ ¬ ish.getD i 0 ≤ x0.getD i 0) ∨ ¬ ish.getD i 0 ≤ x1.getD i 0) then
    .error "Shape error."
  else .ok axis

/-- The loop of forward and backward (scatter_add.cpp:86-98, 145-161): (offset in x1, offset in y). -/
def scatterAddPairs (axis : Nat) (x0 ish x1 : Shape) (idx : Nat → Int) : Except String Pairs :=
  if ∃ i, i < prod ish ∧ ¬ (0 ≤ idx i ∧ idx i < x0.getD axis 0) then .error "Given index is out of range."
  else .ok ((List.range (prod ish)).map fun i =>
    let nd := flat2nd i (ndiStrides ish)
    (nd2flat nd (ndiStrides x1), nd2flat (nd.set axis (idx i).toNat) (ndiStrides x0)))

/-- ScatterAdd::forward_impl: copy x0 (`n` elements), then add. -/
def scatterAddForward {R} [Add R] (n : Nat) (ps : Pairs) (x0 x1 y : Mem R) : Mem R :=
  bwdAdd ps x1 (fun i => if i < n then x0 i else y i)

/-- ScatterAdd::backward_impl, gradient of x1 (scatter_add.cpp:118-162; `n1` elements). -/
def scatterAddBackward1 {R} [Zero R] [Add R] (n1 : Nat) (ps : Pairs) (accum : Bool) (dy dx : Mem R) : Mem R :=
  let dx := if accum then dx else fun i => if i < n1 then 0 else dx i
  ps.foldl (fun m p => put m p.1 (if accum then m p.1 + dy p.2 else dy p.2)) dx

/-! ### Embed -/

/-- Embed::forward_impl / embed_backward_cpu (embed.cpp:38-58): (offset in y, offset in w). There is no
check of the indices. -/
def embedPairs (n stride : Nat) (x : Nat → Int) : List (Nat × Int) :=
  (List.range n).flatMap fun i => (List.range stride).map fun j => (i * stride + j, x i * stride + j)

/-! ### Lemmas -/

theorem indices3 {β} (a b c : Nat) (F : List Nat → β) :
    (indices [a, b, c]).map F = (List.range a).flatMap fun i => (List.range b).flatMap fun j => (List.range c).map fun k => F [i, j, k] := by
  simp [indices, List.map_flatMap, List.flatMap_map, List.flatMap_singleton', Function.comp_def, ← List.map_eq_flatMap]

theorem indices2 {β} (a b : Nat) (F : List Nat → β) :
    (indices [a, b]).map F = (List.range a).flatMap fun i => (List.range b).map fun k => F [i, k] := by
  simp [indices, List.map_flatMap, Function.comp_def, ← List.map_eq_flatMap]

theorem ravel3 (L I E : Shape) (l i e : List Nat) (hl : InBounds L l) (hi : InBounds I i) :
    ravel [prod L, prod I, prod E] [ravel L l, ravel I i, ravel E e] = ravel (L ++ I ++ E) (l ++ i ++ e) := by
  rw [ravel_append _ _ _ _ (by simp [hl.length, hi.length]), ravel_append _ _ _ _ hl.length]
  simp only [ravel, prod, Nat.mul_one, Nat.add_zero, Nat.add_mul, Nat.mul_assoc, Nat.add_assoc]

theorem foldProd_eq (s : Shape) (b e : Nat) : foldProd s b e = prod ((s.take e).drop b) := by
  rw [foldProd, foldl_mul, Nat.one_mul]

theorem nd2flat_ndi (s : Shape) (i : List Nat) : nd2flat i (ndiStrides s) = ravel s i := by
  rw [C33_ndi_strides, nd2flat_eq]

section Gather
variable (B D E I : Shape) (n : Nat)

/-- Gather on folded shapes. -/
theorem gatherPairs_ok (idx : Nat → Int) (hB : 0 < prod B)
    (hidx : ∀ t, t < prod (B ++ I) → 0 ≤ idx t ∧ idx t < n) :
    ∃ ps, gatherPairs (B ++ D).length B.length (B ++ D ++ n :: E) (B ++ I) (B ++ D ++ I ++ E) idx = .ok ps ∧
      Gathers [prod (B ++ D), prod I, prod E] [prod (B ++ D), n, prod E]
        (fun j => [j.getD 0 0, (idx (j.getD 0 0 / prod D * prod I + j.getD 1 0)).toNat, j.getD 2 0]) ps := by
  have e1 : foldProd (B ++ D ++ n :: E) 0 (B ++ D).length = prod (B ++ D) := by
    rw [foldProd_eq, List.take_left]; rfl
  have e2 : foldProd (B ++ D ++ n :: E) ((B ++ D).length + 1) (B ++ D ++ n :: E).length = prod E := by
    rw [foldProd_eq, List.take_length, ← List.drop_drop, List.drop_left]; rfl
  have e3 : foldProd (B ++ I) 0 B.length = prod B := by rw [foldProd_eq, List.take_left]; rfl
  have e4 : foldProd (B ++ I) B.length (B ++ I).length = prod I := by
    rw [foldProd_eq, List.take_length, List.drop_left]
  have e5 : foldProd (B ++ D ++ I ++ E) 0 (B ++ D).length = prod (B ++ D) := by
    rw [foldProd_eq, List.append_assoc (B ++ D), List.take_left]; rfl
  have e6 : (B ++ D ++ n :: E).getD (B ++ D).length 0 = n := by
    simp [List.getD_eq_getElem?_getD]
  have e7 : prod (B ++ D) / prod B = prod D := by rw [prod_append, Nat.mul_div_cancel_left _ hB]
  rw [gatherPairs]
  simp only [e1, e2, e3, e4, e5, e6, e7]
  rw [if_neg (by omega), if_neg]
  swap
  · rintro ⟨h1, h2⟩; rw [prod_append, h1] at h2; simp at h2
  have hg : ∀ i j, nd2flat [(flat2nd i (ndiStrides [prod B, prod D])).getD 0 0, j] (ndiStrides [prod B, prod I]) =
      i / prod D * prod I + j := by
    intro i j
    rw [nd2flat_ndi, C33_ndi_strides]
    simp [cStrides_cons, flat2nd, ravel, prod]
  simp only [hg]
  have hbound : ∀ i, i < prod (B ++ D) → ∀ j, j < prod I → i / prod D * prod I + j < prod (B ++ I) := by
    intro i hi j hj
    rw [prod_append] at hi ⊢
    have : i / prod D < prod B := Nat.div_lt_of_lt_mul (by rw [Nat.mul_comm]; exact hi)
    have : (i / prod D + 1) * prod I ≤ prod B * prod I := Nat.mul_le_mul_right _ this
    rw [Nat.add_mul, Nat.one_mul] at this
    omega
  rw [if_neg]
  swap
  · rintro ⟨i, hi, j, hj, hbad⟩
    exact hbad (hidx _ (hbound i hi j hj))
  refine ⟨_, rfl, ?_, ?_⟩
  · apply List.Perm.of_eq
    rw [indices3]
    simp only [nd2flat_ndi, List.getD_cons_zero, List.getD_cons_succ]
  · intro j hj
    match j, hj with
    | [i, j, k], ⟨h1, h2, h3, _⟩ =>
      have := hidx _ (hbound i h1 j h2)
      simp only [List.getD_cons_zero, List.getD_cons_succ]
      exact ⟨h1, by omega, h3, trivial⟩

end Gather

/-- Gather::forward_impl. -/
def gatherForward {R} (ps : Pairs) (x y : Mem R) : Mem R := fwd ps x y

/-- Gather::backward_impl: accumulates into the gradient buffer (zeroed by Function::backward when not
accumulating). -/
def gatherBackward {R} [Add R] (ps : Pairs) (_accum : Bool) (dy dx : Mem R) : Mem R := bwdAdd ps dy dx

/-- **C78.** `gather(x, indices, axis, batch_dims)` for x of shape `B × D × n × E` (axis is the one of extent
n, negative values count from the end) and indices of shape `B × I` with all values in `0 … n-1`: the result
has shape `B × D × I × E` and element `(b, d, i, e)` is `x[b, d, indices[b, i], e]`. -/
theorem C78_gather {R} (B D E I : Shape) (n : Nat) (arg : Int)
    (harg : arg = (B ++ D).length ∨ arg = ((B ++ D).length : Int) - ((B ++ D).length + 1 + E.length : Nat))
    (idx : Nat → Int) (hB : 0 < prod B) (hidx : ∀ b i, InBounds B b → InBounds I i →
      0 ≤ idx (ravel (B ++ I) (b ++ i)) ∧ idx (ravel (B ++ I) (b ++ i)) < n) :
    gatherSetup arg B.length (B ++ D ++ n :: E) (B ++ I) = .ok ((B ++ D).length, B ++ D ++ I ++ E) ∧
    ∃ ps, gatherPairs (B ++ D).length B.length (B ++ D ++ n :: E) (B ++ I) (B ++ D ++ I ++ E) idx = .ok ps ∧
      ∀ (x y : Mem R) b d i e, InBounds B b → InBounds D d → InBounds I i → InBounds E e →
        gatherForward ps x y (ravel (B ++ D ++ I ++ E) (b ++ d ++ i ++ e)) =
          x (ravel (B ++ D ++ n :: E) (b ++ d ++ (idx (ravel (B ++ I) (b ++ i))).toNat :: e)) := by
  constructor
  · rw [gatherSetup, refineAxis_ok (B ++ D).length _ (by simp) arg (by
      rcases harg with h | h
      · left; exact h
      · right; rw [h]; simp; omega)]
    simp only
    rw [if_neg (by simp), if_neg (by simp), if_neg]
    · have h1 : (B ++ D ++ n :: E).take (B ++ D).length = B ++ D := List.take_left
      have h2 : (B ++ D ++ n :: E).drop ((B ++ D).length + 1) = E := by
        rw [← List.drop_drop, List.drop_left]; rfl
      have h3 : (B ++ I).drop B.length = I := List.drop_left
      rw [h1, h2, h3]
    · rintro ⟨b, hb, hne⟩
      apply hne
      simp only [List.getD_eq_getElem?_getD]
      rw [List.append_assoc, List.getElem?_append_left hb, List.getElem?_append_left hb]
  · have hidx' : ∀ t, t < prod (B ++ I) → 0 ≤ idx t ∧ idx t < n := by
      intro t ht
      have : t ∈ (indices (B ++ I)).map (ravel (B ++ I)) := by rw [indices_ravel]; exact List.mem_range.mpr ht
      obtain ⟨q, hq, rfl⟩ := List.mem_map.mp this
      have hq := (mem_indices _ _).mp hq
      have hql := hq.length
      rw [List.length_append] at hql
      have hsplit : q = q.take B.length ++ q.drop B.length := by simp
      rw [hsplit, inBounds_append _ _ _ _ (by simp; omega)] at hq
      rw [hsplit]
      exact hidx _ _ hq.1 hq.2
    obtain ⟨ps, h1, h2⟩ := gatherPairs_ok B D E I n idx hB hidx'
    refine ⟨ps, h1, ?_⟩
    intro x y b d i e hb hd hi he
    have hbd : InBounds (B ++ D) (b ++ d) := (inBounds_append _ _ _ _ hb.length).mpr ⟨hb, hd⟩
    have := h2.forward x y [ravel (B ++ D) (b ++ d), ravel I i, ravel E e] ⟨ravel_lt hbd, ravel_lt hi, ravel_lt he, trivial⟩
    rw [ravel3 _ _ _ _ _ _ hbd hi] at this
    rw [gatherForward, this]
    congr 1
    simp only [List.getD_cons_zero, List.getD_cons_succ]
    have hdiv : ravel (B ++ D) (b ++ d) / prod D = ravel B b := by
      rw [ravel_append _ _ _ _ hb.length, Nat.add_comm, Nat.add_mul_div_right _ _ (by have := ravel_lt hd; omega),
        Nat.div_eq_of_lt (ravel_lt hd), Nat.zero_add]
    rw [hdiv, ← ravel_append _ _ _ _ hb.length, ravel_append (B ++ D) _ _ _ hbd.length]
    simp only [ravel, prod, Nat.mul_one, Nat.add_zero]

/-- **C78.** Backward of gather is the transpose of its forward (repeated indices add up). -/
theorem C78_gather_grad {R} [CommSemiring R] (B D E I : Shape) (n : Nat) (idx : Nat → Int) (hB : 0 < prod B)
    (hidx : ∀ t, t < prod (B ++ I) → 0 ≤ idx t ∧ idx t < n) (y : Mem R) :
    ∃ ps, gatherPairs (B ++ D).length B.length (B ++ D ++ n :: E) (B ++ I) (B ++ D ++ I ++ E) idx = .ok ps ∧
      GradOK (prod (B ++ D ++ n :: E)) (prod (B ++ D ++ I ++ E)) (fun x => gatherForward ps x y)
        (callBackward (gatherBackward ps)) := by
  obtain ⟨ps, h1, h2⟩ := gatherPairs_ok B D E I n idx hB hidx
  refine ⟨ps, h1, ?_⟩
  have e1 : prod (B ++ D ++ n :: E) = prod [prod (B ++ D), n, prod E] := by
    rw [prod_append]; simp [prod]
  have e2 : prod (B ++ D ++ I ++ E) = prod [prod (B ++ D), prod I, prod E] := by
    rw [prod_append (B ++ D ++ I), prod_append (B ++ D)]; simp [prod, Nat.mul_assoc]
  rw [e1, e2]
  refine h2.gradOK_add y _ ?_
  intro accum dy dx
  rfl

/-- **C78.** An axis outside `[-ndim, ndim)` is reported. -/
theorem C78_gather_rejects_axis (arg : Int) (bd : Nat) (xsh ish : Shape) (h : arg < -(xsh.length : Int) ∨ (xsh.length : Int) ≤ arg) :
    ∃ e, gatherSetup arg bd xsh ish = .error e := by
  obtain ⟨e, he⟩ := refineAxis_rejects arg xsh.length h
  simp only [gatherSetup, he]
  exact ⟨_, rfl⟩

/-- **C78.** An index outside `0 … n-1` is reported. -/
theorem C78_gather_rejects (B D E I : Shape) (n : Nat) (idx : Nat → Int) (hB : 0 < prod B) (hD : 0 < prod D)
    (b i : List Nat) (hb : InBounds B b) (hi : InBounds I i)
    (hbad : ¬ (0 ≤ idx (ravel (B ++ I) (b ++ i)) ∧ idx (ravel (B ++ I) (b ++ i)) < n)) :
    ∃ e, gatherPairs (B ++ D).length B.length (B ++ D ++ n :: E) (B ++ I) (B ++ D ++ I ++ E) idx = .error e := by
  have e3 : foldProd (B ++ I) 0 B.length = prod B := by rw [foldProd_eq, List.take_left]; rfl
  have e4 : foldProd (B ++ I) B.length (B ++ I).length = prod I := by
    rw [foldProd_eq, List.take_length, List.drop_left]
  have e5 : foldProd (B ++ D ++ I ++ E) 0 (B ++ D).length = prod (B ++ D) := by
    rw [foldProd_eq, List.append_assoc (B ++ D), List.take_left]; rfl
  have e6 : (B ++ D ++ n :: E).getD (B ++ D).length 0 = n := by
    simp [List.getD_eq_getElem?_getD]
  have e7 : prod (B ++ D) / prod B = prod D := by rw [prod_append, Nat.mul_div_cancel_left _ hB]
  rw [gatherPairs]
  simp only [e3, e4, e5, e6, e7]
  rw [if_neg (by omega), if_neg (by omega), if_pos]
  · exact ⟨_, rfl⟩
  · have h1 : ravel B b * prod D < prod (B ++ D) := by
      rw [prod_append]
      exact Nat.mul_lt_mul_of_pos_right (ravel_lt hb) hD
    refine ⟨ravel B b * prod D, h1, ravel I i, ravel_lt hi, ?_⟩
    have hg : nd2flat [(flat2nd (ravel B b * prod D) (ndiStrides [prod B, prod D])).getD 0 0, ravel I i] (ndiStrides [prod B, prod I]) =
        ravel (B ++ I) (b ++ i) := by
      rw [nd2flat_ndi, C33_ndi_strides, ravel_append _ _ _ _ hb.length]
      simp [cStrides_cons, flat2nd, ravel, prod, Nat.mul_div_cancel _ hD]
    rw [hg]; exact hbad

/-- **C78, refuted part.** `batch_dims` larger than `axis` passes setup and then divides by zero in
forward: x of shape (2, 3), indices of shape (2, 3), axis 0, batch_dims 1. -/
theorem C78_refuted_batch_dims (idx : Nat → Int) :
    gatherSetup 0 1 [2, 3] [2, 3] = .ok (0, [3, 3]) ∧
    gatherPairs 0 1 [2, 3] [2, 3] [3, 3] idx = .error "division by zero" := by
  constructor
  · decide
  · have e1 : foldProd [2, 3] 0 1 = 2 := by decide
    have e2 : foldProd [3, 3] 0 0 = 1 := by decide
    rw [gatherPairs]
    simp only [e1, e2]
    rw [if_neg (by omega), if_pos (by decide)]

example : ∃ ps, gatherPairs 2 1 [2, 1, 3, 2] [2, 2] [2, 1, 2, 2] (fun i => [2, 0, 1, 1].getD i 0) = .ok ps ∧
    (List.range 8).map (gatherForward ps (fun i => i) (fun _ => 99)) = [4, 5, 0, 1, 8, 9, 8, 9] := by
  refine ⟨_, rfl, ?_⟩
  decide

end Verif.Fn
