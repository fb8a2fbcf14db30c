/-
Sharing of inference buffers in exported networks (NNB / C source). Models
/repo/python/src/nnabla/utils/converter/nnablart/save_variable_buffer.py (all functions),
/repo/python/src/nnabla/utils/converter/nnablart/utils.py:94-115 (buffer numbering) and the use of the
result in nnb.py:209-225 (data_index).
Simplifications: variables are referred to by their index in `network.variable` instead of by name
(names are distinct); int32 sizes are unbounded integers; the NumPy arrays `buf_var_lives`,
`actual_assigned_flags`, `actual_buf_sizes` are functions of the index; a row of `buf_var_refs` is the
list of its non-negative entries (the -1 padding is skipped by both loops, lines 139 and 154).
-/
namespace Verif.SaveBuffer

/-- One `network.variable`: is `type == 'Buffer'`, and its size (batch size applied). -/
structure Var where
  buffer : Bool
  size : Nat
deriving DecidableEq, Repr

/-- One `network.function`: indices of its inputs and outputs. -/
structure Fn where
  ins : List Nat
  outs : List Nat
deriving DecidableEq, Repr

/-- The parts of `info` used. -/
structure Net where
  vars : List Var
  fns : List Fn
  inputs : List Nat
  outputs : List Nat
  gens : List Nat
deriving DecidableEq, Repr

/-- `name_to_var[v].type == 'Buffer'`. -/
def Net.isBuf (n : Net) (v : Nat) : Bool := (n.vars[v]?.map (·.buffer)).getD false

/-- A variable whose content is held in an actual buffer: of type Buffer and not a generator variable,
whose data is stored in the file (nnb.py:169-175). Generator variables still take part in the buffer
assignment (the `pass` in save_variable_buffer.py:43-45 does nothing). -/
def Net.inBuf (n : Net) (v : Nat) : Bool := n.isBuf v && !(n.gens.contains v)

/-- Size of a variable. -/
def Net.sizeOf (n : Net) (v : Nat) : Nat := (n.vars[v]?.map (·.size)).getD 0

/-- utils.py:99-115: `_variable_buffer_index`, the variables of type Buffer in order; the position in
this list is the buffer index. -/
def Net.bufVars (n : Net) : List Nat := (List.range n.vars.length).filter n.isBuf

/-- utils.py:107-108: `_buffer_ids`. -/
def Net.bufId (n : Net) (v : Nat) : Nat := n.bufVars.idxOf v

/-- `_variable_buffer_index[buf_idx][0]`. -/
def Net.bufVar (n : Net) (b : Nat) : Nat := n.bufVars.getD b 0

/-- `_LifeSpan` (save_variable_buffer.py:18-26). -/
structure Life where
  b : Int
  e : Int
deriving DecidableEq, Repr

/-- `_LifeSpan.needed_at` (:23-26). -/
def Life.neededAt (l : Life) (f : Nat) : Bool := decide (l.b ≤ f) && decide (l.e ≥ f)

/-- Body of the loop over the variable names of function `f` (:42-63). -/
def touch (n : Net) (f : Nat) (lives : Nat → Life) (v : Nat) : Nat → Life :=
  if n.isBuf v then
    let bi := n.bufId v
    let l := lives bi
    let b' : Int := if l.b < 0 then (if v ∈ n.inputs then 0 else (f : Int)) else l.b
    let e' : Int := if v ∈ n.outputs then (n.fns.length : Int) else (f : Int)
    fun j => if j = bi then ⟨b', e'⟩ else lives j
  else lives

/-- `__make_buf_var_lives` (:29-65): the loop `for func_idx, func in enumerate(function)` from index
`f` on. -/
def makeLivesFrom (n : Net) : Nat → List Fn → (Nat → Life) → (Nat → Life)
  | _, [], lives => lives
  | f, fn :: fns, lives => makeLivesFrom n (f + 1) fns ((fn.ins ++ fn.outs).foldl (touch n f) lives)

/-- `__make_buf_var_lives` (:29-65). -/
def makeLives (n : Net) : Nat → Life := makeLivesFrom n 0 n.fns (fun _ => ⟨-1, -1⟩)

/-- One row of `__make_buf_var_refs` (:86-94): the buffer indices needed at function `f`. -/
def refs (n : Net) (lives : Nat → Life) (f : Nat) : List Nat :=
  (List.range n.bufVars.length).filter fun b => (lives b).neededAt f

/-- `__count_actual_buf` (:68-76). -/
def countActual (n : Net) (lives : Nat → Life) : Nat :=
  (List.range n.fns.length).foldl (fun m f => max m (refs n lives f).length) 0

/-- Insertion into a sorted list. -/
def insertSorted (x : Int) : List Int → List Int
  | [] => [x]
  | y :: ys => if x ≤ y then x :: y :: ys else y :: insertSorted x ys

/-- `np.sort` (any sorting algorithm gives the same list of integers). -/
def sortInts (l : List Int) : List Int := l.foldr insertSorted []

/-- `__compute_actual_buf_sizes` (:99-121). -/
def actualSizes (n : Net) (lives : Nat → Life) : List Int :=
  let k := countActual n lives
  (List.range n.fns.length).foldl (fun (acc : List Int) f =>
    let tmp := (refs n lives f).map (fun b => (n.sizeOf (n.bufVar b) : Int))
    let tmp := sortInts (tmp ++ List.replicate (k - tmp.length) (-1))
    acc.zipWith max tmp) (List.replicate k 0)

/-- State of `__assign_actual_buf_to_variable`: `actual_buf_sizes`, `vidx_to_abidx`. -/
structure St where
  sizes : Nat → Int
  map : Nat → Option Nat

/-- Lines 143-148: one step of restoring the flags. -/
def restoreOne (n : Net) (m : Nat → Option Nat) (flags : Nat → Bool) (b : Nat) : Nat → Bool :=
  match m (n.bufVar b) with
  | some ab => fun j => if j = ab then true else flags j
  | none => flags

/-- Lines 135-148: the flags after restoring the assignments of earlier functions. -/
def restore (n : Net) (m : Nat → Option Nat) (bs : List Nat) : Nat → Bool :=
  bs.foldl (restoreOne n m) (fun _ => false)

/-- Lines 151-182 for one buffer index `b`; `k` is `actual_buf_num`. -/
def assignOne (n : Net) (k : Nat) (s : St × (Nat → Bool)) (b : Nat) : St × (Nat → Bool) :=
  let v := n.bufVar b
  match s.1.map v with
  | some _ => s
  | none =>
    let needed : Int := n.sizeOf v
    match (List.range k).find? (fun ab => !s.2 ab && decide (needed ≤ s.1.sizes ab)) with
    | some ab =>
      (⟨s.1.sizes, fun w => if w = v then some ab else s.1.map w⟩, fun j => if j = ab then true else s.2 j)
    | none =>
      match (List.range k).find? (fun ab => !s.2 ab) with
      | some ab =>
        (⟨fun j => if j = ab then needed else s.1.sizes j, fun w => if w = v then some ab else s.1.map w⟩,
          fun j => if j = ab then true else s.2 j)
      | none => s

/-- Body of the loop over functions (:134-182). -/
def assignFn (n : Net) (lives : Nat → Life) (k : Nat) (s : St) (f : Nat) : St :=
  let bs := refs n lives f
  (bs.foldl (assignOne n k) (s, restore n s.map bs)).1

/-- `save_variable_buffer` (:187-199): `(actual_buf_sizes, vidx_to_abidx)`. -/
def saveVariableBuffer (n : Net) : List Int × (Nat → Option Nat) :=
  let lives := makeLives n
  let sizes := actualSizes n lives
  let k := sizes.length
  let s := (List.range n.fns.length).foldl (assignFn n lives k) ⟨fun j => sizes.getD j 0, fun _ => none⟩
  ((List.range k).map s.sizes, s.map)

/-- nnb.py:217-225: the actual buffer a variable of type Buffer is placed in; a variable without
assignment gets data_index -1, that is buffer 0. -/
def placedIn (m : Nat → Option Nat) (v : Nat) : Nat := (m v).getD 0

end Verif.SaveBuffer
