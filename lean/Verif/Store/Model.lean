import Verif.Fn.Base
import Verif.ND.Model
/-
Storage objects behind a Python nnabla.Variable: models /repo/src/nbla/nd_array.cpp, /repo/src/nbla/variable.cpp,
/repo/src/nbla/computation_graph/variable.cpp:87-109,1150-1187, /repo/src/nbla/synced_array.cpp:66-139,551-563 and
/repo/python/src/nnabla/_variable.pyx:168-262 (set_var, __cinit__, create_from_*, __dealloc__).

A Python Variable p refers to a CgVariable, that to a Variable, that to two NdArrays (data, grad), an NdArray to a SyncedArray,
a narrowed SyncedArray to its parent. Objects are numbers, never reused. A C++ object is destroyed by a separate step that is
possible when no modelled owner refers to it (later than, or at, the moment the last shared_ptr goes away). SyncedArrays are not
destroyed. Extents are natural numbers. The check that narrowed siblings do not overlap (C27) is left out: more histories are
allowed than in the code. Counters are unbounded integers.
-/
namespace Verif.Store
open Verif.Fn Verif.ND

/-- The objects. `path s` is the array s followed by its chain of parents, which never changes (synced_array.cpp:72-76); its last
element is the root. `held d` says that a Python NdArray object refers to NdArray d. `cleared s` records clear(). -/
structure St where
  nSyn : Nat
  ssize : Nat → Nat
  path : Nat → List Nat
  scount : Nat → Int
  cleared : Nat → Bool
  nNd : Nat
  arr : Nat → Nat
  nshape : Nat → Shape
  ncount : Nat → Int
  nlive : Nat → Bool
  held : Nat → Bool
  nVar : Nat
  data : Nat → Nat
  grad : Nat → Nat
  vshape : Nat → Shape
  vcount : Nat → Int
  vlive : Nat → Bool
  nCg : Nat
  var : Nat → Nat
  ccount : Nat → Int
  clive : Nat → Bool
  nPy : Nat
  pvar : Nat → Nat
  plive : Nat → Bool

/-- No objects. -/
def St.init : St :=
  { nSyn := 0, ssize := fun _ => 0, path := fun _ => [], scount := fun _ => 0, cleared := fun _ => false
    nNd := 0, arr := fun _ => 0, nshape := fun _ => [], ncount := fun _ => 0, nlive := fun _ => false, held := fun _ => false
    nVar := 0, data := fun _ => 0, grad := fun _ => 0, vshape := fun _ => [], vcount := fun _ => 0, vlive := fun _ => false
    nCg := 0, var := fun _ => 0, ccount := fun _ => 0, clive := fun _ => false
    nPy := 0, pvar := fun _ => 0, plive := fun _ => false }

/-! ### update_python_user_reference_counts -/

/-- SyncedArray (synced_array.cpp:558-563): this array and all its ancestors. -/
def updSyn (st : St) (s : Nat) (diff : Int) : St :=
  { st with scount := fun a => if a ∈ st.path s then st.scount a + diff else st.scount a }

/-- BaseNdArray (nd_array.cpp:25-28). -/
def updNd (st : St) (d : Nat) (diff : Int) : St :=
  updSyn { st with ncount := put st.ncount d (st.ncount d + diff) } (st.arr d) diff

/-- BaseVariable (variable.cpp:25-28): only data, not grad. -/
def updVar (st : St) (v : Nat) (diff : Int) : St :=
  updNd { st with vcount := put st.vcount v (st.vcount v + diff) } (st.data v) diff

/-- BaseCgVariable (computation_graph/variable.cpp:87-90). -/
def updCg (st : St) (c : Nat) (diff : Int) : St :=
  updVar { st with ccount := put st.ccount c (st.ccount c + diff) } (st.var c) diff

/-! ### SyncedArray and NdArray -/

/-- SyncedArray(size) (synced_array.cpp:67-70); the new array is number st.nSyn. -/
def newSyn (st : St) (n : Nat) : St :=
  { st with nSyn := st.nSyn + 1, ssize := put st.ssize st.nSyn n, path := put st.path st.nSyn [st.nSyn], scount := put st.scount st.nSyn 0,
            cleared := put st.cleared st.nSyn false }

/-- SyncedArray(parent, size, offset) (synced_array.cpp:72-100, 132-139). -/
def newChild (st : St) (parent n : Nat) : St :=
  { st with nSyn := st.nSyn + 1, ssize := put st.ssize st.nSyn n, path := put st.path st.nSyn (st.nSyn :: st.path parent),
            scount := put st.scount st.nSyn 0, cleared := put st.cleared st.nSyn false }

/-- An NdArray with array s (nd_array.cpp:53-66; its counter is 0, so set_array adds and subtracts nothing); it is number
st.nNd. -/
def addNd (st : St) (s : Nat) (shape : Shape) : St :=
  { st with nNd := st.nNd + 1, arr := put st.arr st.nNd s, nshape := put st.nshape st.nNd shape, ncount := put st.ncount st.nNd 0,
            nlive := put st.nlive st.nNd true, held := put st.held st.nNd false }

/-- NdArray(shape) (nd_array.cpp:53-57). -/
def newNd (st : St) (shape : Shape) : St := addNd (newSyn st (prod shape)) st.nSyn shape

/-- NdArray::view(shape) (nd_array.cpp:59-66, 89-91). -/
def viewNd (st : St) (d : Nat) (shape : Shape) : St × Option String :=
  if st.ssize (st.arr d) ≠ prod shape then (st, some "The total size of array must be the same as the shape.")
  else (addNd st (st.arr d) shape, none)

/-- NdArray::narrow(0, start, length) (nd_array.cpp:125-154). -/
def narrowNd (st : St) (d start length : Nat) : St × Option String :=
  match st.nshape d with
  | [] => (st, some "shape_[0] of an empty shape")
  | h :: t =>
    if start + length ≤ h then (addNd (newChild st (st.arr d) (length * prod t)) st.nSyn (length :: t), none)
    else (st, some "start + length exceeds dimension size")

/-- BaseNdArray::set_array (nd_array.cpp:30-42). -/
def setArray (st : St) (d s : Nat) : St × Option String :=
  if prod (st.nshape d) ≠ st.ssize s then (st, some "Size must match.")
  else
    let st1 := updSyn st s (st.ncount d)
    let st2 := updSyn st1 (st1.arr d) (-st1.ncount d)
    ({ st2 with arr := put st2.arr d s }, none)

/-- NdArray::reshape (nd_array.cpp:68-87). -/
def reshapeNd (st : St) (d : Nat) (shape : Shape) (force : Bool) : St × Option String :=
  if st.nshape d = shape then (st, none)
  else if prod (st.nshape d) = prod shape then ({ st with nshape := put st.nshape d shape }, none)
  else if !force then (st, some "Total dimensions not match.")
  else if (st.path (st.arr d)).length > 1 then (st, some "Narrowed NdArray does not allow reshape to change size.")
  else setArray (newSyn { st with nshape := put st.nshape d shape } (prod shape)) d st.nSyn

/-- ~BaseNdArray (nd_array.cpp:44-46). -/
def freeNd (st : St) (d : Nat) : St :=
  let st1 := updSyn st (st.arr d) (-st.ncount d)
  { st1 with nlive := put st1.nlive d false }

/-! ### Variable -/

/-- A Variable with NdArrays d and g; it is number st.nVar. -/
def addVar (st : St) (d g : Nat) (shape : Shape) : St :=
  { st with nVar := st.nVar + 1, data := put st.data st.nVar d, grad := put st.grad st.nVar g, vshape := put st.vshape st.nVar shape,
            vcount := put st.vcount st.nVar 0, vlive := put st.vlive st.nVar true }

/-- Variable(shape) (variable.cpp:61-66). -/
def newVar (st : St) (shape : Shape) : St :=
  addVar (newNd (newNd st shape) shape) st.nNd (st.nNd + 1) shape

/-- Variable(data) (variable.cpp:68-73). -/
def varFrom (st : St) (d : Nat) : St := addVar (newNd st (st.nshape d)) d st.nNd (st.nshape d)

/-- BaseVariable::set_data (variable.cpp:30-42). -/
def setData (st : St) (v d : Nat) : St × Option String :=
  if st.nshape d ≠ st.vshape v then (st, some "Shape must match.")
  else
    let st1 := updNd st d (st.vcount v)
    let st2 := updNd st1 (st1.data v) (-st1.vcount v)
    ({ st2 with data := put st2.data v d }, none)

/-- BaseVariable::set_grad (variable.cpp:48-51). -/
def setGrad (st : St) (v d : Nat) : St × Option String :=
  if st.nshape d ≠ st.vshape v then (st, some "Shape must match.")
  else ({ st with grad := put st.grad v d }, none)

/-- Variable::reshape (variable.cpp:75-95). The shape is stored before data and grad are reshaped; an exception of theirs leaves it
stored. -/
def reshapeVar (st : St) (v : Nat) (shape : Shape) (force : Bool) : St × Option String :=
  if st.vshape v = shape then (st, none)
  else if prod (st.vshape v) ≠ prod shape ∧ force = false then (st, some "Total dimensions not match.")
  else
    let f := if prod (st.vshape v) = prod shape then false else true
    let st1 := { st with vshape := put st.vshape v shape }
    match reshapeNd st1 (st1.data v) shape f with
    | (st2, some e) => (st2, some e)
    | (st2, none) => reshapeNd st2 (st2.grad v) shape f

/-- Variable::view() (variable.cpp:97-102). The NdArrays made by Variable(shape_) are replaced (and destroyed by freeNd). -/
def viewVar (st : St) (v : Nat) : St × Option String :=
  let st1 := newVar st (st.vshape v)
  match setData st1 st.nVar (st1.data v) with
  | (st2, some e) => (st2, some e)
  | (st2, none) => setGrad st2 st.nVar (st2.grad v)

/-- ~BaseVariable (variable.cpp:44-46). -/
def freeVar (st : St) (v : Nat) : St :=
  let st1 := updNd st (st.data v) (-st.vcount v)
  { st1 with vlive := put st1.vlive v false }

/-! ### CgVariable -/

/-- CgVariable(var) (computation_graph/variable.cpp:128-132); it is number st.nCg. -/
def newCg (st : St) (v : Nat) : St :=
  { st with nCg := st.nCg + 1, var := put st.var st.nCg v, ccount := put st.ccount st.nCg 0, clive := put st.clive st.nCg true }

/-- BaseCgVariable::set_variable (computation_graph/variable.cpp:92-104), also used by rewire_on. -/
def setVariable (st : St) (c v : Nat) : St :=
  let st1 := updVar st v (st.ccount c)
  let st2 := updVar st1 (st1.var c) (-st1.ccount c)
  { st2 with var := put st2.var c v }

/-- ~BaseCgVariable (computation_graph/variable.cpp:106-108). -/
def freeCg (st : St) (c : Nat) : St :=
  let st1 := updVar st (st.var c) (-st.ccount c)
  { st1 with clive := put st1.clive c false }

/-! ### Python Variable -/

/-- A Python Variable object of a CgVariable (_variable.pyx:168-177 with an empty _var). -/
def newPy (st : St) (c : Nat) : St :=
  let st1 := updCg st c 1
  { st1 with nPy := st1.nPy + 1, pvar := put st1.pvar st1.nPy c, plive := put st1.plive st1.nPy true }

/-- set_var on an existing object (_variable.pyx:168-177). -/
def setVar (st : St) (p c : Nat) : St :=
  let st1 := updCg st c 1
  let st2 := updCg st1 (st1.pvar p) (-1)
  { st2 with pvar := put st2.pvar p c }

/-- The SyncedArray behind a Python Variable. -/
def arrOf (st : St) (p : Nat) : Nat := st.arr (st.data (st.var (st.pvar p)))

/-- The root of a SyncedArray. -/
def root (st : St) (s : Nat) : Nat := (st.path s).getLastD s

/-- Variable.get_number_of_references (_variable.pyx:264-278, synced_array.cpp:551-556): the counter of the root. -/
def numberOfReferences (st : St) (p : Nat) : Int := st.scount (root st (arrOf st p))

/-- SyncedArray::has_family (synced_array.hpp:225-227): a parent, or a child that some NdArray keeps alive. -/
def hasFamily (st : St) (s : Nat) : Bool :=
  decide ((st.path s).length > 1) || (List.range st.nNd).any fun d => st.nlive d && decide (s ∈ (st.path (st.arr d)).tail)

/-- What clear_during_auto_forward depends on besides the counters: the auto-forward mode, the persistent flag, whether the
variable has a parent function, has_grad_dependency(). -/
structure Env where
  auto : Bool
  persistent : Bool
  parent : Bool
  gradDep : Bool

/-- CgVariable::clear_during_auto_forward (computation_graph/variable.cpp:1150-1187) for the CgVariable of p. -/
def clearDuringAutoForward (st : St) (p : Nat) (e : Env) : St × Option String :=
  if !e.auto || e.persistent || !e.parent then (st, none)
  else if numberOfReferences st p < 2 ∧ e.gradDep = false then
    if hasFamily st (arrOf st p) then (st, some "Clearing any SyncedArray with a parent or a child created by narrow is prohibited")
    else ({ st with cleared := put st.cleared (arrOf st p) true }, none)
  else (st, none)

/-- Variable.__dealloc__ (_variable.pyx:240-262); an exception of the clear is kept for later, the counters are updated anyway. -/
def delPy (st : St) (p : Nat) (e : Env) : St :=
  let st1 := (clearDuringAutoForward st p e).1
  let st2 := updCg st1 (st1.pvar p) (-1)
  { st2 with plive := put st2.plive p false }

/-! ### Histories -/

/-- What can happen. The guards of `step` say that an operation is applied to objects that exist and that a destructor runs when no
owner is left. -/
inductive Op
  | newNd (shape : Shape)
  | viewNd (d : Nat) (shape : Shape)
  | narrowNd (d start length : Nat)
  | setArray (d d' : Nat)  -- set_array(d'->array()), as the in-place functions do
  | reshapeNd (d : Nat) (shape : Shape) (force : Bool)
  | hold (d : Nat) (b : Bool)
  | freeNd (d : Nat)
  | newVar (shape : Shape)
  | varFrom (d : Nat)
  | setData (v d : Nat)
  | setGrad (v d : Nat)
  | reshapeVar (v : Nat) (shape : Shape) (force : Bool)
  | viewVar (v : Nat)
  | freeVar (v : Nat)
  | newCg (v : Nat)
  | setVariable (c v : Nat)
  | freeCg (c : Nat)
  | newPy (c : Nat)
  | setVar (p c : Nat)
  | delPy (p : Nat) (e : Env)

def liveNd (st : St) (d : Nat) : Prop := d < st.nNd ∧ st.nlive d = true
def liveVar (st : St) (v : Nat) : Prop := v < st.nVar ∧ st.vlive v = true
def liveCg (st : St) (c : Nat) : Prop := c < st.nCg ∧ st.clive c = true
def livePy (st : St) (p : Nat) : Prop := p < st.nPy ∧ st.plive p = true

instance (st : St) (d : Nat) : Decidable (liveNd st d) := by unfold liveNd; infer_instance
instance (st : St) (v : Nat) : Decidable (liveVar st v) := by unfold liveVar; infer_instance
instance (st : St) (c : Nat) : Decidable (liveCg st c) := by unfold liveCg; infer_instance
instance (st : St) (p : Nat) : Decidable (livePy st p) := by unfold livePy; infer_instance

/-- One step of a history. -/
def step (st : St) : Op → St
  | .newNd shape => newNd st shape
  | .viewNd d shape => if liveNd st d then (viewNd st d shape).1 else st
  | .narrowNd d start length => if liveNd st d then (narrowNd st d start length).1 else st
  | .setArray d d' => if liveNd st d ∧ liveNd st d' then (setArray st d (st.arr d')).1 else st
  | .reshapeNd d shape force => if liveNd st d then (reshapeNd st d shape force).1 else st
  | .hold d b => if liveNd st d then { st with held := put st.held d b } else st
  | .freeNd d => if liveNd st d ∧ st.held d = false ∧ (∀ v, v < st.nVar → liveVar st v → st.data v ≠ d ∧ st.grad v ≠ d) then freeNd st d else st
  | .newVar shape => newVar st shape
  | .varFrom d => if liveNd st d then varFrom st d else st
  | .setData v d => if liveVar st v ∧ liveNd st d then (setData st v d).1 else st
  | .setGrad v d => if liveVar st v ∧ liveNd st d then (setGrad st v d).1 else st
  | .reshapeVar v shape force => if liveVar st v then (reshapeVar st v shape force).1 else st
  | .viewVar v => if liveVar st v then (viewVar st v).1 else st
  | .freeVar v => if liveVar st v ∧ (∀ c, c < st.nCg → liveCg st c → st.var c ≠ v) then freeVar st v else st
  | .newCg v => if liveVar st v then newCg st v else st
  | .setVariable c v => if liveCg st c ∧ liveVar st v then setVariable st c v else st
  | .freeCg c => if liveCg st c ∧ (∀ p, p < st.nPy → livePy st p → st.pvar p ≠ c) then freeCg st c else st
  | .newPy c => if liveCg st c then newPy st c else st
  | .setVar p c => if livePy st p ∧ liveCg st c then setVar st p c else st
  | .delPy p e => if livePy st p then delPy st p e else st

/-- The state after a history. -/
def run (ops : List Op) : St := ops.foldl step St.init

end Verif.Store
