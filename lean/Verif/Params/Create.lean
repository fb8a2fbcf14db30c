import Verif.Params.Model
/-
Model of `get_parameter_or_create`, `no_grad` and of parameter save/load
(/repo/python/src/nnabla/parameter.py, /repo/python/src/nnabla/utils/get_file_handle.py),
and of arbitrary user programs over the registry.

`β` is the type of array contents (values of a whole array).
-/
namespace Verif.Params

/-- The buffer object (`nbla::Variable`) behind one or several Python `Variable`s: it owns shape
and data (python/src/nnabla/_variable.pyx:306-315, 507-527). -/
structure Buf (β : Type) where
  shape : List Nat
  data : β

/-- A Python `Variable`: a reference to a buffer plus its own `need_grad` flag
(`get_unlinked_variable` shares the buffer and sets the flag, _variable.pyx:905-953). -/
structure VarRec where
  buf : Nat
  needGrad : Bool
  deriving DecidableEq, Repr

/-- Object heap plus the module global `current_no_grad` (parameter.py:39). -/
structure Heap (β : Type) where
  vars : List VarRec
  bufs : List (Buf β)
  noGrad : Bool

/-- The `initializer` argument. A callable returns an array of some shape. -/
inductive Init (β : Type) where
  | none
  | numpy (shape : List Nat) (data : β)
  | callable (f : List Nat → List Nat × β)
  | invalid

/-- Allocates a new `Variable` with its own buffer. -/
def newVar {β : Type} (h : Heap β) (shape : List Nat) (data : β) (ng : Bool) : Nat × Heap β :=
  (h.vars.length, { h with vars := h.vars ++ [⟨h.bufs.length, ng⟩], bufs := h.bufs ++ [⟨shape, data⟩] })

/-- `_create_parameter_by_initializer` (parameter.py:233-257). -/
def createByInit {β : Type} (zeros : List Nat → β) (init : Init β) (shape : Option (List Nat))
    (ng : Bool) (h : Heap β) : Except Err Nat × Heap β :=
  match init with
  | .none => match shape with
    | .none => (.error .assertion, h)
    | some sh => let r := newVar h sh (zeros sh) ng; (.ok r.1, r.2)
  | .numpy ish data => match shape with
    | .none => let r := newVar h ish data ng; (.ok r.1, r.2)
    | some sh =>
      if sh = ish then let r := newVar h ish data ng; (.ok r.1, r.2) else (.error .assertion, h)
  | .callable f => match shape with
    | .none => (.error .assertion, h)
    | some sh => let a := f sh; let r := newVar h a.1 a.2 ng; (.ok r.1, r.2)
  | .invalid => (.error .valueError, h)

/-- `v.get_unlinked_variable(need_grad=b)` (_variable.pyx:905-953). -/
def unlinked {β : Type} (h : Heap β) (v : Nat) (b : Bool) : Except Err Nat × Heap β :=
  match h.vars[v]? with
  | some r => (.ok h.vars.length, { h with vars := h.vars ++ [⟨r.buf, b⟩] })
  | none => (.error .typeError, h)  -- unreachable: a Python reference is never dangling

/-- `get_parameter_or_create` for a name without '/' (parameter.py:311-352). -/
def getOrCreateLeaf {β : Type} (zeros : List Nat → β) (name : Str) (shape : Option (List Nat))
    (init : Init β) (ng : Bool) (asNg : Option Bool) : M (Heap β) Nat := fun st =>
  let asNg := if st.1.noGrad then false else asNg.getD ng
  match getParameter name st with
  | (.error e, st) => (.error e, st)
  | (.ok (some v), st) =>
    match st.1.vars[v]? with
    | none => (.error .typeError, st)  -- unreachable
    | some r =>
      match st.1.bufs[r.buf]? with
      | none => (.error .typeError, st)  -- unreachable
      | some b =>
        match shape with
        | none => (.error .typeError, st)   -- `tuple(None)`
        | some sh =>
          if b.shape ≠ sh then (.error .valueError, st)
          else
            -- parameter.py:337-339: overwrite the registered flag and register again
            let st := if ng ≠ r.needGrad then
              (setParameter name v
                ({ st.1 with vars := st.1.vars.set v { r with needGrad := ng } }, st.2)).2
              else st
            let u := unlinked st.1 v asNg
            (u.1, (u.2, st.2))
  | (.ok none, st) =>
    match createByInit zeros init shape ng st.1 with
    | (.error e, h) => (.error e, (h, st.2))
    | (.ok v, h) =>
      let st := (setParameter name v (h, st.2)).2
      let u := unlinked st.1 v asNg
      (u.1, (u.2, st.2))

/-- `get_parameter_or_create(name, shape, initializer, need_grad, as_need_grad)`
(parameter.py:260-352). -/
def getOrCreate {β : Type} (zeros : List Nat → β) (name : Str) (shape : Option (List Nat))
    (init : Init β) (ng : Bool) (asNg : Option Bool) : M (Heap β) Nat :=
  match _h : split name with
  | n :: m :: t => parameterScope n (getOrCreate zeros (join (m :: t)) shape init ng asNg)
  | _ => getOrCreateLeaf zeros name shape init ng asNg
termination_by name.length
decreasing_by exact split_tail_lt _h

/-- One saved parameter (message `Parameter` of the protobuf file). -/
structure Saved (β : Type) where
  name : Str
  shape : List Nat
  data : β
  needGrad : Bool

/-- Reads a variable for saving. -/
def readVar {β : Type} (h : Heap β) (name : Str) (v : Nat) : Option (Saved β) :=
  match h.vars[v]? with
  | none => none
  | some r => match h.bufs[r.buf]? with
    | none => none
    | some b => some ⟨name, b.shape, b.data, r.needGrad⟩

/-- `save_parameters(path)`: `get_parameters(grad_only=False)` (parameter.py:424-445) written as one
record per entry in order (get_file_handle.py:467-486; HDF5 keeps the order through the 'index'
attribute).  The byte format itself is not modelled. -/
def saveParameters {β : Type} (h : Heap β) (d : Dict) : List (Saved β) :=
  (getParameters (fun _ => true) d).filterMap (fun kv => readVar h kv.1 kv.2)

/-- `var.d = value` (_variable.pyx:525-527). -/
def writeVar {β : Type} (h : Heap β) (v : Nat) (data : β) : Heap β :=
  match h.vars[v]? with
  | none => h
  | some r => match h.bufs[r.buf]? with
    | none => h
    | some b => { h with bufs := h.bufs.set r.buf { b with data := data } }

/-- `set_parameter_from_proto` (parameter.py:392-398), also the loop of the HDF5 loader
(get_file_handle.py:299-304). -/
def loadParameters {β : Type} (zeros : List Nat → β) : List (Saved β) → M (Heap β) Unit
  | [] => fun st => (.ok (), st)
  | s :: rest => fun st =>
    match getOrCreate zeros s.name (some s.shape) .none s.needGrad none st with
    | (.error e, st) => (.error e, st)
    | (.ok v, st) => loadParameters zeros rest (writeVar st.1 v s.data, st.2)

/-- User programs: parameter operations, `with` blocks, raise and try/except. `upd` is any
mutation of arrays outside the registry (forward passes, solver updates...). -/
inductive Prog (β : Type) where
  | skip
  | raise (e : Err)
  | seq (p q : Prog β)
  | tryExcept (p q : Prog β)
  | get (key : Str)
  | pop (key : Str)
  | set (key : Str) (v : Nat)
  | getOrCreate (key : Str) (shape : Option (List Nat)) (init : Init β) (ng : Bool) (asNg : Option Bool)
  | load (l : List (Saved β))
  | clear
  | scope (name : Str) (body : Prog β)
  | noGrad (b : Bool) (body : Prog β)

def discard {σ α : Type} (m : M σ α) : M σ Unit := fun st =>
  match m st with
  | (.ok _, st) => (.ok (), st)
  | (.error e, st) => (.error e, st)

/-- `with no_grad(b): body` (parameter.py:49-96). -/
def withNoGrad {β α : Type} (b : Bool) (body : M (Heap β) α) : M (Heap β) α := fun st =>
  let prev := st.1.noGrad
  let r := body ({ st.1 with noGrad := b }, st.2)
  (r.1, ({ r.2.1 with noGrad := prev }, r.2.2))

/-- Big-step semantics of user programs. -/
def run {β : Type} (zeros : List Nat → β) : Prog β → M (Heap β) Unit
  | .skip => fun st => (.ok (), st)
  | .raise e => fun st => (.error e, st)
  | .seq p q => fun st => match run zeros p st with
    | (.ok _, st) => run zeros q st
    | (.error e, st) => (.error e, st)
  | .tryExcept p q => fun st => match run zeros p st with
    | (.ok _, st) => (.ok (), st)
    | (.error _, st) => run zeros q st
  | .get k => discard (getParameter k)
  | .pop k => discard (popParameter k)
  | .set k v => setParameter k v
  | .getOrCreate k sh i ng a => discard (getOrCreate zeros k sh i ng a)
  | .load l => loadParameters zeros l
  | .clear => clearParameters
  | .scope n p => parameterScope n (run zeros p)
  | .noGrad b p => withNoGrad b (run zeros p)

end Verif.Params
