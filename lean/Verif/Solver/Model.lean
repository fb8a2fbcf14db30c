import Mathlib.Data.List.Basic
import Mathlib.Data.List.Nodup
/-!
# The solver base class (`Solver` in C++, `nnabla.solvers.Solver` in python)

Modelled: the parameter registry, the per-parameter states, the loop shared by `update`,
`weight_decay`, `clip_grad_by_norm`, `scale_grad`, `check_*_grad`, the hooks and the lazily
evaluated ("fused") weight decay rate.  A solver class (Sgd, Adam, ...) is a `Rule`; the rules
themselves are in `Verif.Solver.Rules`.

Simplifications: `unordered_map`s are association lists (the list order is the iteration order,
which C++ leaves unspecified; `update_order_irrelevant` shows that it does not matter when the
registered variables are distinct); arrays of states are held by value; the hooks are recorded in
a trace and do not act on the solver.
-/

namespace Verif.Solver

abbrev Key := String
abbrev VarId := Nat

/-! ## Maps -/

/-- `unordered_map::find`. -/
def get? {β : Type} (k : Key) : List (Key × β) → Option β
  | [] => none
  | (k', v) :: l => if k' = k then some v else get? k l

/-- `unordered_map::insert`: does nothing when the key is present. -/
def insertNew {β : Type} (k : Key) (v : β) (l : List (Key × β)) : List (Key × β) :=
  match get? k l with
  | some _ => l
  | none => l ++ [(k, v)]

/-- `unordered_map::erase(key)`. -/
def eraseKey {β : Type} (k : Key) (l : List (Key × β)) : List (Key × β) :=
  l.filter (fun p => p.1 ≠ k)

/-- Assignment through an iterator of an existing key (`it->second = v`). -/
def assign {β : Type} (k : Key) (v : β) : List (Key × β) → List (Key × β)
  | [] => []
  | (k', w) :: l => if k' = k then (k', v) :: l else (k', w) :: assign k v l

/-! ## Variables, states, rules -/

/-- A parameter `Variable`: shape, data, grad, and whether the grad array is `zeroing()`
(nothing but `zero()` was requested since it was last written). -/
structure Var (α : Type) where
  shape : List Nat
  data : List α
  grad : List α
  zeroing : Bool

/-- include/nbla/solver.hpp L79-96 `SolverState`. -/
structure SState (α : Type) where
  pstate : List (String × List α)
  t : Nat

inductive Err where
  /-- `states_.at(key)` throws `std::out_of_range`. -/
  | noState
  /-- `NBLA_CHECK` failure raised by a solver class (Lars). -/
  | check
  /-- `NBLA_CHECK` in `set_parameters(retain_state=true)`. -/
  | shape
  /-- `NBLA_CHECK` in `set_states`. -/
  | unknownKey
  /-- Access past the end of a state array (undefined behaviour in C++). -/
  | oob
  deriving DecidableEq

/-- A solver class: the virtual functions that `Solver` calls, and its constructor arguments. -/
structure Rule (α : Type) where
  /-- `weight_decay_is_fused_`. -/
  fused : Bool
  /-- `default_weight_decay_rate_`. -/
  defaultRate : α
  /-- `remove_state_impl` erases the state (every class except Sgd, where it is empty). -/
  erases : Bool
  /-- `set_state_impl`: the arrays of a fresh state, from the shape of the parameter. -/
  init : List Nat → List (String × List α)
  /-- `update_impl`: weight decay rate, state, grad, data ↦ new state arrays, grad, data. The
  iteration count is handled by `updateOp`. -/
  step : α → SState α → List α → List α →
    Except Err (List (String × List α) × List α × List α)

/-- `t = std::min(t + 1, std::numeric_limits<uint32_t>::max() - 1)` in `uint32_t` arithmetic
(every `update_impl`, e.g. src/nbla/solver/generic/sgd.cpp L48). -/
def tick (t : Nat) : Nat := min ((t + 1) % 2 ^ 32) (2 ^ 32 - 2)

inductive Event where
  | globalPre (h : String)
  | pre
  | post
  | globalPost (h : String)
  /-- `update_impl` (or `weight_decay_impl`, ...) runs on the parameter `k`. -/
  | act (k : Key)
  deriving DecidableEq

/-- Solver, memory and the trace of hook calls and updates. -/
structure World (α : Type) where
  mem : VarId → Var α
  params : List (Key × VarId)
  states : List (Key × SState α)
  rate : α
  trace : List Event

variable {α : Type}

/-! ## The registry -/

/-- `remove_state_impl(key)`; src/nbla/solver/generic/sgd.cpp L36 (empty body) versus e.g.
momentum.cpp L40-42 (`states_.erase(key)`). -/
def removeState (R : Rule α) (k : Key) (w : World α) : World α :=
  if R.erases then { w with states := eraseKey k w.states } else w

/-- `set_state_impl(key, param)`, e.g. momentum.cpp L31-39: `states_.insert` of a fresh state. -/
def setState (R : Rule α) (k : Key) (v : VarId) (w : World α) : World α :=
  { w with states := insertNew k ⟨R.init (w.mem v).shape, 0⟩ w.states }

/-- src/nbla/solver.cpp L145-151 `Solver::clear_parameters`. -/
def clearParameters (R : Rule α) (w : World α) : World α :=
  { (w.params.foldl (fun w p => removeState R p.1 w) w) with params := [] }

/-- One iteration of the loop of `Solver::set_parameters`, src/nbla/solver.cpp L115-135. -/
def setOne (R : Rule α) (reset retain : Bool) (k : Key) (v : VarId) (w : World α) :
    World α × Option Err :=
  let reg (w : World α) : World α :=
    setState R k v { w with params := insertNew k v w.params }
  if reset then (reg w, none)
  else match get? k w.params with
    | none => (reg w, none)
    | some v0 =>
      if retain then
        if (w.mem v).shape = (w.mem v0).shape then (w, none) else (w, some .shape)
      else (reg (removeState R k w), none)

/-- The loop of `Solver::set_parameters`; an exception leaves what was already done. -/
def setLoop (R : Rule α) (reset retain : Bool) :
    List (Key × VarId) → World α → World α × Option Err
  | [], w => (w, none)
  | (k, v) :: l, w =>
    match setOne R reset retain k v w with
    | (w', none) => setLoop R reset retain l w'
    | (w', some e) => (w', some e)

/-- src/nbla/solver.cpp L109-136 `Solver::set_parameters`. (`setup`, which picks the array class,
is not modelled.) -/
def setParameters (R : Rule α) (d : List (Key × VarId)) (reset retain : Bool) (w : World α) :
    World α × Option Err :=
  setLoop R reset retain d (if reset then clearParameters R w else w)

/-- src/nbla/solver.cpp L138-143 `Solver::remove_parameters`. -/
def removeParameters (R : Rule α) (ks : List Key) (w : World α) : World α :=
  ks.foldl (fun w k => removeState R k { w with params := eraseKey k w.params }) w

/-- src/nbla/solver.cpp L153-160 `get_parameters`. -/
def getParameters (w : World α) : List (Key × VarId) := w.params

/-- src/nbla/solver.cpp L162-168 `get_states`. -/
def getStates (w : World α) : List (Key × SState α) := w.states

/-- src/nbla/solver.cpp L170-177 `set_states`. -/
def setStates : List (Key × SState α) → World α → World α × Option Err
  | [], w => (w, none)
  | (k, st) :: l, w =>
    match get? k w.states with
    | none => (w, some .unknownKey)
    | some _ => setStates l { w with states := assign k st w.states }

/-! ## The loops over the parameters -/

/-- Hooks given to one call (`pre_callback`, `post_callback`: present or not) and the global ones
(their keys, in registration order). -/
structure Hooks where
  gpre : List String
  pre : Bool
  post : Bool
  gpost : List String

/-- src/nbla/solver.cpp L190-211, L222: `ScopedCallback(pre_callback, post_callback);` creates a
temporary, destroyed at the end of the statement, so that both halves run before `update_impl`. -/
def hookCalls (h : Hooks) : List Event :=
  h.gpre.map .globalPre ++ (if h.pre then [.pre] else []) ++
    (if h.post then [.post] else []) ++ h.gpost.map .globalPost

/-- What one of the loops does to a parameter: rate, its state, its variable ↦ new state and
variable. -/
abbrev LocalOp (α : Type) := α → Option (SState α) → Var α → Except Err (Option (SState α) × Var α)

/-- Replace the variable `v`. -/
def setVar (w : World α) (v : VarId) (x : Var α) : World α :=
  { w with mem := fun u => if u = v then x else w.mem u }

/-- One iteration of the loops of src/nbla/solver.cpp (L216-228 and alike): skip a gradient that
was not computed, run the hooks, run the operation. -/
def visit (h : Hooks) (op : LocalOp α) (k : Key) (v : VarId) (w : World α) :
    World α × Option Err :=
  if (w.mem v).zeroing then (w, none)
  else
    let w1 := { w with trace := w.trace ++ hookCalls h }
    match op w.rate (get? k w.states) (w.mem v) with
    | .error e => (w1, some e)
    | .ok (st, x) =>
      let w2 := setVar w1 v x
      ({ w2 with
          states := match st with
            | some s => assign k s w.states
            | none => w.states
          trace := w1.trace ++ [.act k] }, none)

/-- The loop over `params_`; an exception leaves what was already done. -/
def forParams (h : Hooks) (op : LocalOp α) : List (Key × VarId) → World α → World α × Option Err
  | [], w => (w, none)
  | (k, v) :: l, w =>
    match visit h op k v w with
    | (w', none) => forParams h op l w'
    | (w', some e) => (w', some e)

/-- `update_impl` of a solver class: look the state up (`states_.at(key)` throws), apply the rule,
count the iteration. -/
def updateOp (R : Rule α) : LocalOp α := fun rate st x =>
  match st with
  | none => .error .noState
  | some s =>
    match R.step rate s x.grad x.data with
    | .error e => .error e
    | .ok (ps, g, d) => .ok (some ⟨ps, tick s.t⟩, { x with grad := g, data := d })

/-- src/nbla/solver.cpp L213-232 `Solver::update`. -/
def update (R : Rule α) (h : Hooks) (w : World α) : World α × Option Err :=
  match forParams h (updateOp R) w.params w with
  | (w', none) => ({ w' with rate := R.defaultRate }, none)
  | (w', some e) => (w', some e)

/-- An operation on the gradient alone. -/
def gradOp (f : List α → List α → List α) : LocalOp α := fun _ st x =>
  .ok (st, { x with grad := f x.data x.grad })

/-- include/nbla/solver/weight_decay.hpp L21-30 `weight_decay_cpu`. -/
def weightDecayCpu [Add α] [Mul α] (r : α) (data grad : List α) : List α :=
  List.zipWith (fun x g => g + r * x) data grad

/-- src/nbla/solver.cpp L234-255 `Solver::weight_decay`. -/
def weightDecay [Add α] [Mul α] [Zero α] [DecidableEq α] (R : Rule α) (h : Hooks) (r : α)
    (w : World α) : World α × Option Err :=
  if R.fused then ({ w with rate := r }, none)
  else if r = 0 then (w, none)
  else forParams h (gradOp (weightDecayCpu r)) w.params w

/-- include/nbla/solver/mixed_precision_training.hpp L58-67 and src/nbla/solver.cpp L327-342
`scale_grad`. -/
def scaleGrad [Mul α] (h : Hooks) (s : α) (w : World α) : World α × Option Err :=
  forParams h (gradOp (fun _ g => g.map (· * s))) w.params w

/-- src/nbla/solver.cpp L257-274 `clip_grad_by_norm`; `clip` is `clip_grad_by_norm_cpu`, modelled
over the reals in `Verif.Solver.Rules`. -/
def clipGradByNorm [Zero α] [DecidableEq α] (clip : α → List α → List α) (h : Hooks) (n : α)
    (w : World α) : World α × Option Err :=
  if n = 0 then (w, none)
  else forParams h (gradOp (fun _ g => clip n g)) w.params w

/-- The loop of `check_inf_grad`, `check_nan_grad`, `check_inf_or_nan_grad`,
src/nbla/solver.cpp L276-324 with include/nbla/solver/mixed_precision_training.hpp L23-59;
`bad` is `isinf`, `isnan` or their disjunction. -/
def checkLoop (h : Hooks) (bad : α → Bool) : List (Key × VarId) → World α → World α × Bool
  | [], w => (w, false)
  | (k, v) :: l, w =>
    if (w.mem v).zeroing then checkLoop h bad l w
    else
      let w1 := { w with trace := w.trace ++ hookCalls h ++ [.act k] }
      if (w.mem v).grad.any bad then (w1, true) else checkLoop h bad l w1

def checkGrad (h : Hooks) (bad : α → Bool) (w : World α) : World α × Bool :=
  checkLoop h bad w.params w

/-- src/nbla/solver.cpp L183-188 `Solver::zero_grad`. -/
def zeroGrad [Zero α] (w : World α) : World α :=
  w.params.foldl (fun w p =>
    let x := w.mem p.2
    setVar w p.2 { x with grad := x.grad.map (fun _ => 0), zeroing := true }) w

/-! ## Global hooks -/

/-- src/nbla/global_solver_callback.cpp L36-64 `set_pre_hook`, `set_post_hook`: an existing key is
kept with a warning. -/
def setHook {β : Type} (k : String) (cb : β) (l : List (String × β)) : List (String × β) :=
  match l.find? (fun p => p.1 == k) with
  | some _ => l
  | none => l ++ [(k, cb)]

/-- src/nbla/global_solver_callback.cpp L66-93 `unset_pre_hook`, `unset_post_hook`: erases the
first entry with the key. -/
def unsetHook {β : Type} (k : String) : List (String × β) → List (String × β)
  | [] => []
  | p :: l => if p.1 == k then l else p :: unsetHook k l

/-! ## Histories -/

/-- The public operations, and what other code does to the variables between them. -/
inductive Op (α : Type) where
  | setParameters (d : List (Key × VarId)) (reset retain : Bool)
  | removeParameters (ks : List Key)
  | clearParameters
  | setStates (l : List (Key × SState α))
  | update (h : Hooks)
  | weightDecay (h : Hooks) (r : α)
  | scaleGrad (h : Hooks) (s : α)
  | clipGradByNorm (h : Hooks) (n : α)
  | checkGrad (h : Hooks) (bad : α → Bool)
  | zeroGrad
  /-- Backward, communication or the user writes the data or the gradient of a variable. -/
  | write (v : VarId) (data grad : List α) (zeroing : Bool)

/-- Run one operation. The second component is the exception, if any. -/
def Op.run [Add α] [Mul α] [Zero α] [DecidableEq α] (R : Rule α) (clip : α → List α → List α) :
    Op α → World α → World α × Option Err
  | .setParameters d reset retain, w => Solver.setParameters R d reset retain w
  | .removeParameters ks, w => (Solver.removeParameters R ks w, none)
  | .clearParameters, w => (Solver.clearParameters R w, none)
  | .setStates l, w => Solver.setStates l w
  | .update h, w => Solver.update R h w
  | .weightDecay h r, w => Solver.weightDecay R h r w
  | .scaleGrad h s, w => Solver.scaleGrad h s w
  | .clipGradByNorm h n, w => Solver.clipGradByNorm clip h n w
  | .checkGrad h bad, w => ((Solver.checkGrad h bad w).1, none)
  | .zeroGrad, w => (Solver.zeroGrad w, none)
  | .write v d g z, w => (setVar w v { w.mem v with data := d, grad := g, zeroing := z }, none)

/-- A history: exceptions are caught by the user and the solver is used further. -/
def runs [Add α] [Mul α] [Zero α] [DecidableEq α] (R : Rule α) (clip : α → List α → List α) :
    List (Op α) → World α → World α
  | [], w => w
  | o :: os, w => runs R clip os (o.run R clip w).1

/-- A solver just constructed, with any variables in memory. -/
def fresh (R : Rule α) (mem : VarId → Var α) : World α := ⟨mem, [], [], R.defaultRate, []⟩

end Verif.Solver
