import Mathlib.Data.List.Basic
/-
Global hooks: /repo/src/nbla/global_function_callback.cpp, /repo/src/nbla/global_solver_callback.cpp, the places where they are called
(/repo/src/nbla/computation_graph/variable.cpp:363-388, 632-656 and /repo/src/nbla/solver.cpp:190-345), and the cache of constant
arrays of /repo/src/nbla/singleton_manager.cpp:60-112. Callbacks are numbers.
-/
namespace Verif.Hooks

/-! ### The registry -/

/-- What can be done with one of the four registries (function/solver, pre/post). -/
inductive Op
  | set (key : String) (cb : Nat)
  | unset (key : String)
deriving DecidableEq

/-- GlobalFunctionCallback::set_pre_hook, set_post_hook (global_function_callback.cpp:37-66) and the same methods of
GlobalSolverCallback (global_solver_callback.cpp:36-63): an existing key gives a warning and nothing else. -/
def setHook (hooks : List (String × Nat)) (key : String) (cb : Nat) : List (String × Nat) :=
  match hooks.find? fun e => e.1 = key with
  | some _ => hooks
  | none => hooks ++ [(key, cb)]

/-- unset_pre_hook, unset_post_hook (global_function_callback.cpp:68-97, global_solver_callback.cpp:65-91): erase the first entry with
this key. -/
def unsetHook (hooks : List (String × Nat)) (key : String) : List (String × Nat) :=
  hooks.eraseP fun e => e.1 = key

def stepHooks (hooks : List (String × Nat)) : Op → List (String × Nat)
  | .set key cb => setHook hooks key cb
  | .unset key => unsetHook hooks key

/-- The registry after a history. -/
def hooksAfter (ops : List Op) : List (String × Nat) := ops.foldl stepHooks []

/-! ### Calls during forward and backward -/

/-- What happens to item x (a function or a parameter). -/
inductive Ev
  | preHook (cb x : Nat)
  | userPre (x : Nat)
  | work (x : Nat)
  | userPost (x : Nat)
  | postHook (cb x : Nat)
deriving DecidableEq

/-- Perform calls in order; one that raises ends it. -/
def runSeq (fails : Ev → Bool) : List Ev → List Ev × Bool
  | [] => ([], true)
  | e :: es => if fails e then ([e], false) else let r := runSeq fails es; (e :: r.1, r.2)

/-- call_pre_hooks / call_post_hooks (global_function_callback.cpp:27-35): all of them in the order of the vector. -/
def preCalls (hooks : List (String × Nat)) (x : Nat) : List Ev := hooks.map fun h => .preHook h.2 x
def postCalls (hooks : List (String × Nat)) (x : Nat) : List Ev := hooks.map fun h => .postHook h.2 x

/-- One function in ForwardCallback::operator() (variable.cpp:363-388) and BackwardCallback::operator() (variable.cpp:632-656);
uPre, uPost: the hooks given to forward/backward, if any. -/
def visitFunction (pre post : List (String × Nat)) (uPre uPost : Bool) (fails : Ev → Bool) (x : Nat) : List Ev × Bool :=
  runSeq fails (preCalls pre x ++ (if uPre then [.userPre x] else []) ++ [.work x] ++ (if uPost then [.userPost x] else []) ++ postCalls post x)

/-- All functions of a graph in the order they are visited; an exception ends the propagation. -/
def visitAll (pre post : List (String × Nat)) (uPre uPost : Bool) (fails : Ev → Bool) : List Nat → List Ev × Bool
  | [] => ([], true)
  | x :: xs =>
    match visitFunction pre post uPre uPost fails x with
    | (t, false) => (t, false)
    | (t, true) => let r := visitAll pre post uPre uPost fails xs; (t ++ r.1, r.2)

/-! ### Calls in the solver -/

/-- ScopedCallback (solver.cpp:192-211): the constructor calls the pre hooks, the destructor the post hooks. The statement
`ScopedCallback(pre_callback, post_callback);` (solver.cpp:225, 248, 268, 283, 299, 315, 331) makes a temporary object, whose destructor
runs at the end of that statement. Hooks do not raise here. -/
def scopedCallback (pre post : List (String × Nat)) (uPre uPost : Bool) (x : Nat) : List Ev :=
  preCalls pre x ++ (if uPre then [.userPre x] else []) ++ ((if uPost then [.userPost x] else []) ++ postCalls post x)

/-- Solver::update, weight_decay, clip_grad_by_norm, scale_grad (solver.cpp:214-274, 322-337): parameters whose gradient was not computed
(zeroing) are skipped. -/
def solverLoop (pre post : List (String × Nat)) (uPre uPost : Bool) (zeroing : Nat → Bool) : List Nat → List Ev
  | [] => []
  | x :: xs =>
    if zeroing x then solverLoop pre post uPre uPost zeroing xs
    else scopedCallback pre post uPre uPost x ++ [.work x] ++ solverLoop pre post uPre uPost zeroing xs

/-- The items worked on, in order. -/
def worked (t : List Ev) : List Nat := t.filterMap fun | .work x => some x | _ => none

/-! ### NNabla::ones and NNabla::zeros -/

/-- An array of the cache: its size and the value it is filled with. -/
structure Arr where
  size : Nat
  value : Int
deriving DecidableEq

/-- The two maps of singleton_manager.cpp (thread id to array). `owner` numbers arrays; a map entry owns its array. -/
structure Cache where
  ones : Nat → Option (Nat × Arr)
  zeros : Nat → Option (Nat × Arr)
  next : Nat

def Cache.empty : Cache := ⟨fun _ => none, fun _ => none, 0⟩

inductive Req
  | ones (tid size : Nat)
  | zeros (tid size : Nat)

/-- NNabla::ones (singleton_manager.cpp:73-91). Returns the array (its number and content) the pointer points into. -/
def ones (c : Cache) (tid size : Nat) : Cache × (Nat × Arr) :=
  let fresh : Nat × Arr := (c.next, ⟨size, 1⟩)
  let stored : Cache := { c with ones := fun t => if t = tid then some fresh else c.ones t, next := c.next + 1 }
  match c.ones tid with
  | none => (stored, fresh)
  | some a => if size > a.2.size then (stored, fresh) else (c, a)

/-- NNabla::zeros (singleton_manager.cpp:93-111). The new array is put into ones_, not zeros_. -/
def zeros (c : Cache) (tid size : Nat) : Cache × (Nat × Arr) :=
  let fresh : Nat × Arr := (c.next, ⟨size, 0⟩)
  let stored : Cache := { c with ones := fun t => if t = tid then some fresh else c.ones t, next := c.next + 1 }
  match c.zeros tid with
  | none => (stored, fresh)
  | some a => if size > a.2.size then (stored, fresh) else (c, a)

def stepCache (c : Cache) : Req → Cache × (Nat × Arr)
  | .ones t n => ones c t n
  | .zeros t n => zeros c t n

def cacheAfter (rs : List Req) : Cache := rs.foldl (fun c r => (stepCache c r).1) Cache.empty

/-- The array numbered a is still owned by the cache: a pointer into it may be used. -/
def Alive (c : Cache) (a : Nat) : Prop := ∃ t x, c.ones t = some (a, x) ∨ c.zeros t = some (a, x)

end Verif.Hooks
