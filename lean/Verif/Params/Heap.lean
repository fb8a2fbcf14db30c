import Verif.Params.Model
/-
Model of the *mutable* side of /repo/python/src/nnabla/parameter.py: scope dictionaries are heap
objects, `current_scope` and `current_no_grad` are global variables that the context managers
overwrite and put back.  Unlike `Verif.Params.Model` this includes `parameter_scope(name, scope=d)`
with an arbitrary dictionary object `d`, aliasing, and detached dictionaries.
-/
namespace Verif.Params.Mut

open Verif.Params (Str split join strip Err)

/-- A value in a scope dictionary: a `Variable` or (a reference to) a dictionary object. -/
inductive HNode where
  | var (v : Nat)
  | ref (o : Nat)
  deriving DecidableEq, Repr

/-- Python process state seen by the module: dictionary objects and the two globals
(parameter.py:37-39). -/
structure HS where
  objs : List (List (Str × HNode))
  cur : Nat
  noGrad : Bool
  deriving DecidableEq, Repr

def hget (d : List (Str × HNode)) (k : Str) : Option HNode := (d.find? (fun e => e.1 == k)).map (·.2)

def hset : List (Str × HNode) → Str → HNode → List (Str × HNode)
  | [], k, n => [(k, n)]
  | (k', n') :: t, k, n => if k' = k then (k', n) :: t else (k', n') :: hset t k n

def hdel (d : List (Str × HNode)) (k : Str) : List (Str × HNode) := d.filter (fun e => e.1 != k)

abbrev HM (α : Type) := HS → Except Err α × HS

def obj (s : HS) (o : Nat) : List (Str × HNode) := s.objs.getD o []

def putObj (s : HS) (o : Nat) (d : List (Str × HNode)) : HS := { s with objs := s.objs.set o d }

/-- The loop of `parameter_scope` (parameter.py:174-183): from dictionary object `o`. -/
def walk : List Str → Nat → HM Nat
  | [], o, s => (.ok o, s)
  | n :: ns, o, s =>
    if n = [] then walk ns o s
    else match hget (obj s o) n with
      | some (.ref o') => walk ns o' (putObj s o (hset (obj s o) n (.ref o')))
      | some (.var _) => (.error .assertion, s)
      | none =>
        let o' := s.objs.length
        let s := { s with objs := s.objs ++ [[]] }
        walk ns o' (putObj s o (hset (obj s o) n (.ref o')))

/-- `with parameter_scope(name, scope): body` (parameter.py:99-188); `scope` is an optional
dictionary object.  The generator runs up to `yield` (an exception there leaves the globals as they
are at that point), then the body, then `finally`. -/
def withScope {α : Type} (name : Str) (scope : Option Nat) (body : HM α) : HM α := fun s =>
  let prev := s.cur
  match walk (split (strip name)) (scope.getD s.cur) s with
  | (.error e, s) => (.error e, s)
  | (.ok o, s) =>
    let r := body { s with cur := o }
    (r.1, { r.2 with cur := prev })

/-- `with no_grad(b): body` (parameter.py:49-96). -/
def withNoGrad {α : Type} (b : Bool) (body : HM α) : HM α := fun s =>
  let prev := s.noGrad
  let r := body { s with noGrad := b }
  (r.1, { r.2 with noGrad := prev })

/-- `get_parameter` (parameter.py:191-200). -/
def getParameter (key : Str) : HM (Option HNode) :=
  match _h : split key with
  | n :: m :: t => withScope n none (getParameter (join (m :: t)))
  | _ => fun s =>
    match hget (obj s s.cur) key with
    | none => (.ok none, s)
    | some (.var v) => (.ok (some (.var v)), s)
    | some (.ref _) => (.error .assertion, s)
termination_by key.length
decreasing_by exact split_tail_lt _h

/-- `pop_parameter` (parameter.py:203-221). -/
def popParameter (key : Str) : HM (Option HNode) :=
  match _h : split key with
  | n :: m :: t => withScope n none (popParameter (join (m :: t)))
  | _ => fun s =>
    match hget (obj s s.cur) key with
    | none => (.ok none, s)
    | some x => (.ok (some x), putObj s s.cur (hdel (obj s s.cur) key))
termination_by key.length
decreasing_by exact split_tail_lt _h

/-- `set_parameter` (parameter.py:224-230). -/
def setParameter (key : Str) (x : HNode) : HM Unit :=
  match _h : split key with
  | n :: m :: t => withScope n none (setParameter (join (m :: t)) x)
  | _ => fun s => (.ok (), putObj s s.cur (hset (obj s s.cur) key x))
termination_by key.length
decreasing_by exact split_tail_lt _h

/-- User programs over the mutable registry. `arbitrary` lets a statement mutate any dictionary
object directly (user code holding a reference), but not the module globals. -/
inductive Prog where
  | skip
  | raise (e : Err)
  | seq (p q : Prog)
  | tryExcept (p q : Prog)
  | get (key : Str)
  | pop (key : Str)
  | set (key : Str) (x : HNode)
  | clear
  | arbitrary (f : List (List (Str × HNode)) → List (List (Str × HNode)))
  | scope (name : Str) (dict : Option Nat) (body : Prog)
  | noGrad (b : Bool) (body : Prog)

def discard {α : Type} (m : HM α) : HM Unit := fun s =>
  match m s with
  | (.ok _, s) => (.ok (), s)
  | (.error e, s) => (.error e, s)

/-- Big-step semantics of user programs (parameter.py:49-230, 385-389 for the cases). -/
def run : Prog → HM Unit
  | .skip => fun s => (.ok (), s)
  | .raise e => fun s => (.error e, s)
  | .seq p q => fun s => match run p s with
    | (.ok _, s) => run q s
    | (.error e, s) => (.error e, s)
  | .tryExcept p q => fun s => match run p s with
    | (.ok _, s) => (.ok (), s)
    | (.error _, s) => run q s
  | .get k => discard (getParameter k)
  | .pop k => discard (popParameter k)
  | .set k x => setParameter k x
  | .clear => fun s => (.ok (), putObj s s.cur [])
  | .arbitrary f => fun s => (.ok (), { s with objs := f s.objs })
  | .scope n d p => withScope n d (run p)
  | .noGrad b p => withNoGrad b (run p)

end Verif.Params.Mut
