/-
Model of the parameter registry: /repo/python/src/nnabla/parameter.py.

`current_scope` is an `OrderedDict` whose values are `OrderedDict`s (scopes) or
`nn.Variable`s.  An insertion-ordered dictionary is an association list; a
`Variable` object is represented by its identity (a `Nat`, an index into a
variable heap).  Every API function below runs relative to the current scope:
it receives the dictionary of the current scope and returns the dictionary as it
is left behind, also when an exception is raised.  (`parameter_scope(..., scope=d)`,
the optional explicit-dictionary argument, is only modelled in `Verif.Params.Heap`.)
-/
namespace Verif.Params

/-- A Python `str`. -/
abbrev Str := List Char

/-- Python `s.split('/')` (used at parameter.py:163, 192, 213, 225, 306). -/
def split : Str → List Str
  | [] => [[]]
  | c :: cs =>
    if c = '/' then [] :: split cs
    else match split cs with
      | [] => [[c]]
      | h :: t => (c :: h) :: t

/-- Python `'/'.join(l)` (used at parameter.py:195, 216, 228, 309, 377, 381). -/
def join : List Str → Str
  | [] => []
  | [a] => a
  | a :: b :: t => a ++ '/' :: join (b :: t)

/-- Python `s.strip('/')` (parameter.py:163). -/
def strip (s : Str) : Str :=
  ((s.dropWhile (· == '/')).reverse.dropWhile (· == '/')).reverse

/-- A value stored in a scope dictionary: a `Variable` or a nested `OrderedDict`. -/
inductive Node where
  | var (v : Nat)
  | dict (es : List (Str × Node))

/-- `OrderedDict` of a scope (parameter.py:38). -/
abbrev Dict := List (Str × Node)

/-- `d.get(k, None)`. -/
def dget : Dict → Str → Option Node
  | [], _ => none
  | (k', n) :: t, k => if k' = k then some n else dget t k

/-- `d[k] = n`: an existing key keeps its position, a new one is appended. -/
def dset : Dict → Str → Node → Dict
  | [], k, n => [(k, n)]
  | (k', n') :: t, k, n => if k' = k then (k', n) :: t else (k', n') :: dset t k n

/-- `del d[k]`. -/
def ddel : Dict → Str → Dict
  | [], _ => []
  | (k', n') :: t, k => if k' = k then t else (k', n') :: ddel t k

/-- Exceptions raised by this module. -/
inductive Err where
  | assertion     -- `assert isinstance(...)` (parameter.py:182, 199, 237, 244, 250, 379)
  | valueError    -- shape mismatch (parameter.py:330-335)
  | typeError     -- `tuple(None)`
  deriving DecidableEq, Repr

/-- A computation running in a current scope.  `σ` is the rest of the program state
(variable heap, array heap, no_grad flag). -/
abbrev M (σ α : Type) := σ × Dict → Except Err α × (σ × Dict)

/-- The loop at parameter.py:174-183 followed by the body of the `with` statement,
run on the scope reached.  Empty components keep the scope (parameter.py:177), a missing
scope is created, a `Variable` in the way raises AssertionError.
`finally: current_scope = prev_scope` (parameter.py:187-188) is the functional return to `d`. -/
def scopeGo {σ α : Type} : List Str → M σ α → M σ α
  | [], body => body
  | n :: ns, body => fun st =>
    if n = [] then scopeGo ns body st
    else match dget st.2 n with
      | none =>
        let r := scopeGo ns body (st.1, [])
        (r.1, (r.2.1, dset st.2 n (.dict r.2.2)))
      | some (.dict s) =>
        let r := scopeGo ns body (st.1, s)
        (r.1, (r.2.1, dset st.2 n (.dict r.2.2)))
      | some (.var _) => (.error .assertion, st)

/-- `with parameter_scope(name): body` (parameter.py:99-188).  `names` is never empty, so
the ValueError at parameter.py:164-166 cannot be raised. -/
def parameterScope {σ α : Type} (name : Str) (body : M σ α) : M σ α :=
  scopeGo (split (strip name)) body

theorem split_ne_nil (s : Str) : split s ≠ [] := by
  cases s with
  | nil => simp [split]
  | cons c cs =>
    unfold split
    split
    · simp
    · split <;> simp

theorem join_split (s : Str) : join (split s) = s := by
  induction s with
  | nil => simp [split, join]
  | cons c cs ih =>
    unfold split
    split
    · next h =>
      subst h
      cases hs : split cs with
      | nil => exact absurd hs (split_ne_nil cs)
      | cons a t => rw [hs] at ih; simp [join, ih]
    · next h =>
      cases hs : split cs with
      | nil => exact absurd hs (split_ne_nil cs)
      | cons a t =>
        rw [hs] at ih
        cases t with
        | nil => simp [join] at ih ⊢; exact ih
        | cons b t => simp [join] at ih ⊢; exact ih

theorem split_tail_lt {key n m : Str} {t : List Str} (h : split key = n :: m :: t) :
    (join (m :: t)).length < key.length := by
  have := join_split key
  rw [h, join] at this
  have := congrArg List.length this
  simp at this
  omega

/-- `get_parameter(key)` (parameter.py:191-200). -/
def getParameter {σ : Type} (key : Str) : M σ (Option Nat) :=
  match _h : split key with
  | n :: m :: t => parameterScope n (getParameter (join (m :: t)))
  | _ => fun st =>
    match dget st.2 key with
    | none => (.ok none, st)
    | some (.var v) => (.ok (some v), st)
    | some (.dict _) => (.error .assertion, st)
termination_by key.length
decreasing_by exact split_tail_lt _h

/-- `pop_parameter(key)` (parameter.py:203-221).  Returns whatever is stored, a whole scope included. -/
def popParameter {σ : Type} (key : Str) : M σ (Option Node) :=
  match _h : split key with
  | n :: m :: t => parameterScope n (popParameter (join (m :: t)))
  | _ => fun st =>
    match dget st.2 key with
    | none => (.ok none, st)
    | some x => (.ok (some x), (st.1, ddel st.2 key))
termination_by key.length
decreasing_by exact split_tail_lt _h

/-- `set_parameter(key, param)` (parameter.py:224-230). -/
def setParameter {σ : Type} (key : Str) (v : Nat) : M σ Unit :=
  match _h : split key with
  | n :: m :: t => parameterScope n (setParameter (join (m :: t)) v)
  | _ => fun st => (.ok (), (st.1, dset st.2 key (.var v)))
termination_by key.length
decreasing_by exact split_tail_lt _h

/-- `clear_parameters()` (parameter.py:385-389). -/
def clearParameters {σ : Type} : M σ Unit := fun st => (.ok (), (st.1, []))

/-- `params[k] = v` on the result dictionary of `get_parameters`. -/
def pset : List (Str × Nat) → Str → Nat → List (Str × Nat)
  | [], k, v => [(k, v)]
  | (k', v') :: t, k, v => if k' = k then (k', v) :: t else (k', v') :: pset t k v

/-- `'/'.join([path, k]) if path else k` (parameter.py:377, 381). -/
def joinPath (path k : Str) : Str := if path = [] then k else path ++ '/' :: k

/-- The loop of `get_parameters(params, path, grad_only)` over the entries of the current
scope (parameter.py:373-382); `keep v` is `not grad_only or v.need_grad`.  Simplification:
`with parameter_scope(k)` is entered on the entry being iterated (it re-inserts the same
dictionary under the same key, which has no effect). -/
def getParametersGo (keep : Nat → Bool) : List (Str × Nat) → Str → List (Str × Node) → List (Str × Nat)
  | params, _, [] => params
  | params, path, (k, .dict es) :: rest =>
    getParametersGo keep (getParametersGo keep params (joinPath path k) es) path rest
  | params, path, (k, .var v) :: rest =>
    getParametersGo keep (if keep v then pset params (joinPath path k) v else params) path rest

/-- `get_parameters(grad_only=...)` (parameter.py:355-382). -/
def getParameters (keep : Nat → Bool) (d : Dict) : List (Str × Nat) :=
  getParametersGo keep [] [] d

end Verif.Params
