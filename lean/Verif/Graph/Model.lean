/-
Model of the computation-graph engine of nnabla:
  src/nbla/computation_graph/variable.cpp, function.cpp, computation_graph.cpp.

Variables (CgVariable) and functions (CgFunction) are identified by numbers
(their addresses in C++).  The static structure of a graph (who consumes and
produces what, flags set by the user) is a `Graph`; what a forward pass updates
(`rank_`, `need_grad_state_`, `need_setup` marks, the closed list) is a `VSt`.
-/
namespace Verif.Graph

abbrev VarId := Nat
abbrev FnId := Nat

/-- A function node.  include/nbla/computation_graph/function.hpp (CgFunction) and the
queries of include/nbla/function.hpp L153-330 used by the graph engine.
`inputs` pairs each input variable with `is_active_input(i)`
(src/nbla/function.cpp L228-233).  `inplace i = some o` models
`inplace_data(i) > 0` with `inplace_data_with(i) = o`. -/
structure Fn where
  inputs : List (VarId × Bool) := []
  outputs : List VarId := []
  inplace : Nat → Option Nat := fun _ => none
  prohibitClearInputs : Bool := false
  gradDepIn : Nat → Nat → Bool := fun _ _ => false
  gradDepOut : Nat → Nat → Bool := fun _ _ => false
  overwriteIn : Nat → Bool := fun _ => false

/-- The graph: `parent_` (include/nbla/computation_graph/variable.hpp L119), the user flags
`need_grad_` (L112: `none` = NG_NONE), `persistent_`, `prohibit_clear_data_`, `recompute_`
and `function_reference_count_` (L116-127). -/
structure Graph where
  parent : VarId → Option FnId
  fn : FnId → Fn
  flag : VarId → Option Bool := fun _ => none
  persistent : VarId → Bool := fun _ => false
  prohibitClear : VarId → Bool := fun _ => false
  recompute : VarId → Bool := fun _ => false
  refCount : VarId → Nat := fun _ => 0

/-- Function update. -/
def upd {α : Type} (m : Nat → α) (k : Nat) (x : α) : Nat → α :=
  fun j => if j = k then x else m j

/-- `CgVariable::need_grad_state()` (variable.hpp: "Get need grad state flag"): the user flag if
set, otherwise the propagated state. `st` is `need_grad_state_`. -/
def needGradState (flag : Option Bool) (st : Option Bool) : Bool :=
  match flag with
  | some b => b
  | none => st == some true

/-- Mutable state of the graph during a forward pass.  `order` is the sequence of functions on
which the forward callback has been called, `setups` those on which `CgFunction::setup` has been
called; `ext` is the state of the callback object. `mark f v` is the `need_setup` field of
`v.function_references_[f]`. -/
structure VSt (σ : Type) where
  closed : List FnId := []
  vrank : VarId → Nat := fun _ => 0
  vng : VarId → Option Bool := fun _ => none
  frank : FnId → Nat := fun _ => 0
  fng : FnId → Bool := fun _ => false
  mark : FnId → VarId → Bool := fun _ _ => false
  setups : List FnId := []
  order : List FnId := []
  ext : σ

/-- Local variables of one activation of `visit_function_recursive` (variable.cpp L679-683). -/
structure Acc (σ : Type) where
  st : VSt σ
  maxRank : Nat
  ng : Bool
  su : Bool

/-- `check_and_unmark_need_setup` (variable.cpp L1057-1064), the unmarking. -/
def unmark (m : FnId → VarId → Bool) (f : FnId) (v : VarId) : FnId → VarId → Bool :=
  fun g u => if g = f ∧ u = v then false else m g u

/-- `mark_need_setup` of a list of variables (variable.cpp L1045-1055). Marks of functions that do
not consume the variable are never read, so marking all of them is the same. -/
def markAll (m : FnId → VarId → Bool) (vs : List VarId) : FnId → VarId → Bool :=
  fun g u => if u ∈ vs then true else m g u

/-- One iteration of the loop over the inputs (variable.cpp L689-741, with
`as_recomputation = false`). `rec` is the recursive call. -/
def stepInput {σ : Type} (G : Graph) (rec : FnId → VSt σ → VSt σ) (f : FnId)
    (a : Acc σ) (vi : VarId × Bool) : Acc σ :=
  if vi.2 = false then a
  else
    match G.parent vi.1 with
    | none =>
      let s : VSt σ := { a.st with vrank := upd a.st.vrank vi.1 0, vng := upd a.st.vng vi.1 none }
      { st := { s with mark := unmark s.mark f vi.1 }
        maxRank := max 0 a.maxRank
        ng := a.ng || needGradState (G.flag vi.1) (s.vng vi.1)
        su := a.su || s.mark f vi.1 }
    | some p =>
      let s0 : VSt σ := if p ∈ a.st.closed then a.st else rec p a.st
      let s : VSt σ := { s0 with vrank := upd s0.vrank vi.1 (s0.frank p)
                                 vng := upd s0.vng vi.1 (some (s0.fng p)) }
      { st := { s with mark := unmark s.mark f vi.1 }
        maxRank := max (s0.frank p) a.maxRank
        ng := a.ng || needGradState (G.flag vi.1) (s.vng vi.1)
        su := a.su || s.mark f vi.1 }

/-- `CgVariable::visit_function_recursive` with `as_recomputation = false`
(variable.cpp L671-778). The fuel bounds the recursion depth (the C++ recursion is unbounded; the
theorems hold for every fuel above the depth of the graph). `verify_during_forward` (L771) only
checks in-place legality and is modelled separately. `cb` is the forward callback: it may look at
the whole graph state and updates its own state. -/
def visit {σ : Type} (G : Graph) (cb : VSt σ → FnId → σ → σ) : Nat → FnId → VSt σ → VSt σ
  | 0, _, s => s
  | n + 1, f, s =>
    -- A. push to the closed list
    let s1 : VSt σ := { s with closed := f :: s.closed }
    -- B. open all inputs
    let a := (G.fn f).inputs.foldl (stepInput G (visit G cb n) f)
      { st := s1, maxRank := 0, ng := false, su := false }
    -- C. update rank and need_grad
    let s2 : VSt σ := { a.st with fng := upd a.st.fng f a.ng
                                  frank := upd a.st.frank f (a.maxRank + 1) }
    -- D. setup if required
    let s3 : VSt σ :=
      if a.su then
        { s2 with setups := s2.setups ++ [f], mark := markAll s2.mark (G.fn f).outputs }
      else s2
    -- F. callback
    { s3 with ext := cb s3 f s3.ext, order := s3.order ++ [f] }

/-- `CgVariable::forward` (variable.cpp L939-957): `none` is the error "The variable has no
parent". The closed list of `s` is the `fclosed` argument ([] when not given). -/
def forward {σ : Type} (G : Graph) (cb : VSt σ → FnId → σ → σ) (fuel : Nat) (v : VarId)
    (s : VSt σ) : Option (VSt σ) :=
  match G.parent v with
  | none => none
  | some p => some (visit G cb fuel p s)

/-- The loop of `forward_all` (computation_graph.cpp L179-191); every `forward` call makes a new
callback object, hence `fresh`. The persistent flags are part of the `Graph`. -/
def forwardAll {σ : Type} (G : Graph) (cb : VSt σ → FnId → σ → σ) (fresh : σ → σ) (fuel : Nat) :
    List VarId → VSt σ → VSt σ
  | [], s => s
  | v :: vs, s =>
    match G.parent v with
    | none => forwardAll G cb fresh fuel vs s
    | some p =>
      if p ∈ s.closed then forwardAll G cb fresh fuel vs s
      else forwardAll G cb fresh fuel vs (visit G cb fuel p { s with ext := fresh s.ext })

end Verif.Graph
