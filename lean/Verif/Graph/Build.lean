import Verif.Graph.Backward
/-
C45: building a graph (`connect`) and backpropagating without a forward pass in between
(dynamic mode, `nn.auto_forward`).  Model of set_function_inputs, create_function_outputs and
connect (src/nbla/computation_graph/computation_graph.cpp L25-121) and CgFunction::set_outputs
(function.cpp L107-113), the parts that concern ranks and need_grad.
-/
namespace Verif.Graph

/-- The graph under construction with its ranks and need_grad states; `nv`, `nf` are the next
identifiers. -/
structure BldSt where
  G : Graph := { parent := fun _ => none, fn := fun _ => {} }
  st : VSt Unit := { ext := () }
  nv : Nat := 0
  nf : Nat := 0

inductive BldOp
  /-- `nn.Variable(...)`, with the need_grad flag -/
  | leaf (flag : Option Bool)
  /-- a function with `n` outputs applied to existing variables -/
  | connect (ins : List VarId) (n : Nat)
  /-- `v.need_grad = b` -/
  | setFlag (v : VarId) (flag : Option Bool)
  /-- `v.forward()` -/
  | forward (v : VarId)

/-- `set_function_inputs`: largest rank of the inputs. -/
def maxRank (rank : VarId → Nat) (ins : List VarId) : Nat := ins.foldl (fun r v => max r (rank v)) 0

def bldStep (s : BldSt) : BldOp → BldSt
  | .leaf flag => { s with G := { s.G with flag := upd s.G.flag s.nv flag }, nv := s.nv + 1 }
  | .connect ins n =>
    if ins.all (fun v => decide (v < s.nv)) then
      let ng := ins.any (fun v => needGradState (s.G.flag v) (s.st.vng v))
      let rank := maxRank s.st.vrank ins
      let outs := List.range' s.nv n
      { G := { s.G with
          parent := fun v => if v ∈ outs then some s.nf else s.G.parent v
          fn := upd s.G.fn s.nf { inputs := ins.map (fun v => (v, true)), outputs := outs } }
        st := { s.st with
          frank := upd s.st.frank s.nf rank
          fng := upd s.st.fng s.nf ng
          vrank := fun v => if v ∈ outs then rank + 1 else s.st.vrank v
          vng := fun v => if v ∈ outs then some ng else s.st.vng v }
        nv := s.nv + n
        nf := s.nf + 1 }
    else s
  | .setFlag v flag => { s with G := { s.G with flag := upd s.G.flag v flag } }
  | .forward v =>
    match forward s.G (fun _ _ e => e) (s.nf + 1) v { s.st with closed := [], order := [], setups := [] } with
    | none => s
    | some st => { s with st := st }

def bld (ops : List BldOp) : BldSt := ops.foldl bldStep {}

/-- no explicit forward -/
def NoForward (ops : List BldOp) : Prop := ∀ v, BldOp.forward v ∉ ops

theorem maxRank_ge {rank : VarId → Nat} : ∀ (ins : List VarId) (r : Nat) (v : VarId),
    (v ∈ ins → rank v ≤ ins.foldl (fun r v => max r (rank v)) r) ∧
      r ≤ ins.foldl (fun r v => max r (rank v)) r := by
  intro ins
  induction ins with
  | nil => intro r v; simp
  | cons a ins ih =>
    intro r v
    rw [List.foldl_cons]
    have h := ih (max r (rank a)) v
    refine ⟨?_, by omega⟩
    intro hv
    rcases List.mem_cons.mp hv with rfl | hv
    · omega
    · exact h.1 hv

structure BldInv (s : BldSt) : Prop where
  fnew : ∀ (f : Nat), s.nf ≤ f → (s.G.fn f).inputs = [] ∧ (s.G.fn f).outputs = []
  active : ∀ (f v : Nat) b, (v, b) ∈ (s.G.fn f).inputs → b = true ∧ v < s.nv
  parent : ∀ (v p : Nat), s.G.parent v = some p → v < s.nv ∧ p < s.nf ∧ s.st.vrank v = s.st.frank p + 1
  rank : ∀ (f v : Nat), (v, true) ∈ (s.G.fn f).inputs → s.st.vrank v ≤ s.st.frank f

theorem bldInv_step {s : BldSt} (h : BldInv s) {op : BldOp} (hop : ∀ v, op ≠ .forward v) :
    BldInv (bldStep s op) := by
  cases op with
  | forward v => exact absurd rfl (hop v)
  | leaf flag =>
    simp only [bldStep]
    exact ⟨h.fnew, fun f v b hv => ⟨(h.active f v b hv).1, by have := (h.active f v b hv).2; simp only; omega⟩,
      fun v p hp => ⟨by have := (h.parent v p hp).1; simp only; omega, (h.parent v p hp).2⟩, h.rank⟩
  | setFlag v flag => exact ⟨h.fnew, h.active, h.parent, h.rank⟩
  | connect ins n =>
    simp only [bldStep]
    split
    rotate_left
    · exact h
    rename_i hins
    rw [List.all_eq_true] at hins
    have hins : ∀ (v : Nat), v ∈ ins → v < s.nv := fun v hv => of_decide_eq_true (hins v hv)
    have hold : ∀ (v : Nat), v < s.nv → v ∉ List.range' s.nv n := by
      intro v hv hm
      have := List.mem_range'_1.mp hm
      omega
    constructor
    · intro f hf
      simp only at hf ⊢
      have : f ≠ s.nf := by omega
      simp only [upd, if_neg this]
      exact h.fnew f (by omega)
    · intro f v b hv
      simp only at hv ⊢
      by_cases hf : f = s.nf
      · subst hf
        simp only [upd, if_true, List.mem_map, Prod.mk.injEq] at hv
        obtain ⟨u, hu, rfl, rfl⟩ := hv
        exact ⟨rfl, by have := hins u hu; omega⟩
      · simp only [upd, if_neg hf] at hv
        have := h.active f v b hv
        exact ⟨this.1, by omega⟩
    · intro v p hp
      simp only at hp ⊢
      by_cases hv : v ∈ List.range' s.nv n
      · rw [if_pos hv] at hp
        obtain rfl := Option.some.inj hp
        have := List.mem_range'_1.mp hv
        refine ⟨by omega, by omega, ?_⟩
        rw [if_pos hv]
        simp [upd]
      · rw [if_neg hv] at hp
        obtain ⟨h1, h2, h3⟩ := h.parent v p hp
        refine ⟨by omega, by omega, ?_⟩
        rw [if_neg hv]
        simp only [upd]
        rw [if_neg (by omega)]
        exact h3
    · intro f v hv
      simp only at hv ⊢
      by_cases hf : f = s.nf
      · subst hf
        simp only [upd, if_true, List.mem_map, Prod.mk.injEq, and_true, exists_eq_right] at hv
        rw [if_neg (hold v (hins v hv))]
        simp only [upd, if_true]
        exact (maxRank_ge ins 0 v).1 hv
      · simp only [upd, if_neg hf] at hv ⊢
        rw [if_neg (hold v (h.active f v true hv).2)]
        exact h.rank f v hv

theorem bldInv_bld (ops : List BldOp) (hops : NoForward ops) : BldInv (bld ops) := by
  have : ∀ s, BldInv s → BldInv (ops.foldl bldStep s) := by
    induction ops with
    | nil => intro s h; exact h
    | cons op ops ih =>
      intro s h
      refine ih (fun v hv => hops v (by simp [hv])) _ (bldInv_step h ?_)
      rintro v rfl
      exact hops v (by simp)
  apply this
  constructor <;> simp

/-- C45. In a graph built by any sequence of applications (with any number of inputs, outputs,
repeated inputs, and changes of need_grad flags), without explicit forward passes, backward from any
variable with a parent runs each required function exactly once, after all its consumers. -/
theorem autoforward_backward_ok_partial {τ : Type} (ops : List BldOp) (hops : NoForward ops)
    (root : VarId) (p : FnId) (hp : (bld ops).G.parent root = some p)
    (cb : FnId → τ → τ) (x : τ) (fuel : Nat) (hf : (bld ops).nf ≤ fuel) :
    let env := BEnv.of (bld ops).G (bld ops).st
    (visitBackward (bld ops).G env cb fuel p x).open_ = [] ∧
    BackOk (bld ops).G env p (visitBackward (bld ops).G env cb fuel p x).order := by
  intro env
  have h := bldInv_bld ops hops
  have hR : RanksOk (bld ops).G env p := by
    intro f q _ ⟨v, hv, _, hq⟩
    have h1 := (h.parent v q hq).2.2
    have h2 := h.rank f v hv
    show (bld ops).st.frank q < (bld ops).st.frank f
    omega
  have hL : ∀ f, GReach (bld ops).G env p f → f ∈ List.range (bld ops).nf := by
    intro f hf
    rw [List.mem_range]
    cases hf with
    | root => exact (h.parent root p hp).2.1
    | step _ _ hfe =>
      obtain ⟨v, _, _, hq⟩ := hfe
      exact (h.parent v _ hq).2.1
  have := visitBackward_ok (bld ops).G env cb p hR _ hL fuel (by simpa using hf) x
  exact ⟨this.1, this.2.1⟩

/-- x(0) needs gradient; f0: x → (1, 2); f1: (1, 1) → 3; f2: (3, 2) → 4. -/
example : NoForward [.leaf (some true), .connect [0] 2, .connect [1, 1] 1, .connect [3, 2] 1] := by
  intro v; simp

example : (visitBackward (bld [.leaf (some true), .connect [0] 2, .connect [1, 1] 1, .connect [3, 2] 1]).G
    (BEnv.of (bld [.leaf (some true), .connect [0] 2, .connect [1, 1] 1, .connect [3, 2] 1]).G
      (bld [.leaf (some true), .connect [0] 2, .connect [1, 1] 1, .connect [3, 2] 1]).st)
    (fun _ (e : Unit) => e) 5 2 ()).order = [2, 1, 0] := by decide

/-- x(0); f0: x → y(1); `y.forward()`; f1: y → 2; f2: (y, 2) → 3. -/
def mixedOps : List BldOp :=
  [.leaf (some true), .connect [0] 1, .forward 1, .connect [1] 1, .connect [1, 2] 1]

/-- C45 is refuted when a variable was forwarded while the graph is being built: `forward` gives
functions a rank one larger than `connect` does, so a function connected later gets the same rank as
its producer.  Backward then runs the producer f0 before its consumer f1, and twice. -/
theorem autoforward_backward_refuted :
    (visitBackward (bld mixedOps).G (BEnv.of (bld mixedOps).G (bld mixedOps).st)
      (fun _ (e : Unit) => e) 9 2 ()).order = [2, 0, 1, 0] := by decide

end Verif.Graph
