import Verif.NNGrad.Weights
/-
Non-vacuity of C70 and the refutations. Values are integers (scalar variables), backward functions
multiply by the local derivatives.
-/
namespace Verif.NNGrad
open Verif.Graph

/-- x(0), w(1); f0: (x, w) → a(2), b(3); f1: (a, a) → c(4); f2: b → d(5); ranks as after a forward pass. -/
def exE : Env Int where
  G := { parent := fun | 2 => some 0 | 3 => some 0 | 4 => some 1 | 5 => some 2 | _ => none
         fn := fun
           | 0 => { inputs := [(0, true), (1, true)], outputs := [2, 3] }
           | 1 => { inputs := [(2, true), (2, true)], outputs := [4] }
           | 2 => { inputs := [(3, true)], outputs := [5] }
           | _ => {} }
  refs := fun | 0 => [0] | 1 => [0] | 2 => [1] | 3 => [2] | _ => []
  vrank := fun | 2 => 1 | 3 => 1 | 4 => 2 | 5 => 2 | _ => 0
  frank := fun | 0 => 1 | 1 => 2 | 2 => 2 | _ => 0
  vng := fun _ => true
  fng := fun _ => true
  vjp := fun f i l => match f, i with
    | 0, 0 => some (2 * (l.getD 0 0) + 3 * (l.getD 1 0))
    | 0, 1 => some (l.getD 1 0)
    | 1, 0 => some (5 * l.getD 0 0)
    | 1, 1 => some (7 * l.getD 0 0)
    | 2, 0 => some (l.getD 0 0)
    | _, _ => none
  one := fun _ => 1

theorem exE_up (f : FnId) : Up exE [4, 5] f ↔ f < 3 := by
  have hp : ∀ v p, exE.G.parent v = some p → p < 3 := by
    intro v p h
    match v with
    | 0 | 1 => cases h
    | 2 | 3 | 4 | 5 => cases h; decide
    | n + 6 => cases h
  constructor
  · intro h
    cases h with
    | root _ h => exact hp _ _ h
    | step _ _ h => exact hp _ _ h
  · intro h
    have h1 : Up exE [4, 5] 1 := .root (o := 4) (by simp) rfl
    have h2 : Up exE [4, 5] 2 := .root (o := 5) (by simp) rfl
    match f with
    | 0 => exact .step h2 (v := 3) (by decide) rfl
    | 1 => exact h1
    | 2 => exact h2
    | n + 3 => exact absurd h (Nat.not_lt.mpr (Nat.le_add_left 3 n))

theorem exE_wf : Wf exE 3 := by
  refine ⟨?_, ?_, ?_, ?_, fun _ _ h => h⟩
  · intro f o
    match f with
    | 0 | 1 | 2 =>
      match o with
      | 0 | 1 | 2 | 3 | 4 | 5 => decide
      | n + 6 => exact ⟨fun h => by simp [exE, Env.outs] at h, fun h => by cases h⟩
    | k + 3 =>
      constructor
      · intro h; cases h
      · intro h
        match o with
        | 0 | 1 => cases h
        | 2 | 3 | 4 | 5 => cases h
        | n + 6 => cases h
  · intro v f h
    match v with
    | 0 | 1 | 2 | 3 =>
      have : f = _ := List.mem_singleton.mp h
      subst this
      decide
    | n + 4 => cases h
  · intro f v p hv hp
    match f with
    | 0 =>
      have : v = 0 ∨ v = 1 := by simpa [exE, Env.ins] using hv
      rcases this with rfl | rfl <;> cases hp
    | 1 =>
      have : v = 2 := by simpa [exE, Env.ins] using hv
      subst this; cases hp; decide
    | 2 =>
      have : v = 3 := by simpa [exE, Env.ins] using hv
      subst this; cases hp; decide
    | k + 3 => cases hv
  · intro f
    match f with
    | 0 | 1 | 2 => decide
    | k + 3 => show 0 < 3; decide

/-- The hypotheses of `nn_grad_sum_partial` hold of this graph with two outputs and two inputs. -/
theorem exE_ok : GradOk exE 3 [(4, 4), (5, 5)] [0, 1] := by
  refine ⟨exE_wf, ?_, ?_, by decide, by decide, by decide, ?_, fun _ _ _ _ _ => rfl,
    fun _ _ _ _ _ _ _ _ => rfl, ?_, ?_, fun _ _ _ h => by cases h⟩
  · intro f v _ hv
    match f with
    | 0 =>
      have : v = 0 ∨ v = 1 := by simpa [exE, Env.ins] using hv
      rcases this with rfl | rfl <;> decide
    | 1 =>
      have : v = 2 := by simpa [exE, Env.ins] using hv
      subst this; decide
    | 2 =>
      have : v = 3 := by simpa [exE, Env.ins] using hv
      subst this; decide
    | k + 3 => cases hv
  · intro o ho
    have : o = 4 ∨ o = 5 := by simpa using ho
    rcases this with rfl | rfl
    · exact ⟨1, rfl, rfl, .inl rfl⟩
    · exact ⟨2, rfl, rfl, .inl rfl⟩
  · intro x _ hu
    exact used_predPlus hu
  · intro f i l l'
    unfold exE
    match f, i with
    | 0, 0 | 0, 1 | 1, 0 | 1, 1 | 2, 0 => rfl
    | 0, n + 2 | 1, n + 2 | 2, n + 1 => rfl
    | k + 3, _ => rfl
  · intro f i
    match f, i with
    | 0, 0 | 0, 1 | 1, 0 | 1, 1 | 2, 0 => decide
    | 0, n + 2 | 1, n + 2 | 2, n + 1 => rfl
    | k + 3, _ => rfl

example : grad exE 9 [(4, 4), (5, 5)] [0, 1] = some [some 27, some 1] := by decide

/-- The sensitivities of that graph: dc/da = 12, so d(c+d)/dx = 2·12 + 3 = 27 and d(c+d)/dw = 1. -/
example : ∃ D, IsSens exE [4, 5] (Finset.range 3) D :=
  sens_exists exE 3 exE_wf [4, 5] _ (fun f => by rw [exE_up, Finset.mem_range])

/-! ### Refutations -/

/-- f0: x(0) → a(1), b(2) with da/dx = 2, db/dx = 3. -/
def splitE : Env Int where
  G := { parent := fun | 1 => some 0 | 2 => some 0 | _ => none
         fn := fun | 0 => { inputs := [(0, true)], outputs := [1, 2] } | _ => {} }
  refs := fun | 0 => [0] | _ => []
  vrank := fun | 1 => 1 | 2 => 1 | _ => 0
  frank := fun | 0 => 1 | _ => 0
  vng := fun _ => true
  fng := fun _ => true
  vjp := fun f i l => match f, i with
    | 0, 0 => some (2 * (l.getD 0 0) + 3 * (l.getD 1 0))
    | _, _ => none
  one := fun _ => 1

theorem splitE_up (f : FnId) : Up splitE [1, 2] f ↔ f = 0 := by
  constructor
  · intro h
    have hp : ∀ v p, splitE.G.parent v = some p → p = 0 := by
      intro v p h
      match v with
      | 0 => cases h
      | 1 | 2 => cases h; rfl
      | n + 3 => cases h
    cases h with
    | root _ h => exact hp _ _ h
    | step _ _ h => exact hp _ _ h
  · rintro rfl
    exact .root (o := 1) (by simp) rfl

/-- Two outputs of one function (e.g. of F.split): the entry of the first output in `grad_vars` is
overwritten, so `nn.grad([a, b], [x])` returns db/dx = 3 and not da/dx + db/dx = 5. -/
theorem nn_grad_same_parent_refuted :
    grad splitE 9 [(1, 1), (2, 2)] [0] = some [some 3] ∧
    ∀ D, IsSens splitE [1, 2] {0} D → D 0 = 5 := by
  refine ⟨by decide, ?_⟩
  intro D hD
  have h1 : D 1 = 1 := by
    rw [hD.2 1]; simp [contrib, splitE]
  have h2 : D 2 = 1 := by
    rw [hD.2 2]; simp [contrib, splitE]
  rw [hD.2 0]
  simp [contrib, splitE, h1, h2]

/-- such sensitivities exist -/
example : IsSens splitE [1, 2] {0} (fun | 0 => 5 | 1 => 1 | 2 => 1 | _ => 0) := by
  refine ⟨fun f => by rw [Finset.mem_singleton, splitE_up], ?_⟩
  intro v
  match v with
  | 0 | 1 | 2 => decide
  | n + 3 => simp [contrib, splitE]

/-- x(0) → h(1) → y(2): f0 with derivative 2, f1 with derivative 3. `fwd`: a forward pass was executed,
which raises the ranks of the functions by one (variable.cpp L758). -/
def chainE (fwd : Bool) : Env Int where
  G := { parent := fun | 1 => some 0 | 2 => some 1 | _ => none
         fn := fun
           | 0 => { inputs := [(0, true)], outputs := [1] }
           | 1 => { inputs := [(1, true)], outputs := [2] }
           | _ => {} }
  refs := fun | 0 => [0] | 1 => [1] | _ => []
  vrank := fun | 1 => 1 | 2 => 2 | _ => 0
  frank := fun | 0 => if fwd then 1 else 0 | 1 => if fwd then 2 else 1 | _ => 0
  vng := fun _ => true
  fng := fun _ => true
  vjp := fun f i l => match f, i with
    | 0, 0 => some (2 * (l.getD 0 0))
    | 1, 0 => some (3 * (l.getD 0 0))
    | _, _ => none
  one := fun _ => 1

/-- `nn.grad([y, h], [x])` where `y` is computed from `h` raises KeyError if no forward pass was executed:
the function of `h` is put in the open set twice, with the rank of `h` and with its own. After a
forward pass the same call returns dy/dx + dh/dx = 8. -/
theorem nn_grad_inner_output_refuted :
    grad (chainE false) 9 [(2, 2), (1, 1)] [0] = none ∧
    grad (chainE true) 9 [(2, 2), (1, 1)] [0] = some [some 8] := by decide

/-- The gradient of a variable with respect to itself is the constant 0 (documented: dy/dy). -/
theorem nn_grad_self_refuted :
    grad (chainE true) 9 [(2, 2)] [2] = some [none] ∧ grad (chainE true) 9 [(2, 2)] [1] = some [some 3] := by
  decide

/-- An output without parent raises (`None.need_grad`). -/
theorem nn_grad_leaf_output_refuted : grad (chainE true) 9 [(0, 0)] [0] = none := by decide

/-- A repeated input: only the last occurrence gets the gradient, the other one the constant 0. -/
theorem nn_grad_duplicate_refuted : grad (chainE true) 9 [(2, 2)] [0, 0] = some [none, some 6] := by
  decide

/-- x(0), the parameter W used twice as W1(1) and W2(2) (two unlinked variables of one buffer), and the
registered parameter W(5); f0: (x, W1) → h(3), f1: (h, W2) → y(4). With x = 1 and y = (x W) W:
dh/dW1 = 1, dy/dh = W, dy/dW2 = h. -/
def sharedE (W : Int) : Env Int where
  G := { parent := fun | 3 => some 0 | 4 => some 1 | _ => none
         fn := fun
           | 0 => { inputs := [(0, true), (1, true)], outputs := [3] }
           | 1 => { inputs := [(3, true), (2, true)], outputs := [4] }
           | _ => {} }
  buf := fun | 2 => 1 | 5 => 1 | v => v
  refs := fun | 0 => [0] | 1 => [0] | 2 => [1] | 3 => [1] | _ => []
  vrank := fun | 3 => 1 | 4 => 2 | _ => 0
  frank := fun | 0 => 1 | 1 => 2 | _ => 0
  vng := fun v => v != 0
  fng := fun _ => true
  vjp := fun f i l => match f, i with
    | 0, 0 => some (W * l.getD 0 0)
    | 0, 1 => some (l.getD 0 0)
    | 1, 0 => some (W * l.getD 0 0)
    | 1, 1 => some (W * l.getD 0 0)
    | _, _ => none
  one := fun _ => 1

/-- A shared parameter: parametric functions give every use of a parameter its own variable
(`get_parameter_or_create` returns unlinked variables).  `nn.grad` follows the children of one of
them only: for y = x·W·W at x = 1, W = 10 it returns 10 = dy/dW2 instead of 2·W = 20. -/
theorem nn_grad_shared_parameter_refuted :
    grad (sharedE 10) 9 [(4, 4)] [5] = some [some 10] := by decide

/-- With the same variable used twice (no unlinking) the result is right. -/
example : grad { sharedE 10 with
    buf := id
    G := { parent := fun | 3 => some 0 | 4 => some 1 | _ => none
           fn := fun
             | 0 => { inputs := [(0, true), (1, true)], outputs := [3] }
             | 1 => { inputs := [(3, true), (1, true)], outputs := [4] }
             | _ => {} }
    refs := fun | 0 => [0] | 1 => [0, 1] | 3 => [1] | _ => [] } 9 [(4, 4)] [1] = some [some 20] := by decide

/-- y = 2·x at x = 3 with `grad_outputs = [g]`, g a Variable: f0: x(0) → y(1), mul: (y, g) → s(2). Here
g is the input x itself. -/
def goE : Env Int where
  G := { parent := fun | 1 => some 0 | 2 => some 1 | _ => none
         fn := fun
           | 0 => { inputs := [(0, true)], outputs := [1] }
           | 1 => { inputs := [(1, true), (0, true)], outputs := [2] }
           | _ => {} }
  refs := fun | 0 => [0, 1] | 1 => [1] | _ => []
  vrank := fun | 1 => 1 | 2 => 2 | _ => 0
  frank := fun | 0 => 0 | 1 => 1 | _ => 0
  vng := fun _ => true
  fng := fun _ => true
  vjp := fun f i l => match f, i with
    | 0, 0 => some (2 * (l.getD 0 0))
    | 1, 0 => some (3 * (l.getD 0 0))
    | 1, 1 => some (6 * (l.getD 0 0))
    | _, _ => none
  one := fun _ => 1

/-- A given gradient that is (or is computed from) an input is differentiated too: the documented
value is g·dy/dx = 3·2 = 6, `nn.grad` returns d(g·y)/dx = 12. -/
theorem nn_grad_outputs_refuted : grad goE 9 [(1, 2)] [0] = some [some 12] := by decide

/-- x(0) → y(1) (derivative 2), constant g(3) = 5, mul: (y, g) → s(2). -/
def goE2 : Env Int where
  G := { parent := fun | 1 => some 0 | 2 => some 1 | _ => none
         fn := fun
           | 0 => { inputs := [(0, true)], outputs := [1] }
           | 1 => { inputs := [(1, true), (3, true)], outputs := [2] }
           | _ => {} }
  refs := fun | 0 => [0] | 1 => [1] | 3 => [1] | _ => []
  vrank := fun | 1 => 1 | 2 => 2 | _ => 0
  frank := fun | 0 => 0 | 1 => 1 | _ => 0
  vng := fun v => v != 3
  fng := fun _ => true
  vjp := fun f i l => match f, i with
    | 0, 0 => some (2 * (l.getD 0 0))
    | 1, 0 => some (5 * (l.getD 0 0))
    | 1, 1 => some (6 * (l.getD 0 0))
    | _, _ => none
  one := fun _ => 1

example : grad goE2 9 [(1, 2)] [0] = some [some 10] := by decide

theorem goE2_up (f : FnId) : Up goE2 [2] f ↔ f < 2 := by
  have hp : ∀ v p, goE2.G.parent v = some p → p < 2 := by
    intro v p h
    match v with
    | 0 => cases h
    | 1 | 2 => cases h; decide
    | n + 3 => cases h
  have h1 : Up goE2 [2] 1 := .root (o := 2) (by simp) rfl
  constructor
  · intro h
    cases h with
    | root _ h => exact hp _ _ h
    | step _ _ h => exact hp _ _ h
  · intro h
    match f with
    | 0 => exact .step h1 (v := 1) (by decide) rfl
    | 1 => exact h1
    | n + 2 => exact absurd h (Nat.not_lt.mpr (Nat.le_add_left 2 n))

theorem goE2_ins {f v} (h : v ∈ goE2.ins f) : (f = 0 ∧ v = 0) ∨ (f = 1 ∧ (v = 1 ∨ v = 3)) := by
  match f with
  | 0 => left; simpa [goE2, Env.ins] using h
  | 1 => right; simpa [goE2, Env.ins] using h
  | n + 2 => cases h

/-- The hypotheses of `nn_grad_outputs_partial` hold of it. -/
example : GradOk goE2 2 [(1, 2)] [0] ∧
    Mults goE2 [(1, 2)] (fun _ => 1) (fun _ => 3) (fun _ => 5) ∧
    IsSensW goE2 [(1, 2)] (fun _ => 5) {0} (fun | 0 => 10 | 1 => 5 | _ => 0) := by
  have hup1 : ∀ f, Up goE2 [1] f → f = 0 := by
    intro f h
    induction h with
    | root ho hp => simp at ho; subst ho; cases hp; rfl
    | step _ hv hp ih =>
      subst ih
      rcases goE2_ins hv with ⟨_, rfl⟩ | ⟨h, _⟩
      · cases hp
      · cases h
  refine ⟨⟨⟨?_, ?_, ?_, ?_, fun _ _ h => h⟩, ?_, ?_, by decide, by decide, by decide, ?_, ?_,
    fun _ _ _ _ _ _ _ _ => rfl, ?_, ?_, fun _ _ _ h => by cases h⟩,
    ⟨?_, ?_, ?_, ?_, ?_, ?_, ?_⟩, ?_, ?_⟩
  · intro f o
    match f with
    | 0 | 1 =>
      match o with
      | 0 | 1 | 2 => decide
      | n + 3 => exact ⟨fun h => by simp [goE2, Env.outs] at h, fun h => by cases h⟩
    | k + 2 =>
      constructor
      · intro h; cases h
      · intro h
        match o with
        | 0 => cases h
        | 1 | 2 => cases h
        | n + 3 => cases h
  · intro v f h
    match v with
    | 0 | 1 | 3 =>
      have : f = _ := List.mem_singleton.mp h
      subst this
      decide
    | 2 => cases h
    | n + 4 => cases h
  · intro f v p hv hp
    rcases goE2_ins hv with ⟨rfl, rfl⟩ | ⟨rfl, rfl | rfl⟩
    · cases hp
    · cases hp; decide
    · cases hp
  · intro f
    match f with
    | 0 | 1 => decide
    | k + 2 => show 0 < 2; decide
  · intro f v _ hv
    rcases goE2_ins hv with ⟨rfl, rfl⟩ | ⟨rfl, rfl | rfl⟩ <;> decide
  · intro o ho
    have : o = 2 := by simpa using ho
    subst this
    refine ⟨1, rfl, rfl, .inr ⟨by decide, by decide, ?_⟩⟩
    intro f v _ hv hp
    rcases goE2_ins hv with ⟨rfl, rfl⟩ | ⟨rfl, rfl | rfl⟩ <;> cases hp
  · intro x hx _
    simp only [List.mem_singleton] at hx
    subst hx
    exact ⟨1, by simp, .one ⟨0, rfl, by decide⟩⟩
  · intro x v hx hs hu
    simp only [List.mem_singleton] at hx
    subst hx
    have : v ≠ 3 := by
      rintro rfl
      rcases hs with h | h
      · cases h
      · obtain ⟨u, _, f, _, _, ho⟩ := h.last
        match f with
        | 0 | 1 => exact absurd ho (by decide)
        | n + 2 => cases ho
    simpa [goE2] using this
  · intro f i l l'
    unfold goE2
    match f, i with
    | 0, 0 | 1, 0 | 1, 1 => rfl
    | 0, n + 1 | 1, n + 2 => rfl
    | k + 2, _ => rfl
  · intro f i
    match f, i with
    | 0, 0 | 1, 0 | 1, 1 => decide
    | 0, n + 1 | 1, n + 2 => rfl
    | k + 2, _ => rfl
  · simp; rfl
  · simp; rfl
  · simp; rfl
  · simp; rfl
  · simp; rfl
  · intro j _ h
    have := hup1 _ h
    cases this
  · intro j hj f _ h
    simp only [List.mem_singleton] at hj
    subst hj
    rcases goE2_ins h with ⟨_, h⟩ | ⟨_, h | h⟩ <;> cases h
  · intro f
    rw [Finset.mem_singleton]
    exact ⟨fun h => h ▸ .root (o := 1) (by simp) rfl, hup1 f⟩
  · intro v
    match v with
    | 0 | 1 => decide
    | n + 2 =>
      simp [contrib, goE2]

end Verif.NNGrad
