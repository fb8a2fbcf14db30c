import Mathlib.Algebra.BigOperators.Group.List.Basic
import Mathlib.Algebra.Group.Int.Defs
import Mathlib.Algebra.Ring.Int.Defs
import Mathlib.Algebra.Ring.Defs
import Mathlib.Tactic.Ring
import Verif.Graph.GradDeriv
/-
Concrete cases for C25/C48 and the refutation of C25 for variables whose gradient was switched off.
-/
namespace Verif.Graph

/-! ### `z = y + y * w`, `y = 2 * x` at `x = 3`, `w = 5` (the graph `diamond`) -/

def dEnv : BEnv := ⟨fun f => f + 1, fun _ => true, fun _ => true⟩

/-- gradients of `2*x`, `y*w`, `y+a` -/
def dVjp (f i : Nat) (gs : List Int) : Option Int :=
  match f, i, gs with
  | 0, 0, [g] => some (2 * g)
  | 1, 0, [g] => some (5 * g)
  | 1, 1, [g] => some (6 * g)
  | 2, 0, [g] => some g
  | 2, 1, [g] => some g
  | _, _, _ => none

def dJvp (f k : Nat) (ts : List Int) : Int :=
  match f, k, ts with
  | 0, 0, [x] => 2 * x
  | 1, 0, [y, w] => 5 * y + 6 * w
  | 2, 0, [y, a] => y + a
  | _, _, _ => 0

def dCfg (clr : Bool) : GCfg Int :=
  { env := dEnv, vjp := dVjp, clearBuffer := clr, junk := fun _ _ => ⟨false, 99⟩ }

theorem diamond_wf : WfGraph diamond where
  outputs := diamond_outputs
  parents := by
    intro v p h
    match v, h with
    | 0, h => simp [diamond] at h
    | 1, h => simp [diamond] at h; subst h; simp [diamond]
    | 2, h => simp [diamond] at h; subst h; simp [diamond]
    | 3, h => simp [diamond] at h; subst h; simp [diamond]
    | n + 4, h => simp [diamond] at h
  nodup := by
    intro f
    match f with
    | 0 => simp [diamond]
    | 1 => simp [diamond]
    | 2 => simp [diamond]
    | n + 3 => simp [diamond]

theorem diamond_reach (env : BEnv) (f : Nat) (h : GReach diamond env 2 f) : f ≤ 2 := by
  induction h with
  | root => exact Nat.le_refl _
  | step _ _ hfe ih =>
    obtain ⟨v, hv, _, hp⟩ := hfe
    have := diamond_layered _ _ ⟨v, hv, hp⟩
    exact Nat.le_trans (Nat.le_of_lt this) ih

theorem diamond_ranks : RanksOk diamond dEnv 2 := by
  intro f p _ ⟨v, hv, _, hp⟩
  have := diamond_layered _ _ ⟨v, hv, hp⟩
  exact Nat.succ_lt_succ this

theorem diamond_nostop : NoStop diamond dEnv 2 where
  active := by
    intro f hf v b hv
    have := diamond_reach _ _ hf
    match f, hv with
    | 0, hv => simp [diamond] at hv; exact hv.2
    | 1, hv => simp [diamond] at hv; rcases hv with h | h <;> exact h.2
    | 2, hv => simp [diamond] at hv; rcases hv with h | h <;> exact h.2
    | n + 3, hv => simp [diamond] at hv
  nostop := fun _ _ _ _ _ _ _ _ _ => rfl

theorem diamond_list (env : BEnv) (f : FnId) (h : GReach diamond env 2 f) : f ∈ [0, 1, 2] := by
  have := diamond_reach _ _ h
  match f, this with
  | 0, _ => simp
  | 1, _ => simp
  | 2, _ => simp
  | n + 3, h => exact absurd h (by simp)

example (clr : Bool) (g : Option (GArr Int)) (ci : Bool) (z : GArr Int) (grad : VarId → GArr Int) :=
  backward_gradient_partial diamond (dCfg clr) 3 2 rfl diamond_wf diamond_ranks diamond_nostop rfl
    (fun _ h => by simp [dCfg] at h) [0, 1, 2] (diamond_list _) 3 (Nat.le_refl _) g ci z grad

/-- multiplication of integers as a pairing -/
def mulHom : Int →+ Int →+ Int where
  toFun := fun a => { toFun := fun b => a * b, map_zero' := by simp, map_add' := by intros; ring }
  map_zero' := by ext; simp
  map_add' := by intro a b; ext; simp

theorem dAdjoint (f : FnId) : KernelAdjoint diamond mulHom dVjp dJvp f := by
  intro gs ts hg ht
  match f, hg, ht with
  | 0, hg, ht =>
    match gs, ts, hg, ht with
    | [g], [x], _, _ => simp [dVjp, dJvp, mulHom, List.zipIdx]; ring
  | 1, hg, ht =>
    match gs, ts, hg, ht with
    | [g], [y, w], _, _ => simp [dVjp, dJvp, mulHom, List.zipIdx]; ring
  | 2, hg, ht =>
    match gs, ts, hg, ht with
    | [g], [y, a], _, _ => simp [dVjp, dJvp, mulHom, List.zipIdx]; ring
  | n + 3, hg, ht =>
    match gs, ts, hg, ht with
    | [], [], _, _ => simp [List.zipIdx]

example (clr : Bool) (g : Option (GArr Int)) (ci : Bool) (z : GArr Int) (grad : VarId → GArr Int) :=
  backward_derivative diamond (dCfg clr) 3 2 rfl diamond_wf diamond_ranks diamond_nostop rfl
    (fun _ h => by simp [dCfg] at h) [0, 1, 2] (diamond_list _) 3 (Nat.le_refl _) g ci z grad
    mulHom dJvp (fun f _ => dAdjoint f)

/-- gradient of z with respect to x, w: `2*(1+5) = 12`, `6`; stale buffers hold 70, 71, ... and the
leaves (0, 4) accumulate onto 70 and 74. -/
example : ((cgBackward diamond (dCfg false) 3 3 (some ⟨false, 1⟩) true ⟨false, 0⟩
    (fun v => ⟨false, 70 + v⟩)).map (fun r => (r.1, [0, 1, 2, 3, 4].map (fun v => (r.2 v).read)))) =
    some ([2, 1, 0], [82, 6, 1, 73, 80]) := by decide

/-! ### Refutation: a switched-off output of a multi-output function -/

/-- `x(0) → f0 → (a(1), b(2))`, `(a, b) → f1 → c(3)`; `b.need_grad = False`. -/
def stopG : Graph where
  parent := fun v => match v with | 1 => some 0 | 2 => some 0 | 3 => some 1 | _ => none
  fn := fun f => match f with
    | 0 => { inputs := [(0, true)], outputs := [1, 2] }
    | 1 => { inputs := [(1, true), (2, true)], outputs := [3] }
    | _ => {}
  flag := fun v => if v = 0 then some true else if v = 2 then some false else none

/-- both functions add their inputs / copy their input to both outputs -/
def stopVjp (f i : Nat) (gs : List Int) : Option Int :=
  match f, i, gs with
  | 0, 0, [g, h] => some (g + h)
  | 1, _, [g] => some g
  | _, _, _ => none

/-- the environment left by `c.forward()` -/
def stopEnv : BEnv :=
  match forward stopG (fun _ _ e => e) 5 3 ({ ext := () } : VSt Unit) with
  | some s => BEnv.of stopG s
  | none => ⟨fun _ => 0, fun _ => false, fun _ => false⟩

def stopRun (stale : Int) : Option (List FnId × Int) :=
  (cgBackward stopG { env := stopEnv, vjp := stopVjp, junk := fun _ _ => ⟨false, 0⟩ } 5 3
    (some ⟨false, 1⟩) true ⟨false, 0⟩
    (fun v => if v = 2 then ⟨false, stale⟩ else ⟨true, 0⟩)).map (fun r => (r.1, (r.2 0).read))

/-- C25 is false without the hypothesis `NoStop`: after `c.forward()`, the gradient that
`c.backward()` gives to `x` is `1 + s`, where `s` is whatever the gradient buffer of `b` contained
before (`b` does not require a gradient, so nothing writes that buffer, but it counts as seen, so
it is not zeroed before the producer of `b` reads it). -/
theorem backward_gradient_refuted :
    stopRun 0 = some ([1, 0], 1) ∧ stopRun 41 = some ([1, 0], 42) := by decide

end Verif.Graph
