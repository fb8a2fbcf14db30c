import Verif.Recompute.Props
import Verif.Graph.ClearExamples
/-
C86: cases meeting the hypotheses, and the two cases excluded by them.
-/
namespace Verif.Recompute
open Verif.Graph

/-- `x(0) → f0 → 1 → f1 → 2 → f2 → 3`; `x` requires a gradient; `rec` are the variables with the
recompute flag, the gradient of `fi` needs its input (`din`) or its output (`dout`). -/
def chainG (rec din dout : Nat → Bool) : Graph where
  parent := fun v => match v with
    | 1 => some 0 | 2 => some 1 | 3 => some 2 | _ => none
  fn := fun f => match f with
    | 0 => { inputs := [(0, true)], outputs := [1], gradDepIn := fun _ _ => din 0, gradDepOut := fun _ _ => dout 0 }
    | 1 => { inputs := [(1, true)], outputs := [2], gradDepIn := fun _ _ => din 1, gradDepOut := fun _ _ => dout 1 }
    | 2 => { inputs := [(2, true)], outputs := [3], gradDepIn := fun _ _ => din 2, gradDepOut := fun _ _ => dout 2 }
    | _ => {}
  flag := fun v => if v = 0 then some true else none
  recompute := rec
  refCount := fun v => match v with | 0 => 1 | 1 => 1 | 2 => 1 | _ => 0

/-- doubling, adding one, doubling -/
def chainCfg (clear : Bool) : FCfg Int where
  clearNoNeedGrad := clear
  arr := id
  run := fun f ins => match f, ins with
    | 0, [a] => [2 * a]
    | 1, [a] => [a + 1]
    | 2, [a] => [2 * a]
    | 0, _ => [0]
    | 1, _ => [0]
    | 2, _ => [0]
    | _, _ => []
  junk := fun _ _ => 999

variable {rec din dout : Nat → Bool}

theorem chainG_layered : Layered (chainG rec din dout) id := by
  rintro p f ⟨v, hv, hp⟩
  match f, hv with
  | 0, hv => simp [chainG] at hv; subst hv; simp [chainG] at hp
  | 1, hv => simp [chainG] at hv; subst hv; simp [chainG] at hp; subst hp; decide
  | 2, hv => simp [chainG] at hv; subst hv; simp [chainG] at hp; subst hp; decide
  | n + 3, hv => simp [chainG] at hv

theorem chainG_outputs : OutputsOk (chainG rec din dout) := by
  intro f v hv
  match f, hv with
  | 0, hv => simp [chainG] at hv; subst hv; rfl
  | 1, hv => simp [chainG] at hv; subst hv; rfl
  | 2, hv => simp [chainG] at hv; subst hv; rfl
  | n + 3, hv => simp [chainG] at hv

theorem chainG_conv : ∀ v p, (chainG rec din dout).parent v = some p →
    v ∈ ((chainG rec din dout).fn p).outputs := by
  intro v p h
  match v, h with
  | 0, h => simp [chainG] at h
  | 1, h => simp [chainG] at h; subst h; simp [chainG]
  | 2, h => simp [chainG] at h; subst h; simp [chainG]
  | 3, h => simp [chainG] at h; subst h; simp [chainG]
  | n + 4, h => simp [chainG] at h

theorem chainG_refs : RefsOk (chainG rec din dout) := by
  intro F v hn
  refine Nat.le_trans (uses_le_of_live F [0, 1, 2] hn ?_) ?_
  · intro f _ hne
    match f, hne with
    | 0, _ => simp
    | 1, _ => simp
    | 2, _ => simp
    | n + 3, hne => exact absurd rfl hne
  · match v with
    | 0 => exact Nat.le_refl _
    | 1 => exact Nat.le_refl _
    | 2 => exact Nat.le_refl _
    | n + 3 =>
      have : uses (chainG rec din dout) [0, 1, 2] (n + 3) = 0 := by
        simp [uses, chainG]
      rw [this]; exact Nat.zero_le _

theorem chainG_active : ∀ f u b, (u, b) ∈ ((chainG rec din dout).fn f).inputs → b = true := by
  intro f u b h
  match f, h with
  | 0, h => simp [chainG] at h; exact h.2
  | 1, h => simp [chainG] at h; exact h.2
  | 2, h => simp [chainG] at h; exact h.2
  | n + 3, h => simp [chainG] at h

theorem chainG_inplace : ∀ f i, ((chainG rec din dout).fn f).inplace i = none := by
  intro f i
  match f with
  | 0 => rfl
  | 1 => rfl
  | 2 => rfl
  | n + 3 => rfl

theorem chainG_nodup : ∀ f, ((chainG rec din dout).fn f).outputs.Nodup := by
  intro f
  match f with
  | 0 => simp [chainG]
  | 1 => simp [chainG]
  | 2 => simp [chainG]
  | n + 3 => simp [chainG]

theorem chainCfg_len {clear : Bool} : ∀ f xs,
    ((chainCfg clear).run f xs).length = ((chainG rec din dout).fn f).outputs.length := by
  intro f xs
  match f, xs with
  | 0, [] => rfl
  | 0, [_] => rfl
  | 0, _ :: _ :: _ => rfl
  | 1, [] => rfl
  | 1, [_] => rfl
  | 1, _ :: _ :: _ => rfl
  | 2, [] => rfl
  | 2, [_] => rfl
  | 2, _ :: _ :: _ => rfl
  | n + 3, xs => rfl

/-- The theorem applies to the chain with every choice of flags and dependencies. -/
example (clear : Bool) := forward_backward_recompute_partial (chainG rec din dout) (chainCfg clear) id
  chainG_layered chainG_outputs chainG_conv chainG_refs chainG_active chainG_inplace
  (fun _ _ h => h) chainG_nodup chainCfg_len rfl 3 2 rfl 9 (by decide)
  { ext := { mem := fun _ => 5 } } rfl rfl rfl (fun _ => 5) rfl (fun _ _ => false)
  (fun _ _ => true) 999

/-- What backward sees in the chain: order of the backward calls with the data of 1 and 2, the
functions recomputed, whether something was raised or read after clearing. -/
def chainRun (rec din dout : Nat → Bool) (clear : Bool) (needSetup : FnId → Nat → Bool) :
    Option (List (FnId × Option Int × Option Int) × List FnId × Bool × List FnId) :=
  let G := chainG rec din dout
  (forward G (forwardCall G (chainCfg clear)) 9 3 { ext := { mem := fun _ => 5 } }).map fun s' =>
    let c := rcfg G (chainCfg clear) needSetup (fun _ _ => false) 999 s'
    let b := visitBackward G (BEnv.of G s') (backStep G c 9) 9 2 (startR G (chainCfg clear) c s')
    (b.ext.reads.map (fun x => (x.1, x.2 1, x.2 2)), b.ext.visits, b.ext.raised, b.ext.bad)

/-- With recompute flags on 1 and 2, all gradients needing inputs and outputs: 1 and 2 are cleared
by forward and recomputed once each. -/
example : chainRun (fun v => v == 1 || v == 2) (fun _ => true) (fun _ => true) true (fun _ _ => true) =
    some ([(2, some 10, some 11), (1, some 10, some 11), (0, some 10, some 11)], [0, 1], false, []) := by
  decide

/-- The conditions of the theorem hold for it. -/
example (s' : VSt (FSt Int)) :
    ∀ q (o : Nat) u, Depends (chainG (fun v => v == 1 || v == 2) din dout) 2 q → s'.fng q = true →
      ((chainG (fun v => v == 1 || v == 2) din dout).fn q).outputs[o]? = some u →
      gradDependsOut ((chainG (fun v => v == 1 || v == 2) din dout).fn q) o = true →
      (chainG (fun v => v == 1 || v == 2) din dout).recompute u = true ∨
      (chainG (fun v => v == 1 || v == 2) din dout).persistent u = true ∨
      (chainG (fun v => v == 1 || v == 2) din dout).prohibitClear u = true ∨
        ((∃ g, Consumes (chainG (fun v => v == 1 || v == 2) din dout) g u) →
          ∃ g, Consumes (chainG (fun v => v == 1 || v == 2) din dout) g u ∧
          ∀ w, w ∈ ((chainG (fun v => v == 1 || v == 2) din dout).fn g).outputs →
            ¬Cleared s' w ∧ (chainG (fun v => v == 1 || v == 2) din dout).recompute w = false) := by
  intro q o u _ _ ho _
  match q, ho with
  | 0, ho => left; rcases o with _ | o <;> simp [chainG] at ho; subst ho; rfl
  | 1, ho => left; rcases o with _ | o <;> simp [chainG] at ho; subst ho; rfl
  | 2, ho =>
    right; right; right
    rintro ⟨g, hg⟩
    exfalso
    rcases o with _ | o <;> simp [chainG] at ho
    subst ho
    match g, hg with
    | 0, hg => simp [Consumes, chainG] at hg
    | 1, hg => simp [Consumes, chainG] at hg
    | 2, hg => simp [Consumes, chainG] at hg
    | n + 3, hg => simp [Consumes, chainG] at hg
  | n + 3, ho => simp [chainG] at ho

/-- C86, refuted part 1: `own` cannot be dropped. `v = sigmoid(x)` outside and `w = v + 1` inside a
recompute scope, `w` needed by its consumer: recomputing `w` clears `v` (its only use has been seen
and the recomputation does not know that sigmoid's own gradient needs it), so the backward of
sigmoid finds no data — after a forward that cleared nothing but `w`. -/
theorem C86_own_output_lost : chainRun (fun v => v == 2) (fun f => f == 2) (fun f => f == 0) false
      (fun _ _ => false) =
    some ([(2, none, some 11), (1, none, some 11), (0, none, some 11)], [1], false, []) := by
  decide

/-- Without any recompute flag the same backward has what it needs. -/
example : chainRun (fun _ => false) (fun f => f == 2) (fun f => f == 0) false (fun _ _ => false) =
    some ([(2, some 10, some 11), (1, some 10, some 11), (0, some 10, some 11)], [], false, []) := by
  decide

/-- C86, refuted part 2: `setup` cannot be dropped. A random function outside the recompute scope
whose output is cleared by `clear_no_need_grad`: backward raises "needs to execute
`setup_recompute()`", and no backward function runs. -/
theorem C86_random_outside_raises : chainRun (fun v => v == 2) (fun f => f == 2) (fun _ => false) true
      (fun f _ => f == 0) = some ([], [], true, []) := by
  decide

end Verif.Recompute
