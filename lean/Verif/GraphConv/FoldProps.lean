/-
C108 (continued): examples and refutations for folding; C109: self folding, folding into Affine and
the opposite direction.
-/
import Verif.GraphConv.Fold

namespace Verif.GraphConv.Fold
open Verif.GraphConv
open scoped BigOperators

/-! ### A foldable network -/

/-- A 1x1 kernel on one input map: the tap reads the same position. -/
def point : T → Nat → Nat → Nat → ℝ := fun x _ _ p => x 0 p

/-- Parameter values: x = 1 (leaf 0), w = 1 (leaf 1), b = 0 (leaf 2), beta = 0 (leaf 3), gamma = `g` (leaf 4),
mean = 0 (leaf 5), variance = 1 (leaf 6); eps is 0. -/
def exEnv (g : ℝ) : Nat → T := fun n _ _ => match n with
  | 0 => 1
  | 1 => 1
  | 2 => 0
  | 3 => 0
  | 4 => g
  | 5 => 0
  | _ => 1

/-- Layer, batch normalization, sink. -/
def line : Graph Fn where
  node f := match f with
    | 0 => ⟨.ip 1 point, [.leaf 0, .leaf 1, .leaf 2], 1⟩
    | 1 => ⟨.bn 0, [.out 0 0, .leaf 3, .leaf 4, .leaf 5, .leaf 6], 1⟩
    | 2 => ⟨.other fun _ => [], [.out 1 0], 1⟩
    | _ => ⟨.other fun _ => [], [], 0⟩
  refs f k := match f, k with
    | 0, 0 => [1]
    | 1, 0 => [2]
    | _, _ => []

theorem line_wf : WF line ([0, 1] ++ [2]) where
  nodup := by decide
  topo := by
    intro pre f post h g k hm
    have hlen := congrArg List.length h
    simp only [List.length_append, List.length_cons, List.length_nil] at hlen
    match pre, hlen with
    | [], _ => simp at h; obtain ⟨rfl, -⟩ := h; simp [line] at hm
    | [_], _ => simp at h; obtain ⟨rfl, rfl, -⟩ := h; simp [line] at hm; simp [hm.1]
    | [_, _], _ => simp at h; obtain ⟨rfl, rfl, rfl, -⟩ := h; simp [line] at hm; simp [hm.1]
    | _ :: _ :: _ :: _, hl => simp at hl; omega
  outs := by
    intro h g k hm
    match h, hm with
    | 0, hm => simp [line] at hm
    | 1, hm => simp [line] at hm; obtain ⟨rfl, rfl⟩ := hm; decide
    | 2, hm => simp [line] at hm; obtain ⟨rfl, rfl⟩ := hm; decide
    | h + 3, hm => simp [line] at hm
  refs := by
    intro g k h
    match h with
    | 0 => simp only [line]; split <;> simp
    | 1 => simp only [line]; split <;> simp_all
    | 2 => simp only [line]; split <;> simp_all
    | h + 3 => simp only [line]; split <;> simp

theorem line_simple : Simple line ([0, 1] ++ [2]) where
  ins := by decide
  gap := by
    intro f hf k k' hk h
    rcases k' with _ | k'
    · omega
    · simp only [List.cons_append, List.nil_append, List.mem_cons, List.not_mem_nil, or_false] at hf
      rcases hf with rfl | rfl | rfl <;> rfl

theorem line_foldable : Foldable line (fun n => n) [0, 1] 2 where
  used := by
    intro f hf
    simp only [List.mem_cons, List.not_mem_nil, or_false] at hf
    rcases hf with rfl | rfl
    · exact ⟨1, by simp, 0, by simp [line]⟩
    · exact ⟨2, by simp, 0, by simp [line]⟩
  sinkFn := ⟨_, rfl⟩
  bnArgs := by
    intro f hf hb
    simp only [List.mem_cons, List.not_mem_nil, or_false] at hf
    rcases hf with rfl | rfl
    · simp [line, isBn] at hb
    · exact ⟨rfl, 0, 3, 4, 5, 6, rfl⟩
  ipOut := by
    intro f hf hb
    simp only [List.mem_cons, List.not_mem_nil, or_false] at hf
    rcases hf with rfl | rfl <;> rfl
  single := by
    intro f hf g hb hm _
    simp only [List.mem_cons, List.not_mem_nil, or_false] at hf
    rcases hf with rfl | rfl
    · simp [line, isBn] at hb
    · simp [line] at hm; subst hm; rfl
  ipArgs := by
    intro g hg f hF
    simp only [List.mem_cons, List.not_mem_nil, or_false] at hg
    rcases hg with rfl | rfl
    · exact ⟨_, _, _, rfl⟩
    · exact absurd hF.1 (by simp [line, isIp])
  nochain := by
    intro f hf g h hb hm hb' _
    simp only [List.mem_cons, List.not_mem_nil, or_false] at hf
    rcases hf with rfl | rfl
    · simp [line, isBn] at hb
    · simp [line] at hm; subst hm; simp [line, isBn] at hb'
  scopes := by
    intro g hg g' hg' f f' a w b a' w' b' hF hF' _ _ _
    simp only [List.mem_cons, List.not_mem_nil, or_false] at hg hg'
    rcases hg with rfl | rfl
    · rcases hg' with rfl | rfl
      · rfl
      · exact absurd hF'.1 (by simp [line, isIp])
    · exact absurd hF.1 (by simp [line, isIp])

/-- The values of the line with gamma = `g`. -/
noncomputable def lineVal (g : ℝ) : Nat → Nat → T := fun f _ => match f with
  | 0 => ipVal 1 point (exEnv g 0) (exEnv g 1) (exEnv g 2)
  | 1 => bnVal 0 (ipVal 1 point (exEnv g 0) (exEnv g 1) (exEnv g 2)) (exEnv g 3) (exEnv g 4) (exEnv g 5) (exEnv g 6)
  | _ => default

theorem line_forward (g : ℝ) : IsForward sem (exEnv g) line ([0, 1] ++ [2]) (lineVal g) := by
  intro f hf k hk
  simp only [List.cons_append, List.nil_append, List.mem_cons, List.not_mem_nil, or_false] at hf
  rcases hf with rfl | rfl | rfl
  all_goals
    have : k = 0 := by change k < 1 at hk; omega
    subst this
    simp [line, sem, valOf, lineVal]

/-- The theorem applies: all hypotheses hold of the line. -/
example (g : ℝ) : ∃ s ts, pass line (foldMod line (valOf (exEnv g) (lineVal g)) fun n => n) (fun _ => none) [0, 1, 2] = some (s, ts) ∧
    evalAll sem (exEnv g) (lineVal g) ts = [lineVal g 1 0] :=
  c108_fold_partial line _ _ _ _ [0, 1] 2 line_wf line_simple rfl line_foldable (line_forward g)

/-! ### Refutations -/

/-- Add2. -/
noncomputable def addTwo : List T → List T
  | [a, b] => [fun c p => a c p + b c p]
  | _ => []

/-- h = layer(x); bn(h) + h. -/
noncomputable def fork (r : List Nat) : Graph Fn where
  node f := match f with
    | 0 => ⟨.ip 1 point, [.leaf 0, .leaf 1, .leaf 2], 1⟩
    | 1 => ⟨.bn 0, [.out 0 0, .leaf 3, .leaf 4, .leaf 5, .leaf 6], 1⟩
    | 2 => ⟨.other addTwo, [.out 1 0, .out 0 0], 1⟩
    | 3 => ⟨.other fun _ => [], [.out 2 0], 1⟩
    | _ => ⟨.other fun _ => [], [], 0⟩
  refs f k := match f, k with
    | 0, 0 => r
    | 1, 0 => [2]
    | 2, 0 => [3]
    | _, _ => []

/-- The values of the fork. -/
noncomputable def forkVal (g : ℝ) : Nat → Nat → T := fun f _ => match f with
  | 0 => fun _ _ => 1
  | 1 => fun _ _ => g
  | 2 => fun _ _ => g + 1
  | _ => default

/-- The layer's output has a second consumer: the layer is not folded, yet the batch normalization is
dropped.  The network computes gamma + 1, the converted one 2, in either order of the references. -/
theorem c108_refuted_fork (g : ℝ) (hg : g ≠ 1) (r : List Nat) (hr : r = [1, 2] ∨ r = [2, 1]) :
    IsForward sem (exEnv g) (fork r) [0, 1, 2, 3] (forkVal g) ∧
    ∃ s ts, pass (fork r) (foldMod (fork r) (valOf (exEnv g) (forkVal g)) fun n => n) (fun _ => none) [0, 1, 2, 3] = some (s, ts) ∧
      evalAll sem (exEnv g) (forkVal g) ts ≠ [forkVal g 2 0] := by
  constructor
  · intro f hf k hk
    simp only [List.mem_cons, List.not_mem_nil, or_false] at hf
    rcases hf with rfl | rfl | rfl | rfl
    all_goals
      have : k = 0 := by change k < 1 at hk; omega
      subst this
      funext c p
      simp [fork, addTwo, sem, valOf, forkVal, ipVal, bnVal, exEnv, point]
  · rcases hr with rfl | rfl
    all_goals
      refine ⟨_, [.app (.other addTwo) [(.app (.ip 1 point) [.leaf 0, .leaf 1, .leaf 2] 0), (.app (.ip 1 point) [.leaf 0, .leaf 1, .leaf 2] 0)] 0], rfl, ?_⟩
      intro h
      have := congrFun (congrFun (List.cons.inj h).1 0) 0
      simp [eval, evalAll, sem, addTwo, forkVal, ipVal, exEnv, point] at this
      exact hg this.symm

/-- layer → bn → bn. -/
def chain : Graph Fn where
  node f := match f with
    | 0 => ⟨.ip 1 point, [.leaf 0, .leaf 1, .leaf 2], 1⟩
    | 1 => ⟨.bn 0, [.out 0 0, .leaf 3, .leaf 4, .leaf 5, .leaf 6], 1⟩
    | 2 => ⟨.bn 0, [.out 1 0, .leaf 3, .leaf 4, .leaf 5, .leaf 6], 1⟩
    | 3 => ⟨.other fun _ => [], [.out 2 0], 1⟩
    | _ => ⟨.other fun _ => [], [], 0⟩
  refs f k := match f, k with
    | 0, 0 => [1]
    | 1, 0 => [2]
    | 2, 0 => [3]
    | _, _ => []

/-- The values of the chain with gamma = 2. -/
noncomputable def chainVal : Nat → Nat → T := fun f _ => match f with
  | 0 => fun _ _ => 1
  | 1 => fun _ _ => 2
  | 2 => fun _ _ => 4
  | _ => default

/-- Two batch normalizations in a row: only one is folded, both are dropped (4 becomes 2). -/
theorem c108_refuted_chain :
    IsForward sem (exEnv 2) chain [0, 1, 2, 3] chainVal ∧
    ∃ s ts, pass chain (foldMod chain (valOf (exEnv 2) chainVal) fun n => n) (fun _ => none) [0, 1, 2, 3] = some (s, ts) ∧
      evalAll sem (exEnv 2) chainVal ts ≠ [chainVal 2 0] := by
  constructor
  · intro f hf k hk
    simp only [List.mem_cons, List.not_mem_nil, or_false] at hf
    rcases hf with rfl | rfl | rfl | rfl
    all_goals
      have : k = 0 := by change k < 1 at hk; omega
      subst this
      funext c p
      simp [chain, sem, valOf, chainVal, ipVal, bnVal, exEnv, point]
    norm_num
  · refine ⟨_, [.app (.ip 1 point) [.leaf 0, .const (foldW 0 (exEnv 2 4) (exEnv 2 6) (exEnv 2 1)), .const (foldB 0 (exEnv 2 3) (exEnv 2 4) (exEnv 2 5) (exEnv 2 6) (exEnv 2 2))] 0], rfl, ?_⟩
    intro h
    have := congrFun (congrFun (List.cons.inj h).1 0) 0
    norm_num [eval, evalAll, sem, chainVal, ipVal, foldW, foldB, valOf, exEnv, point] at this

/-- Converting the same network again after its parameters changed (gamma 2, then 3): the parameters
folded by the first conversion are used again, so the second result has the old values. -/
theorem c108_refuted_second_conversion :
    ∃ s1 ts1 s2 ts2, pass line (foldMod line (valOf (exEnv 2) (lineVal 2)) fun n => n) (fun _ => none) [0, 1, 2] = some (s1, ts1) ∧
      pass line (foldMod line (valOf (exEnv 3) (lineVal 3)) fun n => n) s1 [0, 1, 2] = some (s2, ts2) ∧
      evalAll sem (exEnv 3) (lineVal 3) ts2 ≠ [lineVal 3 1 0] := by
  refine ⟨_, _, _, [.app (.ip 1 point) [.leaf 0, .const (foldW 0 (exEnv 2 4) (exEnv 2 6) (exEnv 2 1)), .const (foldB 0 (exEnv 2 3) (exEnv 2 4) (exEnv 2 5) (exEnv 2 6) (exEnv 2 2))] 0], rfl, rfl, ?_⟩
  intro h
  have := congrFun (congrFun (List.cons.inj h).1 0) 0
  norm_num [eval, evalAll, sem, lineVal, ipVal, bnVal, foldW, foldB, valOf, exEnv, point] at this

/-- x → bn → sink. -/
def bnFirst : Graph Fn where
  node f := match f with
    | 0 => ⟨.bn 0, [.leaf 0, .leaf 3, .leaf 4, .leaf 5, .leaf 6], 1⟩
    | 1 => ⟨.other fun _ => [], [.out 0 0], 1⟩
    | _ => ⟨.other fun _ => [], [], 0⟩
  refs f k := match f, k with
    | 0, 0 => [1]
    | _, _ => []

/-- A network that starts with batch normalization cannot be converted (AttributeError on None). -/
theorem c108_refuted_bn_first (env : Nat → T) (ov : Nat → Nat → T) (scope : Nat → Nat) :
    pass bnFirst (foldMod bnFirst (valOf env ov) scope) (fun _ => none) [0, 1] = none := by rfl

/-! ### C109: self folding -/

/-- Mul2 with a broadcast first input. -/
noncomputable def mulOp : List T → List T
  | [a, b] => [fun c p => a c 0 * b c p]
  | _ => []
/-- Add2 with a broadcast second input. -/
noncomputable def addOp : List T → List T
  | [a, b] => [fun c p => a c p + b c 0]
  | _ => []

/-- batch_normalization_self_folding.py:48-85; the state is the counter and the parameters by counter
(get_parameter_or_create returns an existing one). -/
noncomputable def selfMod (G : Graph Fn) (dat : Var → T) : Modify Fn T (Nat × Reg) := fun s f inputs =>
  match (G.node f).fn with
  | .bn eps => match (G.node f).args, inputs with
    | [_, be, ga, me, va], x :: _ =>
      let c := match s.2 s.1 with
        | some c => c
        | none => (fun o _ => dat ga o 0 / √(dat va o 0 + eps), fun o _ => dat be o 0 - dat ga o 0 * dat me o 0 / √(dat va o 0 + eps))
      some ((s.1 + 1, Function.update s.2 s.1 (some c)), some (.app (.other addOp) [.app (.other mulOp) [.const c.1, x] 0, .const c.2] 0))
    | _, _ => none
  | _ => some (s, none)

/-- C109.  Replacing every batch normalization by a scale and a bias keeps the values of all outputs, for any network
whose batch normalizations have one output and parameters without parents, if no parameters of an
earlier conversion exist. -/
theorem c109_self_fold_partial (G : Graph Fn) (env : Nat → T) (ov0 ov : Nat → Nat → T) (fs : List Nat) (sink : Nat)
    (wf : WF G (fs ++ [sink])) (sm : Simple G (fs ++ [sink])) (hnout : (G.node sink).nout = 1) (hsop : isBn (G.node sink).fn = false)
    (hbn : ∀ f ∈ fs, isBn (G.node f).fn = true → (G.node f).nout = 1 ∧
      ∃ a be ga me va, (G.node f).args = [a, .leaf be, .leaf ga, .leaf me, .leaf va])
    (hfwd : IsForward sem env G (fs ++ [sink]) ov) :
    ∃ s ts, pass G (selfMod G (valOf env ov)) (0, fun _ => none) (fs ++ [sink]) = some (s, ts) ∧
      evalAll sem env ov0 ts = (G.node sink).args.map (valOf env ov) := by
  have ok : StepOK G (fs ++ [sink]) (selfMod G (valOf env ov)) (fun g k t => eval sem env ov0 t = ov g k)
      (fun _ s => ∀ j, s.1 ≤ j → s.2 j = none) := by
    intro pre f post hs s inputs hI hin
    have hf : f ∈ fs ++ [sink] := by rw [hs]; simp
    have hev := match_eval sem env env ov0 ov _ _ (fun _ _ => rfl) hin
    have hsame : selfMod G (valOf env ov) s f inputs = some (s, none) →
        ∃ s' o, selfMod G (valOf env ov) s f inputs = some (s', o) ∧ (∀ j, s'.1 ≤ j → s'.2 j = none) ∧
          (∀ j t, (outputsOf G f inputs o)[j]? = some t → j < (G.node f).nout → eval sem env ov0 t = ov f j) ∧
          ∀ j, G.refs f j ≠ [] → j < (outputsOf G f inputs o).length := by
      intro he
      refine ⟨s, none, he, hI, ?_, ?_⟩
      · intro j t hj hlt
        simp only [outputsOf, List.getElem?_map, List.getElem?_range hlt, Option.map_some, Option.some.injEq] at hj
        subst hj
        rw [eval, hev, hfwd f hf j hlt]
      · intro j hj
        obtain ⟨h, hh⟩ := List.exists_mem_of_ne_nil _ hj
        simpa [outputsOf] using wf.outs h f j ((wf.refs f j h).mp hh)
    cases hfn : (G.node f).fn with
    | ip K p => exact hsame (by simp [selfMod, hfn])
    | other op => exact hsame (by simp [selfMod, hfn])
    | bn eps =>
      have hffs : f ∈ fs := by
        rcases List.mem_append.mp hf with h | h
        · exact h
        · rw [List.mem_singleton.mp h] at hfn
          rw [hfn] at hsop; cases hsop
      obtain ⟨h1, a, be, ga, me, va, hargs⟩ := hbn f hffs (by rw [hfn]; rfl)
      have hs0 : s.2 s.1 = none := hI s.1 (le_refl _)
      cases inputs with
      | nil => rw [hargs] at hin; cases hin
      | cons x rest =>
        have hxv : eval sem env ov0 x = valOf env ov a := by
          rw [hargs] at hev
          simp only [evalAll, List.map_cons, List.cons.injEq] at hev
          exact hev.1
        refine ⟨_, _, by simp only [selfMod, hfn, hargs, hs0, valOf]; rfl, ?_, ?_, ?_⟩
        · intro j hj
          change s.1 + 1 ≤ j at hj
          change Function.update s.2 s.1 _ j = none
          rw [Function.update_of_ne (by omega)]
          exact hI j (by omega)
        · intro j t hj hlt
          have hj0 : j = 0 := by omega
          subst hj0
          simp only [outputsOf, List.getElem?_cons_zero, Option.some.injEq] at hj
          subst hj
          rw [hfwd f hf 0 (by omega), hfn, hargs]
          funext c p
          simp [eval, evalAll, sem, addOp, mulOp, bnVal, hxv, valOf]
          ring
        · intro j hj
          obtain ⟨h, hh⟩ := List.exists_mem_of_ne_nil _ hj
          have := wf.outs h f j ((wf.refs f j h).mp hh)
          simp [outputsOf]; omega
  have hsink : ∀ s inputs s' o, selfMod G (valOf env ov) s sink inputs = some (s', o) → o = none := by
    intro s inputs s' o h
    unfold selfMod at h
    cases hfn : (G.node sink).fn with
    | bn e => rw [hfn] at hsop; cases hsop
    | ip K p => rw [hfn] at h; simp only [Option.some.injEq, Prod.mk.injEq] at h; exact h.2.symm
    | other op => rw [hfn] at h; simp only [Option.some.injEq, Prod.mk.injEq] at h; exact h.2.symm
  obtain ⟨s', ts, p1, -, p3⟩ := pass_good G fs sink wf sm _ ok (0, fun _ => none) (fun _ _ => rfl) hnout hsink
  exact ⟨s', ts, p1, match_eval sem env env ov0 ov _ _ (fun _ _ => rfl) p3⟩

/-- The line meets the hypotheses. -/
example (g : ℝ) : ∃ s ts, pass line (selfMod line (valOf (exEnv g) (lineVal g))) (0, fun _ => none) [0, 1, 2] = some (s, ts) ∧
    evalAll sem (exEnv g) (lineVal g) ts = [lineVal g 1 0] :=
  c109_self_fold_partial line _ _ _ [0, 1] 2 line_wf line_simple rfl rfl (fun f hf hb => by
    obtain ⟨h1, g, be, ga, me, va, h⟩ := line_foldable.bnArgs f hf hb
    exact ⟨h1, _, be, ga, me, va, h⟩) (line_forward g)

/-- A second conversion (here: of the same network after gamma went from 2 to 3; `__finish__` has set the
counter to 0) uses the parameters of the first one. -/
theorem c109_refuted_second_conversion :
    ∃ s1 ts1 s2 ts2, pass line (selfMod line (valOf (exEnv 2) (lineVal 2))) (0, fun _ => none) [0, 1, 2] = some (s1, ts1) ∧
      pass line (selfMod line (valOf (exEnv 3) (lineVal 3))) (0, s1.2) [0, 1, 2] = some (s2, ts2) ∧
      evalAll sem (exEnv 3) (lineVal 3) ts2 ≠ [lineVal 3 1 0] := by
  refine ⟨_, _, _, [.app (.other addOp) [.app (.other mulOp) [.const (fun o _ => exEnv 2 4 o 0 / √(exEnv 2 6 o 0 + 0)), (.app (.ip 1 point) [.leaf 0, .leaf 1, .leaf 2] 0)] 0, .const (fun o _ => exEnv 2 3 o 0 - exEnv 2 4 o 0 * exEnv 2 5 o 0 / √(exEnv 2 6 o 0 + 0))] 0], rfl, rfl, ?_⟩
  intro h
  have := congrFun (congrFun (List.cons.inj h).1 0) 0
  norm_num [eval, evalAll, sem, lineVal, ipVal, bnVal, valOf, exEnv, point, mulOp, addOp] at this

/-! ### C110: folding into Affine, and BN → layer (opposite=True) -/

/-- Affine: y_o = Σ_i x_i w(i, o) + b_o. -/
noncomputable def affine (I : Nat) (x : Nat → ℝ) (w : T) (b : Nat → ℝ) : Nat → ℝ := fun o => ∑ i ∈ Finset.range I, x i * w i o + b o

/-- Test mode normalization of a vector, with sigma = sqrt(var + eps). -/
noncomputable def bnVec (x be ga me sg : Nat → ℝ) : Nat → ℝ := fun o => ga o * (x o - me o) / sg o + be o

/-- batch_normalization_folding.py:153-198 for Affine: the parameters are reshaped to (C, 1) and
multiplied with the weight of shape (I, O), which numpy accepts if I = C. -/
noncomputable def affineFoldW (ga sg : Nat → ℝ) (w : T) : T := fun i o => ga i / sg i * w i o

/-- The folded bias. -/
noncomputable def affineFoldB (be ga me sg b : Nat → ℝ) : Nat → ℝ := fun o => be o - ga o * me o / sg o + ga o / sg o * b o

/-- Folding into a square Affine is right when all channels have the same scale. -/
theorem c110_affine_partial (n : Nat) (x b be ga me sg : Nat → ℝ) (w : T) (c : ℝ) (hc : ∀ o < n, ga o / sg o = c) (o : Nat) (ho : o < n) :
    affine n x (affineFoldW ga sg w) (affineFoldB be ga me sg b) o = bnVec (affine n x w b) be ga me sg o := by
  simp only [affine, affineFoldW, affineFoldB, bnVec]
  have : ∑ i ∈ Finset.range n, x i * (ga i / sg i * w i o) = ga o / sg o * ∑ i ∈ Finset.range n, x i * w i o := by
    rw [Finset.mul_sum]
    refine Finset.sum_congr rfl fun i hi => ?_
    rw [hc i (Finset.mem_range.mp hi), hc o ho]; ring
  rw [this]; ring

example : ∀ o < 2, (fun _ => (3 : ℝ)) o / (fun _ => (2 : ℝ)) o = 1.5 := by intro o _; norm_num

/-- Otherwise the scales are applied to the inputs instead of the outputs. -/
theorem c110_refuted_affine : ∃ (x b be ga me sg : Nat → ℝ) (w : T), (∀ o, 0 < sg o) ∧
    affine 2 x (affineFoldW ga sg w) (affineFoldB be ga me sg b) 1 ≠ bnVec (affine 2 x w b) be ga me sg 1 := by
  refine ⟨fun _ => 1, fun _ => 0, fun _ => 0, fun o => if o = 0 then 2 else 3, fun _ => 0, fun _ => 1, fun i _ => if i = 0 then 1 else 0, fun _ => one_pos, ?_⟩
  norm_num [affine, affineFoldW, affineFoldB, bnVec, Finset.sum_range_succ]

/-- A layer without padding: tap k of every output map reads channel `ch k` of the input at position `at k p`. -/
noncomputable def conv (K : Nat) (ch : Nat → Nat) (at_ : Nat → Nat → Nat) (x w : T) (b : Nat → ℝ) : T :=
  fun o p => ∑ k ∈ Finset.range K, w o k * x (ch k) (at_ k p) + b o

/-- batch_normalization_folding.py:281-325: `w_data = c0 * w_data`. -/
noncomputable def oppW (ch : Nat → Nat) (c0 : Nat → ℝ) (w : T) : T := fun o k => c0 (ch k) * w o k

/-- `b_data = sum(w_data * c1) + b` with the already scaled `w_data`. -/
noncomputable def oppB (K : Nat) (ch : Nat → Nat) (c0 c1 : Nat → ℝ) (w : T) (b : Nat → ℝ) : Nat → ℝ :=
  fun o => ∑ k ∈ Finset.range K, oppW ch c0 w o k * c1 (ch k) + b o

/-- Folding BN → layer is right, without padding, when every channel is only scaled or only shifted. -/
theorem c110_opposite_partial (K : Nat) (ch : Nat → Nat) (at_ : Nat → Nat → Nat) (x w : T) (b c0 c1 : Nat → ℝ)
    (h : ∀ k < K, c1 (ch k) = 0 ∨ c0 (ch k) = 1) :
    conv K ch at_ x (oppW ch c0 w) (oppB K ch c0 c1 w b) = conv K ch at_ (fun c p => c0 c * x c p + c1 c) w b := by
  funext o p
  simp only [conv, oppB, oppW, ← add_assoc, ← Finset.sum_add_distrib]
  congr 1
  refine Finset.sum_congr rfl fun k hk => ?_
  rcases h k (Finset.mem_range.mp hk) with e | e <;> rw [e] <;> ring

example : ∀ k < 4, (fun c => if c = 0 then (0 : ℝ) else 5) ((fun k => k / 2) k) = 0 ∨ (fun c => if c = 0 then (3 : ℝ) else 1) ((fun k => k / 2) k) = 1 := by
  intro k _
  by_cases h : k / 2 = 0 <;> simp [h]

/-- With a scale 2 and a shift 1 the shift is doubled. -/
theorem c110_refuted_opposite :
    conv 1 (fun _ => 0) (fun _ p => p) (fun _ _ => 0) (oppW (fun _ => 0) (fun _ => 2) fun _ _ => 1)
        (oppB 1 (fun _ => 0) (fun _ => 2) (fun _ => 1) (fun _ _ => 1) fun _ => 0) 0 0 = 2 ∧
      conv 1 (fun _ => 0) (fun _ p => p) (fun _ _ => (2 : ℝ) * 0 + 1) (fun _ _ => 1) (fun _ => 0) 0 0 = 1 := by
  constructor <;> norm_num [conv, oppW, oppB]

end Verif.GraphConv.Fold
