import Verif.Solver.Registry
/-!
# C32, C52, C53, C57: hooks, weight decay, the loops over the parameters
-/

namespace Verif.Solver

variable {α : Type}

/-! ## C53: which parameters an operation touches, and how -/

/-- The rule applied to one parameter whose gradient was computed (specification). -/
def stepped (R : Rule α) (rate : α) (s : SState α) (x : Var α) : Except Err (SState α × Var α) :=
  match R.step rate s x.grad x.data with
  | .error e => .error e
  | .ok (ps, g, d) => .ok (⟨ps, tick s.t⟩, { x with grad := g, data := d })

theorem localResult_update (R : Rule α) (rate : α) (s : SState α) (x : Var α)
    (hz : x.zeroing = false) :
    localResult (updateOp R) rate (some s) x
      = match stepped R rate s x with
        | .error e => .error e
        | .ok (s', x') => .ok (some s', x') := by
  unfold localResult updateOp stepped
  simp only [hz, Bool.false_eq_true, if_false]
  cases R.step rate s x.grad x.data with
  | error e => rfl
  | ok r => rfl

/-- C53. `update()` with distinct variables, when the rule raises for none of them: every parameter
whose gradient was computed is stepped once, from its own data, gradient and state as they were
before the call; every other parameter, state and variable is unchanged. (That every registered key
has a state is `update_never_misses_a_state`.) -/
theorem update_steps_each_once (R : Rule α) (h : Hooks) (w : World α)
    (hk : (w.params.map (·.1)).Nodup) (hv : (w.params.map (·.2)).Nodup)
    (hs : ∀ p ∈ w.params, ∃ s, get? p.1 w.states = some s)
    (hR : ∀ p ∈ w.params, (w.mem p.2).zeroing = false → ∀ s, get? p.1 w.states = some s →
      ∃ r, stepped R w.rate s (w.mem p.2) = .ok r) :
    (update R h w).2 = none ∧ (update R h w).1.params = w.params ∧
    (∀ p ∈ w.params, (w.mem p.2).zeroing = false → ∀ s, get? p.1 w.states = some s →
      ∃ s' x', stepped R w.rate s (w.mem p.2) = .ok (s', x') ∧
        get? p.1 (update R h w).1.states = some s' ∧ (update R h w).1.mem p.2 = x') ∧
    (∀ p ∈ w.params, (w.mem p.2).zeroing = true →
      get? p.1 (update R h w).1.states = get? p.1 w.states ∧
      (update R h w).1.mem p.2 = w.mem p.2) ∧
    (∀ v, v ∉ w.params.map (·.2) → (update R h w).1.mem v = w.mem v) ∧
    (∀ k, k ∉ w.params.map (·.1) → get? k (update R h w).1.states = get? k w.states) := by
  have hok : ∀ p ∈ w.params, ∃ r,
      localResult (updateOp R) w.rate (get? p.1 w.states) (w.mem p.2) = .ok r := by
    intro p hp
    by_cases hz : (w.mem p.2).zeroing = true
    · exact ⟨_, by unfold localResult; rw [if_pos hz]⟩
    · have hz' : (w.mem p.2).zeroing = false := by simpa using hz
      obtain ⟨s, hs'⟩ := hs p hp
      obtain ⟨⟨s', x'⟩, hr⟩ := hR p hp hz' s hs'
      exact ⟨(some s', x'), by rw [hs', localResult_update R _ _ _ hz', hr]⟩
  obtain ⟨f1, f2, f3, f4, f5, f6, f7⟩ := forParams_ok h (updateOp R) w.params w hk hv hok
  have hu : update R h w = ({ (forParams h (updateOp R) w.params w).1 with
      rate := R.defaultRate }, none) := by
    unfold update
    rw [show forParams h (updateOp R) w.params w
      = ((forParams h (updateOp R) w.params w).1, none) from Prod.ext rfl f1]
  rw [hu]
  refine ⟨rfl, f2, ?_, ?_, f6, f7⟩
  · intro p hp hz s hs'
    obtain ⟨⟨s', x'⟩, hr⟩ := hR p hp hz s hs'
    have h5 := f5 p hp
    rw [hs', localResult_update R _ _ _ hz, hr] at h5
    simp only [Except.ok.injEq, Prod.mk.injEq] at h5
    exact ⟨s', x', hr, h5.1.symm, h5.2.symm⟩
  · intro p hp hz
    have h5 := f5 p hp
    unfold localResult at h5
    rw [if_pos hz] at h5
    simp only [Except.ok.injEq, Prod.mk.injEq] at h5
    exact ⟨h5.1.symm, h5.2.symm⟩

/-- `demoWorld` ("a" with a gradient, "z" without) meets the hypotheses. -/
example : (update demoRule ⟨[], true, true, []⟩ demoWorld).2 = none ∧
    ((update demoRule ⟨[], true, true, []⟩ demoWorld).1.mem 0).data = [6, 8] ∧
    ((update demoRule ⟨[], true, true, []⟩ demoWorld).1.mem 3).data = [9] := by decide

example : (demoWorld.params.map (·.1)).Nodup ∧ (demoWorld.params.map (·.2)).Nodup ∧
    (∀ p ∈ demoWorld.params, (get? p.1 demoWorld.states).isSome) ∧
    (demoWorld.mem 0).zeroing = false ∧ (demoWorld.mem 3).zeroing = true := by decide

/-- C53. The order in which the hash map is iterated does not matter: any two orders give the same
variables and states. -/
theorem update_order_irrelevant (R : Rule α) (h : Hooks) (w : World α)
    (ps : List (Key × VarId)) (hperm : ps.Perm w.params)
    (hk : (w.params.map (·.1)).Nodup) (hv : (w.params.map (·.2)).Nodup)
    (hs : ∀ p ∈ w.params, ∃ s, get? p.1 w.states = some s)
    (hR : ∀ p ∈ w.params, (w.mem p.2).zeroing = false → ∀ s, get? p.1 w.states = some s →
      ∃ r, stepped R w.rate s (w.mem p.2) = .ok r) :
    (update R h { w with params := ps }).1.mem = (update R h w).1.mem ∧
    (∀ k, get? k (update R h { w with params := ps }).1.states
      = get? k (update R h w).1.states) := by
  obtain ⟨_, _, a3, a4, a5, a6⟩ := update_steps_each_once R h w hk hv hs hR
  obtain ⟨_, _, b3, b4, b5, b6⟩ := update_steps_each_once R h { w with params := ps }
    (by simpa using (hperm.map _).nodup_iff.2 hk) (by simpa using (hperm.map _).nodup_iff.2 hv)
    (fun p hp => hs p (hperm.mem_iff.1 hp)) (fun p hp => hR p (hperm.mem_iff.1 hp))
  have hpair : ∀ p ∈ w.params,
      get? p.1 (update R h { w with params := ps }).1.states
        = get? p.1 (update R h w).1.states ∧
      (update R h { w with params := ps }).1.mem p.2 = (update R h w).1.mem p.2 := by
    intro p hp
    have hp' := hperm.mem_iff.2 hp
    by_cases hz : (w.mem p.2).zeroing = true
    · obtain ⟨c1, c2⟩ := a4 p hp hz
      obtain ⟨d1, d2⟩ := b4 p hp' hz
      exact ⟨d1.trans c1.symm, d2.trans c2.symm⟩
    · have hz' : (w.mem p.2).zeroing = false := by simpa using hz
      obtain ⟨s, hs'⟩ := hs p hp
      obtain ⟨s1, x1, e1, e2, e3⟩ := a3 p hp hz' s hs'
      obtain ⟨s2, x2, e4, e5, e6⟩ := b3 p hp' hz' s hs'
      have e7 : stepped R w.rate s (w.mem p.2) = .ok (s2, x2) := e4
      rw [e1] at e7
      simp only [Except.ok.injEq, Prod.mk.injEq] at e7
      exact ⟨by rw [e5, e2, e7.1], by rw [e6, e3, e7.2]⟩
  refine ⟨?_, ?_⟩
  · funext v
    by_cases hm : v ∈ w.params.map (·.2)
    · obtain ⟨p, hp, rfl⟩ := List.mem_map.1 hm
      exact (hpair p hp).2
    · rw [a5 v hm, b5 v (fun hc => hm ((hperm.map _).mem_iff.1 hc))]
  · intro k
    by_cases hm : k ∈ w.params.map (·.1)
    · obtain ⟨p, hp, rfl⟩ := List.mem_map.1 hm
      exact (hpair p hp).1
    · rw [a6 k hm, b6 k (fun hc => hm ((hperm.map _).mem_iff.1 hc))]

example : (update demoRule ⟨[], false, false, []⟩ { demoWorld with params := [("z", 3), ("a", 0)] }).1.mem 0
    = (update demoRule ⟨[], false, false, []⟩ demoWorld).1.mem 0 := by rfl

/-- The effect of a gradient operation (weight decay, scaling, clipping) on the variables. -/
theorem gradOp_each_once (f : List α → List α → List α) (h : Hooks) (w : World α)
    (hk : (w.params.map (·.1)).Nodup) (hv : (w.params.map (·.2)).Nodup) :
    (forParams h (gradOp f) w.params w).2 = none ∧
    (∀ v, (forParams h (gradOp f) w.params w).1.mem v =
      if v ∈ w.params.map (·.2) ∧ (w.mem v).zeroing = false then
        { w.mem v with grad := f (w.mem v).data (w.mem v).grad } else w.mem v) ∧
    (∀ k, get? k (forParams h (gradOp f) w.params w).1.states = get? k w.states) ∧
    (forParams h (gradOp f) w.params w).1.params = w.params ∧
    (forParams h (gradOp f) w.params w).1.rate = w.rate := by
  have hok : ∀ p ∈ w.params, ∃ r,
      localResult (gradOp f) w.rate (get? p.1 w.states) (w.mem p.2) = .ok r := by
    intro p _
    unfold localResult gradOp
    split <;> exact ⟨_, rfl⟩
  obtain ⟨f1, f2, f3, f4, f5, f6, f7⟩ := forParams_ok h (gradOp f) w.params w hk hv hok
  refine ⟨f1, ?_, ?_, f2, f3⟩
  · intro v
    by_cases hm : v ∈ w.params.map (·.2)
    · obtain ⟨p, hp, rfl⟩ := List.mem_map.1 hm
      have h5 := f5 p hp
      unfold localResult at h5
      by_cases hz : (w.mem p.2).zeroing = true
      · rw [if_pos hz] at h5
        simp only [Except.ok.injEq, Prod.mk.injEq] at h5
        rw [← h5.2]; simp [hz]
      · rw [if_neg hz] at h5
        have h6 : ∀ (r : α) (st : Option (SState α)) (x : Var α), gradOp f r st x
            = .ok (st, { x with grad := f x.data x.grad }) := fun _ _ _ => rfl
        rw [h6] at h5
        simp only [Except.ok.injEq, Prod.mk.injEq] at h5
        rw [← h5.2]
        have hz' : (w.mem p.2).zeroing = false := by simpa using hz
        simp only [hm, hz', and_self, if_true]
    · rw [f6 v hm]; simp [hm]
  · exact forParams_states_eq h (gradOp f) (by
      intro r s x s' x' ho
      simp only [gradOp, Except.ok.injEq, Prod.mk.injEq] at ho
      exact Or.inl ho.1.symm) w.params w

/-- C53. `scale_grad(s)` multiplies every computed gradient of a registered parameter by `s` and
changes nothing else. -/
theorem scaleGrad_scales [Mul α] (h : Hooks) (s : α) (w : World α)
    (hk : (w.params.map (·.1)).Nodup) (hv : (w.params.map (·.2)).Nodup) :
    (∀ v, ((scaleGrad h s w).1.mem v) =
      if v ∈ w.params.map (·.2) ∧ (w.mem v).zeroing = false then
        { w.mem v with grad := (w.mem v).grad.map (· * s) } else w.mem v) ∧
    (∀ k, get? k (scaleGrad h s w).1.states = get? k w.states) := by
  obtain ⟨_, h2, h3, _⟩ := gradOp_each_once (fun _ g => g.map (· * s)) h w hk hv
  exact ⟨h2, h3⟩

example : ((scaleGrad ⟨[], false, false, []⟩ 3 demoWorld).1.mem 0).grad = [15, 18] := by decide

/-- C53. The gradient checks return true exactly when some registered parameter has a computed
gradient with a bad element; they write no variable and no state. -/
theorem checkGrad_exact (h : Hooks) (bad : α → Bool) (w : World α) :
    ((checkGrad h bad w).2 = true ↔
      ∃ p ∈ w.params, (w.mem p.2).zeroing = false ∧ ∃ g ∈ (w.mem p.2).grad, bad g = true) ∧
    (checkGrad h bad w).1.mem = w.mem ∧ (checkGrad h bad w).1.states = w.states ∧
    (checkGrad h bad w).1.params = w.params := by
  obtain ⟨f1, f2, f3, _⟩ := checkLoop_frame h bad w.params w
  refine ⟨?_, f3, f2, f1⟩
  unfold checkGrad
  have : ∀ (l : List (Key × VarId)) (w : World α), (checkLoop h bad l w).2 = true ↔
      ∃ p ∈ l, (w.mem p.2).zeroing = false ∧ ∃ g ∈ (w.mem p.2).grad, bad g = true := by
    intro l
    induction l with
    | nil => intro w; simp [checkLoop]
    | cons p l ih =>
      obtain ⟨k, v⟩ := p
      intro w
      simp only [checkLoop]
      by_cases hz : (w.mem v).zeroing = true
      · rw [if_pos hz, ih w]
        constructor
        · rintro ⟨p, hp, h⟩; exact ⟨p, List.mem_cons_of_mem _ hp, h⟩
        · rintro ⟨p, hp, h⟩
          rcases List.mem_cons.1 hp with rfl | hp
          · simp [hz] at h
          · exact ⟨p, hp, h⟩
      · rw [if_neg hz]
        have hz' : (w.mem v).zeroing = false := by simpa using hz
        by_cases ha : (w.mem v).grad.any bad = true
        · rw [if_pos ha]
          simp only [true_iff]
          exact ⟨(k, v), by simp, hz', by simpa using ha⟩
        · rw [if_neg ha, ih]
          constructor
          · rintro ⟨p, hp, h⟩; exact ⟨p, List.mem_cons_of_mem _ hp, h⟩
          · rintro ⟨p, hp, h⟩
            rcases List.mem_cons.1 hp with rfl | hp
            · exact absurd (by simpa using h.2) ha
            · exact ⟨p, hp, h⟩
  exact this w.params w

example : (checkGrad ⟨[], false, false, []⟩ (fun x => x == 6) demoWorld).2 = true ∧
    (checkGrad ⟨[], false, false, []⟩ (fun x => x == 0) demoWorld).2 = false := by decide

/-! ## C32: hooks -/

/-- C32, what the hooks do: in one `update()` every parameter whose gradient was computed gets
exactly one block "global pre hooks, pre hook, post hook, global post hooks, update", in the
iteration order, and the others get none. Missing: the post hooks run *before* the update, which
`post_hook_runs_before_update` refutes. -/
theorem update_hooks_partial (R : Rule α) (h : Hooks) (w : World α)
    (hk : (w.params.map (·.1)).Nodup) (hv : (w.params.map (·.2)).Nodup)
    (hs : ∀ p ∈ w.params, ∃ s, get? p.1 w.states = some s)
    (hR : ∀ p ∈ w.params, (w.mem p.2).zeroing = false → ∀ s, get? p.1 w.states = some s →
      ∃ r, stepped R w.rate s (w.mem p.2) = .ok r) :
    (update R h w).1.trace = w.trace ++
      (w.params.filter (fun p => !(w.mem p.2).zeroing)).flatMap (fun p =>
        h.gpre.map .globalPre ++ (if h.pre then [.pre] else []) ++
        (if h.post then [.post] else []) ++ h.gpost.map .globalPost ++ [.act p.1]) := by
  have hok : ∀ p ∈ w.params, ∃ r,
      localResult (updateOp R) w.rate (get? p.1 w.states) (w.mem p.2) = .ok r := by
    intro p hp
    by_cases hz : (w.mem p.2).zeroing = true
    · exact ⟨_, by unfold localResult; rw [if_pos hz]⟩
    · have hz' : (w.mem p.2).zeroing = false := by simpa using hz
      obtain ⟨s, hs'⟩ := hs p hp
      obtain ⟨⟨s', x'⟩, hr⟩ := hR p hp hz' s hs'
      exact ⟨(some s', x'), by rw [hs', localResult_update R _ _ _ hz', hr]⟩
  obtain ⟨f1, f2, f3, f4, f5, f6, f7⟩ := forParams_ok h (updateOp R) w.params w hk hv hok
  have hu : (update R h w).1.trace = (forParams h (updateOp R) w.params w).1.trace := by
    unfold update
    rw [show forParams h (updateOp R) w.params w
      = ((forParams h (updateOp R) w.params w).1, none) from Prod.ext rfl f1]
  rw [hu, f4]
  congr 1
  generalize w.params = l
  induction l with
  | nil => rfl
  | cons p l ih =>
    rw [List.flatMap_cons, ih]
    unfold visitTrace
    cases hz : (w.mem p.2).zeroing with
    | true => simp [hz]
    | false => simp [hz, hookCalls]

/-- The order of `e` relative to the update of `k` in a trace: some occurrence of `e` follows the
update. -/
def After (e : Event) (k : Key) (tr : List Event) : Prop :=
  ∃ a b, tr = a ++ .act k :: b ∧ e ∈ b

/-- Refuted: with a single parameter and both hooks, the post hook does not run after the update
(documented: "called immediately after each update of parameters"). -/
theorem post_hook_runs_before_update :
    ∃ (R : Rule Nat) (h : Hooks) (w : World Nat), w.params.map (·.1) = ["a"] ∧ h.post = true ∧
      (update R h w).2 = none ∧
      .act "a" ∈ (update R h w).1.trace ∧ ¬ After .post "a" (update R h w).1.trace := by
  refine ⟨demoRule, ⟨[], true, true, []⟩,
    (setParameters demoRule [("a", 0)] true false (fresh demoRule demoMem)).1, rfl, rfl,
    by decide, by decide, ?_⟩
  rintro ⟨a, b, h1, h2⟩
  have h3 : (update demoRule ⟨[], true, true, []⟩
    (setParameters demoRule [("a", 0)] true false (fresh demoRule demoMem)).1).1.trace
    = [.pre, .post, .act "a"] := by decide
  rw [h3] at h1
  match a, h1 with
  | [], h1 => simp at h1
  | [_], h1 => simp at h1
  | [_, _], h1 =>
    simp only [List.cons_append, List.nil_append, List.cons.injEq] at h1
    rw [← h1.2.2.2] at h2; cases h2
  | _ :: _ :: _ :: a, h1 => simp at h1

example : (update demoRule ⟨["g"], true, true, ["q"]⟩ demoWorld).1.trace
    = [.globalPre "g", .pre, .post, .globalPost "q", .act "a"] := by decide

/-! ## C52: the weight decay rate of `weight_decay` -/

section
variable [Add α] [Mul α] [Zero α] [DecidableEq α]

/-- C52. In a solver that fuses weight decay, `weight_decay(r)` writes no variable and no state. -/
theorem weightDecay_fused_lazy (R : Rule α) (hf : R.fused = true) (h : Hooks) (r : α)
    (w : World α) : weightDecay R h r w = ({ w with rate := r }, none) := by
  simp [weightDecay, hf]

/-- The rate that the documentation promises to the next `update()`: the argument of the last
`weight_decay` since the last `update()`, else the default of the constructor. -/
def promisedRate (dflt : α) : List (Op α) → α → α
  | [], r => r
  | .weightDecay _ r' :: os, _ => promisedRate dflt os r'
  | .update _ :: os, _ => promisedRate dflt os dflt
  | _ :: os, r => promisedRate dflt os r

/-- No `update()` of the history raises. -/
def UpdatesOk (R : Rule α) (clip : α → List α → List α) : List (Op α) → World α → Prop
  | [], _ => True
  | .update h :: os, w => (update R h w).2 = none ∧ UpdatesOk R clip os (update R h w).1
  | o :: os, w => UpdatesOk R clip os (o.run R clip w).1

/-- C52. In a fused solver, after any history in which no `update()` raised, the rate the next
`update()` uses is the promised one: registering parameters, setting states, scaling, clipping,
checking and zeroing gradients do not disturb it. (The rate used is `w.rate`:
`update_steps_each_once`.) -/
theorem fused_rate_is_promised (R : Rule α) (hf : R.fused = true) (clip : α → List α → List α)
    (os : List (Op α)) (w : World α) (hu : UpdatesOk R clip os w) :
    (runs R clip os w).rate = promisedRate R.defaultRate os w.rate := by
  induction os generalizing w with
  | nil => rfl
  | cons o os ih =>
    simp only [runs]
    cases o with
    | setParameters d reset retain =>
      rw [ih _ hu]
      simp only [promisedRate, Op.run, setParameters]
      congr 1
      rw [(setLoop_params R reset retain d _).2.1]
      split
      · exact (clearParameters_spec R w).2.2.1
      · rfl
    | removeParameters ks =>
      rw [ih _ hu]; simp only [promisedRate, Op.run]
      congr 1; exact (removeParameters_spec R ks w).2.1
    | clearParameters =>
      rw [ih _ hu]; simp only [promisedRate, Op.run]
      congr 1; exact (clearParameters_spec R w).2.2.1
    | setStates l =>
      rw [ih _ hu]; simp only [promisedRate, Op.run]
      congr 1
      clear hu ih
      induction l generalizing w with
      | nil => rfl
      | cons p l ihl =>
        simp only [setStates]
        cases get? p.1 w.states with
        | none => rfl
        | some s => exact ihl _
    | update h =>
      simp only [UpdatesOk] at hu
      rw [show (Op.run R clip (.update h) w).1 = (update R h w).1 from rfl, ih _ hu.2]
      simp only [promisedRate]
      congr 1
      have h1 := hu.1
      unfold update at h1 ⊢
      cases he : (forParams h (updateOp R) w.params w).2 with
      | some e =>
        rw [show forParams h (updateOp R) w.params w
          = ((forParams h (updateOp R) w.params w).1, some e) from Prod.ext rfl he] at h1
        cases h1
      | none =>
        rw [show forParams h (updateOp R) w.params w
          = ((forParams h (updateOp R) w.params w).1, none) from Prod.ext rfl he]
    | weightDecay h r =>
      rw [ih _ hu]; simp only [promisedRate, Op.run, weightDecay_fused_lazy R hf]
    | scaleGrad h s =>
      rw [ih _ hu]; simp only [promisedRate, Op.run, scaleGrad]
      congr 1; exact (forParams_frame h _ w.params w).2.1
    | clipGradByNorm h n =>
      rw [ih _ hu]; simp only [promisedRate, Op.run, clipGradByNorm]
      congr 1
      split
      · rfl
      · exact (forParams_frame h _ w.params w).2.1
    | checkGrad h bad =>
      rw [ih _ hu]; simp only [promisedRate, Op.run, checkGrad]
      congr 1; exact (checkLoop_frame h bad w.params w).2.2.2
    | zeroGrad =>
      rw [ih _ hu]; simp only [promisedRate, Op.run, zeroGrad]
      congr 1; exact (zeroGrad_frame w.params w).2.2.1
    | write v d g z => rw [ih _ hu]; rfl

/-- A fused rule over `Nat` with default rate 7. -/
def demoFused : Rule Nat := { demoRule with fused := true, defaultRate := 7 }

example : UpdatesOk demoFused (fun _ g => g)
      [.setParameters [("a", 0)] true false, .weightDecay ⟨[], false, false, []⟩ 3,
       .scaleGrad ⟨[], false, false, []⟩ 2, .update ⟨[], false, false, []⟩, .zeroGrad]
      (fresh demoFused demoMem) ∧
    (runs demoFused (fun _ g => g)
      [.setParameters [("a", 0)] true false, .weightDecay ⟨[], false, false, []⟩ 3]
      (fresh demoFused demoMem)).rate = 3 := by
  refine ⟨⟨by decide, trivial⟩, by decide⟩

/-- C52, refuted when an `update()` raises (as Lars does on a negative local rate): the stored rate
survives into the next `update()` although it was consumed by the failed one. -/
theorem raising_update_keeps_rate :
    ∃ (R : Rule Nat) (w : World Nat) (h : Hooks), R.fused = true ∧
      (update R h (weightDecay R h 3 w).1).2 ≠ none ∧
      (update R h (weightDecay R h 3 w).1).1.rate = 3 ∧ R.defaultRate = 7 := by
  refine ⟨{ demoFused with step := fun _ _ _ _ => .error .check },
    (setParameters demoFused [("a", 0)] true false (fresh demoFused demoMem)).1,
    ⟨[], false, false, []⟩, rfl, by decide, by decide, rfl⟩

/-- C52. In a solver that does not fuse weight decay, `weight_decay(r)` adds `r * data` to every
computed gradient at once; a zero rate does nothing (it adds nothing). -/
theorem weightDecay_unfused_eager (R : Rule α) (hf : R.fused = false) (h : Hooks) (r : α)
    (hr : r ≠ 0) (w : World α) (hk : (w.params.map (·.1)).Nodup)
    (hv : (w.params.map (·.2)).Nodup) :
    (weightDecay R h r w).2 = none ∧ (weightDecay R h r w).1.rate = w.rate ∧
    (∀ v, (weightDecay R h r w).1.mem v =
      if v ∈ w.params.map (·.2) ∧ (w.mem v).zeroing = false then
        { w.mem v with
          grad := List.zipWith (fun x g => g + r * x) (w.mem v).data (w.mem v).grad }
      else w.mem v) := by
  have hw : weightDecay R h r w = forParams h (gradOp (weightDecayCpu r)) w.params w := by
    simp [weightDecay, hf, hr]
  rw [hw]
  obtain ⟨h1, h2, _, _, h5⟩ := gradOp_each_once (weightDecayCpu r) h w hk hv
  exact ⟨h1, h5, h2⟩

example : ((weightDecay demoRule ⟨[], false, false, []⟩ 10 demoWorld).1.mem 0).grad = [15, 26] := by
  decide

end

/-! ## C57: zero_grad, iteration counts, global hooks -/

/-- C57. After `zero_grad()`, the gradient of every registered parameter is zero and every other
variable is untouched. -/
theorem zeroGrad_zeroes [Zero α] (w : World α) :
    (∀ p ∈ w.params, (∀ g ∈ ((zeroGrad w).mem p.2).grad, g = 0) ∧
      ((zeroGrad w).mem p.2).data = (w.mem p.2).data) ∧
    (∀ v, v ∉ w.params.map (·.2) → (zeroGrad w).mem v = w.mem v) := by
  obtain ⟨_, _, _, _, h5⟩ := zeroGrad_frame w.params w
  refine ⟨?_, ?_⟩
  · intro p hp
    have : p.2 ∈ w.params.map (·.2) := List.mem_map.2 ⟨p, hp, rfl⟩
    unfold zeroGrad
    rw [h5 p.2]
    simp [this]
  · intro v hv
    unfold zeroGrad
    rw [h5 v]
    simp [hv]

example : ((zeroGrad demoWorld).mem 0).grad = [0, 0] ∧ ((zeroGrad demoWorld).mem 1).grad = [1, 1] := by
  decide

/-- C57. `update()` right after `zero_grad()` changes no variable and no state (momentum and
iteration counts included): a gradient that was not computed is skipped, not treated as zero. -/
theorem update_after_zeroGrad_noop [Zero α] (R : Rule α) (h : Hooks) (w : World α) :
    (update R h (zeroGrad w)).2 = none ∧
    (update R h (zeroGrad w)).1.mem = (zeroGrad w).mem ∧
    (update R h (zeroGrad w)).1.states = w.states ∧
    (update R h (zeroGrad w)).1.trace = w.trace := by
  obtain ⟨h1, h2, h3, h4, h5⟩ := zeroGrad_frame w.params w
  have key : ∀ l : List (Key × VarId), (∀ p ∈ l, p ∈ w.params) →
      forParams h (updateOp R) l (zeroGrad w) = (zeroGrad w, none) := by
    intro l
    induction l with
    | nil => intro _; rfl
    | cons p l ih =>
      obtain ⟨k, v⟩ := p
      intro hm
      have hz : ((zeroGrad w).mem v).zeroing = true := by
        have : v ∈ w.params.map (·.2) := List.mem_map.2 ⟨(k, v), hm _ (by simp), rfl⟩
        unfold zeroGrad
        rw [h5 v]
        simp [this]
      have hvis : visit h (updateOp R) k v (zeroGrad w) = (zeroGrad w, none) := by
        unfold visit; rw [if_pos hz]
      simp only [forParams, hvis]
      exact ih (fun p hp => hm p (List.mem_cons_of_mem _ hp))
  have hp : (zeroGrad w).params = w.params := h1
  have hu : update R h (zeroGrad w) = ({ zeroGrad w with rate := R.defaultRate }, none) := by
    unfold update
    rw [hp, key w.params (fun _ hp => hp)]
  rw [hu]
  exact ⟨rfl, rfl, h2, h4⟩

/-- C51. The iteration count: in an `update()` that does not raise, the count of a parameter whose
gradient was computed goes up by one (up to 2³²-2) and no other count changes. -/
theorem update_counts (R : Rule α) (h : Hooks) (w : World α)
    (hk : (w.params.map (·.1)).Nodup) (he : (update R h w).2 = none) :
    (∀ p ∈ w.params, ∀ s, get? p.1 w.states = some s →
      ∃ s', get? p.1 (update R h w).1.states = some s' ∧
        s'.t = if (w.mem p.2).zeroing then s.t else tick s.t) ∧
    (∀ k, k ∉ w.params.map (·.1) → get? k (update R h w).1.states = get? k w.states) := by
  have key : ∀ (l : List (Key × VarId)) (w : World α), (l.map (·.1)).Nodup →
      (forParams h (updateOp R) l w).2 = none →
      ∀ p ∈ l, ∀ s, get? p.1 w.states = some s →
      ∃ s', get? p.1 (forParams h (updateOp R) l w).1.states = some s' ∧
        s'.t = if (w.mem p.2).zeroing then s.t else tick s.t := by
    intro l
    induction l with
    | nil => intro w _ _ p hp; cases hp
    | cons p l ih =>
      obtain ⟨k, v⟩ := p
      intro w hn he q hq s hs
      simp only [List.map_cons, List.nodup_cons] at hn
      simp only [forParams] at he ⊢
      cases hv : (visit h (updateOp R) k v w).2 with
      | some e =>
        rw [show visit h (updateOp R) k v w = ((visit h (updateOp R) k v w).1, some e) from
          Prod.ext rfl hv] at he
        cases he
      | none =>
        rw [show visit h (updateOp R) k v w = ((visit h (updateOp R) k v w).1, none) from
          Prod.ext rfl hv] at he ⊢
        simp only [] at he ⊢
        have hzero : ∀ u, ((visit h (updateOp R) k v w).1.mem u).zeroing = (w.mem u).zeroing := by
          intro u
          unfold visit
          by_cases hz : (w.mem v).zeroing = true
          · simp [hz]
          · simp only [hz, if_false, Bool.false_eq_true]
            unfold updateOp
            cases get? k w.states with
            | none => rfl
            | some s =>
              simp only []
              cases R.step w.rate s (w.mem v).grad (w.mem v).data with
              | error e => rfl
              | ok r =>
                simp only [setVar]
                split
                · rename_i e; subst e; rfl
                · rfl
        rcases List.mem_cons.1 hq with rfl | hq
        · clear hq
          simp only [] at hs ⊢
          rw [(forParams_frame h (updateOp R) l _).2.2.2.2 k hn.1]
          unfold visit at hv ⊢
          by_cases hz : (w.mem v).zeroing = true
          · simp only [hz, if_true]; exact ⟨s, hs, rfl⟩
          · simp only [hz, if_false, Bool.false_eq_true] at hv ⊢
            unfold updateOp at hv ⊢
            rw [hs] at hv ⊢
            simp only [] at hv ⊢
            cases hst : R.step w.rate s (w.mem v).grad (w.mem v).data with
            | error e => rw [hst] at hv; cases hv
            | ok r =>
              simp only []
              refine ⟨⟨r.1, tick s.t⟩, ?_, rfl⟩
              rw [get?_assign]; simp [hs]
        · rename_i hq
          have hne : q.1 ≠ k := by
            intro e; exact hn.1 (List.mem_map.2 ⟨q, hq, e⟩)
          obtain ⟨s', h1, h2⟩ := ih (visit h (updateOp R) k v w).1 hn.2 he q hq s (by
            rw [(visit_frame h (updateOp R) k v w).2.2.2.2.2 q.1 hne]; exact hs)
          rw [hzero] at h2
          exact ⟨s', h1, h2⟩
  have hn : (forParams h (updateOp R) w.params w).2 = none := by
    unfold update at he
    cases hf : (forParams h (updateOp R) w.params w).2 with
    | none => rfl
    | some e =>
      rw [show forParams h (updateOp R) w.params w
        = ((forParams h (updateOp R) w.params w).1, some e) from Prod.ext rfl hf] at he
      cases he
  have hu : update R h w = ({ (forParams h (updateOp R) w.params w).1 with
      rate := R.defaultRate }, none) := by
    unfold update
    rw [show forParams h (updateOp R) w.params w
      = ((forParams h (updateOp R) w.params w).1, none) from Prod.ext rfl hn]
  rw [hu]
  exact ⟨key w.params w hk hn, fun k hk' => (forParams_frame h (updateOp R) w.params w).2.2.2.2 k hk'⟩

/-- Counts stay below 2³²-1 and, below the ceiling, counting is exact. -/
theorem tick_saturates (t : Nat) : tick t ≤ 2 ^ 32 - 2 ∧ (t < 2 ^ 32 - 2 → tick t = t + 1) ∧
    tick (2 ^ 32 - 2) = 2 ^ 32 - 2 := by
  unfold tick
  refine ⟨Nat.min_le_right _ _, ?_, by decide⟩
  intro h
  rw [Nat.mod_eq_of_lt (by omega)]
  omega

/-- Refuted for a count given to `set_states`: `tick (2³²-1) = 0`, the count wraps. -/
theorem tick_wraps : tick (2 ^ 32 - 1) = 0 := by decide

example : (getStates (update demoRule ⟨[], false, false, []⟩ demoWorld).1).map
    (fun p => (p.1, p.2.t)) = [("a", 1), ("z", 0)] := by decide

/-- C57. Global hooks: a key registered keeps its first callback until it is unset; other keys are
not affected; the order is the order of registration. -/
theorem setHook_spec {β : Type} (k : String) (cb : β) (l : List (String × β)) :
    setHook k cb l = (if k ∈ l.map (·.1) then l else l ++ [(k, cb)]) := by
  unfold setHook
  cases h : l.find? (fun p => p.1 == k) with
  | some p =>
    have h1 := List.find?_some h
    have h2 := List.mem_of_find?_eq_some h
    have : k ∈ l.map (·.1) := List.mem_map.2 ⟨p, h2, by simpa using h1⟩
    simp only []; rw [if_pos this]
  | none =>
    have : k ∉ l.map (·.1) := by
      intro hm
      obtain ⟨p, hp, rfl⟩ := List.mem_map.1 hm
      have := List.find?_eq_none.1 h p hp
      simp at this
    simp only []; rw [if_neg this]

/-- C57. Unsetting removes the key's hook and nothing else. -/
theorem unsetHook_spec {β : Type} (k : String) (l : List (String × β))
    (hn : (l.map (·.1)).Nodup) : unsetHook k l = l.filter (fun p => p.1 ≠ k) := by
  induction l with
  | nil => rfl
  | cons p l ih =>
    simp only [List.map_cons, List.nodup_cons] at hn
    by_cases h : p.1 = k
    · have hall : l.filter (fun q => decide (q.1 ≠ k)) = l := by
        rw [List.filter_eq_self]
        intro q hq
        simp only [decide_eq_true_eq]
        rintro e
        exact hn.1 (List.mem_map.2 ⟨q, hq, e.trans h.symm⟩)
      simp only [unsetHook, h, beq_self_eq_true, if_true, List.filter_cons, ne_eq, not_true_eq_false,
        decide_false, Bool.false_eq_true, if_false]
      exact hall.symm
    · have hb : (p.1 == k) = false := by simpa using h
      simp only [unsetHook, hb, Bool.false_eq_true, if_false]
      rw [List.filter_cons_of_pos (by simpa using h), ih hn.2]

/-- C57. The keys of the global hooks stay distinct, so that the hypothesis of `unsetHook_spec`
holds in every history. -/
theorem hooks_keys_distinct {β : Type} (k : String) (cb : β) (l : List (String × β))
    (hn : (l.map (·.1)).Nodup) :
    ((setHook k cb l).map (·.1)).Nodup ∧ ((unsetHook k l).map (·.1)).Nodup := by
  refine ⟨?_, ?_⟩
  · rw [setHook_spec]
    split
    · exact hn
    · rename_i h
      rw [List.map_append, List.nodup_append]
      refine ⟨hn, by simp, ?_⟩
      intro a ha b hb
      simp only [List.map_cons, List.map_nil, List.mem_singleton] at hb
      rintro rfl
      exact h (hb ▸ ha)
  · rw [unsetHook_spec k l hn]
    exact hn.sublist ((List.filter_sublist).map _)

example : setHook "a" 2 (setHook "b" 1 [("a", 0)]) = [("a", 0), ("b", 1)] ∧
    unsetHook "a" [("a", 0), ("b", 1)] = [("b", 1)] := by decide

end Verif.Solver
