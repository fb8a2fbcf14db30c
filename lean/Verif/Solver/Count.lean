import Verif.Solver.Update
/-!
# C51: the iteration count over a history
-/

namespace Verif.Solver

variable {α : Type}

theorem setOne_state_self {R : Rule α} (he : R.erases = true) {w : World α} (hl : Linked R w)
    (retain : Bool) (k : Key) (v : VarId) (hn : (setOne R false retain k v w).2 = none) :
    get? k (setOne R false retain k v w).1.states =
      if retain = true ∧ (get? k w.params).isSome = true then get? k w.states
      else some ⟨R.init (w.mem v).shape, 0⟩ := by
  unfold setOne at hn ⊢
  simp only [Bool.false_eq_true, if_false] at hn ⊢
  cases hg : get? k w.params with
  | none =>
    have hs : get? k w.states = none := by
      cases h : get? k w.states with
      | none => rfl
      | some s =>
        have := hl.only he k (by rw [h]; rfl)
        rw [hg] at this; cases this
    simp [setState, get?_insertNew, hs]
  | some v0 =>
    cases retain with
    | true =>
      simp only [if_true, Option.isSome_some, and_self]
      split <;> rfl
    | false => simp [setState, get?_insertNew, removeState_get, he]

/-- The state of a key after `set_parameters(d, reset=False, retain_state)`. -/
theorem setLoop_noReset_states {R : Rule α} (he : R.erases = true) (retain : Bool)
    (d : List (Key × VarId)) (hd : (d.map (·.1)).Nodup) {w : World α} (hl : Linked R w)
    (hn : (setLoop R false retain d w).2 = none) (k : Key) :
    get? k (setLoop R false retain d w).1.states =
      match get? k d with
      | none => get? k w.states
      | some v => if retain = true ∧ (get? k w.params).isSome = true then get? k w.states
          else some ⟨R.init (w.mem v).shape, 0⟩ := by
  induction d generalizing w with
  | nil => rfl
  | cons p d ih =>
    obtain ⟨k0, v0⟩ := p
    simp only [List.map_cons, List.nodup_cons] at hd
    simp only [setLoop] at hn ⊢
    obtain ⟨s1, _, _, s4, s5, _⟩ := setOne_spec R false retain k0 v0 w
    cases hx : (setOne R false retain k0 v0 w).2 with
    | some e =>
      rw [show setOne R false retain k0 v0 w = ((setOne R false retain k0 v0 w).1, some e) from
        Prod.ext rfl hx] at hn
      cases hn
    | none =>
      rw [show setOne R false retain k0 v0 w = ((setOne R false retain k0 v0 w).1, none) from
        Prod.ext rfl hx] at hn ⊢
      simp only [] at hn ⊢
      rw [ih hd.2 (linked_setOne hl false retain k0 v0) hn]
      by_cases e : k0 = k
      · subst e
        have hnd : get? k0 d = none := by
          cases h : get? k0 d with
          | none => rfl
          | some x =>
            exact absurd ((get?_isSome_iff k0 d).1 (by rw [h]; rfl)) hd.1
        simp only [hnd, get?, if_true]
        exact setOne_state_self he hl retain k0 v0 hx
      · simp only [get?, e, if_false]
        rw [s5 k (Ne.symm e), s1]
        have : get? k (setOne R false retain k0 v0 w).1.params = get? k w.params := by
          rw [s4 k]; simp [hx, e]
        rw [this]

/-- Specification: how one call changes the number of updates of `k` since it was registered. -/
def counted (k : Key) (w : World α) : Op α → Nat → Nat
  | .update _, n =>
    match get? k w.params with
    | some v => if (w.mem v).zeroing then n else n + 1
    | none => n
  | .setParameters d reset retain, n =>
    if (get? k d).isSome = true ∧
        ¬ (reset = false ∧ retain = true ∧ (get? k w.params).isSome = true) then 0 else n
  | _, n => n

/-- The calls of the history: no call raises, dictionaries have distinct keys, and the counts are
not overwritten by `set_states`. -/
def PlainCall [Add α] [Mul α] [Zero α] [DecidableEq α] (R : Rule α) (clip : α → List α → List α)
    (w : World α) (o : Op α) : Prop :=
  (o.run R clip w).2 = none ∧
  match o with
  | .setStates _ => False
  | .setParameters d _ _ => (d.map (·.1)).Nodup
  | _ => True

section
variable [Add α] [Mul α] [Zero α] [DecidableEq α]

/-- The number of updates of `k` since it was registered, over a history. -/
def countedRuns (R : Rule α) (clip : α → List α → List α) (k : Key) :
    List (Op α) → World α → Nat → Nat
  | [], _, n => n
  | o :: os, w, n => countedRuns R clip k os (o.run R clip w).1 (counted k w o n)

def PlainRuns (R : Rule α) (clip : α → List α → List α) : List (Op α) → World α → Prop
  | [], _ => True
  | o :: os, w => PlainCall R clip w o ∧ PlainRuns R clip os (o.run R clip w).1

theorem count_run (R : Rule α) (he : R.erases = true) (clip : α → List α → List α) (k : Key)
    (o : Op α) {w : World α} (hl : Linked R w) (hp : PlainCall R clip w o) (n : Nat)
    (hc : ∀ s, get? k w.states = some s → s.t = min n (2 ^ 32 - 2)) :
    ∀ s, get? k (o.run R clip w).1.states = some s →
      s.t = min (counted k w o n) (2 ^ 32 - 2) := by
  have same : ∀ w' : World α, get? k w'.states = get? k w.states →
      ∀ s, get? k w'.states = some s → s.t = min n (2 ^ 32 - 2) := by
    intro w' hw s hs; rw [hw] at hs; exact hc s hs
  cases o with
  | setParameters d reset retain =>
    intro s hs
    simp only [Op.run, setParameters] at hs
    have hd : (d.map (·.1)).Nodup := hp.2
    simp only [counted]
    cases reset with
    | true =>
      simp only [if_true] at hs
      rw [setLoop_reset_states, clear_no_states he hl, Option.none_or] at hs
      cases hg : get? k d with
      | none => rw [hg] at hs; cases hs
      | some v =>
        rw [hg] at hs
        simp only [Option.map_some, Option.some.injEq] at hs
        subst hs
        simp
    | false =>
      simp only [Bool.false_eq_true, if_false] at hs
      have hn : (setLoop R false retain d w).2 = none := by
        have := hp.1
        simpa [Op.run, setParameters] using this
      rw [setLoop_noReset_states he retain d hd hl hn] at hs
      cases hg : get? k d with
      | none => rw [hg] at hs; simpa using hc s hs
      | some v =>
        rw [hg] at hs
        simp only [] at hs
        by_cases hr : retain = true ∧ (get? k w.params).isSome = true
        · rw [if_pos hr] at hs
          simpa [hr.1, hr.2] using hc s hs
        · rw [if_neg hr] at hs
          simp only [Option.some.injEq] at hs
          subst hs
          simp only [Option.isSome_some, true_and]
          rw [if_pos hr]; simp
  | removeParameters ks =>
    intro s hs
    simp only [Op.run] at hs
    obtain ⟨_, _, _, _, h5, _⟩ := removeParameters_spec R ks w
    rw [h5] at hs
    split at hs
    · cases hs
    · exact hc s hs
  | clearParameters =>
    intro s hs
    simp only [Op.run] at hs
    rw [clear_no_states he hl] at hs
    cases hs
  | setStates l => exact absurd hp.2 (by simp)
  | update h =>
    intro s hs
    obtain ⟨u1, u2⟩ := update_counts R h w hl.pnodup hp.1
    simp only [counted]
    cases hg : get? k w.params with
    | none =>
      have hk : k ∉ w.params.map (·.1) := by rw [← get?_isSome_iff, hg]; simp
      have hs' : get? k (update R h w).1.states = some s := hs
      rw [u2 k hk] at hs'
      exact hc s hs'
    | some v =>
      have hm := get?_mem hg
      have hst := hl.has k (by rw [hg]; rfl)
      obtain ⟨s0, hs0⟩ := Option.isSome_iff_exists.1 hst
      obtain ⟨s', e1, e2⟩ := u1 (k, v) hm s0 hs0
      have hs' : get? k (update R h w).1.states = some s := hs
      simp only [] at e1 e2
      rw [e1] at hs'
      simp only [Option.some.injEq] at hs'
      subst hs'
      rw [e2, hc s0 hs0]
      simp only []
      split
      · rfl
      · unfold tick
        omega
  | weightDecay h r =>
    simp only [counted]
    refine same _ ?_
    simp only [Op.run, weightDecay]
    split
    · rfl
    · split
      · rfl
      · exact forParams_states_eq h _ (by
          intro r s x s' x' ho
          simp only [gradOp, Except.ok.injEq, Prod.mk.injEq] at ho
          exact Or.inl ho.1.symm) w.params w k
  | scaleGrad h c =>
    simp only [counted]
    refine same _ ?_
    exact forParams_states_eq h _ (by
          intro r s x s' x' ho
          simp only [gradOp, Except.ok.injEq, Prod.mk.injEq] at ho
          exact Or.inl ho.1.symm) w.params w k
  | clipGradByNorm h c =>
    simp only [counted]
    refine same _ ?_
    simp only [Op.run, clipGradByNorm]
    split
    · rfl
    · exact forParams_states_eq h _ (by
          intro r s x s' x' ho
          simp only [gradOp, Except.ok.injEq, Prod.mk.injEq] at ho
          exact Or.inl ho.1.symm) w.params w k
  | checkGrad h bad =>
    simp only [counted]
    refine same _ ?_
    exact congrArg _ (checkLoop_frame h bad w.params w).2.1
  | zeroGrad =>
    simp only [counted]
    refine same _ ?_
    exact congrArg _ (zeroGrad_frame w.params w).2.1
  | write v d g z => exact same _ rfl

/-- C51. For a class whose `remove_state_impl` erases, after any history of calls that do not raise,
the iteration count of a parameter is the number of `update()` calls that found its gradient
computed since it was last registered (retained registrations do not restart it), up to 2³²-2.
Missing: Sgd, whose count survives re-registration (`sgd_reset_keeps_count`). -/
theorem iteration_count_partial (R : Rule α) (he : R.erases = true) (clip : α → List α → List α)
    (mem : VarId → Var α) (os : List (Op α)) (hp : PlainRuns R clip os (fresh R mem)) (k : Key)
    (s : SState α) (hs : get? k (getStates (runs R clip os (fresh R mem))) = some s) :
    s.t = min (countedRuns R clip k os (fresh R mem) 0) (2 ^ 32 - 2) := by
  have key : ∀ (os : List (Op α)) (w : World α) (n : Nat), Linked R w → PlainRuns R clip os w →
      (∀ s, get? k w.states = some s → s.t = min n (2 ^ 32 - 2)) →
      ∀ s, get? k (runs R clip os w).states = some s →
        s.t = min (countedRuns R clip k os w n) (2 ^ 32 - 2) := by
    intro os
    induction os with
    | nil => intro w n _ _ hc; exact hc
    | cons o os ih =>
      intro w n hl hp hc
      exact ih _ _ (linked_run clip o hl) hp.2 (count_run R he clip k o hl hp.1 n hc)
  exact key os _ 0 (linked_fresh R mem) hp (by simp [fresh, get?]) s hs

end

def demoPlain : List (Op Nat) :=
  [.setParameters [("a", 0), ("b", 1)] true false, .update ⟨[], true, true, []⟩,
   .zeroGrad, .update ⟨[], true, true, []⟩, .write 0 [1, 1] [2, 2] false,
   .update ⟨[], false, false, []⟩, .setParameters [("a", 0)] false true,
   .setParameters [("b", 1)] false false]

example : PlainRuns demoRule (fun _ g => g) demoPlain (fresh demoRule demoMem) := by
  refine ⟨⟨by decide, by decide⟩, ⟨by decide, trivial⟩, ⟨by decide, trivial⟩, ⟨by decide, trivial⟩,
    ⟨by decide, trivial⟩, ⟨by decide, trivial⟩, ⟨by decide, by decide⟩, ⟨by decide, by decide⟩,
    trivial⟩

example : (getStates (runs demoRule (fun _ g => g) demoPlain (fresh demoRule demoMem))).map
    (fun p => (p.1, p.2.t)) = [("a", 2), ("b", 0)] ∧
    countedRuns demoRule (fun _ g => g) "a" demoPlain (fresh demoRule demoMem) 0 = 2 := by decide

end Verif.Solver
