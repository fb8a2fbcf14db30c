import Verif.Solver.Lemmas
/-! The loop over the parameters. -/

namespace Verif.Solver

variable {α : Type}

/-- What the loop makes of the state `st` and the variable `x` of one parameter, looked at alone. -/
def localResult (op : LocalOp α) (rate : α) (st : Option (SState α)) (x : Var α) :
    Except Err (Option (SState α) × Var α) :=
  if x.zeroing then .ok (st, x)
  else match op rate st x with
    | .error e => .error e
    | .ok (s', x') => .ok (match s' with
        | some s => st.map (fun _ => s)
        | none => st, x')

/-- The trace of one visit. -/
def visitTrace (h : Hooks) (x : Var α) (k : Key) : List Event :=
  if x.zeroing then [] else hookCalls h ++ [.act k]

theorem visit_ok (h : Hooks) (op : LocalOp α) (k : Key) (v : VarId) (w : World α)
    {st : Option (SState α)} {x : Var α}
    (hl : localResult op w.rate (get? k w.states) (w.mem v) = .ok (st, x)) :
    (visit h op k v w).2 = none ∧
    (visit h op k v w).1.params = w.params ∧ (visit h op k v w).1.rate = w.rate ∧
    (visit h op k v w).1.trace = w.trace ++ visitTrace h (w.mem v) k ∧
    (visit h op k v w).1.mem v = x ∧ get? k (visit h op k v w).1.states = st ∧
    (∀ u, u ≠ v → (visit h op k v w).1.mem u = w.mem u) ∧
    (∀ k', k' ≠ k → get? k' (visit h op k v w).1.states = get? k' w.states) := by
  unfold localResult at hl
  unfold visit visitTrace
  by_cases hz : (w.mem v).zeroing = true
  · simp only [hz, if_true] at hl ⊢
    cases hl
    simp
  · simp only [hz, if_false, Bool.false_eq_true] at hl ⊢
    cases ho : op w.rate (get? k w.states) (w.mem v) with
    | error e => rw [ho] at hl; cases hl
    | ok r =>
      obtain ⟨s', x'⟩ := r
      rw [ho] at hl
      simp only [Except.ok.injEq, Prod.mk.injEq] at hl
      obtain ⟨h1, h2⟩ := hl
      subst h2
      cases s' with
      | none =>
        simp only [setVar] at h1 ⊢
        refine ⟨trivial, trivial, trivial, by simp, by simp, h1, ?_, ?_⟩
        · intro u hu; simp [hu]
        · intro k' _; trivial
      | some s =>
        simp only [setVar] at h1 ⊢
        refine ⟨trivial, trivial, trivial, by simp, by simp, ?_, ?_, ?_⟩
        · rw [get?_assign]; simpa using h1
        · intro u hu; simp [hu]
        · intro k' hk'; rw [get?_assign]; simp [Ne.symm hk']

theorem visit_error (h : Hooks) (op : LocalOp α) (k : Key) (v : VarId) (w : World α) {e : Err}
    (hl : localResult op w.rate (get? k w.states) (w.mem v) = .error e) :
    visit h op k v w = ({ w with trace := w.trace ++ hookCalls h }, some e) := by
  unfold localResult at hl
  unfold visit
  by_cases hz : (w.mem v).zeroing = true
  · simp [hz] at hl
  · simp only [hz, if_false, Bool.false_eq_true] at hl ⊢
    cases ho : op w.rate (get? k w.states) (w.mem v) with
    | error e' => rw [ho] at hl; cases hl; rfl
    | ok r => rw [ho] at hl; cases hl

/-- The loop, when no parameter raises: each parameter ends as `localResult` says of its *initial*
state and variable, everything else is unchanged, and the trace is one block per visited
parameter. -/
theorem forParams_ok (h : Hooks) (op : LocalOp α) (l : List (Key × VarId)) (w : World α)
    (hk : (l.map (·.1)).Nodup) (hv : (l.map (·.2)).Nodup)
    (hok : ∀ p ∈ l, ∃ r, localResult op w.rate (get? p.1 w.states) (w.mem p.2) = .ok r) :
    let r := forParams h op l w
    r.2 = none ∧ r.1.params = w.params ∧ r.1.rate = w.rate ∧
    r.1.trace = w.trace ++ l.flatMap (fun p => visitTrace h (w.mem p.2) p.1) ∧
    (∀ p ∈ l, localResult op w.rate (get? p.1 w.states) (w.mem p.2) =
        .ok (get? p.1 r.1.states, r.1.mem p.2)) ∧
    (∀ u, u ∉ l.map (·.2) → r.1.mem u = w.mem u) ∧
    (∀ k, k ∉ l.map (·.1) → get? k r.1.states = get? k w.states) := by
  induction l generalizing w with
  | nil => simp [forParams]
  | cons p l ih =>
    obtain ⟨k, v⟩ := p
    simp only [List.map_cons, List.nodup_cons] at hk hv
    obtain ⟨⟨st, x⟩, hl⟩ := hok (k, v) (by simp)
    simp only at hl
    obtain ⟨v1, v2, v3, v4, v5, v6, v7, v8⟩ := visit_ok h op k v w hl
    have hne : ∀ p ∈ l, p.1 ≠ k ∧ p.2 ≠ v := by
      intro p hp
      refine ⟨?_, ?_⟩
      · rintro rfl; exact hk.1 (List.mem_map.2 ⟨p, hp, rfl⟩)
      · rintro rfl; exact hv.1 (List.mem_map.2 ⟨p, hp, rfl⟩)
    have hsame : ∀ p ∈ l,
        localResult op (visit h op k v w).1.rate (get? p.1 (visit h op k v w).1.states)
          ((visit h op k v w).1.mem p.2)
        = localResult op w.rate (get? p.1 w.states) (w.mem p.2) := by
      intro p hp
      rw [v3, v8 _ (hne p hp).1, v7 _ (hne p hp).2]
    obtain ⟨i1, i2, i3, i4, i5, i6, i7⟩ := ih (visit h op k v w).1 hk.2 hv.2 (by
      intro p hp
      rw [hsame p hp]
      exact hok p (List.mem_cons_of_mem _ hp))
    simp only [forParams]
    rw [show visit h op k v w = ((visit h op k v w).1, none) from Prod.ext rfl v1]
    simp only []
    refine ⟨i1, i2.trans v2, i3.trans v3, ?_, ?_, ?_, ?_⟩
    · rw [i4, v4, List.flatMap_cons, List.append_assoc]
      congr 2
      rw [List.flatMap_def, List.flatMap_def]
      congr 1
      apply List.map_congr_left
      intro p hp
      rw [v7 _ (hne p hp).2]
    · intro p hp
      rcases List.mem_cons.1 hp with hp | hp
      · subst hp
        simp only
        rw [i6 v hv.1, v5, i7 k hk.1, v6]
        exact hl
      · rw [← hsame p hp]
        exact i5 p hp
    · intro u hu
      simp only [List.map_cons, List.mem_cons, not_or] at hu
      rw [i6 u hu.2, v7 u hu.1]
    · intro k' hk'
      simp only [List.map_cons, List.mem_cons, not_or] at hk'
      rw [i7 k' hk'.2, v8 k' hk'.1]

/-- The loop, raising or not: the registry, the rate, the variables that are not registered and
the states of other keys are untouched; no key gains or loses a state. -/
theorem visit_frame (h : Hooks) (op : LocalOp α) (k : Key) (v : VarId) (w : World α) :
    (visit h op k v w).1.params = w.params ∧ (visit h op k v w).1.rate = w.rate ∧
    (∀ u, u ≠ v → (visit h op k v w).1.mem u = w.mem u) ∧
    ((w.mem v).zeroing = true → (visit h op k v w).1 = w) ∧
    (visit h op k v w).1.states.map (·.1) = w.states.map (·.1) ∧
    (∀ k', k' ≠ k → get? k' (visit h op k v w).1.states = get? k' w.states) := by
  unfold visit
  by_cases hz : (w.mem v).zeroing = true
  · simp [hz]
  · simp only [hz, if_false, Bool.false_eq_true]
    cases ho : op w.rate (get? k w.states) (w.mem v) with
    | error e => simp
    | ok r =>
      obtain ⟨s', x'⟩ := r
      cases s' with
      | none => simp +contextual [setVar]
      | some s =>
        refine ⟨rfl, rfl, ?_, by simp, ?_, ?_⟩
        · intro u hu; simp [setVar, hu]
        · simp [keys_assign]
        · intro k' hk'; simp [get?_assign, Ne.symm hk']

theorem forParams_frame (h : Hooks) (op : LocalOp α) (l : List (Key × VarId)) (w : World α) :
    (forParams h op l w).1.params = w.params ∧ (forParams h op l w).1.rate = w.rate ∧
    (∀ u, u ∉ l.map (·.2) → (forParams h op l w).1.mem u = w.mem u) ∧
    (forParams h op l w).1.states.map (·.1) = w.states.map (·.1) ∧
    (∀ k, k ∉ l.map (·.1) → get? k (forParams h op l w).1.states = get? k w.states) := by
  induction l generalizing w with
  | nil => simp [forParams]
  | cons p l ih =>
    obtain ⟨k, v⟩ := p
    obtain ⟨f1, f2, f3, _, f5, f6⟩ := visit_frame h op k v w
    simp only [forParams]
    cases he : (visit h op k v w).2 with
    | some e =>
      rw [show visit h op k v w = ((visit h op k v w).1, some e) from Prod.ext rfl he]
      refine ⟨f1, f2, ?_, f5, ?_⟩
      · intro u hu
        simp only [List.map_cons, List.mem_cons, not_or] at hu
        exact f3 u hu.1
      · intro k' hk'
        simp only [List.map_cons, List.mem_cons, not_or] at hk'
        exact f6 k' hk'.1
    | none =>
      rw [show visit h op k v w = ((visit h op k v w).1, none) from Prod.ext rfl he]
      obtain ⟨i1, i2, i3, i4, i5⟩ := ih (visit h op k v w).1
      refine ⟨i1.trans f1, i2.trans f2, ?_, i4.trans f5, ?_⟩
      · intro u hu
        simp only [List.map_cons, List.mem_cons, not_or] at hu
        exact (i3 u hu.2).trans (f3 u hu.1)
      · intro k' hk'
        simp only [List.map_cons, List.mem_cons, not_or] at hk'
        exact (i5 k' hk'.2).trans (f6 k' hk'.1)

/-- Shapes are never changed by an operation that keeps them. -/
theorem forParams_mem_inv (P : VarId → Var α → Prop) (h : Hooks) (op : LocalOp α)
    (hop : ∀ r s v x s' x', P v x → op r s x = .ok (s', x') → P v x')
    (l : List (Key × VarId)) (w : World α) (hw : ∀ v, P v (w.mem v)) :
    ∀ v, P v ((forParams h op l w).1.mem v) := by
  induction l generalizing w with
  | nil => simpa [forParams] using hw
  | cons p l ih =>
    obtain ⟨k, v⟩ := p
    have hvis : ∀ u, P u ((visit h op k v w).1.mem u) := by
      intro u
      unfold visit
      by_cases hz : (w.mem v).zeroing = true
      · simpa [hz] using hw u
      · simp only [hz, if_false, Bool.false_eq_true]
        cases ho : op w.rate (get? k w.states) (w.mem v) with
        | error e => simpa using hw u
        | ok r =>
          obtain ⟨s', x'⟩ := r
          have := hop _ _ _ _ _ _ (hw v) ho
          cases s' <;> (simp only [setVar]; split <;> rename_i hu <;>
            first
              | (subst hu; exact this)
              | exact hw u)
    simp only [forParams]
    cases he : (visit h op k v w).2 with
    | some e =>
      rw [show visit h op k v w = ((visit h op k v w).1, some e) from Prod.ext rfl he]
      exact hvis
    | none =>
      rw [show visit h op k v w = ((visit h op k v w).1, none) from Prod.ext rfl he]
      exact ih _ hvis

/-- Without states, the loop keeps any invariant of the states that the operation keeps. -/
theorem forParams_states_eq (h : Hooks) (op : LocalOp α)
    (hop : ∀ r s x s' x', op r s x = .ok (s', x') → s' = s ∨ s' = none)
    (l : List (Key × VarId)) (w : World α) :
    ∀ k, get? k (forParams h op l w).1.states = get? k w.states := by
  induction l generalizing w with
  | nil => simp [forParams]
  | cons p l ih =>
    obtain ⟨k, v⟩ := p
    have hvis : ∀ k', get? k' (visit h op k v w).1.states = get? k' w.states := by
      intro k'
      unfold visit
      by_cases hz : (w.mem v).zeroing = true
      · simp [hz]
      · simp only [hz, if_false, Bool.false_eq_true]
        cases ho : op w.rate (get? k w.states) (w.mem v) with
        | error e => simp
        | ok r =>
          obtain ⟨s', x'⟩ := r
          rcases hop _ _ _ _ _ ho with hs | hs
          · subst hs
            cases hg : get? k w.states with
            | none => simp
            | some s =>
              simp only
              rw [get?_assign]
              by_cases hk : k = k'
              · subst hk; simp [hg]
              · simp [hk]
          · subst hs; simp
    simp only [forParams]
    cases he : (visit h op k v w).2 with
    | some e =>
      rw [show visit h op k v w = ((visit h op k v w).1, some e) from Prod.ext rfl he]
      exact hvis
    | none =>
      rw [show visit h op k v w = ((visit h op k v w).1, none) from Prod.ext rfl he]
      intro k'
      exact (ih _ k').trans (hvis k')

end Verif.Solver
