import Verif.Solver.Model
/-! Lemmas on the maps and the registry. -/

namespace Verif.Solver

variable {α β : Type}

theorem get?_append (k : Key) (a b : List (Key × β)) :
    get? k (a ++ b) = (get? k a).or (get? k b) := by
  induction a with
  | nil => simp [get?]
  | cons p a ih =>
    obtain ⟨k', v⟩ := p
    by_cases h : k' = k <;> simp [get?, h, ih]

theorem get?_insertNew (k k' : Key) (v : β) (l : List (Key × β)) :
    get? k (insertNew k' v l) = (get? k l).or (if k' = k then some v else none) := by
  unfold insertNew
  cases h : get? k' l with
  | none => simp [get?_append, get?]
  | some x =>
    by_cases hk : k' = k
    · subst hk; simp [h]
    · simp [hk]

theorem get?_eraseKey (k k' : Key) (l : List (Key × β)) :
    get? k (eraseKey k' l) = if k' = k then none else get? k l := by
  induction l with
  | nil => simp [eraseKey, get?]
  | cons p l ih =>
    obtain ⟨a, v⟩ := p
    simp only [eraseKey] at ih ⊢
    by_cases ha : a = k'
    · subst ha
      simp only [ne_eq, not_true_eq_false, decide_false, Bool.false_eq_true, not_false_eq_true,
        List.filter_cons_of_neg, ih]
      by_cases h : a = k <;> simp [get?, h]
    · rw [List.filter_cons_of_pos (by simpa using ha)]
      by_cases h : a = k
      · subst h
        have : ¬ k' = a := fun e => ha e.symm
        simp [get?, this]
      · simp only [get?, h, if_false]; exact ih

theorem get?_assign (k k' : Key) (v : β) (l : List (Key × β)) :
    get? k (assign k' v l) = if k' = k then (get? k l).map (fun _ => v) else get? k l := by
  induction l with
  | nil => simp [assign, get?]
  | cons p l ih =>
    obtain ⟨a, x⟩ := p
    by_cases ha : a = k'
    · subst ha
      by_cases h : a = k <;> simp [assign, get?, h]
    · by_cases h : a = k
      · subst h
        have : ¬ k' = a := fun e => ha e.symm
        simp [assign, get?, ha, this]
      · simp [assign, get?, ha, h, ih]

theorem get?_isSome_iff (k : Key) (l : List (Key × β)) :
    (get? k l).isSome ↔ k ∈ l.map (·.1) := by
  induction l with
  | nil => simp [get?]
  | cons p l ih =>
    obtain ⟨a, x⟩ := p
    by_cases h : a = k
    · simp [get?, h]
    · simp only [get?, h, if_false, ih, List.map_cons, List.mem_cons]
      constructor
      · exact Or.inr
      · rintro (e | e)
        · exact absurd e.symm h
        · exact e

theorem get?_mem {k : Key} {v : β} {l : List (Key × β)} (h : get? k l = some v) : (k, v) ∈ l := by
  induction l with
  | nil => simp [get?] at h
  | cons p l ih =>
    obtain ⟨a, x⟩ := p
    by_cases ha : a = k
    · simp only [get?, ha, if_true, Option.some.injEq] at h
      simp [ha, h]
    · simp only [get?, ha, if_false] at h
      exact List.mem_cons_of_mem _ (ih h)

theorem get?_of_mem {k : Key} {v : β} {l : List (Key × β)} (hn : (l.map (·.1)).Nodup)
    (h : (k, v) ∈ l) : get? k l = some v := by
  induction l with
  | nil => simp at h
  | cons p l ih =>
    obtain ⟨a, x⟩ := p
    simp only [List.map_cons, List.nodup_cons] at hn
    rcases List.mem_cons.1 h with h | h
    · cases h; simp [get?]
    · have : ¬ a = k := by
        rintro rfl
        exact hn.1 (List.mem_map.2 ⟨_, h, rfl⟩)
      simp [get?, this, ih hn.2 h]

theorem keys_assign (k : Key) (v : β) (l : List (Key × β)) :
    (assign k v l).map (·.1) = l.map (·.1) := by
  induction l with
  | nil => rfl
  | cons p l ih =>
    obtain ⟨a, x⟩ := p
    by_cases h : a = k <;> simp [assign, h, ih]

theorem nodup_insertNew (k : Key) (v : β) {l : List (Key × β)} (h : (l.map (·.1)).Nodup) :
    ((insertNew k v l).map (·.1)).Nodup := by
  unfold insertNew
  cases hk : get? k l with
  | some x => exact h
  | none =>
    have hn : k ∉ l.map (·.1) := by
      rw [← get?_isSome_iff, hk]; simp
    rw [List.map_append, List.nodup_append]
    refine ⟨h, by simp, ?_⟩
    intro a ha b hb
    simp only [List.map_cons, List.map_nil, List.mem_singleton] at hb
    rintro rfl
    exact hn (hb ▸ ha)

theorem nodup_eraseKey (k : Key) {l : List (Key × β)} (h : (l.map (·.1)).Nodup) :
    ((eraseKey k l).map (·.1)).Nodup := by
  unfold eraseKey
  exact h.sublist ((List.filter_sublist).map _)

/-! ## Registry -/

@[simp] theorem removeState_params (R : Rule α) (k : Key) (w : World α) :
    (removeState R k w).params = w.params := by unfold removeState; split <;> rfl
@[simp] theorem removeState_mem (R : Rule α) (k : Key) (w : World α) :
    (removeState R k w).mem = w.mem := by unfold removeState; split <;> rfl
@[simp] theorem removeState_rate (R : Rule α) (k : Key) (w : World α) :
    (removeState R k w).rate = w.rate := by unfold removeState; split <;> rfl
@[simp] theorem removeState_trace (R : Rule α) (k : Key) (w : World α) :
    (removeState R k w).trace = w.trace := by unfold removeState; split <;> rfl

theorem removeState_get (R : Rule α) (k k' : Key) (w : World α) :
    get? k (removeState R k' w).states =
      if R.erases = true ∧ k' = k then none else get? k w.states := by
  unfold removeState
  by_cases h : R.erases = true
  · simp only [h, if_true, get?_eraseKey, true_and]
  · simp [h]

theorem removeState_nodup (R : Rule α) (k : Key) {w : World α}
    (h : (w.states.map (·.1)).Nodup) : ((removeState R k w).states.map (·.1)).Nodup := by
  unfold removeState; split
  · exact nodup_eraseKey _ h
  · exact h

/-- Folding `removeState` over a list of keys. -/
theorem foldl_removeState (R : Rule α) (l : List (Key × β)) (w : World α) :
    let w' := l.foldl (fun w p => removeState R p.1 w) w
    w'.params = w.params ∧ w'.mem = w.mem ∧ w'.rate = w.rate ∧ w'.trace = w.trace ∧
    (∀ k, get? k w'.states =
      if R.erases = true ∧ k ∈ l.map (·.1) then none else get? k w.states) ∧
    ((w.states.map (·.1)).Nodup → (w'.states.map (·.1)).Nodup) := by
  induction l generalizing w with
  | nil => simp
  | cons p l ih =>
    obtain ⟨h1, h2, h3, h4, h5, h6⟩ := ih (removeState R p.1 w)
    refine ⟨by simpa using h1, by simpa using h2, by simpa using h3, by simpa using h4, ?_, ?_⟩
    · intro k
      rw [List.foldl_cons, h5 k, removeState_get]
      by_cases e : R.erases = true
      · by_cases hk : p.1 = k
        · simp [e, hk]
        · have hk' : ¬ k = p.1 := fun x => hk x.symm
          simp only [e, hk, true_and, if_false, and_false, List.map_cons, List.mem_cons, hk',
            false_or]
      · simp [e]
    · intro hn
      exact h6 (removeState_nodup R _ hn)

theorem clearParameters_spec (R : Rule α) (w : World α) :
    let w' := clearParameters R w
    w'.params = [] ∧ w'.mem = w.mem ∧ w'.rate = w.rate ∧ w'.trace = w.trace ∧
    (∀ k, get? k w'.states =
      if R.erases = true ∧ k ∈ w.params.map (·.1) then none else get? k w.states) ∧
    ((w.states.map (·.1)).Nodup → (w'.states.map (·.1)).Nodup) := by
  obtain ⟨_, h2, h3, h4, h5, h6⟩ := foldl_removeState R w.params w
  exact ⟨rfl, h2, h3, h4, h5, h6⟩

theorem removeParameters_spec (R : Rule α) (ks : List Key) (w : World α) :
    let w' := removeParameters R ks w
    w'.mem = w.mem ∧ w'.rate = w.rate ∧ w'.trace = w.trace ∧
    (∀ k, get? k w'.params = if k ∈ ks then none else get? k w.params) ∧
    (∀ k, get? k w'.states =
      if R.erases = true ∧ k ∈ ks then none else get? k w.states) ∧
    ((w.params.map (·.1)).Nodup → (w'.params.map (·.1)).Nodup) ∧
    ((w.states.map (·.1)).Nodup → (w'.states.map (·.1)).Nodup) := by
  unfold removeParameters
  induction ks generalizing w with
  | nil => simp
  | cons p l ih =>
    obtain ⟨h2, h3, h4, hp, h5, h6, h7⟩ :=
      ih (removeState R p { w with params := eraseKey p w.params })
    refine ⟨by simpa using h2, by simpa using h3, by simpa using h4, ?_, ?_, ?_, ?_⟩
    · intro k
      rw [List.foldl_cons, hp k, removeState_params]
      simp only [get?_eraseKey]
      by_cases hk : p = k
      · simp [hk]
      · have hk' : ¬ k = p := fun x => hk x.symm
        simp [hk, hk']
    · intro k
      rw [List.foldl_cons, h5 k, removeState_get]
      by_cases e : R.erases = true
      · by_cases hk : p = k
        · simp [e, hk]
        · have hk' : ¬ k = p := fun x => hk x.symm
          simp [e, hk, hk']
      · simp [e]
    · intro hn
      refine h6 ?_
      simp only [removeState_params]
      exact nodup_eraseKey _ hn
    · intro hn
      exact h7 (removeState_nodup R _ hn)

/-- What one iteration of `set_parameters` does. -/
theorem setOne_spec (R : Rule α) (reset retain : Bool) (k : Key) (v : VarId) (w : World α) :
    let r := setOne R reset retain k v w
    r.1.mem = w.mem ∧ r.1.rate = w.rate ∧ r.1.trace = w.trace ∧
    (∀ k', get? k' r.1.params =
      if r.2 = none then (get? k' w.params).or (if k = k' then some v else none)
      else get? k' w.params) ∧
    (∀ k', k' ≠ k → get? k' r.1.states = get? k' w.states) ∧
    (r.2 = none ∨ (r.2 = some .shape ∧ r.1 = w)) := by
  unfold setOne
  by_cases hr : reset = true
  · simp only [hr, if_true, setState]
    refine ⟨(by simp), (by simp), (by simp), ?_, ?_, Or.inl (by simp)⟩
    · intro k'; simp [get?_insertNew]
    · intro k' hk; simp [get?_insertNew, Ne.symm hk]
  · simp only [hr, if_false, Bool.false_eq_true]
    cases hg : get? k w.params with
    | none =>
      simp only [setState]
      refine ⟨(by simp), (by simp), (by simp), ?_, ?_, Or.inl (by simp)⟩
      · intro k'; simp [get?_insertNew]
      · intro k' hk; simp [get?_insertNew, Ne.symm hk]
    | some v0 =>
      simp only []
      have hor : ∀ k', (get? k' w.params).or (if k = k' then some v else none)
          = get? k' w.params := by
        intro k'
        by_cases hk : k = k'
        · subst hk; simp [hg]
        · simp [hk]
      by_cases ht : retain = true
      · simp only [ht, if_true]
        by_cases hs : (w.mem v).shape = (w.mem v0).shape
        · simp only [hs, if_true]
          exact ⟨(by simp), (by simp), (by simp), fun k' => by simpa using (hor k').symm, fun _ _ => (by simp), Or.inl (by simp)⟩
        · simp only [hs, if_false]
          refine ⟨(by simp), (by simp), (by simp), fun k' => ?_, fun _ _ => (by simp), Or.inr ⟨(by simp), (by simp)⟩⟩
          simp
      · simp only [ht, if_false, setState, removeState_mem, removeState_params, Bool.false_eq_true]
        refine ⟨(by simp), (by simp), (by simp), ?_, ?_, Or.inl (by simp)⟩
        · intro k'; simp [get?_insertNew]
        · intro k' hk; simp [get?_insertNew, Ne.symm hk, removeState_get]

/-- `set_parameters`'s loop never replaces a registered variable. -/
theorem setLoop_params (R : Rule α) (reset retain : Bool) (d : List (Key × VarId)) (w : World α) :
    let r := setLoop R reset retain d w
    r.1.mem = w.mem ∧ r.1.rate = w.rate ∧ r.1.trace = w.trace ∧
    (r.2 = none → ∀ k, get? k r.1.params = (get? k w.params).or (get? k d)) ∧
    (∀ k, k ∉ d.map (·.1) → get? k r.1.params = get? k w.params ∧
      get? k r.1.states = get? k w.states) ∧
    (∀ k v, get? k w.params = some v → get? k r.1.params = some v) := by
  induction d generalizing w with
  | nil => simp [setLoop, get?]
  | cons p d ih =>
    obtain ⟨k, v⟩ := p
    obtain ⟨h1, h2, h3, h4, h5, h6⟩ := setOne_spec R reset retain k v w
    simp only [setLoop]
    cases he : (setOne R reset retain k v w).2 with
    | some e =>
      rw [show setOne R reset retain k v w = ((setOne R reset retain k v w).1, some e) from
        Prod.ext rfl he]
      have hw : (setOne R reset retain k v w).1 = w := by
        rcases h6 with h6 | h6
        · rw [h6] at he; cases he
        · exact h6.2
      simp only [hw]
      simp
    | none =>
      rw [show setOne R reset retain k v w = ((setOne R reset retain k v w).1, none) from
        Prod.ext rfl he]
      obtain ⟨i1, i2, i3, i4, i5, i6⟩ := ih (setOne R reset retain k v w).1
      simp only []
      refine ⟨i1.trans h1, i2.trans h2, i3.trans h3, ?_, ?_, ?_⟩
      · intro hn k'
        rw [i4 hn k', h4 k']
        simp only [he, if_true, get?]
        by_cases hk : k = k' <;> simp [hk]
      · intro k' hk'
        simp only [List.map_cons, List.mem_cons, not_or] at hk'
        obtain ⟨a, b⟩ := i5 k' hk'.2
        refine ⟨a.trans ?_, b.trans (h5 k' hk'.1)⟩
        rw [h4 k']
        simp [he, Ne.symm hk'.1]
      · intro k' v' hk'
        refine i6 k' v' ?_
        rw [h4 k', hk']
        simp [he]

/-- With `reset=True` the loop never raises. -/
theorem setLoop_reset_none (R : Rule α) (retain : Bool) (d : List (Key × VarId)) (w : World α) :
    (setLoop R true retain d w).2 = none := by
  induction d generalizing w with
  | nil => rfl
  | cons p d ih =>
    obtain ⟨k, v⟩ := p
    simp only [setLoop, setOne, if_true]
    exact ih _

/-- With `reset=True` the loop adds a fresh state for each key that has none. -/
theorem setLoop_reset_states (R : Rule α) (retain : Bool) (d : List (Key × VarId)) (w : World α) :
    ∀ k, get? k (setLoop R true retain d w).1.states =
      (get? k w.states).or ((get? k d).map (fun v => ⟨R.init (w.mem v).shape, 0⟩)) := by
  induction d generalizing w with
  | nil => intro k; simp [setLoop, get?]
  | cons p d ih =>
    obtain ⟨k, v⟩ := p
    intro k'
    simp only [setLoop, setOne, if_true]
    rw [ih]
    simp only [setState, get?_insertNew, get?]
    by_cases hk : k = k' <;> simp [hk]

end Verif.Solver
