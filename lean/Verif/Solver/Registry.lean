import Verif.Solver.Loop
/-!
# C31, C51: the parameter registry and the states of a solver
-/

namespace Verif.Solver

variable {α : Type}

/-! ## C31: what is registered after `set_parameters` -/

/-- C31. After `set_parameters(d)` (`reset=True`, the default) exactly the entries of `d` are
registered, whatever was registered before; it never raises; no variable is written. -/
theorem setParameters_reset_registers (R : Rule α) (d : List (Key × VarId)) (retain : Bool)
    (w : World α) :
    (setParameters R d true retain w).2 = none ∧
    (∀ k, get? k (getParameters (setParameters R d true retain w).1) = get? k d) ∧
    (setParameters R d true retain w).1.mem = w.mem := by
  obtain ⟨c1, c2, _, _, _, _⟩ := clearParameters_spec R w
  obtain ⟨s1, _, _, s4, _, _⟩ := setLoop_params R true retain d (clearParameters R w)
  refine ⟨setLoop_reset_none R retain d _, ?_, ?_⟩
  · intro k
    have := s4 (setLoop_reset_none R retain d _) k
    rw [c1] at this
    simpa [get?, setParameters, getParameters] using this
  · simpa [setParameters] using s1.trans c2

/-- Specification of the documented `reset=False`: "parameters are overwritten or added". -/
def overwrite (old new : List (Key × VarId)) (k : Key) : Option VarId :=
  (get? k new).or (get? k old)

/-- C31, what `reset=False` does: new keys are added, but a key that was registered keeps its old
variable. -/
theorem setParameters_noReset_keeps (R : Rule α) (d : List (Key × VarId)) (retain : Bool)
    (w : World α) (he : (setParameters R d false retain w).2 = none) :
    ∀ k, get? k (getParameters (setParameters R d false retain w).1)
      = (get? k (getParameters w)).or (get? k d) := by
  obtain ⟨_, _, _, s4, _, _⟩ := setLoop_params R false retain d w
  simpa [setParameters, getParameters] using s4 (by simpa [setParameters] using he)

/-- C31, the part that holds: when every key of `d` that is already registered is registered with
the same variable, `reset=False` gives the documented result. Missing: changed variables, for
which the documented result is refuted by `setParameters_noReset_not_overwritten`. -/
theorem setParameters_noReset_partial (R : Rule α) (d : List (Key × VarId)) (retain : Bool)
    (w : World α) (he : (setParameters R d false retain w).2 = none)
    (hsame : ∀ k v v0, get? k d = some v → get? k (getParameters w) = some v0 → v = v0) :
    ∀ k, get? k (getParameters (setParameters R d false retain w).1)
      = overwrite (getParameters w) d k := by
  intro k
  rw [setParameters_noReset_keeps R d retain w he k]
  unfold overwrite
  cases h1 : get? k (getParameters w) with
  | none => simp
  | some v0 =>
    cases h2 : get? k d with
    | none => simp
    | some v => simp [hsame k v v0 h2 h1]

/-- A rule used in the examples: momentum-like, one state array "m", `Nat` arithmetic. -/
def demoRule : Rule Nat where
  fused := false
  defaultRate := 0
  erases := true
  init := fun sh => [("m", List.replicate sh.prod 0)]
  step := fun rate st g d =>
    .ok ([("m", List.zipWith (· + ·) ((get? "m" st.pstate).getD []) g)], g,
      List.zipWith (fun x y => x + y + rate) d g)

/-- Sgd: no state arrays, `remove_state_impl` empty. -/
def demoSgd : Rule Nat where
  fused := false
  defaultRate := 0
  erases := false
  init := fun _ => []
  step := fun _ st g d => .ok (st.pstate, g, List.zipWith (· + ·) d g)

/-- Variable 0: shape (2), variable 1: shape (2), variable 2: shape (3), variable 3: gradient not
computed. -/
def demoMem : VarId → Var Nat
  | 0 => ⟨[2], [1, 2], [5, 6], false⟩
  | 1 => ⟨[2], [10, 20], [1, 1], false⟩
  | 2 => ⟨[3], [7, 7, 7], [1, 2, 3], false⟩
  | 3 => ⟨[1], [9], [0], true⟩
  | _ => ⟨[], [0], [0], true⟩

def demoWorld : World Nat :=
  (setParameters demoRule [("a", 0), ("z", 3)] true false (fresh demoRule demoMem)).1

example : getParameters demoWorld = [("a", 0), ("z", 3)] := by decide

example : getParameters (setParameters demoRule [("b", 1)] true false demoWorld).1 = [("b", 1)] := by
  decide

example : getParameters (setParameters demoRule [("b", 1)] false false demoWorld).1
    = [("a", 0), ("z", 3), ("b", 1)] := by decide

/-- The hypotheses of `setParameters_noReset_partial` on a registered key and a new key. -/
example : (setParameters demoRule [("a", 0), ("b", 1)] false false demoWorld).2 = none ∧
    getParameters (setParameters demoRule [("a", 0), ("b", 1)] false false demoWorld).1
      = [("a", 0), ("z", 3), ("b", 1)] := by decide

/-- C31 refuted as documented: after `set_parameters({"a": y}, reset=False)` on a solver where "a"
was registered with `x`, `get_parameters()["a"]` is still `x`. -/
theorem setParameters_noReset_not_overwritten :
    ∃ (R : Rule Nat) (w : World Nat) (d : List (Key × VarId)) (k : Key),
      (setParameters R d false false w).2 = none ∧
      get? k (getParameters (setParameters R d false false w).1)
        ≠ overwrite (getParameters w) d k :=
  ⟨demoRule, demoWorld, [("a", 1)], "a", by decide, by decide⟩

/-- C31: `remove_parameters` unregisters exactly the given keys. -/
theorem removeParameters_unregisters (R : Rule α) (ks : List Key) (w : World α) :
    ∀ k, get? k (getParameters (removeParameters R ks w))
      = if k ∈ ks then none else get? k (getParameters w) := by
  obtain ⟨_, _, _, h, _⟩ := removeParameters_spec R ks w
  exact h

example : getParameters (removeParameters demoRule ["a", "nokey"] demoWorld) = [("z", 3)] := by
  decide

/-- C31: `clear_parameters` unregisters everything. -/
theorem clearParameters_unregisters (R : Rule α) (w : World α) :
    getParameters (clearParameters R w) = [] := rfl

/-! ## C51: states follow parameters -/

/-- Every registered key has a state; for a class whose `remove_state_impl` erases, only
registered keys have one. -/
structure Linked (R : Rule α) (w : World α) : Prop where
  pnodup : (w.params.map (·.1)).Nodup
  snodup : (w.states.map (·.1)).Nodup
  has : ∀ k, (get? k w.params).isSome = true → (get? k w.states).isSome = true
  only : R.erases = true → ∀ k, (get? k w.states).isSome = true → (get? k w.params).isSome = true

theorem linked_fresh (R : Rule α) (mem : VarId → Var α) : Linked R (fresh R mem) := by
  constructor <;> simp [fresh, get?]

theorem linked_of_same {R : Rule α} {w w' : World α} (h : Linked R w)
    (hp : w'.params = w.params) (hs : w'.states.map (·.1) = w.states.map (·.1)) : Linked R w' := by
  have key : ∀ k, (get? k w'.states).isSome = (get? k w.states).isSome := by
    intro k
    apply Bool.eq_iff_iff.2
    rw [get?_isSome_iff, get?_isSome_iff, hs]
  exact ⟨hp ▸ h.pnodup, hs ▸ h.snodup, fun k hk => by rw [key]; rw [hp] at hk; exact h.has k hk,
    fun he k hk => by rw [key] at hk; rw [hp]; exact h.only he k hk⟩

theorem linked_reg {R : Rule α} {w w0 : World α} {k : Key} {v : VarId}
    (hp : w.params = w0.params)
    (hs : ∀ k', k' ≠ k → get? k' w.states = get? k' w0.states)
    (hsn : (w.states.map (·.1)).Nodup) (h : Linked R w0) :
    Linked R (setState R k v { w with params := insertNew k v w.params }) := by
  refine ⟨?_, ?_, ?_, ?_⟩
  · simp only [setState, hp]; exact nodup_insertNew _ _ h.pnodup
  · simp only [setState]; exact nodup_insertNew _ _ hsn
  · intro k' hk'
    simp only [setState, get?_insertNew] at hk' ⊢
    by_cases e : k = k'
    · simp [e]
    · rw [hp] at hk'
      simp only [e, if_false, Option.or_none] at hk' ⊢
      rw [hs k' (Ne.symm e)]
      exact h.has k' hk'
  · intro he k' hk'
    simp only [setState, get?_insertNew] at hk' ⊢
    by_cases e : k = k'
    · simp [e]
    · simp only [e, if_false, Option.or_none] at hk' ⊢
      rw [hs k' (Ne.symm e)] at hk'
      rw [hp]
      exact h.only he k' hk'

theorem linked_setOne {R : Rule α} {w : World α} (h : Linked R w) (reset retain : Bool) (k : Key)
    (v : VarId) : Linked R (setOne R reset retain k v w).1 := by
  unfold setOne
  by_cases hr : reset = true
  · simp only [hr, if_true]; exact linked_reg rfl (fun _ _ => rfl) h.snodup h
  · simp only [hr, if_false, Bool.false_eq_true]
    cases get? k w.params with
    | none => exact linked_reg rfl (fun _ _ => rfl) h.snodup h
    | some v0 =>
      simp only []
      split
      · split <;> exact h
      · refine linked_reg (w0 := w) (by simp) (fun k' hk' => ?_) (removeState_nodup R _ h.snodup) h
        simp [removeState_get, Ne.symm hk']

theorem linked_setLoop {R : Rule α} (reset retain : Bool) (d : List (Key × VarId)) {w : World α}
    (h : Linked R w) : Linked R (setLoop R reset retain d w).1 := by
  induction d generalizing w with
  | nil => exact h
  | cons p d ih =>
    obtain ⟨k, v⟩ := p
    have h1 := linked_setOne h reset retain k v
    simp only [setLoop]
    cases he : (setOne R reset retain k v w).2 with
    | some e =>
      rw [show setOne R reset retain k v w = ((setOne R reset retain k v w).1, some e) from
        Prod.ext rfl he]
      exact h1
    | none =>
      rw [show setOne R reset retain k v w = ((setOne R reset retain k v w).1, none) from
        Prod.ext rfl he]
      exact ih h1

theorem linked_clear {R : Rule α} {w : World α} (h : Linked R w) :
    Linked R (clearParameters R w) := by
  obtain ⟨c1, _, _, _, c5, c6⟩ := clearParameters_spec R w
  refine ⟨by rw [c1]; simp, c6 h.snodup, by rw [c1]; simp [get?], ?_⟩
  intro he k hk
  rw [c5 k] at hk
  by_cases hm : k ∈ w.params.map (·.1)
  · simp [he, hm] at hk
  · simp only [he, hm, and_false, if_false] at hk
    have := h.only he k hk
    rw [get?_isSome_iff] at this
    exact absurd this hm

theorem linked_remove {R : Rule α} {w : World α} (h : Linked R w) (ks : List Key) :
    Linked R (removeParameters R ks w) := by
  obtain ⟨_, _, _, hp, hs, n1, n2⟩ := removeParameters_spec R ks w
  refine ⟨n1 h.pnodup, n2 h.snodup, ?_, ?_⟩
  · intro k hk
    rw [hp] at hk
    rw [hs]
    by_cases hm : k ∈ ks
    · simp [hm] at hk
    · simp only [hm, and_false, if_false] at hk ⊢
      exact h.has k hk
  · intro he k hk
    rw [hs] at hk
    rw [hp]
    by_cases hm : k ∈ ks
    · simp [hm, he] at hk
    · simp only [hm, and_false, if_false] at hk ⊢
      exact h.only he k hk

theorem linked_setStates {R : Rule α} (l : List (Key × SState α)) {w : World α} (h : Linked R w) :
    Linked R (setStates l w).1 := by
  induction l generalizing w with
  | nil => exact h
  | cons p l ih =>
    obtain ⟨k, s⟩ := p
    simp only [setStates]
    cases get? k w.states with
    | none => exact h
    | some _ => exact ih (linked_of_same h rfl (keys_assign _ _ _))

theorem checkLoop_frame (h : Hooks) (bad : α → Bool) (l : List (Key × VarId)) (w : World α) :
    (checkLoop h bad l w).1.params = w.params ∧ (checkLoop h bad l w).1.states = w.states ∧
    (checkLoop h bad l w).1.mem = w.mem ∧ (checkLoop h bad l w).1.rate = w.rate := by
  induction l generalizing w with
  | nil => simp [checkLoop]
  | cons p l ih =>
    obtain ⟨k, v⟩ := p
    simp only [checkLoop]
    split
    · exact ih w
    · split
      · simp
      · exact ih _

theorem zeroGrad_frame [Zero α] (l : List (Key × VarId)) (w : World α) :
    let w' := l.foldl (fun w p =>
      let x := w.mem p.2
      setVar w p.2 { x with grad := x.grad.map (fun _ => 0), zeroing := true }) w
    w'.params = w.params ∧ w'.states = w.states ∧ w'.rate = w.rate ∧ w'.trace = w.trace ∧
    (∀ v, w'.mem v = if v ∈ l.map (·.2) then
      { w.mem v with grad := (w.mem v).grad.map (fun _ => 0), zeroing := true } else w.mem v) := by
  induction l generalizing w with
  | nil => simp
  | cons p l ih =>
    simp only [List.foldl_cons]
    obtain ⟨h1, h2, h3, h4, h5⟩ := ih (setVar w p.2
      { w.mem p.2 with grad := (w.mem p.2).grad.map (fun _ => 0), zeroing := true })
    refine ⟨h1, h2, h3, h4, ?_⟩
    intro v
    have := h5 v
    simp only [] at this
    rw [this]
    simp only [setVar, List.map_cons, List.mem_cons]
    by_cases hv : v = p.2
    · subst hv; simp
    · simp only [hv, if_false, false_or]

section
variable [Add α] [Mul α] [Zero α] [DecidableEq α]

theorem linked_run {R : Rule α} (clip : α → List α → List α) (o : Op α) {w : World α}
    (h : Linked R w) : Linked R (o.run R clip w).1 := by
  cases o with
  | setParameters d reset retain =>
    simp only [Op.run, setParameters]
    refine linked_setLoop _ _ _ ?_
    split
    · exact linked_clear h
    · exact h
  | removeParameters ks => exact linked_remove h ks
  | clearParameters => exact linked_clear h
  | setStates l => exact linked_setStates l h
  | update hh =>
    simp only [Op.run, update]
    have hf := forParams_frame hh (updateOp R) w.params w
    cases he : (forParams hh (updateOp R) w.params w).2 with
    | some e =>
      rw [show forParams hh (updateOp R) w.params w
        = ((forParams hh (updateOp R) w.params w).1, some e) from Prod.ext rfl he]
      exact linked_of_same h hf.1 hf.2.2.2.1
    | none =>
      rw [show forParams hh (updateOp R) w.params w
        = ((forParams hh (updateOp R) w.params w).1, none) from Prod.ext rfl he]
      exact linked_of_same h hf.1 hf.2.2.2.1
  | weightDecay hh r =>
    simp only [Op.run, weightDecay]
    split
    · exact linked_of_same h rfl rfl
    · split
      · exact h
      · have hf := forParams_frame hh (gradOp (weightDecayCpu r)) w.params w
        exact linked_of_same h hf.1 hf.2.2.2.1
  | scaleGrad hh s =>
    have hf := forParams_frame hh (gradOp (fun _ g => g.map (· * s))) w.params w
    exact linked_of_same h hf.1 hf.2.2.2.1
  | clipGradByNorm hh n =>
    simp only [Op.run, clipGradByNorm]
    split
    · exact h
    · have hf := forParams_frame hh (gradOp (fun _ g => clip n g)) w.params w
      exact linked_of_same h hf.1 hf.2.2.2.1
  | checkGrad hh bad =>
    obtain ⟨h1, h2, _, _⟩ := checkLoop_frame hh bad w.params w
    exact linked_of_same h h1 (by rw [show (Op.run R clip (.checkGrad hh bad) w).1
      = (checkLoop hh bad w.params w).1 from rfl, h2])
  | zeroGrad =>
    obtain ⟨h1, h2, _⟩ := zeroGrad_frame w.params w
    exact linked_of_same h h1 (by
      rw [show (Op.run R clip .zeroGrad w).1 = zeroGrad w from rfl]
      exact congrArg _ h2)
  | write v d g z => exact linked_of_same h rfl rfl

theorem linked_runs {R : Rule α} (clip : α → List α → List α) (os : List (Op α)) {w : World α}
    (h : Linked R w) : Linked R (runs R clip os w) := by
  induction os generalizing w with
  | nil => exact h
  | cons o os ih => exact ih (linked_run clip o h)

/-- C51. After any history of calls (including calls that raised), `update()` finds a state for
every registered parameter: it never fails with `std::out_of_range`. -/
theorem update_never_misses_a_state (R : Rule α) (clip : α → List α → List α)
    (mem : VarId → Var α) (os : List (Op α)) :
    ∀ k, (get? k (getParameters (runs R clip os (fresh R mem)))).isSome = true →
      (get? k (getStates (runs R clip os (fresh R mem)))).isSome = true :=
  (linked_runs clip os (linked_fresh R mem)).has

/-- C51. For a class whose `remove_state_impl` erases (every class but Sgd), after any history the
states listed by `get_states()` are exactly those of the registered parameters: in particular a
removed parameter leaves no state behind. Missing: Sgd (`removed_sgd_keeps_state`). -/
theorem states_exactly_parameters_partial (R : Rule α) (hR : R.erases = true)
    (clip : α → List α → List α) (mem : VarId → Var α) (os : List (Op α)) :
    ∀ k, (get? k (getStates (runs R clip os (fresh R mem)))).isSome = true ↔
      (get? k (getParameters (runs R clip os (fresh R mem)))).isSome = true := fun k =>
  ⟨(linked_runs clip os (linked_fresh R mem)).only hR k,
   (linked_runs clip os (linked_fresh R mem)).has k⟩

/-- C51. For such a class, `set_parameters(d)` after any history gives every key of `d` a fresh
state (no arrays from the past, count 0) and no state to any other key.
Missing: Sgd (`sgd_reset_keeps_count`). -/
theorem setParameters_reset_fresh_state_partial (R : Rule α) (hR : R.erases = true)
    (clip : α → List α → List α) (mem : VarId → Var α) (os : List (Op α))
    (d : List (Key × VarId)) (retain : Bool) :
    let w := runs R clip os (fresh R mem)
    ∀ k, get? k (getStates (setParameters R d true retain w).1)
      = (get? k d).map (fun v => ⟨R.init (w.mem v).shape, 0⟩) := by
  intro w k
  have hl : Linked R w := linked_runs clip os (linked_fresh R mem)
  obtain ⟨_, c2, _, _, c5, _⟩ := clearParameters_spec R w
  have hc : get? k (clearParameters R w).states = none := by
    rw [c5 k]
    by_cases hm : k ∈ w.params.map (·.1)
    · simp [hR, hm]
    · simp only [hR, hm, and_false, if_false]
      cases hs : get? k w.states with
      | none => rfl
      | some s =>
        have := hl.only hR k (by rw [hs]; rfl)
        rw [get?_isSome_iff] at this
        exact absurd this hm
  have := setLoop_reset_states R retain d (clearParameters R w) k
  rw [hc, c2] at this
  simpa [setParameters, getStates] using this

end

/-- A history with a shape error, a removal and updates reaches a state with two parameters. -/
def demoHist : List (Op Nat) :=
  [.setParameters [("a", 0), ("b", 1)] true false, .update ⟨[], true, true, []⟩,
   .setParameters [("a", 2)] false true, .removeParameters ["b"],
   .setParameters [("c", 2)] false false, .zeroGrad, .update ⟨[], false, false, []⟩]

example : getParameters (runs demoRule (fun _ g => g) demoHist (fresh demoRule demoMem))
      = [("a", 0), ("c", 2)]
    ∧ (getStates (runs demoRule (fun _ g => g) demoHist (fresh demoRule demoMem))).map
        (fun p => (p.1, p.2.t)) = [("a", 1), ("c", 0)] := by decide

/-- Refuted for Sgd: a removed parameter keeps its state. -/
theorem removed_sgd_keeps_state :
    ∃ (os : List (Op Nat)) (k : Key), demoSgd.erases = false ∧
      get? k (getParameters (runs demoSgd (fun _ g => g) os (fresh demoSgd demoMem))) = none ∧
      (get? k (getStates (runs demoSgd (fun _ g => g) os (fresh demoSgd demoMem)))).isSome :=
  ⟨[.setParameters [("a", 0)] true false, .removeParameters ["a"]], "a", rfl, by decide, by decide⟩

/-- Refuted for Sgd: `set_parameters(reset=True)` does not restart the iteration count. -/
theorem sgd_reset_keeps_count :
    ∃ (os : List (Op Nat)) (k : Key) (s : SState Nat),
      get? k (getStates (setParameters demoSgd [("a", 1)] true false
        (runs demoSgd (fun _ g => g) os (fresh demoSgd demoMem))).1) = some s ∧ s.t = 1 :=
  ⟨[.setParameters [("a", 0)] true false, .update ⟨[], false, false, []⟩], "a", ⟨[], 1⟩, rfl, rfl⟩

/-! ### Sizes of the state arrays -/

/-- The state has the arrays, by name and size, that a fresh state of a parameter of shape `sh`
has. -/
def Fits (R : Rule α) (sh : List Nat) (ps : List (String × List α)) : Prop :=
  ∀ n, (get? n ps).map List.length = (get? n (R.init sh)).map List.length

/-- The state of every registered parameter has the arrays its solver class expects, with as many
elements as the parameter. -/
def SizesOk (R : Rule α) (w : World α) : Prop :=
  ∀ k v s, get? k w.params = some v → get? k w.states = some s → Fits R (w.mem v).shape s.pstate

/-- A rule keeps the names and sizes of the arrays. -/
def SizedRule (R : Rule α) : Prop :=
  ∀ r sh (s : SState α) g d ps g' d', Fits R sh s.pstate →
    d.length = sh.prod → g.length = sh.prod → R.step r s g d = .ok (ps, g', d') →
    Fits R sh ps ∧ g'.length = sh.prod ∧ d'.length = sh.prod

/-- The arrays of every variable have the size of its shape. -/
def VarsOk (w : World α) : Prop :=
  ∀ v, (w.mem v).data.length = (w.mem v).shape.prod ∧ (w.mem v).grad.length = (w.mem v).shape.prod

theorem update_keeps_sizes {R : Rule α} (hR : SizedRule R) (h : Hooks) {w : World α}
    (hs : SizesOk R w) (hv : VarsOk w) (hn : (w.params.map (·.1)).Nodup) :
    SizesOk R (update R h w).1 ∧ VarsOk (update R h w).1 ∧
      ∀ v, ((update R h w).1.mem v).shape = (w.mem v).shape := by
  have key : ∀ (l : List (Key × VarId)) (w : World α), (∀ p ∈ l, get? p.1 w.params = some p.2) →
      SizesOk R w → VarsOk w →
      SizesOk R (forParams h (updateOp R) l w).1 ∧ VarsOk (forParams h (updateOp R) l w).1 ∧
      ∀ v, ((forParams h (updateOp R) l w).1.mem v).shape = (w.mem v).shape := by
    intro l
    induction l with
    | nil => intro w _ a b; exact ⟨a, b, fun _ => rfl⟩
    | cons p l ih =>
      obtain ⟨k, v⟩ := p
      intro w hm hs hv
      have hvis : SizesOk R (visit h (updateOp R) k v w).1 ∧ VarsOk (visit h (updateOp R) k v w).1 ∧
          (∀ u, ((visit h (updateOp R) k v w).1.mem u).shape = (w.mem u).shape) := by
        unfold visit
        by_cases hz : (w.mem v).zeroing = true
        · simp only [hz, if_true]; exact ⟨hs, hv, fun _ => trivial⟩
        · simp only [hz, if_false, Bool.false_eq_true]
          unfold updateOp
          cases hg : get? k w.states with
          | none => exact ⟨hs, hv, fun _ => rfl⟩
          | some s =>
            simp only []
            cases hst : R.step w.rate s (w.mem v).grad (w.mem v).data with
            | error e => exact ⟨hs, hv, fun _ => rfl⟩
            | ok r =>
              obtain ⟨ps, g', d'⟩ := r
              have hkv := hm (k, v) (by simp)
              obtain ⟨q1, q2, q3⟩ := hR _ (w.mem v).shape s _ _ ps g' d'
                (hs k v s hkv hg) (hv v).1 (hv v).2 hst
              simp only []
              have hshape : ∀ u, ((setVar { w with trace := w.trace ++ hookCalls h } v
                  { w.mem v with grad := g', data := d' }).mem u).shape = (w.mem u).shape := by
                intro u
                simp only [setVar]
                split
                · rename_i e; subst e; rfl
                · rfl
              refine ⟨?_, ?_, hshape⟩
              · intro k' v' s' hk' hs'
                simp only [] at hk' hs' ⊢
                rw [hshape v']
                rw [get?_assign] at hs'
                by_cases e : k = k'
                · subst e
                  simp only [if_true, hg, Option.map_some, Option.some.injEq] at hs'
                  subst hs'
                  have : v' = v := by
                    have hk2 : get? k w.params = some v' := hk'
                    rw [hkv] at hk2; exact (Option.some.inj hk2).symm
                  subst this
                  exact q1
                · simp only [e, if_false] at hs'
                  exact hs k' v' s' hk' hs'
              · intro u
                simp only [setVar]
                by_cases e : u = v
                · subst e; simp [q2, q3]
                · simpa [e] using hv u
      simp only [forParams]
      cases he : (visit h (updateOp R) k v w).2 with
      | some e =>
        rw [show visit h (updateOp R) k v w = ((visit h (updateOp R) k v w).1, some e) from
          Prod.ext rfl he]
        exact hvis
      | none =>
        rw [show visit h (updateOp R) k v w = ((visit h (updateOp R) k v w).1, none) from
          Prod.ext rfl he]
        obtain ⟨a, b, c⟩ := ih _ (fun p hp => by
          rw [(visit_frame h (updateOp R) k v w).1]
          exact hm p (List.mem_cons_of_mem _ hp)) hvis.1 hvis.2.1
        exact ⟨a, b, fun u => (c u).trans (hvis.2.2 u)⟩
  have := key w.params w (fun p hp => get?_of_mem hn hp) hs hv
  simp only [update]
  cases he : (forParams h (updateOp R) w.params w).2 with
  | some e =>
    rw [show forParams h (updateOp R) w.params w
      = ((forParams h (updateOp R) w.params w).1, some e) from Prod.ext rfl he]
    exact this
  | none =>
    rw [show forParams h (updateOp R) w.params w
      = ((forParams h (updateOp R) w.params w).1, none) from Prod.ext rfl he]
    exact this

theorem sizes_setOne {R : Rule α} {w : World α} (hl : Linked R w)
    (he : R.erases = true) (hs : SizesOk R w) (reset retain : Bool)
    (k : Key) (v : VarId) (hreset : reset = true → get? k w.states = none)
    (hsame : ∀ v0, get? k w.params = some v0 → (w.mem v).shape = (w.mem v0).shape) :
    SizesOk R (setOne R reset retain k v w).1 := by
  have hreg : ∀ (w' : World α), w'.mem = w.mem → w'.params = w.params →
      (∀ k', k' ≠ k → get? k' w'.states = get? k' w.states) → get? k w'.states = none →
      SizesOk R (setState R k v { w' with params := insertNew k v w'.params }) := by
    intro w' hm hp ho hn k' v' s' hk' hs'
    simp only [setState, hp, hm, get?_insertNew] at hk' hs' ⊢
    by_cases e : k = k'
    · subst e
      simp only [hn, if_true, Option.none_or, Option.some.injEq] at hs'
      subst hs'
      have hfit : (w.mem v).shape = (w.mem v').shape := ?_
      · rw [← hfit]; exact fun _ => rfl
      cases hg : get? k w.params with
      | none =>
        rw [hg] at hk'
        simp only [if_true, Option.none_or, Option.some.injEq] at hk'
        rw [hk']
      | some v0 =>
        rw [hg] at hk'
        simp only [if_true, Option.some_or, Option.some.injEq] at hk'
        subst hk'
        exact hsame v0 hg
    · simp only [e, if_false, Option.or_none] at hk' hs'
      rw [ho k' (Ne.symm e)] at hs'
      exact hs k' v' s' hk' hs'
  unfold setOne
  by_cases hr : reset = true
  · simp only [hr, if_true]
    exact hreg w rfl rfl (fun _ _ => rfl) (hreset hr)
  · simp only [hr, if_false, Bool.false_eq_true]
    cases hg : get? k w.params with
    | none =>
      refine hreg w rfl rfl (fun _ _ => rfl) ?_
      cases hgs : get? k w.states with
      | none => rfl
      | some s =>
        have := hl.only he k (by rw [hgs]; rfl)
        rw [hg] at this
        cases this
    | some v0 =>
      simp only []
      split
      · split <;> exact hs
      · refine hreg (removeState R k w) (by simp) (by simp) ?_ ?_
        · intro k' hk'; simp [removeState_get, Ne.symm hk']
        · simp [removeState_get, he]

theorem sizes_clear {R : Rule α} (w : World α) : SizesOk R (clearParameters R w) := by
  intro k v s hk
  simp [clearParameters, get?] at hk

theorem clear_no_states {R : Rule α} (he : R.erases = true) {w : World α} (hl : Linked R w) (k : Key) :
    get? k (clearParameters R w).states = none := by
  cases hs : get? k (clearParameters R w).states with
  | none => rfl
  | some s =>
    have := (linked_clear hl).only he k (by rw [hs]; rfl)
    simp [clearParameters, get?] at this

/-- `set_parameters(d)` (reset) with distinct keys leaves states of the right sizes. -/
theorem sizes_setLoop_reset {R : Rule α} (he : R.erases = true) (retain : Bool)
    (d : List (Key × VarId)) (hd : (d.map (·.1)).Nodup) (w : World α) (hl : Linked R w)
    (hs : SizesOk R w) (hno : ∀ p ∈ d, get? p.1 w.states = none) :
    SizesOk R (setLoop R true retain d w).1 := by
  induction d generalizing w with
  | nil => exact hs
  | cons p d ih =>
    obtain ⟨k, v⟩ := p
    simp only [List.map_cons, List.nodup_cons] at hd
    have hp : get? k w.params = none := by
      cases hg : get? k w.params with
      | none => rfl
      | some x =>
        have := hl.has k (by rw [hg]; rfl)
        rw [hno (k, v) (by simp)] at this
        cases this
    have h1 : SizesOk R (setOne R true retain k v w).1 :=
      sizes_setOne hl he hs true retain k v (fun _ => hno (k, v) (by simp)) (by simp [hp])
    have hn : (setOne R true retain k v w).2 = none := by simp [setOne]
    simp only [setLoop]
    rw [show setOne R true retain k v w = ((setOne R true retain k v w).1, none) from
      Prod.ext rfl hn]
    refine ih hd.2 _ (linked_setOne hl true retain k v) h1 ?_
    intro p hp'
    obtain ⟨_, _, _, _, h5, _⟩ := setOne_spec R true retain k v w
    rw [h5 p.1 (by rintro rfl; exact hd.1 (List.mem_map.2 ⟨p, hp', rfl⟩))]
    exact hno p (List.mem_cons_of_mem _ hp')

/-- `set_parameters(d, reset=False)` keeps the sizes right as long as no registered key is given a
variable of another shape. -/
theorem sizes_setLoop_noReset {R : Rule α} (he : R.erases = true) (retain : Bool)
    (d : List (Key × VarId)) (hd : (d.map (·.1)).Nodup) (w : World α) (hl : Linked R w)
    (hs : SizesOk R w)
    (hsame : ∀ p ∈ d, ∀ v0, get? p.1 w.params = some v0 → (w.mem p.2).shape = (w.mem v0).shape) :
    SizesOk R (setLoop R false retain d w).1 := by
  induction d generalizing w with
  | nil => exact hs
  | cons p d ih =>
    obtain ⟨k, v⟩ := p
    simp only [List.map_cons, List.nodup_cons] at hd
    have h1 : SizesOk R (setOne R false retain k v w).1 :=
      sizes_setOne hl he hs false retain k v (by simp) (hsame (k, v) (by simp))
    obtain ⟨s1, _, _, s4, _, _⟩ := setOne_spec R false retain k v w
    simp only [setLoop]
    cases hn : (setOne R false retain k v w).2 with
    | some e =>
      rw [show setOne R false retain k v w = ((setOne R false retain k v w).1, some e) from
        Prod.ext rfl hn]
      exact h1
    | none =>
      rw [show setOne R false retain k v w = ((setOne R false retain k v w).1, none) from
        Prod.ext rfl hn]
      refine ih hd.2 _ (linked_setOne hl false retain k v) h1 ?_
      intro p hp' v0 hv0
      have hne : ¬ k = p.1 := by
        rintro rfl; exact hd.1 (List.mem_map.2 ⟨p, hp', rfl⟩)
      rw [s4 p.1] at hv0
      simp only [hn, if_true, hne, if_false, Option.or_none] at hv0
      rw [s1]
      exact hsame p (List.mem_cons_of_mem _ hp') v0 hv0

/-- What a well-behaved caller does: dictionaries have distinct keys; a registered key is not given
a variable of another shape with `reset=False`; states passed to `set_states` have the names and
sizes of the registered parameter's; arrays written to a variable have its size. -/
def CallOk (R : Rule α) (w : World α) : Op α → Prop
  | .setParameters d reset _ => (d.map (·.1)).Nodup ∧ (reset = false →
      ∀ p ∈ d, ∀ v0, get? p.1 w.params = some v0 → (w.mem p.2).shape = (w.mem v0).shape)
  | .setStates l => ∀ p ∈ l, ∀ v, get? p.1 w.params = some v →
      Fits R (w.mem v).shape p.2.pstate
  | .write v d g _ => d.length = (w.mem v).shape.prod ∧ g.length = (w.mem v).shape.prod
  | _ => True

theorem gradOp_sizes (R : Rule α) {f : List α → List α → List α}
    (hf : ∀ d g : List α, d.length = g.length → (f d g).length = g.length) (h : Hooks)
    {w : World α} (hs : SizesOk R w) (hv : VarsOk w) (l : List (Key × VarId)) :
    SizesOk R (forParams h (gradOp f) l w).1 ∧ VarsOk (forParams h (gradOp f) l w).1 := by
  have hinv := forParams_mem_inv (fun v x => x.shape = (w.mem v).shape ∧
    x.data.length = x.shape.prod ∧ x.grad.length = x.shape.prod) h (gradOp f) (by
      intro r s v x s' x' hx ho
      simp only [gradOp, Except.ok.injEq, Prod.mk.injEq] at ho
      obtain ⟨_, rfl⟩ := ho
      refine ⟨hx.1, hx.2.1, ?_⟩
      simp only []
      rw [hf _ _ (hx.2.1.trans hx.2.2.symm)]; exact hx.2.2) l w (fun v => ⟨rfl, hv v⟩)
  have hst := forParams_states_eq h (gradOp f) (by
    intro r s x s' x' ho
    simp only [gradOp, Except.ok.injEq, Prod.mk.injEq] at ho
    exact Or.inl ho.1.symm) l w
  refine ⟨?_, fun v => (hinv v).2⟩
  intro k v s hk hs'
  rw [(forParams_frame h (gradOp f) l w).1] at hk
  rw [hst] at hs'
  rw [(hinv v).1]
  exact hs k v s hk hs'

section
variable [Add α] [Mul α] [Zero α] [DecidableEq α]

/-- A history of well-behaved calls. -/
def HistOk (R : Rule α) (clip : α → List α → List α) : List (Op α) → World α → Prop
  | [], _ => True
  | o :: os, w => CallOk R w o ∧ HistOk R clip os (o.run R clip w).1

theorem sizes_run {R : Rule α} (hR : SizedRule R) (he : R.erases = true)
    {clip : α → List α → List α} (hclip : ∀ n g, (clip n g).length = g.length) (o : Op α)
    {w : World α} (hl : Linked R w) (hs : SizesOk R w) (hv : VarsOk w) (hc : CallOk R w o) :
    SizesOk R (o.run R clip w).1 ∧ VarsOk (o.run R clip w).1 := by
  cases o with
  | setParameters d reset retain =>
    simp only [CallOk] at hc
    simp only [Op.run, setParameters]
    cases reset with
    | true =>
      simp only [if_true]
      obtain ⟨_, c2, _, _, _, _⟩ := clearParameters_spec R w
      refine ⟨sizes_setLoop_reset he retain d hc.1 _ (linked_clear hl) (sizes_clear w)
        (fun p _ => clear_no_states he hl p.1), ?_⟩
      intro v
      rw [(setLoop_params R true retain d (clearParameters R w)).1, c2]
      exact hv v
    | false =>
      simp only [Bool.false_eq_true, if_false]
      refine ⟨sizes_setLoop_noReset he retain d hc.1 w hl hs (hc.2 rfl), ?_⟩
      intro v
      rw [(setLoop_params R false retain d w).1]
      exact hv v
  | removeParameters ks =>
    obtain ⟨m, _, _, hp, hst, _⟩ := removeParameters_spec R ks w
    refine ⟨?_, ?_⟩
    · intro k v s hk hs'
      simp only [Op.run] at hk hs' ⊢
      rw [hp] at hk
      rw [hst] at hs'
      by_cases hm : k ∈ ks
      · simp [hm] at hk
      · simp only [hm, and_false, if_false] at hk hs'
        rw [m]; exact hs k v s hk hs'
    · intro v
      simp only [Op.run]
      rw [m]; exact hv v
  | clearParameters =>
    refine ⟨sizes_clear w, ?_⟩
    intro v
    simp only [Op.run]
    rw [(clearParameters_spec R w).2.1]; exact hv v
  | setStates l =>
    simp only [Op.run, CallOk] at hc ⊢
    induction l generalizing w with
    | nil => exact ⟨hs, hv⟩
    | cons p l ih =>
      obtain ⟨k, s⟩ := p
      simp only [setStates]
      cases hg : get? k w.states with
      | none => exact ⟨hs, hv⟩
      | some s0 =>
        simp only []
        refine ih (w := { w with states := assign k s w.states })
          (linked_of_same hl rfl (keys_assign _ _ _)) ?_ hv ?_
        · intro k' v' s' hk' hs'
          simp only [get?_assign] at hk' hs' ⊢
          by_cases e : k = k'
          · subst e
            simp only [if_true, hg, Option.map_some, Option.some.injEq] at hs'
            subst hs'
            exact hc (k, s) (by simp) v' hk'
          · simp only [e, if_false] at hs'
            exact hs k' v' s' hk' hs'
        · intro p hp v hv'
          exact hc p (List.mem_cons_of_mem _ hp) v hv'
  | update h =>
    obtain ⟨a, b, _⟩ := update_keeps_sizes hR h hs hv hl.pnodup
    exact ⟨a, b⟩
  | weightDecay h r =>
    simp only [Op.run, weightDecay]
    split
    · exact ⟨hs, hv⟩
    · split
      · exact ⟨hs, hv⟩
      · exact gradOp_sizes R (by
          intro d g hdg; simp [weightDecayCpu, hdg]) h hs hv _
  | scaleGrad h s =>
    exact gradOp_sizes R (by intro d g _; simp) h hs hv _
  | clipGradByNorm h n =>
    simp only [Op.run, clipGradByNorm]
    split
    · exact ⟨hs, hv⟩
    · exact gradOp_sizes R (by intro d g _; exact hclip n g) h hs hv _
  | checkGrad h bad =>
    obtain ⟨h1, h2, h3, _⟩ := checkLoop_frame h bad w.params w
    refine ⟨?_, ?_⟩
    · intro k v s hk hs'
      simp only [Op.run, checkGrad] at hk hs' ⊢
      rw [h1] at hk; rw [h2] at hs'; rw [h3]
      exact hs k v s hk hs'
    · intro v
      simp only [Op.run, checkGrad]
      rw [h3]; exact hv v
  | zeroGrad =>
    obtain ⟨h1, h2, _, _, h5⟩ := zeroGrad_frame w.params w
    have hshape : ∀ v, ((zeroGrad w).mem v).shape = (w.mem v).shape := by
      intro v; unfold zeroGrad; rw [h5 v]; split <;> rfl
    refine ⟨?_, ?_⟩
    · intro k v s hk hs'
      simp only [Op.run] at hk hs' ⊢
      rw [hshape]
      exact hs k v s (by rw [← h1]; exact hk) (by rw [← h2]; exact hs')
    · intro v
      simp only [Op.run]
      rw [hshape]
      unfold zeroGrad
      rw [h5 v]
      split
      · simpa using hv v
      · exact hv v
  | write v d g z =>
    simp only [CallOk] at hc
    refine ⟨?_, ?_⟩
    · intro k u s hk hs'
      simp only [Op.run, setVar] at hk hs' ⊢
      have := hs k u s hk hs'
      by_cases e : u = v
      · subst e; simpa using this
      · simpa [e] using this
    · intro u
      simp only [Op.run, setVar]
      by_cases e : u = v
      · subst e; simpa using hc
      · simpa [e] using hv u

/-- C51. For a class whose `remove_state_impl` erases, after any history of well-behaved calls the
state of every registered parameter has exactly the arrays its class expects, each of its size:
`update` never reads or writes past the end of a state array. Missing: a registered key given a variable of another shape with
`reset=False` (refuted, `noReset_breaks_sizes`). -/
theorem state_sizes_match_partial (R : Rule α) (hR : SizedRule R) (he : R.erases = true)
    (clip : α → List α → List α) (hclip : ∀ n g, (clip n g).length = g.length)
    (mem : VarId → Var α) (hmem : ∀ v, (mem v).data.length = (mem v).shape.prod ∧
      (mem v).grad.length = (mem v).shape.prod)
    (os : List (Op α)) (hos : HistOk R clip os (fresh R mem)) :
    SizesOk R (runs R clip os (fresh R mem)) := by
  have key : ∀ (os : List (Op α)) (w : World α), Linked R w → SizesOk R w → VarsOk w →
      HistOk R clip os w → SizesOk R (runs R clip os w) := by
    intro os
    induction os with
    | nil => intro w _ hs _ _; exact hs
    | cons o os ih =>
      intro w hl hs hv ho
      obtain ⟨a, b⟩ := sizes_run hR he hclip o hl hs hv ho.1
      exact ih _ (linked_run clip o hl) a b ho.2
  exact key os _ (linked_fresh R mem) (by intro k v s hk; simp [fresh, get?] at hk) hmem hos

end

theorem demoRule_sized : SizedRule demoRule := by
  intro r sh s g d ps g' d' hs hd hg h
  simp only [demoRule, Except.ok.injEq, Prod.mk.injEq] at h
  obtain ⟨rfl, rfl, rfl⟩ := h
  refine ⟨?_, hg, by simp [hd, hg]⟩
  intro n
  have hm := hs "m"
  by_cases hn : "m" = n
  · subst hn
    cases hg' : get? "m" s.pstate with
    | none => rw [hg'] at hm; simp [demoRule, get?] at hm
    | some a =>
      rw [hg'] at hm
      simp only [demoRule, get?, if_true, Option.map_some, Option.some.injEq,
        List.length_replicate] at hm
      simp [demoRule, get?, hm, hg]
  · simp [demoRule, get?, hn]

/-- The hypotheses of `state_sizes_match_partial` are met by a history with several operations. -/
example : HistOk demoRule (fun _ g => g)
    [.setParameters [("a", 0), ("b", 1)] true false, .update ⟨[], true, true, []⟩,
     .setParameters [("a", 1), ("c", 2)] false false, .write 2 [1, 1, 1] [2, 2, 2] false,
     .update ⟨[], true, true, []⟩] (fresh demoRule demoMem) := by
  refine ⟨by simp [CallOk], trivial, ⟨by decide, ?_⟩, ?_, trivial, trivial⟩
  · intro _ p hp v0 hv0
    simp only [List.mem_cons, List.not_mem_nil, or_false] at hp
    rcases hp with rfl | rfl
    · have : v0 = 0 := (Option.some.inj hv0).symm
      subst this; rfl
    · cases hv0
  · exact ⟨rfl, rfl⟩

/-- Refuted without that hypothesis: `set_parameters({"a": y}, reset=False)` with `y` larger than
the registered `x` leaves `x` registered with a state of the size of `y` (and with a smaller `y`
the update runs past the end of the state). -/
theorem noReset_breaks_sizes :
    ∃ (R : Rule Nat) (mem : VarId → Var Nat) (os : List (Op Nat)), SizedRule R ∧
      R.erases = true ∧ ¬ SizesOk R (runs R (fun _ g => g) os (fresh R mem)) := by
  refine ⟨demoRule, demoMem, [.setParameters [("a", 0)] true false,
    .setParameters [("a", 2)] false false], demoRule_sized, rfl, ?_⟩
  intro h
  have := h "a" 0 ⟨[("m", [0, 0, 0])], 0⟩ rfl rfl "m"
  simp [get?, demoRule, runs, Op.run, setParameters, setLoop, setOne, setState, fresh, insertNew,
    clearParameters, removeState, demoMem] at this

end Verif.Solver
