import Verif.Solver.RuleProps
/-!
# From element rules to solvers

`lift` makes a solver class (`Rule ℝ`) of an element rule: the loop `for (s = 0; s < size; ++s)` of
each `update_impl`, over the arrays of the state. `training_is_elementwise` relates any number of
`write gradients; update()` rounds on a whole solver to the element histories (`trajectory`) about
which `Verif.Solver.RuleProps` proves its theorems.
-/

namespace Verif.Solver

noncomputable section

/-- An element rule: names of the state arrays, and (rate, count, state of the element, gradient,
value) ↦ (state, value). -/
structure ElemRule where
  names : List String
  step : ℝ → ℕ → List ℝ → ℝ → ℝ → List ℝ × ℝ

/-- The state of element `i`. -/
def stateAt (E : ElemRule) (s : SState ℝ) (i : Nat) : List ℝ :=
  E.names.map (fun n => ((get? n s.pstate).getD []).getD i 0)

/-- The loops of the `update_impl`s, e.g. src/nbla/solver/generic/adam.cpp L50-71, and their
`set_state_impl`s, e.g. L35-44. Reading past the end of an array is an error. -/
def lift (fused : Bool) (rate : ℝ) (erases : Bool) (E : ElemRule) : Rule ℝ where
  fused := fused
  defaultRate := rate
  erases := erases
  init := fun sh => E.names.map (fun n => (n, List.replicate sh.prod 0))
  step := fun rate s grad data =>
    if grad.length = data.length ∧
        ∀ n ∈ E.names, ((get? n s.pstate).getD []).length = data.length then
      let col i := E.step rate (tick s.t) (stateAt E s i) (grad.getD i 0) (data.getD i 0)
      .ok (E.names.mapIdx (fun j n => (n, (List.range data.length).map (fun i => (col i).1.getD j 0))),
        grad, (List.range data.length).map (fun i => (col i).2))
    else .error .oob

/-- One round: the gradients of all variables are written (backward), then `update()`. -/
def trainRound (R : Rule ℝ) (h : Hooks) (g : VarId → List ℝ) (w : World ℝ) : World ℝ × Option Err :=
  update R h { w with mem := fun v => { w.mem v with grad := g v, zeroing := false } }

/-- Rounds; the second component is the first exception. -/
def train (R : Rule ℝ) (h : Hooks) : List (VarId → List ℝ) → World ℝ → World ℝ × Option Err
  | [], w => (w, none)
  | g :: gs, w => match trainRound R h g w with
    | (w', none) => train R h gs w'
    | (w', some e) => (w', some e)

theorem get?_mapIdx (l : List String) (hn : l.Nodup) (f : Nat → List ℝ) (o j : Nat)
    (hj : j < l.length) :
    get? (l[j]) (l.mapIdx (fun i n => (n, f (o + i)))) = some (f (o + j)) := by
  induction l generalizing o j with
  | nil => simp at hj
  | cons a l ih =>
    rw [List.mapIdx_cons]
    cases j with
    | zero => simp [get?]
    | succ j =>
      have hne : a ≠ l[j]'(by simpa using hj) := by
        intro he
        exact (List.nodup_cons.1 hn).1 (he ▸ List.getElem_mem _)
      simp only [List.getElem_cons_succ, get?, hne, if_false]
      have := ih (List.nodup_cons.1 hn).2 (o + 1) j (by simpa using hj)
      simp only [Nat.add_right_comm o 1, Nat.add_assoc o] at this ⊢
      exact this

/-- The arrays of a state fit a parameter with `n` elements. -/
def FitsLen (E : ElemRule) (s : SState ℝ) (n : Nat) : Prop :=
  ∀ m ∈ E.names, ((get? m s.pstate).getD []).length = n

/-- One lifted step, element by element. -/
theorem lift_step {E : ElemRule} (hn : E.names.Nodup)
    (hlen : ∀ r t s g x, s.length = E.names.length → (E.step r t s g x).1.length = E.names.length)
    (fused er : Bool) (rate0 rate : ℝ) (s : SState ℝ) (x : Var ℝ)
    (hg : x.grad.length = x.data.length) (hs : FitsLen E s x.data.length) :
    ∃ s' x', stepped (lift fused rate0 er E) rate s x = .ok (s', x') ∧
      x'.shape = x.shape ∧ x'.zeroing = x.zeroing ∧ x'.grad = x.grad ∧
      x'.data.length = x.data.length ∧ s'.t = tick s.t ∧ FitsLen E s' x.data.length ∧
      ∀ i, i < x.data.length →
        (stateAt E s' i, x'.data.getD i 0)
          = E.step rate (tick s.t) (stateAt E s i) (x.grad.getD i 0) (x.data.getD i 0) := by
  let col i := E.step rate (tick s.t) (stateAt E s i) (x.grad.getD i 0) (x.data.getD i 0)
  let ps := E.names.mapIdx (fun j n => (n, (List.range x.data.length).map (fun i => (col i).1.getD j 0)))
  have hget : ∀ j (hj : j < E.names.length), get? (E.names[j]) ps
      = some ((List.range x.data.length).map (fun i => (col i).1.getD j 0)) := by
    intro j hj
    have := get?_mapIdx E.names hn (fun j => (List.range x.data.length).map (fun i => (col i).1.getD j 0)) 0 j hj
    simp only [Nat.zero_add] at this
    exact this
  refine ⟨⟨ps, tick s.t⟩, { x with data := (List.range x.data.length).map (fun i => (col i).2) }, ?_,
    rfl, rfl, rfl, by simp, rfl, ?_, ?_⟩
  · unfold stepped lift
    simp only
    rw [if_pos ⟨hg, hs⟩]
  · intro m hm
    obtain ⟨j, hj, rfl⟩ := List.getElem_of_mem hm
    simp only
    rw [hget j hj]; simp
  · intro i hi
    have hl : (col i).1.length = E.names.length := hlen _ _ _ _ _ (by simp [stateAt])
    refine Prod.ext ?_ ?_
    · show stateAt E ⟨ps, tick s.t⟩ i = (col i).1
      apply List.ext_getElem
      · simp [stateAt, hl]
      · intro j h1 h2
        have hj : j < E.names.length := by simpa [stateAt] using h1
        simp only [stateAt, List.getElem_map]
        rw [hget j hj]
        simp only [Option.getD_some]
        rw [List.getD_eq_getElem?_getD, List.getElem?_map, List.getElem?_range hi]
        simp [List.getD_eq_getElem?_getD, h2]
    · show ((List.range x.data.length).map (fun i => (col i).2)).getD i 0 = (col i).2
      rw [List.getD_eq_getElem?_getD, List.getElem?_map, List.getElem?_range hi]; rfl

/-- A solver ready to train: distinct keys and variables, a state of the right size for each. -/
structure Ready (E : ElemRule) (w : World ℝ) : Prop where
  keys : (w.params.map (·.1)).Nodup
  vars : (w.params.map (·.2)).Nodup
  states : ∀ p ∈ w.params, ∃ s, get? p.1 w.states = some s ∧ FitsLen E s (w.mem p.2).data.length

/-- C63. Training a solver whose class is the loop of an element rule, with any gradients of the
right sizes for any number of rounds: no round raises, and every element of every parameter follows
its own history, started from its own state, with the default rate. -/
theorem training_is_elementwise {E : ElemRule} (hn : E.names.Nodup)
    (hlen : ∀ r t s g x, s.length = E.names.length → (E.step r t s g x).1.length = E.names.length)
    (fused er : Bool) (rate : ℝ) (h : Hooks) (gs : List (VarId → List ℝ)) (w : World ℝ)
    (hw : Ready E w) (hrate : w.rate = rate)
    (hg : ∀ g ∈ gs, ∀ p ∈ w.params, (g p.2).length = (w.mem p.2).data.length)
    (ht : ∀ p ∈ w.params, ∀ s, get? p.1 w.states = some s → s.t + gs.length ≤ 2 ^ 32 - 2) :
    (train (lift fused rate er E) h gs w).2 = none ∧
    ∀ p ∈ w.params, ∀ s, get? p.1 w.states = some s → ∀ i, i < (w.mem p.2).data.length →
      (((train (lift fused rate er E) h gs w).1.mem p.2).data.getD i 0)
        = (trajectory (E.step rate) (gs.map (fun g => (g p.2).getD i 0)) s.t (stateAt E s i)
            ((w.mem p.2).data.getD i 0)).2 := by
  induction gs generalizing w with
  | nil => exact ⟨rfl, fun p _ s _ i _ => rfl⟩
  | cons g gs ih =>
    let w0 : World ℝ := { w with mem := fun v => { w.mem v with grad := g v, zeroing := false } }
    have hstep : ∀ p ∈ w.params, ∀ s, get? p.1 w.states = some s →
        FitsLen E s (w.mem p.2).data.length := by
      intro p hp s hs
      obtain ⟨s0, e1, e2⟩ := hw.states p hp
      rw [e1] at hs; cases hs; exact e2
    have hL : ∀ p ∈ w.params, ∀ s, get? p.1 w.states = some s → _ := fun p hp s hs =>
      lift_step hn hlen fused er rate w0.rate s (w0.mem p.2)
        (hg g (by simp) p hp) (hstep p hp s hs)
    obtain ⟨u1, u2, u3, _, _, _⟩ := update_steps_each_once (lift fused rate er E) h w0 hw.keys hw.vars
      (fun p hp => by obtain ⟨s, e, _⟩ := hw.states p hp; exact ⟨s, e⟩)
      (fun p hp _ s hs => by
        obtain ⟨s', x', e, _⟩ := hL p hp s hs
        exact ⟨_, e⟩)
    let w1 := (update (lift fused rate er E) h w0).1
    have hr1 : w1.rate = rate := by
      show (update (lift fused rate er E) h w0).1.rate = rate
      unfold update at u1 ⊢
      cases hc : forParams h (updateOp (lift fused rate er E)) w0.params w0 with
      | mk a b => cases b with
        | none => rfl
        | some e => rw [hc] at u1; simp at u1
    -- what one round did to each parameter
    have hone : ∀ p ∈ w.params, ∀ s, get? p.1 w.states = some s →
        ∃ s', get? p.1 w1.states = some s' ∧ s'.t = tick s.t ∧
          (w1.mem p.2).data.length = (w.mem p.2).data.length ∧
          FitsLen E s' (w.mem p.2).data.length ∧
          ∀ i, i < (w.mem p.2).data.length →
            (stateAt E s' i, (w1.mem p.2).data.getD i 0)
              = E.step rate (tick s.t) (stateAt E s i) ((g p.2).getD i 0)
                  ((w.mem p.2).data.getD i 0) := by
      intro p hp s hs
      obtain ⟨s', x', e1, e2, e3⟩ := u3 p hp rfl s hs
      obtain ⟨s'', x'', f1, f2, f3, f4, f5, f6, f7, f8⟩ := hL p hp s hs
      rw [e1] at f1
      simp only [Except.ok.injEq, Prod.mk.injEq] at f1
      obtain ⟨rfl, rfl⟩ := f1
      refine ⟨s', e2, f6, ?_, f7, ?_⟩
      · show ((update (lift fused rate er E) h w0).1.mem p.2).data.length = _
        rw [e3]; exact f5
      · intro i hi
        have := f8 i hi
        show (stateAt E s' i, ((update (lift fused rate er E) h w0).1.mem p.2).data.getD i 0) = _
        rw [e3, this]
        show E.step w.rate _ _ _ _ = _
        rw [hrate]
    have hp1 : w1.params = w.params := u2
    have hw1 : Ready E w1 := by
      refine ⟨by rw [hp1]; exact hw.keys, by rw [hp1]; exact hw.vars, ?_⟩
      intro p hp
      rw [hp1] at hp
      obtain ⟨s, e1, _⟩ := hw.states p hp
      obtain ⟨s', d1, _, d3, d4, _⟩ := hone p hp s e1
      exact ⟨s', d1, by rw [d3]; exact d4⟩
    have htick : ∀ p ∈ w.params, ∀ s, get? p.1 w.states = some s → tick s.t = s.t + 1 := by
      intro p hp s hs
      have := ht p hp s hs
      simp only [List.length_cons] at this
      unfold tick
      rw [Nat.mod_eq_of_lt (by omega)]; omega
    have htr : train (lift fused rate er E) h (g :: gs) w = train (lift fused rate er E) h gs w1 := by
      rw [train]
      have : trainRound (lift fused rate er E) h g w = (w1, none) := Prod.ext rfl u1
      rw [this]
    rw [htr]
    obtain ⟨i1, i2⟩ := ih w1 hw1 hr1
      (fun g' hg' p hp => by
        rw [hp1] at hp
        obtain ⟨s, e1, _⟩ := hw.states p hp
        obtain ⟨s', _, _, d3, _⟩ := hone p hp s e1
        rw [d3]; exact hg g' (by simp [hg']) p hp)
      (fun p hp s' hs' => by
        rw [hp1] at hp
        obtain ⟨s, e1, _⟩ := hw.states p hp
        obtain ⟨s'', d1, d2, _⟩ := hone p hp s e1
        rw [d1] at hs'; cases hs'
        have := ht p hp s e1
        simp only [List.length_cons] at this
        rw [d2, htick p hp s e1]; omega)
    refine ⟨i1, ?_⟩
    intro p hp s hs i hi
    obtain ⟨s', d1, d2, d3, _, d5⟩ := hone p hp s hs
    rw [i2 p (by rw [hp1]; exact hp) s' d1 i (by rw [d3]; exact hi)]
    rw [List.map_cons, trajectory]
    have e := d5 i hi
    rw [htick p hp s hs] at e d2
    rw [← e, d2]

/-! ## Solver classes -/

/-- Element histories through an encoding of the state as the list of its arrays' elements. -/
theorem trajectory_enc {σ : Type} (f : ℕ → σ → ℝ → ℝ → σ × ℝ) (e : ℕ → List ℝ → ℝ → ℝ → List ℝ × ℝ)
    (enc : σ → List ℝ) (he : ∀ t s g x, e t (enc s) g x = (enc (f t s g x).1, (f t s g x).2))
    (gs : List ℝ) (t : ℕ) (s : σ) (x : ℝ) :
    (trajectory e gs t (enc s) x).2 = (trajectory f gs t s x).2 := by
  induction gs generalizing t s x with
  | nil => rfl
  | cons g gs ih => simp only [trajectory, he, ih]

/-- src/nbla/solver/generic/sgd.cpp. No arrays; `remove_state_impl` is empty (L36). -/
def sgdClass (lr : ℝ) : ElemRule := ⟨[], fun _ _ _ g x => ([], sgd lr g x)⟩

/-- src/nbla/solver/generic/momentum.cpp: array "m". -/
def momentumClass (lr mu : ℝ) : ElemRule :=
  ⟨["m"], fun _ _ s g x => ([(momentum lr mu (s.getD 0 0) g x).1], (momentum lr mu (s.getD 0 0) g x).2)⟩

/-- src/nbla/solver/generic/nesterov.cpp: array "m". -/
def nesterovClass (lr mu : ℝ) : ElemRule :=
  ⟨["m"], fun _ _ s g x => ([(nesterov lr mu (s.getD 0 0) g x).1], (nesterov lr mu (s.getD 0 0) g x).2)⟩

/-- src/nbla/solver/generic/adagrad.cpp: array "v". -/
def adagradClass (lr eps : ℝ) : ElemRule :=
  ⟨["v"], fun _ _ s g x => ([(adagrad lr eps (s.getD 0 0) g x).1], (adagrad lr eps (s.getD 0 0) g x).2)⟩

/-- src/nbla/solver/generic/rmsprop.cpp: array "v". -/
def rmspropClass (lr decay eps : ℝ) : ElemRule :=
  ⟨["v"], fun _ _ s g x =>
    ([(rmsprop lr decay eps (s.getD 0 0) g x).1], (rmsprop lr decay eps (s.getD 0 0) g x).2)⟩

/-- src/nbla/solver/generic/adam.cpp: arrays "mean" and "var". -/
def adamClass (alpha b1 b2 eps : ℝ) : ElemRule :=
  ⟨["mean", "var"], fun _ t s g x =>
    let r := adam alpha b1 b2 eps t ⟨s.getD 0 0, s.getD 1 0⟩ g x
    ([r.1.m, r.1.v], r.2)⟩

/-- src/nbla/solver/generic/adamw.cpp: arrays "mean" and "var"; fused, the rate comes from the solver. -/
def adamwClass (alpha initAlpha b1 b2 eps : ℝ) : ElemRule :=
  ⟨["mean", "var"], fun wd t s g x =>
    let r := adamw alpha initAlpha b1 b2 eps wd t ⟨s.getD 0 0, s.getD 1 0⟩ g x
    ([r.1.m, r.1.v], r.2)⟩

/-- src/nbla/solver/generic/lion.cpp: array "m"; fused. -/
def lionClass (lr b1 b2 : ℝ) : ElemRule :=
  ⟨["m"], fun wd _ s g x =>
    ([(lion lr b1 b2 wd (s.getD 0 0) g x).1], (lion lr b1 b2 wd (s.getD 0 0) g x).2)⟩

/-- A fresh solver after `set_parameters(d)` is ready, with zero states and count 0. -/
theorem fresh_ready (E : ElemRule) (hn : E.names.Nodup) (fused er : Bool) (rate : ℝ)
    (mem : VarId → Var ℝ)
    (hm : ∀ v, (mem v).data.length = (mem v).shape.prod) (d : List (Key × VarId))
    (hk : (d.map (·.1)).Nodup) (hv : (d.map (·.2)).Nodup) (retain : Bool) :
    let w := (setParameters (lift fused rate er E) d true retain (fresh (lift fused rate er E) mem)).1
    Ready E w ∧ w.rate = rate ∧ w.params = d ∧ w.mem = mem ∧
    ∀ p ∈ d, ∃ s, get? p.1 w.states = some s ∧ s.t = 0 ∧
      ∀ i, stateAt E s i = E.names.map (fun _ => 0) := by
  set R := lift fused rate er E with hR
  have key : ∀ (l : List (Key × VarId)) (w : World ℝ), (l.map (·.1)).Nodup →
      (∀ p ∈ l, get? p.1 w.params = none ∧ get? p.1 w.states = none) →
      let w' := (setLoop R true retain l w).1
      w'.rate = w.rate ∧ w'.mem = w.mem ∧ w'.params = w.params ++ l ∧
      (∀ k, k ∉ l.map (·.1) → get? k w'.states = get? k w.states) ∧
      ∀ p ∈ l, get? p.1 w'.states = some ⟨R.init (w.mem p.2).shape, 0⟩ := by
    intro l
    induction l with
    | nil => intro w _ _; exact ⟨rfl, rfl, by simp [setLoop], fun _ _ => rfl, by simp⟩
    | cons p l ih =>
      obtain ⟨k, v⟩ := p
      intro w hnd hno
      simp only [List.map_cons, List.nodup_cons] at hnd
      obtain ⟨n1, n2⟩ := hno (k, v) (by simp)
      have e : setLoop R true retain ((k, v) :: l) w
          = setLoop R true retain l { w with params := w.params ++ [(k, v)]
                                             states := w.states ++ [(k, ⟨R.init (w.mem v).shape, 0⟩)] } := by
        rw [setLoop]
        simp only [setOne, if_true, setState, insertNew, n1, n2]
      intro w'
      have hw' : w' = (setLoop R true retain l { w with params := w.params ++ [(k, v)]
                                                        states := w.states ++ [(k, ⟨R.init (w.mem v).shape, 0⟩)] }).1 := by
        show (setLoop R true retain ((k, v) :: l) w).1 = _
        rw [e]
      have hga : ∀ {β : Type} (k' : Key) (l1 l2 : List (Key × β)), get? k' (l1 ++ l2)
          = (get? k' l1).or (get? k' l2) := by
        intro β k' l1 l2
        induction l1 with
        | nil => simp [get?]
        | cons q l1 ih => simp only [List.cons_append, get?]; by_cases hq : q.1 = k' <;> simp [hq, ih]
      obtain ⟨i1, i2, i3, i4, i5⟩ := ih { w with params := w.params ++ [(k, v)]
                                                 states := w.states ++ [(k, ⟨R.init (w.mem v).shape, 0⟩)] } hnd.2 (by
        intro q hq
        have hne : k ≠ q.1 := fun he => hnd.1 (he ▸ List.mem_map_of_mem hq)
        obtain ⟨a1, a2⟩ := hno q (by simp [hq])
        simp only [hga, a1, a2, get?, hne, if_false, Option.or_none]
        exact ⟨trivial, trivial⟩)
      rw [hw']
      refine ⟨i1, i2, by rw [i3]; simp, ?_, ?_⟩
      · intro k' hk'
        simp only [List.map_cons, List.mem_cons, not_or] at hk'
        rw [i4 k' hk'.2]
        simp [hga, get?, Ne.symm hk'.1]
      · intro q hq
        rcases List.mem_cons.1 hq with rfl | hq
        · rw [i4 _ hnd.1]; simp [hga, get?, n2]
        · exact i5 q hq
  have hcl : clearParameters R (fresh R mem) = fresh R mem := rfl
  intro w
  have hw : w = (setLoop R true retain d (fresh R mem)).1 := by
    show (setParameters R d true retain (fresh R mem)).1 = _
    unfold setParameters; rw [if_pos rfl, hcl]
  obtain ⟨a1, a2, a3, _, a5⟩ := key d (fresh R mem) hk (fun p _ => ⟨rfl, rfl⟩)
  rw [hw]
  have hgi : ∀ m ∈ E.names, ∀ sh, get? m (R.init sh) = some (List.replicate sh.prod 0) := by
    intro m hm sh
    show get? m (E.names.map (fun n => (n, List.replicate sh.prod 0))) = _
    clear hn key hR
    revert hm
    generalize E.names = l
    intro hm
    induction l with
    | nil => simp at hm
    | cons a l ih =>
      simp only [List.map_cons, get?]
      by_cases ha : a = m
      · simp [ha]
      · rw [if_neg ha]; exact ih (by simpa [Ne.symm ha] using hm)
  have hpar : (setLoop R true retain d (fresh R mem)).1.params = d := by rw [a3]; rfl
  refine ⟨⟨by rw [hpar]; exact hk, by rw [hpar]; exact hv, ?_⟩, a1, hpar, a2, ?_⟩
  · intro p hp
    rw [hpar] at hp
    refine ⟨_, a5 p hp, ?_⟩
    intro m hm'
    simp only
    rw [hgi m hm', a2]
    simp [fresh, hm]
  · intro p hp
    refine ⟨_, a5 p hp, rfl, ?_⟩
    intro i
    unfold stateAt
    apply List.map_congr_left
    intro m hm'
    simp only
    rw [hgi m hm']
    simp [List.getD_eq_getElem?_getD, List.getElem?_replicate]
    split <;> rfl

/-- The parameters after constructing a solver, `set_parameters(d)` and training (specification). -/
def trained (R : Rule ℝ) (mem : VarId → Var ℝ) (d : List (Key × VarId)) (h : Hooks)
    (gs : List (VarId → List ℝ)) : World ℝ :=
  (train R h gs (setParameters R d true false (fresh R mem)).1).1

/-- What a user passes: distinct names, distinct variables, arrays and gradients of matching sizes,
fewer than 2³² rounds. -/
structure Setup (mem : VarId → Var ℝ) (d : List (Key × VarId)) (gs : List (VarId → List ℝ)) : Prop where
  sizes : ∀ v, (mem v).data.length = (mem v).shape.prod
  keys : (d.map (·.1)).Nodup
  vars : (d.map (·.2)).Nodup
  grads : ∀ g ∈ gs, ∀ p ∈ d, (g p.2).length = (mem p.2).data.length
  rounds : gs.length ≤ 2 ^ 32 - 2

/-- C63, end to end: construct, `set_parameters(d)`, train. -/
theorem trained_elementwise {σ : Type} (E : ElemRule) (hn : E.names.Nodup)
    (hlen : ∀ r t s g x, s.length = E.names.length → (E.step r t s g x).1.length = E.names.length)
    (fused er : Bool) (rate : ℝ) (f : ℕ → σ → ℝ → ℝ → σ × ℝ) (enc : σ → List ℝ) (s0 : σ)
    (he : ∀ t s g x, E.step rate t (enc s) g x = (enc (f t s g x).1, (f t s g x).2))
    (h0 : enc s0 = E.names.map (fun _ => 0))
    (mem : VarId → Var ℝ) (d : List (Key × VarId)) (h : Hooks) (gs : List (VarId → List ℝ))
    (hs : Setup mem d gs) (p : Key × VarId) (hp : p ∈ d) (i : Nat) (hi : i < (mem p.2).data.length) :
    ((trained (lift fused rate er E) mem d h gs).mem p.2).data.getD i 0
      = (trajectory f (gs.map (fun g => (g p.2).getD i 0)) 0 s0 ((mem p.2).data.getD i 0)).2 := by
  obtain ⟨r1, r2, r3, r4, r5⟩ := fresh_ready E hn fused er rate mem hs.sizes d hs.keys hs.vars false
  obtain ⟨s, a1, a2, a3⟩ := r5 p hp
  have := (training_is_elementwise hn hlen fused er rate h gs _ r1 r2
    (by rw [r3, r4]; exact hs.grads)
    (by
      intro q hq s' hs'
      rw [r3] at hq
      obtain ⟨s'', b1, b2, _⟩ := r5 q hq
      rw [b1] at hs'; cases hs'
      rw [b2]; simpa using hs.rounds)).2 p (by rw [r3]; exact hp) s a1 i (by rw [r4]; exact hi)
  unfold trained
  rw [this, a2, a3, r4, ← h0]
  exact trajectory_enc f (E.step rate) enc he _ _ _ _

/-- C63 for the solver classes: every element of every parameter follows the textbook rule. -/
theorem sgd_trains (lr : ℝ) (mem : VarId → Var ℝ) (d : List (Key × VarId)) (h : Hooks)
    (gs : List (VarId → List ℝ)) (hs : Setup mem d gs) (p : Key × VarId) (hp : p ∈ d) (i : Nat)
    (hi : i < (mem p.2).data.length) :
    ((trained (lift false 0 false (sgdClass lr)) mem d h gs).mem p.2).data.getD i 0
      = (mem p.2).data.getD i 0 - lr * (gs.map (fun g => (g p.2).getD i 0)).sum := by
  rw [trained_elementwise (sgdClass lr) (by simp [sgdClass]) (fun _ _ _ _ _ _ => rfl) false false 0
    (fun _ (_ : Unit) g x => ((), sgd lr g x)) (fun _ => []) () (fun _ _ _ _ => rfl) rfl
    mem d h gs hs p hp i hi]
  generalize (mem p.2).data.getD i 0 = x
  generalize (gs.map (fun g => (g p.2).getD i 0)) = l
  have : ∀ (l : List ℝ) t x, (trajectory (fun _ (_ : Unit) g x => ((), sgd lr g x)) l t () x).2
      = x - lr * l.sum := by
    intro l
    induction l with
    | nil => intro t x; simp [trajectory]
    | cons a l ih => intro t x; simp only [trajectory]; rw [ih, sgd, List.sum_cons]; ring
  exact this l 0 x

theorem momentum_trains (lr mu : ℝ) (mem : VarId → Var ℝ) (d : List (Key × VarId)) (h : Hooks)
    (gs : List (VarId → List ℝ)) (hs : Setup mem d gs) (p : Key × VarId) (hp : p ∈ d) (i : Nat)
    (hi : i < (mem p.2).data.length) :
    ((trained (lift false 0 true (momentumClass lr mu)) mem d h gs).mem p.2).data.getD i 0
      = (trajectory (fun _ => momentum lr mu) (gs.map (fun g => (g p.2).getD i 0)) 0 0
          ((mem p.2).data.getD i 0)).2 :=
  trained_elementwise (momentumClass lr mu) (by simp [momentumClass]) (fun _ _ _ _ _ _ => rfl)
    false true 0 _ (fun v => [v]) 0 (fun _ _ _ _ => rfl) rfl mem d h gs hs p hp i hi

theorem nesterov_trains (lr mu : ℝ) (mem : VarId → Var ℝ) (d : List (Key × VarId)) (h : Hooks)
    (gs : List (VarId → List ℝ)) (hs : Setup mem d gs) (p : Key × VarId) (hp : p ∈ d) (i : Nat)
    (hi : i < (mem p.2).data.length) :
    ((trained (lift false 0 true (nesterovClass lr mu)) mem d h gs).mem p.2).data.getD i 0
      = (trajectory (fun _ => nesterov lr mu) (gs.map (fun g => (g p.2).getD i 0)) 0 0
          ((mem p.2).data.getD i 0)).2 :=
  trained_elementwise (nesterovClass lr mu) (by simp [nesterovClass]) (fun _ _ _ _ _ _ => rfl)
    false true 0 _ (fun v => [v]) 0 (fun _ _ _ _ => rfl) rfl mem d h gs hs p hp i hi

theorem adagrad_trains (lr eps : ℝ) (mem : VarId → Var ℝ) (d : List (Key × VarId)) (h : Hooks)
    (gs : List (VarId → List ℝ)) (hs : Setup mem d gs) (p : Key × VarId) (hp : p ∈ d) (i : Nat)
    (hi : i < (mem p.2).data.length) :
    ((trained (lift false 0 true (adagradClass lr eps)) mem d h gs).mem p.2).data.getD i 0
      = (trajectory (fun _ => adagrad lr eps) (gs.map (fun g => (g p.2).getD i 0)) 0 0
          ((mem p.2).data.getD i 0)).2 :=
  trained_elementwise (adagradClass lr eps) (by simp [adagradClass]) (fun _ _ _ _ _ _ => rfl)
    false true 0 _ (fun v => [v]) 0 (fun _ _ _ _ => rfl) rfl mem d h gs hs p hp i hi

theorem adam_trains (alpha b1 b2 eps : ℝ) (mem : VarId → Var ℝ) (d : List (Key × VarId)) (h : Hooks)
    (gs : List (VarId → List ℝ)) (hs : Setup mem d gs) (p : Key × VarId) (hp : p ∈ d) (i : Nat)
    (hi : i < (mem p.2).data.length) :
    ((trained (lift false 0 true (adamClass alpha b1 b2 eps)) mem d h gs).mem p.2).data.getD i 0
      = (trajectory (adam alpha b1 b2 eps) (gs.map (fun g => (g p.2).getD i 0)) 0 ⟨0, 0⟩
          ((mem p.2).data.getD i 0)).2 :=
  trained_elementwise (adamClass alpha b1 b2 eps) (by simp [adamClass]) (fun _ _ _ _ _ _ => rfl)
    false true 0 _ (fun s : Adam => [s.m, s.v]) ⟨0, 0⟩ (fun _ _ _ _ => rfl) rfl mem d h gs hs p hp i hi

/-- AdamW trains with the decay rate given to its constructor. -/
theorem adamw_trains (alpha initAlpha b1 b2 eps wd : ℝ) (mem : VarId → Var ℝ)
    (d : List (Key × VarId)) (h : Hooks)
    (gs : List (VarId → List ℝ)) (hs : Setup mem d gs) (p : Key × VarId) (hp : p ∈ d) (i : Nat)
    (hi : i < (mem p.2).data.length) :
    ((trained (lift true wd true (adamwClass alpha initAlpha b1 b2 eps)) mem d h gs).mem p.2).data.getD i 0
      = (trajectory (adamw alpha initAlpha b1 b2 eps wd) (gs.map (fun g => (g p.2).getD i 0)) 0 ⟨0, 0⟩
          ((mem p.2).data.getD i 0)).2 :=
  trained_elementwise (adamwClass alpha initAlpha b1 b2 eps) (by simp [adamwClass])
    (fun _ _ _ _ _ _ => rfl)
    true true wd _ (fun s : Adam => [s.m, s.v]) ⟨0, 0⟩ (fun _ _ _ _ => rfl) rfl mem d h gs hs p hp i hi

theorem lion_trains (lr b1 b2 wd : ℝ) (mem : VarId → Var ℝ)
    (d : List (Key × VarId)) (h : Hooks)
    (gs : List (VarId → List ℝ)) (hs : Setup mem d gs) (p : Key × VarId) (hp : p ∈ d) (i : Nat)
    (hi : i < (mem p.2).data.length) :
    ((trained (lift true wd true (lionClass lr b1 b2)) mem d h gs).mem p.2).data.getD i 0
      = (trajectory (fun _ => lion lr b1 b2 wd) (gs.map (fun g => (g p.2).getD i 0)) 0 0
          ((mem p.2).data.getD i 0)).2 :=
  trained_elementwise (lionClass lr b1 b2) (by simp [lionClass]) (fun _ _ _ _ _ _ => rfl)
    true true wd _ (fun v => [v]) 0 (fun _ _ _ _ => rfl) rfl mem d h gs hs p hp i hi

theorem rmsprop_trains (lr decay eps : ℝ) (mem : VarId → Var ℝ)
    (d : List (Key × VarId)) (h : Hooks)
    (gs : List (VarId → List ℝ)) (hs : Setup mem d gs) (p : Key × VarId) (hp : p ∈ d) (i : Nat)
    (hi : i < (mem p.2).data.length) :
    ((trained (lift false 0 true (rmspropClass lr decay eps)) mem d h gs).mem p.2).data.getD i 0
      = (trajectory (fun _ => rmsprop lr decay eps) (gs.map (fun g => (g p.2).getD i 0)) 0 0
          ((mem p.2).data.getD i 0)).2 :=
  trained_elementwise (rmspropClass lr decay eps) (by simp [rmspropClass]) (fun _ _ _ _ _ _ => rfl)
    false true 0 _ (fun v => [v]) 0 (fun _ _ _ _ => rfl) rfl mem d h gs hs p hp i hi

/-- C60, end to end: training with Adam (`eps = 0`) and a scaled loss gives the same parameters. -/
theorem adam_training_scale_invariant (alpha b1 b2 c : ℝ) (hc : 0 < c) (mem : VarId → Var ℝ)
    (d : List (Key × VarId)) (h : Hooks) (gs : List (VarId → List ℝ)) (hs : Setup mem d gs)
    (p : Key × VarId) (hp : p ∈ d) (i : Nat) (hi : i < (mem p.2).data.length) :
    ((trained (lift false 0 true (adamClass alpha b1 b2 0)) mem d h
        (gs.map (fun g v => (g v).map (fun a => c * a)))).mem p.2).data.getD i 0
      = ((trained (lift false 0 true (adamClass alpha b1 b2 0)) mem d h gs).mem p.2).data.getD i 0 := by
  rw [adam_trains _ _ _ _ _ _ _ _ hs p hp i hi,
    adam_trains _ _ _ _ _ _ _ _ ⟨hs.sizes, hs.keys, hs.vars, by
      intro g hg q hq
      obtain ⟨g0, hg0, rfl⟩ := List.mem_map.1 hg
      simpa using hs.grads g0 hg0 q hq, by simpa using hs.rounds⟩ p hp i hi,
    ← adam_scale_invariant alpha b1 b2 c hc (gs.map (fun g => (g p.2).getD i 0))]
  congr 2
  rw [List.map_map, List.map_map]
  apply List.map_congr_left
  intro g hg
  have : i < (g p.2).length := by rw [hs.grads g hg p hp]; exact hi
  simp [List.getD_eq_getElem?_getD, this]

/-- Two parameters, two rounds. -/
example : Setup (fun v => ⟨[v + 1], List.replicate (v + 1) 1, [], true⟩) [("a", 0), ("b", 1)]
    [fun v => List.replicate (v + 1) 2, fun v => List.replicate (v + 1) 3] where
  sizes := by intro v; simp
  keys := by decide
  vars := by decide
  grads := by intro g hg p hp; fin_cases hg <;> fin_cases hp <;> rfl
  rounds := by decide

end

end Verif.Solver
