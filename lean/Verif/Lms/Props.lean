/-
Property theorems for the swap-in/swap-out scheduler (C99 - C102).
-/
import Verif.Lms.Exec3
import Verif.Lms.Term
import Verif.Lms.Trace
import Verif.Lms.PreOk

namespace Verif.Lms

/-- The recorded iteration used in the examples: four arrays, seven function blocks. -/
def exRec : List (Rec (Fin 4) (Fin 1)) :=
  let g (s : Fin 4) : Rec (Fin 4) (Fin 1) := ⟨.get, s, 0, true, false, false⟩
  let w (s : Fin 4) : Rec (Fin 4) (Fin 1) := ⟨.cast, s, 0, true, true, false⟩
  let cl (s : Fin 4) : Rec (Fin 4) (Fin 1) := ⟨.clear, s, 0, true, false, false⟩
  [g 0, g 0, w 1, g 1, w 2, g 2, w 3, g 0, g 3, cl 2, g 1, cl 1]

/-- Limits: the arrays take 50 bytes, the device has 30. -/
def exCfg : Cfg (Fin 4) (Fin 1) :=
  { order := exRec, fe := [1, 3, 5, 7, 9, 10, 12], size := fun s => [10, 10, 20, 10].getD s 0, szd := fun _ => 1,
    maxBytes := 30, maxPre := 45, castPrefetch := false, heads := fun s => (s == 0, 0) }

def Res.isOk {α : Type} : Res α → Bool
  | .ok _ => true
  | _ => false

variable {S D : Type} [DecidableEq S] [DecidableEq D] [Fintype D] [Fintype S]

/-! ### C99: the memory bound -/

/-- C99.  Every array has one dtype, and what is touched before the first function fits.  If
`schedule()` succeeds, then running the recorded iteration under the resulting schedule, the device
buffers never take more than `max_bytes`, at any moment of the iteration (after every access, every
command and every function).  And the self-checks at the end of `schedule()` never fail: the result
is a schedule or one of the two out-of-memory errors.  Missing: arrays used with two dtypes, for
which the accounting does fail (`c99_two_dtypes`). -/
theorem c99_memory_bound_partial (c : Cfg S D) (dt : S → D) (w : c.WF) (u : Uni c dt) (hb : blk0 c dt ≤ c.maxBytes)
    (n : Nat) (r : Res (P S D)) (h : scheduleLoop c n stop0 = some r) :
    (∀ p, r = .ok p → ∀ l, l <+: timeline c p.beg p.en → usage c dt l ≤ c.maxBytes) ∧
    r ≠ .stateError ∧ r ≠ .unclassified := by
  obtain ⟨stop, hs⟩ := scheduleLoop_attempt c n stop0 r h
  obtain ⟨h1, h2⟩ := attempt_checks c dt w u hb stop
  rw [hs] at h1 h2
  refine ⟨fun p hp l hl => ?_, h1, h2⟩
  subst hp
  exact attempt_usage c dt w u hb stop p hs l hl

/-- The example satisfies the hypotheses. -/
theorem exCfg_wf : exCfg.WF ∧ Uni exCfg (fun _ => 0) ∧ blk0 exCfg (fun _ => 0) ≤ exCfg.maxBytes := by
  refine ⟨⟨by decide, fun i j hij hj => ?_, by decide⟩, ⟨fun r _ _ => Subsingleton.elim _ _, fun s _ => Subsingleton.elim _ _⟩, by decide +kernel⟩
  have hj : j < 7 := hj
  have : ∀ j < 7, ∀ i ≤ j, exCfg.fend i ≤ exCfg.fend j := by decide
  exact this j hj i hij

/-- The arrays need 50 bytes and the device has 30: the first attempt fails and is rescheduled, the
second succeeds with swap ins, swap outs, waits and a preclear. -/
example : (scheduleLoop exCfg 1 stop0).map Res.isOk = none ∧ (scheduleLoop exCfg 3 stop0).map Res.isOk = some true := by
  decide +kernel

/-- Tags of the commands of a result. -/
def Res.cmds : Res (P (Fin 4) (Fin 1)) → List (List STag)
  | .ok p => p.en.map (List.map Sched.tag)
  | _ => []

example : (scheduleLoop exCfg 3 stop0).map Res.cmds =
    some [[], [.swapOut], [.swapOut], [.preclear], [.swapOut, .swapOut], [], []] := by decide +kernel

/-- Two dtypes of one array: the counters do not return to zero, `schedule()` raises "unclassified". -/
def twoDt : Cfg (Fin 2) (Fin 2) :=
  { order := [⟨.get, 0, 1, true, false, false⟩, ⟨.get, 0, 0, true, false, false⟩, ⟨.get, 1, 0, true, false, false⟩,
      ⟨.get, 0, 0, false, false, false⟩]
    fe := [0, 2, 3, 4], size := fun _ => 1, szd := fun d => [1, 2].getD d 0, maxBytes := 3, maxPre := 3,
    castPrefetch := false, heads := fun _ => (false, 0) }

def Res.isUncl {α : Type} : Res α → Bool
  | .unclassified => true
  | _ => false

/-- C99 without the hypothesis on dtypes is false: the self-check fails. -/
theorem c99_two_dtypes : twoDt.WF ∧ (scheduleLoop twoDt 20 stop0).map Res.isUncl = some true := by
  refine ⟨⟨by decide, fun i j hij hj => ?_, by decide⟩, by decide +kernel⟩
  have hj : j < 4 := hj
  have : ∀ j < 4, ∀ i ≤ j, twoDt.fend i ≤ twoDt.fend j := by decide
  exact this j hj i hij

/-! ### C100: termination -/

/-- C100.  The rescheduling loop of `schedule()` ends: after at most `records * functions` attempts
it returns a schedule or raises an error, for every recorded order, sizes and limits; and the
result does not depend on the bound on the number of attempts. -/
theorem c100_terminates (c : Cfg S D) (w : c.WF) :
    ∃ r, (∀ s, r ≠ .resched s) ∧ ∀ n, c.order.length * c.fe.length < n → scheduleLoop c n stop0 = some r := by
  have h1 : ∀ i, stop0 i ≤ c.fe.length := fun i => by have := w.two; unfold stop0; omega
  obtain ⟨r, hr, hn⟩ := scheduleLoop_some c w (c.order.length * c.fe.length + 1) stop0 h1 (by omega)
  exact ⟨r, hn, fun n hl => scheduleLoop_fuel c _ n stop0 r (by omega) hr⟩

example : exCfg.WF := exCfg_wf.1

/-! ### C101: an iteration reads the same data -/

section Contents
variable {V : Type}

omit [Fintype S] in
/-- C101, any program.  Within one scheduled iteration, whatever the program does and whatever
commands run: either the tracer raises an error, or everything the program reads is what it would
read without the scheduler, and at the end all arrays have the same contents except those that were
cleared early and not yet cleared by the program. -/
theorem c101_any_program (es : List (TEv S V)) (hs : ∀ e ∈ es, e ≠ TEv.start) (x : S → Option V) (τ : TState S V)
    (h : trun es ⟨x, fun _ => false, []⟩ = some τ) :
    τ.log = (plain es (x, [])).2 ∧ ∀ s, τ.pre s = false → τ.content s = (plain es (x, [])).1 s :=
  trun_plain es hs _ τ x h fun _ _ => rfl

example : ∃ τ, trun (V := Nat) (S := Fin 2) [.act (.cast 0 fun _ => some 3), .act (.get 0), .preclear 0, .move, .act (.clear 0),
    .act (.get 1)] ⟨fun _ => none, fun _ => false, []⟩ = some τ ∧ τ.log = [none, some 3, none] := ⟨_, rfl, rfl⟩

/-- The error is raised, where data would be lost. -/
example : trun (V := Nat) (S := Fin 2) [.act (.cast 0 fun _ => some 3), .preclear 0, .act (.get 0)]
    ⟨fun _ => none, fun _ => false, []⟩ = none := rfl

theorem timeline_nostart (c : Cfg S D) (acts : Nat → Act S V) (beg : Nat → List Sched) (en : List (List Sched)) :
    ∀ e ∈ (timeline c beg en).map (toT c acts), e ≠ TEv.start := by
  intro e he
  obtain ⟨x, -, rfl⟩ := List.mem_map.mp he
  cases x with
  | use i => simp [toT]
  | cmd x =>
    rw [show toT c acts (.cmd x) = if x.tag = .preclear then (match c.order[x.r]? with
      | none => .move
      | some r => .preclear r.said) else .move from rfl]
    by_cases h : x.tag = .preclear
    · rw [if_pos h]
      cases c.order[x.r]? <;> simp
    · rw [if_neg h]; simp
  | done f => simp [toT]

/-- C101, following the record.  If the iteration accesses the arrays in the recorded order, then
under every schedule that `schedule()` returns no error is raised, everything read is what would be
read without the scheduler, and at the end all arrays have the same contents. -/
theorem c101_recorded_order (c : Cfg S D) (w : c.WF) (n : Nat) (p : P S D) (hr : scheduleLoop c n stop0 = some (.ok p))
    (acts : Nat → Act S V) (hf : Follows c acts) (x : S → Option V) :
    ∃ τ, trun ((timeline c p.beg p.en).map (toT c acts)) ⟨x, fun _ => false, []⟩ = some τ ∧
      τ.log = (plain ((timeline c p.beg p.en).map (toT c acts)) (x, [])).2 ∧
      τ.content = (plain ((timeline c p.beg p.en).map (toT c acts)) (x, [])).1 := by
  obtain ⟨stop, hs⟩ := scheduleLoop_attempt c n stop0 _ hr
  obtain ⟨τ, h1, h2⟩ := trun_timeline c w acts hf p.beg p.en (attempt_pk c stop p hs) ⟨x, fun _ => false, []⟩ fun _ => rfl
  obtain ⟨h3, h4⟩ := c101_any_program _ (timeline_nostart c acts p.beg p.en) x τ h1
  exact ⟨τ, h1, h3, funext fun s => h4 s (h2 s)⟩

/-- Accesses that follow the record of the example. -/
def exActs (i : Nat) : Act (Fin 4) Nat :=
  match exRec[i]? with
  | none => .get 0
  | some r => match r.tag with
    | .get => .get r.said
    | .cast => .cast r.said fun _ => some i
    | .clear => .clear r.said

example : Follows exCfg exActs := by
  intro i r h
  have h : exRec[i]? = some r := h
  unfold exActs
  rw [h]
  cases e : r.tag <;> simp [e, Act.on, Act.isClear]

/-! ### C102: across iterations -/

theorem plain_append (l m : List (TEv S V)) : ∀ x, plain (l ++ m) x = plain m (plain l x) := by
  induction l with
  | nil => intro x; rfl
  | cons e l ih => intro x; cases e <;> exact ih _

/-- C102.  Any number of iterations that follow the record: no error, and everything read in all of
them, and the final contents, are as without the scheduler.  Missing: iterations that do not follow
the record (`c102_lost`). -/
theorem c102_iterations_partial (c : Cfg S D) (w : c.WF) (n : Nat) (p : P S D) (hr : scheduleLoop c n stop0 = some (.ok p))
    (its : List (Nat → Act S V)) (hf : ∀ acts ∈ its, Follows c acts) : ∀ (x : S → Option V) (lg : List (Option V)),
    ∃ τ, trun (its.flatMap fun acts => .start :: (timeline c p.beg p.en).map (toT c acts)) ⟨x, fun _ => false, lg⟩ = some τ ∧
      (τ.content, τ.log) = plain (its.flatMap fun acts => .start :: (timeline c p.beg p.en).map (toT c acts)) (x, lg) := by
  obtain ⟨stop, hs⟩ := scheduleLoop_attempt c n stop0 _ hr
  induction its with
  | nil => intro x lg; exact ⟨_, rfl, rfl⟩
  | cons acts its ih =>
    intro x lg
    obtain ⟨τ, h1, h2⟩ := trun_timeline c w acts (hf acts (by simp)) p.beg p.en (attempt_pk c stop p hs)
      ⟨x, fun _ => false, lg⟩ fun _ => rfl
    obtain ⟨h3, h4⟩ := trun_plain _ (timeline_nostart c acts p.beg p.en) _ τ x h1 fun _ _ => rfl
    have hc : τ.content = (plain ((timeline c p.beg p.en).map (toT c acts)) (x, lg)).1 := funext fun s => h4 s (h2 s)
    have hp : τ.pre = fun _ => false := funext h2
    obtain ⟨τ', g1, g2⟩ := ih (fun a ha => hf a (List.mem_cons_of_mem _ ha)) τ.content τ.log
    refine ⟨τ', ?_, ?_⟩
    · rw [List.flatMap_cons, List.cons_append, trun]
      simp only [tstep]
      rw [trun_append, h1, Option.bind_some]
      have : τ = ⟨τ.content, fun _ => false, τ.log⟩ := by rw [← hp]
      rw [this]; exact g1
    · rw [List.flatMap_cons, List.cons_append, plain, plain_append, g2, hc, h3]
      simp

/-- C102 for arbitrary programs is false: an array cleared early in one iteration and not cleared by
the program there is read as empty in the next iteration, and no error is raised, because
`start_scheduling` forgets what was cleared early (cpp:76). -/
theorem c102_lost : ∃ (es : List (TEv (Fin 1) Nat)) (τ : TState (Fin 1) Nat),
    trun es ⟨fun _ => some 7, fun _ => false, []⟩ = some τ ∧ τ.log = [none] ∧
      (plain es (fun _ => some 7, [])).2 = [some 7] :=
  ⟨[.start, .preclear 0, .start, .act (.get 0)], _, rfl, rfl, rfl⟩

end Contents

end Verif.Lms
