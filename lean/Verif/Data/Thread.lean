import Verif.Data.Lemmas
/-
Specification and proofs for the threaded DataIterator: for every schedule it returns what a
sequential iterator returns that fetches again, once, when the source failed.
-/
namespace Verif.Data
variable {S D : Type}

/-- Sequential specification of the threaded `next()`: like `nextPlain`, but a failed fetch
(`None`) is tried a second time before `None` is returned to the caller. -/
def nextRetry (src : Source S D) (c : Cfg) (it : It S) : Out D × It S :=
  match fetch src c it.s with
  | (some (data, nReset), s) =>
    let r := runCallbacks nReset it.epoch it.log
    (.batch data, ⟨s, r.1, r.2⟩)
  | (none, s) =>
    if c.stop = true ∧ src.pos s + c.batch ≥ c.size then (.stopIteration, { it with s := s })
    else match fetch src c s with
      | (some (data, nReset), s) =>
        let r := runCallbacks nReset it.epoch it.log
        (.batch data, ⟨s, r.1, r.2⟩)
      | (none, s) => (.noneData, { it with s := s })

/-- Where the worker is in the computation of `fetch src c s0`. -/
inductive Working (src : Source S D) (c : Cfg) (s0 : S) (t : TState S D) : Prop
  | start (h : t.thread = .start) (hq : t.queue = []) (hs : t.s = s0)
  | loop (b acc r) (h : t.thread = .loop b acc r) (hq : t.queue = [])
      (hs : batchLoop src c b t.s acc r = fetch src c s0) (hb : b ≤ c.batch)
  | done (item) (h : t.thread = .idle) (hq : t.queue = [item]) (hs : fetch src c s0 = (item, t.s))

/-- Invariant: `q` is the state of the sequential iterator after the outputs delivered so far. -/
inductive TInv (src : Source S D) (c : Cfg) (q : It S) (t : TState S D) : Prop
  | get (hpc : t.pc = .get) (hw : Working src c q.s t)
  | join (item) (hpc : t.pc = .join item) (h : t.thread = .idle) (hq : t.queue = [])
      (hs : fetch src c q.s = (item, t.s))
  | retryGet (s1) (hpc : t.pc = .retryGet) (hf : fetch src c q.s = (none, s1))
      (hns : ¬ (c.stop = true ∧ src.pos s1 + c.batch ≥ c.size)) (hw : Working src c s1 t)
  | retryJoin (s1 item) (hpc : t.pc = .retryJoin item) (hf : fetch src c q.s = (none, s1))
      (hns : ¬ (c.stop = true ∧ src.pos s1 + c.batch ≥ c.size)) (h : t.thread = .idle)
      (hq : t.queue = []) (hs : fetch src c s1 = (item, t.s))

/-- Nothing can ever move again. -/
def Stuck (t : TState S D) : Prop := t.pc = .get ∧ t.queue = [] ∧ t.thread = .idle

theorem Stuck.step {src : Source S D} {c : Cfg} {t : TState S D} (h : Stuck t) (sch : List Bool) :
    runSched src c sch t = t := by
  induction sch with
  | nil => rfl
  | cons b r ih =>
    obtain ⟨h1, h2, h3⟩ := h
    cases b
    · simp [runSched, threadStep, h3, ih]
    · simp [runSched, mainStep, h1, h2, ih]

/-- `t` shows exactly the effects of `m` sequential calls. -/
structure Agrees (src : Source S D) (c : Cfg) (s : S) (m : Nat) (t : TState S D) : Prop where
  outs : t.outs = (iter (nextRetry src c) m (initIt src s)).1
  epoch : t.epoch = (after (nextRetry src c) m (initIt src s)).epoch
  log : t.log = (after (nextRetry src c) m (initIt src s)).log

def Reach (src : Source S D) (c : Cfg) (s : S) (t : TState S D) : Prop :=
  ∃ m, Agrees src c s m t ∧
    ((TInv src c (after (nextRetry src c) m (initIt src s)) t ∧ Out.stopIteration ∉ t.outs) ∨
     (Stuck t ∧ ∃ l, t.outs = l ++ [.stopIteration]))

theorem fetch_of_start {src : Source S D} {c : Cfg} {s : S}
    (h : ¬ (src.pos s + c.batch > c.size ∧ c.stop = true)) :
    batchLoop src c c.batch s [] 0 = fetch src c s := by rw [fetch, if_neg h]

theorem Working.step {src : Source S D} {c : Cfg} {s0 : S} {t : TState S D}
    (h : Working src c s0 t) : Working src c s0 (threadStep src c t) := by
  cases h with
  | start h hq hs =>
    unfold threadStep
    rw [h]
    simp only
    split
    · rename_i hc
      refine .done none rfl (by simp [hq]) ?_
      rw [fetch, ← hs, if_pos hc]
    · rename_i hc
      refine .loop c.batch [] 0 rfl hq ?_ (Nat.le_refl _)
      simp only
      rw [← hs]
      exact fetch_of_start hc
  | loop b acc r h hq hs hb =>
    unfold threadStep
    rw [h]
    cases b with
    | zero =>
      simp only
      refine .done (some (acc, r)) rfl (by simp [hq]) ?_
      rw [← hs, batchLoop]
    | succ b =>
      simp only
      rw [batchLoop] at hs
      generalize hnx : src.next t.s = nx at hs
      obtain ⟨o, s1⟩ := nx
      cases o with
      | none =>
        simp only at hs ⊢
        exact .done none rfl (by simp [hq]) hs.symm
      | some d =>
        simp only at hs ⊢
        split
        · rename_i hc
          rw [if_pos hc] at hs
          exact .loop b _ _ rfl hq hs (by omega)
        · rename_i hc
          rw [if_neg hc] at hs
          exact .loop b _ _ rfl hq hs (by omega)
  | done item h hq hs =>
    have : threadStep src c t = t := by simp [threadStep, h]
    rw [this]
    exact .done item h hq hs

theorem threadStep_frame (src : Source S D) (c : Cfg) (t : TState S D) :
    (threadStep src c t).pc = t.pc ∧ (threadStep src c t).epoch = t.epoch ∧
    (threadStep src c t).log = t.log ∧ (threadStep src c t).outs = t.outs := by
  unfold threadStep
  split
  · simp
  · split <;> simp
  · simp
  · split
    · simp
    · split <;> simp

theorem reach_init (src : Source S D) (c : Cfg) (s : S) : Reach src c s (tInit src s) := by
  refine ⟨0, ⟨rfl, rfl, rfl⟩, .inl ⟨.get rfl (.start rfl rfl rfl), by simp [tInit]⟩⟩

theorem agrees_succ {src : Source S D} {c : Cfg} {s : S} {m : Nat} {t : TState S D}
    (h : Agrees src c s m t) {o : Out D} {q' : It S}
    (hq : nextRetry src c (after (nextRetry src c) m (initIt src s)) = (o, q'))
    {t' : TState S D} (h1 : t'.outs = t.outs ++ [o]) (h2 : t'.epoch = q'.epoch)
    (h3 : t'.log = q'.log) :
    Agrees src c s (m + 1) t' ∧ after (nextRetry src c) (m + 1) (initIt src s) = q' := by
  have ha : after (nextRetry src c) (m + 1) (initIt src s) = q' := by rw [after_succ, hq]
  refine ⟨⟨?_, ?_, ?_⟩, ha⟩
  · rw [iter_succ, h1, h.outs, nth, hq]
  · rw [ha, h2]
  · rw [ha, h3]

theorem reach_deliver {src : Source S D} {c : Cfg} {s : S} {m : Nat} {t : TState S D}
    (ha : Agrees src c s m t) (hns : Out.stopIteration ∉ t.outs) (hq : t.queue = [])
    (item : Option (List D × Nat))
    (hn : nextRetry src c (after (nextRetry src c) m (initIt src s)) =
      match item with
      | some (data, nReset) =>
        (.batch data, ⟨t.s, (runCallbacks nReset t.epoch t.log).1, (runCallbacks nReset t.epoch t.log).2⟩)
      | none => (.noneData, { after (nextRetry src c) m (initIt src s) with s := t.s })) :
    Reach src c s (deliver item t) := by
  cases item with
  | none =>
    simp only at hn
    obtain ⟨h1, h2⟩ := agrees_succ ha hn (t' := deliver none t) rfl ha.epoch ha.log
    refine ⟨m + 1, h1, .inl ⟨?_, by simp [deliver, hns]⟩⟩
    rw [h2]
    exact .get rfl (.start rfl hq rfl)
  | some x =>
    obtain ⟨data, nr⟩ := x
    simp only at hn
    obtain ⟨h1, h2⟩ := agrees_succ ha hn (t' := deliver (some (data, nr)) t) rfl rfl rfl
    refine ⟨m + 1, h1, .inl ⟨?_, by simp [deliver, hns]⟩⟩
    rw [h2]
    exact .get rfl (.start rfl hq rfl)

theorem reach_main {src : Source S D} {c : Cfg} {s : S} {t : TState S D}
    (h : Reach src c s t) : Reach src c s (mainStep src c t) := by
  obtain ⟨m, ha, h⟩ := h
  rcases h with ⟨h, hns⟩ | ⟨h, hl⟩
  · cases h with
    | get hpc hw =>
      unfold mainStep
      rw [hpc]
      cases hw with
      | start h hq hs => simp only [hq]; exact ⟨m, ha, .inl ⟨.get hpc (.start h hq hs), hns⟩⟩
      | loop b acc r h hq hs hb =>
        simp only [hq]; exact ⟨m, ha, .inl ⟨.get hpc (.loop b acc r h hq hs hb), hns⟩⟩
      | done item h hq hs =>
        simp only [hq]
        exact ⟨m, ⟨ha.outs, ha.epoch, ha.log⟩, .inl ⟨.join item rfl h rfl hs, hns⟩⟩
    | join item hpc h hq hs =>
      unfold mainStep
      rw [hpc]
      simp only [h]
      cases item with
      | none =>
        simp only
        split
        · rename_i hc
          have hn : nextRetry src c (after (nextRetry src c) m (initIt src s)) =
            (.stopIteration, { after (nextRetry src c) m (initIt src s) with s := t.s }) := by
            rw [nextRetry, hs]; simp only [if_pos hc]
          obtain ⟨h1, _⟩ := agrees_succ ha hn
            (t' := { t with thread := .idle, pc := .get, outs := t.outs ++ [.stopIteration] })
            rfl ha.epoch ha.log
          exact ⟨m + 1, h1, .inr ⟨⟨rfl, hq, rfl⟩, _, rfl⟩⟩
        · rename_i hc
          exact ⟨m, ⟨ha.outs, ha.epoch, ha.log⟩,
            .inl ⟨.retryGet t.s rfl hs hc (.start rfl hq rfl), hns⟩⟩
      | some x =>
        obtain ⟨data, nr⟩ := x
        simp only
        apply reach_deliver ha hns hq
        simp only
        rw [nextRetry, hs, ha.epoch, ha.log]
    | retryGet s1 hpc hf hn hw =>
      unfold mainStep
      rw [hpc]
      cases hw with
      | start h hq hs =>
        simp only [hq]; exact ⟨m, ha, .inl ⟨.retryGet s1 hpc hf hn (.start h hq hs), hns⟩⟩
      | loop b acc r h hq hs hb =>
        simp only [hq]; exact ⟨m, ha, .inl ⟨.retryGet s1 hpc hf hn (.loop b acc r h hq hs hb), hns⟩⟩
      | done item h hq hs =>
        simp only [hq]
        exact ⟨m, ⟨ha.outs, ha.epoch, ha.log⟩, .inl ⟨.retryJoin s1 item rfl hf hn h rfl hs, hns⟩⟩
    | retryJoin s1 item hpc hf hn h hq hs =>
      unfold mainStep
      rw [hpc]
      simp only [h]
      apply reach_deliver ha hns hq
      rw [nextRetry, hf]
      simp only [if_neg hn, hs]
      cases item with
      | none => rfl
      | some x => simp only; rw [ha.epoch, ha.log]
  · have : mainStep src c t = t := h.step (src := src) (c := c) [true]
    rw [this]
    exact ⟨m, ha, .inr ⟨h, hl⟩⟩

theorem reach_thread {src : Source S D} {c : Cfg} {s : S} {t : TState S D}
    (h : Reach src c s t) : Reach src c s (threadStep src c t) := by
  obtain ⟨m, ha, h⟩ := h
  obtain ⟨f1, f2, f3, f4⟩ := threadStep_frame src c t
  have ha' : Agrees src c s m (threadStep src c t) :=
    ⟨by rw [f4]; exact ha.outs, by rw [f2]; exact ha.epoch, by rw [f3]; exact ha.log⟩
  rcases h with ⟨h, hns⟩ | ⟨h, hl⟩
  · refine ⟨m, ha', .inl ⟨?_, by rw [f4]; exact hns⟩⟩
    cases h with
    | get hpc hw => exact .get (by rw [f1]; exact hpc) hw.step
    | join item hpc h hq hs =>
      have : threadStep src c t = t := by simp [threadStep, h]
      rw [this]; exact .join item hpc h hq hs
    | retryGet s1 hpc hf hn hw => exact .retryGet s1 (by rw [f1]; exact hpc) hf hn hw.step
    | retryJoin s1 item hpc hf hn h hq hs =>
      have : threadStep src c t = t := by simp [threadStep, h]
      rw [this]; exact .retryJoin s1 item hpc hf hn h hq hs
  · have : threadStep src c t = t := h.step (src := src) (c := c) [false]
    rw [this]
    exact ⟨m, ha, .inr ⟨h, hl⟩⟩

theorem reach_run {src : Source S D} {c : Cfg} {s : S} (sch : List Bool) {t : TState S D}
    (h : Reach src c s t) : Reach src c s (runSched src c sch t) := by
  induction sch generalizing t with
  | nil => exact h
  | cons b r ih =>
    cases b
    · exact ih (reach_thread h)
    · exact ih (reach_main h)

/-! ### Progress -/

/-- Steps left before the worker has put its item. -/
def workLeft (c : Cfg) (t : TState S D) : Nat :=
  match t.thread with
  | .idle => 0
  | .start => c.batch + 2
  | .loop b _ _ => b + 1

/-- Steps left before the current `next()` returns. -/
def measure (c : Cfg) (t : TState S D) : Nat :=
  match t.pc with
  | .get => workLeft c t + (c.batch + 6)
  | .join _ => c.batch + 5
  | .retryGet => workLeft c t + 2
  | .retryJoin _ => 1

theorem work_dec {src : Source S D} {c : Cfg} {s0 : S} {t : TState S D} (h : Working src c s0 t)
    (hne : t.queue = []) : workLeft c (threadStep src c t) < workLeft c t := by
  cases h with
  | start h hq hs =>
    unfold threadStep; rw [h]; simp only
    split <;> simp [workLeft, h]
  | loop b acc r h hq hs =>
    unfold threadStep; rw [h]
    cases b with
    | zero => simp [workLeft, h]
    | succ b =>
      simp only
      split
      · simp [workLeft, h]
      · split <;> simp [workLeft, h]
  | done item h hq hs => simp [hne] at hq

theorem work_keep {src : Source S D} {c : Cfg} {s0 : S} {t : TState S D} (h : Working src c s0 t)
    (hne : t.queue ≠ []) : threadStep src c t = t := by
  cases h with
  | start h hq hs => exact absurd hq hne
  | loop b acc r h hq hs => exact absurd hq hne
  | done item h hq hs => simp [threadStep, h]

/-- Each step of either side leaves the state alone, or decreases the measure, or completes a call;
and one of the two sides is not blocked. -/
theorem step_progress {src : Source S D} {c : Cfg} {q : It S} {t : TState S D}
    (h : TInv src c q t) :
    (threadStep src c t = t ∨ measure c (threadStep src c t) < measure c t) ∧
    (mainStep src c t = t ∨ measure c (mainStep src c t) < measure c t ∧ (mainStep src c t).outs = t.outs ∨
      (mainStep src c t).outs.length = t.outs.length + 1) ∧
    (measure c (threadStep src c t) < measure c t ∨ measure c (mainStep src c t) < measure c t ∨
      (mainStep src c t).outs.length = t.outs.length + 1) := by
  obtain ⟨f1, -, -, -⟩ := threadStep_frame src c t
  cases h with
  | get hpc hw =>
    by_cases hq : t.queue = []
    · have hd := work_dec hw hq
      have hm : measure c (threadStep src c t) < measure c t := by
        unfold measure; rw [f1, hpc]; simp only; omega
      exact ⟨.inr hm, .inl (by simp [mainStep, hpc, hq]), .inl hm⟩
    · have hk := work_keep hw hq
      cases hw with
      | start h hq' hs => exact absurd hq' hq
      | loop b acc r h hq' hs => exact absurd hq' hq
      | done item h hq' hs =>
        have hm : measure c (mainStep src c t) < measure c t := by
          unfold mainStep; rw [hpc]; simp only [hq']; simp [measure, hpc, workLeft, h]
        exact ⟨.inl hk, .inr (.inl ⟨hm, by simp [mainStep, hpc, hq']⟩), .inr (.inl hm)⟩
  | join item hpc h hq hs =>
    have hk : threadStep src c t = t := by simp [threadStep, h]
    cases item with
    | none =>
      by_cases hc : c.stop = true ∧ src.pos t.s + c.batch ≥ c.size
      · have hm : (mainStep src c t).outs.length = t.outs.length + 1 := by
          simp only [mainStep, hpc, h]; rw [if_pos hc]; simp
        exact ⟨.inl hk, .inr (.inr hm), .inr (.inr hm)⟩
      · have hm : measure c (mainStep src c t) < measure c t := by
          have : mainStep src c t = { t with pc := .retryGet, thread := .start } := by
            simp only [mainStep, hpc, h]; rw [if_neg hc]
          rw [this]; simp [measure, hpc, workLeft]
        have ho : (mainStep src c t).outs = t.outs := by
          simp only [mainStep, hpc, h]; rw [if_neg hc]
        exact ⟨.inl hk, .inr (.inl ⟨hm, ho⟩), .inr (.inl hm)⟩
    | some x =>
      have hm : (mainStep src c t).outs.length = t.outs.length + 1 := by
        obtain ⟨d, r⟩ := x
        simp [mainStep, hpc, h, deliver]
      exact ⟨.inl hk, .inr (.inr hm), .inr (.inr hm)⟩
  | retryGet s1 hpc hf hn hw =>
    by_cases hq : t.queue = []
    · have hd := work_dec hw hq
      have hm : measure c (threadStep src c t) < measure c t := by
        unfold measure; rw [f1, hpc]; simp only; omega
      exact ⟨.inr hm, .inl (by simp [mainStep, hpc, hq]), .inl hm⟩
    · have hk := work_keep hw hq
      cases hw with
      | start h hq' hs => exact absurd hq' hq
      | loop b acc r h hq' hs => exact absurd hq' hq
      | done item h hq' hs =>
        have hm : measure c (mainStep src c t) < measure c t := by
          unfold mainStep; rw [hpc]; simp only [hq']; simp [measure, hpc, workLeft, h]
        exact ⟨.inl hk, .inr (.inl ⟨hm, by simp [mainStep, hpc, hq']⟩), .inr (.inl hm)⟩
  | retryJoin s1 item hpc hf hn h hq hs =>
    have hk : threadStep src c t = t := by simp [threadStep, h]
    have hm : (mainStep src c t).outs.length = t.outs.length + 1 := by
      simp only [mainStep, hpc, h]
      cases item with
      | none => simp [deliver]
      | some x => obtain ⟨d, r⟩ := x; simp [deliver]
    exact ⟨.inl hk, .inr (.inr hm), .inr (.inr hm)⟩

theorem mainStep_outs_mono (src : Source S D) (c : Cfg) (t : TState S D) :
    t.outs.length ≤ (mainStep src c t).outs.length := by
  have hd : ∀ item, t.outs.length ≤ (deliver item t).outs.length := by
    intro item
    cases item with
    | none => simp [deliver]
    | some x => obtain ⟨d, r⟩ := x; simp [deliver]
  unfold mainStep
  split
  · split <;> simp
  · split
    · split
      · split <;> simp
      · exact hd _
    · simp
  · split <;> simp
  · split
    · exact hd _
    · simp

theorem run_outs_mono (src : Source S D) (c : Cfg) (sch : List Bool) (t : TState S D) :
    t.outs.length ≤ (runSched src c sch t).outs.length := by
  induction sch generalizing t with
  | nil => simp [runSched]
  | cons b r ih =>
    cases b
    · rw [runSched]
      have := ih (threadStep src c t)
      rw [(threadStep_frame src c t).2.2.2] at this
      exact this
    · rw [runSched]; exact Nat.le_trans (mainStep_outs_mono src c t) (ih _)

/-- A schedule that lets both sides move completes a call or decreases the measure. -/
theorem block_progress {src : Source S D} {c : Cfg} {s : S} (sch : List Bool)
    (hb : true ∈ sch ∧ false ∈ sch) {t : TState S D} (h : Reach src c s t)
    (hns : Out.stopIteration ∉ t.outs) :
    t.outs.length < (runSched src c sch t).outs.length ∨
    ((runSched src c sch t).outs = t.outs ∧ measure c (runSched src c sch t) < measure c t) := by
  -- general statement: any schedule is fine or decreasing, and strictly so if it contains an unblocked move
  have gen : ∀ (sch : List Bool) (t : TState S D), Reach src c s t → Out.stopIteration ∉ t.outs →
      (t.outs.length < (runSched src c sch t).outs.length ∨
        ((runSched src c sch t).outs = t.outs ∧
          (runSched src c sch t = t ∧ ¬ (true ∈ sch ∧ false ∈ sch) ∨
            measure c (runSched src c sch t) < measure c t))) ∧
      ((false ∈ sch ∧ measure c (threadStep src c t) < measure c t) ∨
       (true ∈ sch ∧ (measure c (mainStep src c t) < measure c t ∨
          (mainStep src c t).outs.length = t.outs.length + 1)) →
        t.outs.length < (runSched src c sch t).outs.length ∨
        ((runSched src c sch t).outs = t.outs ∧ measure c (runSched src c sch t) < measure c t)) := by
    intro sch
    induction sch with
    | nil => intro t _ _; simp [runSched]
    | cons b r ih =>
      intro t h hns
      have hq : ∃ q, TInv src c q t := by
        obtain ⟨m, -, h⟩ := h
        rcases h with ⟨h, -⟩ | ⟨-, l, hl⟩
        · exact ⟨_, h⟩
        · rw [hl] at hns; simp at hns
      obtain ⟨q, hT⟩ := hq
      obtain ⟨p1, p2, p3⟩ := step_progress hT
      have main : (false ∈ (b :: r) ∧ measure c (threadStep src c t) < measure c t) ∨
          (true ∈ (b :: r) ∧ (measure c (mainStep src c t) < measure c t ∨
            (mainStep src c t).outs.length = t.outs.length + 1)) →
          t.outs.length < (runSched src c (b :: r) t).outs.length ∨
          ((runSched src c (b :: r) t).outs = t.outs ∧
            measure c (runSched src c (b :: r) t) < measure c t) := by
        intro hyp
        cases b with
        | false =>
          rw [runSched]
          have hr' := reach_thread h
          have ho := (threadStep_frame src c t).2.2.2
          rcases p1 with p1 | p1
          · rw [p1]
            have hyp' : (false ∈ r ∧ measure c (threadStep src c t) < measure c t) ∨
              (true ∈ r ∧ (measure c (mainStep src c t) < measure c t ∨
                (mainStep src c t).outs.length = t.outs.length + 1)) := by
              rcases hyp with ⟨-, hyp⟩ | ⟨hm, hyp⟩
              · rw [p1] at hyp; exact absurd hyp (Nat.lt_irrefl _)
              · exact .inr ⟨by simpa using hm, hyp⟩
            exact (ih t h hns).2 hyp'
          · rcases (ih (threadStep src c t) hr' (by rw [ho]; exact hns)).1 with hh | ⟨hh, hh2⟩
            · rw [ho] at hh; exact .inl hh
            · refine .inr ⟨by rw [hh, ho], ?_⟩
              rcases hh2 with ⟨hh2, -⟩ | hh2
              · rw [hh2]; exact p1
              · omega
        | true =>
          rw [runSched]
          have hr' := reach_main h
          rcases p2 with p2 | ⟨p2, ho⟩ | p2
          · rw [p2]
            have hyp' : (false ∈ r ∧ measure c (threadStep src c t) < measure c t) ∨
              (true ∈ r ∧ (measure c (mainStep src c t) < measure c t ∨
                (mainStep src c t).outs.length = t.outs.length + 1)) := by
              rcases hyp with ⟨hm, hyp⟩ | ⟨hm, hyp⟩
              · exact .inl ⟨by simpa using hm, hyp⟩
              · rw [p2] at hyp; omega
            exact (ih t h hns).2 hyp'
          · rcases (ih (mainStep src c t) hr' (by rw [ho]; exact hns)).1 with hh | ⟨hh, hh2⟩
            · rw [ho] at hh; exact .inl hh
            · refine .inr ⟨by rw [hh, ho], ?_⟩
              rcases hh2 with ⟨hh2, -⟩ | hh2
              · rw [hh2]; exact p2
              · omega
          · have := run_outs_mono src c r (mainStep src c t)
            left; omega
      refine ⟨?_, main⟩
      by_cases hcov : true ∈ (b :: r) ∧ false ∈ (b :: r)
      · have hyp : (false ∈ (b :: r) ∧ measure c (threadStep src c t) < measure c t) ∨
          (true ∈ (b :: r) ∧ (measure c (mainStep src c t) < measure c t ∨
            (mainStep src c t).outs.length = t.outs.length + 1)) := by
          rcases p3 with p3 | p3 | p3
          · exact .inl ⟨hcov.2, p3⟩
          · exact .inr ⟨hcov.1, .inl p3⟩
          · exact .inr ⟨hcov.1, .inr p3⟩
        rcases main hyp with hh | ⟨hh, hh2⟩
        · exact .inl hh
        · exact .inr ⟨hh, .inr hh2⟩
      · cases b with
        | false =>
          rw [runSched]
          have ho := (threadStep_frame src c t).2.2.2
          rcases p1 with p1 | p1
          · rw [p1]
            rcases (ih t h hns).1 with hh | ⟨hh, ⟨hh2, -⟩ | hh2⟩
            · exact .inl hh
            · exact .inr ⟨hh, .inl ⟨hh2, hcov⟩⟩
            · exact .inr ⟨hh, .inr hh2⟩
          · rcases (ih (threadStep src c t) (reach_thread h) (by rw [ho]; exact hns)).1 with
              hh | ⟨hh, ⟨hh2, -⟩ | hh2⟩
            · rw [ho] at hh; exact .inl hh
            · exact .inr ⟨by rw [hh, ho], .inr (by rw [hh2]; exact p1)⟩
            · exact .inr ⟨by rw [hh, ho], .inr (by omega)⟩
        | true =>
          rw [runSched]
          rcases p2 with p2 | ⟨p2, ho⟩ | p2
          · rw [p2]
            rcases (ih t h hns).1 with hh | ⟨hh, ⟨hh2, -⟩ | hh2⟩
            · exact .inl hh
            · exact .inr ⟨hh, .inl ⟨hh2, hcov⟩⟩
            · exact .inr ⟨hh, .inr hh2⟩
          · rcases (ih (mainStep src c t) (reach_main h) (by rw [ho]; exact hns)).1 with
              hh | ⟨hh, ⟨hh2, -⟩ | hh2⟩
            · rw [ho] at hh; exact .inl hh
            · exact .inr ⟨by rw [hh, ho], .inr (by rw [hh2]; exact p2)⟩
            · exact .inr ⟨by rw [hh, ho], .inr (by omega)⟩
          · have := run_outs_mono src c r (mainStep src c t)
            left; omega
  rcases (gen sch t h hns).1 with hh | ⟨hh, ⟨-, hc⟩ | hh2⟩
  · exact .inl hh
  · exact absurd hb hc
  · exact .inr ⟨hh, hh2⟩

theorem runSched_append (src : Source S D) (c : Cfg) (a b : List Bool) (t : TState S D) :
    runSched src c (a ++ b) t = runSched src c b (runSched src c a t) := by
  induction a generalizing t with
  | nil => rfl
  | cons x r ih => cases x <;> simp [runSched, ih]

theorem blocks_progress {src : Source S D} {c : Cfg} {s : S} (l : List (List Bool))
    (hl : ∀ x ∈ l, true ∈ x ∧ false ∈ x) {t : TState S D} (h : Reach src c s t)
    (hns : Out.stopIteration ∉ t.outs) (hlen : measure c t < l.length) :
    t.outs.length < (runSched src c l.flatten t).outs.length := by
  induction l generalizing t with
  | nil => simp at hlen
  | cons x r ih =>
    rw [List.flatten_cons, runSched_append]
    rcases block_progress x (hl x (by simp)) h hns with hh | ⟨hh, hm⟩
    · exact Nat.lt_of_lt_of_le hh (run_outs_mono src c _ _)
    · have := ih (fun y hy => hl y (by simp [hy])) (reach_run x h) (by rw [hh]; exact hns)
        (by simp at hlen; omega)
      rw [hh] at this
      exact this

theorem TInv.measure_le {src : Source S D} {c : Cfg} {q : It S} {t : TState S D}
    (h : TInv src c q t) : measure c t ≤ 2 * c.batch + 8 := by
  have hw : ∀ s0, Working src c s0 t → workLeft c t ≤ c.batch + 2 := by
    intro s0 hw
    cases hw with
    | start h _ _ => simp [workLeft, h]
    | loop b acc r h _ _ hb => simp [workLeft, h]; omega
    | done item h _ _ => simp [workLeft, h]
  cases h with
  | get hpc hw' => have := hw _ hw'; simp only [measure, hpc]; omega
  | join item hpc => simp only [measure, hpc]; omega
  | retryGet s1 hpc hf hn hw' => have := hw _ hw'; simp only [measure, hpc]; omega
  | retryJoin s1 item hpc => simp only [measure, hpc]; omega

end Verif.Data
