/-
The reschedule loop of `schedule()` terminates: every reschedule raises a prefetch stopper.
-/
import Verif.Lms.Acct3

namespace Verif.Lms

variable {S D : Type} [DecidableEq S] [DecidableEq D] [Fintype D]

theorem waitImpl_head (c : Cfg S D) (p : P S D) : (waitImpl c p).head = p.head ∧ (waitImpl c p).fid = p.fid := by
  unfold waitImpl
  split
  · exact ⟨rfl, rfl⟩
  · simp only
    split <;> exact ⟨rfl, rfl⟩

theorem freeLoop_head (c : Cfg S D) (b n : Nat) : ∀ p : P S D,
    (freeLoop c b n p).head = p.head ∧ (freeLoop c b n p).fid = p.fid := by
  induction n with
  | zero => intro p; exact ⟨rfl, rfl⟩
  | succ n ih =>
    intro p
    unfold freeLoop
    split
    · obtain ⟨h1, h2⟩ := ih (waitImpl c p)
      obtain ⟨g1, g2⟩ := waitImpl_head c p
      exact ⟨h1.trans g1, h2.trans g2⟩
    · exact ⟨rfl, rfl⟩

theorem swapInFirst_head (c : Cfg S D) (i : Nat) (r : Rec S D) (p p' : P S D) (h : swapInFirst c i r p = some p') :
    p'.head = p.head ∧ p'.fid = p.fid := by
  unfold swapInFirst at h
  simp only at h
  split at h
  · cases h
  · split at h
    · split at h
      · have := (Option.some.inj h).symm
        rw [this]; exact ⟨rfl, rfl⟩
      · split at h
        · have := (Option.some.inj h).symm
          rw [this]; exact ⟨rfl, rfl⟩
        · unfold prefetch at h
          simp only at h
          generalize (if (p.ht r.said).1 = true ∧ (p.ht r.said).2 ≠ r.dtype then c.bytes r.said (p.ht r.said).2 else 0) = ex at h
          split at h
          · cases h
          · have := (Option.some.inj h).symm
            rw [this]
            split
            · exact freeLoop_head c _ _ p
            · exact freeLoop_head c _ _ p
    · split at h
      · have := (Option.some.inj h).symm
        rw [this]; exact ⟨rfl, rfl⟩
      · have := (Option.some.inj h).symm
        rw [this]
        exact freeLoop_head c _ _ p

/-- The queue contains no record whose stopper lies ahead. -/
def Passed (c : Cfg S D) (stop : Nat → Nat) (h f : Nat) : Prop :=
  ∀ i, c.fend 0 ≤ i → i < h → ∀ r, c.order[i]? = some r → r.tag ≠ .clear → stop i ≤ f

theorem Passed.succ {c : Cfg S D} {stop : Nat → Nat} {h f : Nat} (hp : Passed c stop h f)
    (hs : ∀ r, c.order[h]? = some r → r.tag ≠ .clear → stop h ≤ f) : Passed c stop (h + 1) f := by
  intro i h0 h1 r ho hc
  by_cases e : i = h
  · subst e; exact hs r ho hc
  · exact hp i h0 (by omega) r ho hc

theorem swapIn_passed (c : Cfg S D) (stop : Nat → Nat) (l : List (Rec S D)) : ∀ p : P S D, l = c.order.drop p.head →
    Passed c stop p.head p.fid → Passed c stop (swapIn c stop l p).head p.fid ∧ (swapIn c stop l p).fid = p.fid := by
  induction l with
  | nil => intro p _ h; exact ⟨h, rfl⟩
  | cons r rest ih =>
    intro p hl h
    have ho : c.order[p.head]? = some r := by
      have := congrArg (·[0]?) hl
      simpa using this.symm
    have hrest : rest = c.order.drop (p.head + 1) := by
      rw [← List.tail_drop, ← hl]; rfl
    unfold swapIn
    by_cases hcl : r.tag = .clear
    · rw [if_pos hcl]
      refine ih { p with head := p.head + 1 } hrest (h.succ fun r' h1 h2 => ?_)
      rw [ho] at h1; cases h1; exact absurd hcl h2
    · rw [if_neg hcl]
      by_cases hs : stop p.head > p.fid
      · rw [if_pos hs]; exact ⟨h, rfl⟩
      · rw [if_neg hs]
        have hn : Passed c stop (p.head + 1) p.fid := h.succ fun _ _ _ => by omega
        by_cases h0 : (p.st r.said r.dtype).count = 0
        · rw [if_pos h0]
          cases hfi : swapInFirst c p.head r p with
          | none => exact ⟨h, rfl⟩
          | some p' =>
            obtain ⟨g1, g2⟩ := swapInFirst_head c _ r p p' hfi
            have := ih (enqueue r p') (by rw [hrest]; change _ = c.order.drop (p'.head + 1); rw [g1])
              (by change Passed c stop (p'.head + 1) p'.fid; rw [g1, g2]; exact hn)
            change Passed c stop _ p'.fid ∧ _ = p'.fid at this
            rw [g2] at this; exact this
        · rw [if_neg h0]
          exact ih (enqueue r p) (by rw [hrest]; rfl) hn

theorem reserveLoop_inr (c : Cfg S D) (need n : Nat) : ∀ p q : P S D, reserveLoop c need n p = .inr q →
    q.head = p.head ∧ q.fid = p.fid ∧ wsub (wsub c.maxBytes q.sin) q.sout < need := by
  induction n with
  | zero =>
    intro p q h
    unfold reserveLoop at h
    split at h
    · rename_i hc
      have : p = q := by simpa using h
      subst this; exact ⟨rfl, rfl, hc⟩
    · cases h
  | succ n ih =>
    intro p q h
    unfold reserveLoop at h
    split at h
    · obtain ⟨h1, h2, h3⟩ := ih _ q h
      obtain ⟨g1, g2⟩ := waitImpl_head c p
      exact ⟨h1.trans g1, h2.trans g2, h3⟩
    · cases h

theorem reserveLoop_inl (c : Cfg S D) (need n : Nat) : ∀ p q : P S D, reserveLoop c need n p = .inl q →
    q.head = p.head ∧ q.fid = p.fid := by
  induction n with
  | zero =>
    intro p q h
    unfold reserveLoop at h
    split at h
    · cases h
    · have : p = q := by simpa using h
      subst this; exact ⟨rfl, rfl⟩
  | succ n ih =>
    intro p q h
    unfold reserveLoop at h
    split at h
    · obtain ⟨h1, h2⟩ := ih _ q h
      obtain ⟨g1, g2⟩ := waitImpl_head c p
      exact ⟨h1.trans g1, h2.trans g2⟩
    · have : p = q := by simpa using h
      subst this; exact ⟨rfl, rfl⟩

/-- What a reschedule does to the stoppers. -/
structure Raised (c : Cfg S D) (stop stop' : Nat → Nat) (fid : Nat) : Prop where
  le : ∀ i, stop i ≤ stop' i
  lt : ∃ i, i < c.order.length ∧ stop i < stop' i
  bd : ∀ i, stop' i ≤ max (stop i) (fid + 1)

theorem backtrack_spec (c : Cfg S D) (fid need : Nat) (bh : Nat) : ∀ (st : S → D → AState) (stop stop' : Nat → Nat) (av : Nat),
    backtrack c fid need bh st stop av = some stop' →
    (∀ i, i < bh → c.fend fid ≤ i + 1 → ∀ r, c.order[i]? = some r → r.tag ≠ .clear → stop i ≤ fid) →
    (∀ i, stop i ≤ stop' i) ∧ (∀ i, stop' i ≤ max (stop i) (fid + 1)) ∧
      (av < need → ∃ i, i < c.order.length ∧ stop i < stop' i) := by
  induction bh with
  | zero =>
    intro st stop stop' av h _
    unfold backtrack at h
    split at h
    · cases h
    · have : stop = stop' := by simpa using h
      subst this
      exact ⟨fun _ => le_refl _, fun _ => le_max_left _ _, fun h => by omega⟩
  | succ bh ih =>
    intro st stop stop' av h hs
    unfold backtrack at h
    by_cases hfe : c.fend fid ≤ bh + 1
    · rw [if_pos hfe] at h
      have hs' : ∀ i, i < bh → c.fend fid ≤ i + 1 → ∀ r, c.order[i]? = some r → r.tag ≠ .clear → stop i ≤ fid :=
        fun i hi => hs i (by omega)
      cases ho : c.order[bh]? with
      | none => rw [ho] at h; exact ih st stop stop' av h hs'
      | some r =>
        rw [ho] at h
        simp only at h
        have hlen : bh < c.order.length := (List.getElem?_eq_some_iff.mp ho).1
        by_cases hcl : r.tag = .clear
        · rw [if_pos hcl] at h; exact ih st stop stop' av h hs'
        · rw [if_neg hcl] at h
          have hbh : stop bh ≤ fid := hs bh (by omega) hfe r ho hcl
          by_cases h1 : acc st r.said = 1
          · simp only [h1, if_true] at h
            have hle : ∀ i, stop i ≤ (if i = bh then fid + 1 else stop i) := by
              intro i; split
              · rename_i e; subst e; omega
              · exact le_refl _
            have hbd : ∀ i, (if i = bh then fid + 1 else stop i) ≤ max (stop i) (fid + 1) := by
              intro i; split
              · exact le_max_right _ _
              · exact le_max_left _ _
            split at h
            · have : (fun i => if i = bh then fid + 1 else stop i) = stop' := by simpa using h
              subst this
              refine ⟨hle, hbd, fun _ => ⟨bh, hlen, ?_⟩⟩
              simp only [if_true]; omega
            · obtain ⟨g1, g2, g3⟩ := ih _ _ stop' _ h (fun i hi h2 r' ho' hc' => by
                rw [if_neg (by omega)]; exact hs' i hi h2 r' ho' hc')
              refine ⟨fun i => (hle i).trans (g1 i), fun i => ?_, fun _ => ⟨bh, hlen, ?_⟩⟩
              · refine (g2 i).trans (max_le (hbd i) (le_max_right _ _))
              · have := g1 bh
                simp only [if_true] at this
                omega
          · simp only [h1, if_false] at h
            split at h
            · rename_i hn
              have : stop = stop' := by simpa using h
              subst this
              exact ⟨fun _ => le_refl _, fun _ => le_max_left _ _, fun h => by omega⟩
            · exact ih _ stop stop' av h hs'
    · rw [if_neg hfe] at h
      split at h
      · cases h
      · have : stop = stop' := by simpa using h
        subst this
        exact ⟨fun _ => le_refl _, fun _ => le_max_left _ _, fun h => by omega⟩

theorem toIn_head (c : Cfg S D) (l : List Nat) (p : P S D) : (l.foldl (toInStep c) p).head = p.head ∧ (l.foldl (toInStep c) p).fid = p.fid := by
  rw [(toIn_spec c l p).1]; exact ⟨rfl, rfl⟩

theorem release_head (c : Cfg S D) (ci : ClearInfo) (i : Nat) (r : Rec S D) (p : P S D) :
    (release c ci i r p).head = p.head := by
  unfold release
  split
  · rfl
  · rfl
  · split <;> rfl

theorem swapOut_head (c : Cfg S D) (ci : ClearInfo) (l : List Nat) : ∀ p : P S D,
    (l.foldl (swapOutStep c ci) p).head = p.head := by
  induction l with
  | nil => intro p; rfl
  | cons i l ih =>
    intro p
    rw [List.foldl_cons, ih]
    unfold swapOutStep
    split
    · rfl
    · split
      · rfl
      · change (if _ then _ else _ : P S D).head = _
        split
        · exact release_head c ci i _ p
        · rfl

/-- One function: the queue has passed only records allowed so far, and a reschedule raises a stopper. -/
theorem step_passed (c : Cfg S D) (w : c.WF) (ci : ClearInfo) (stop : Nat → Nat) (p : P S D) (fid : Nat)
    (hf : 1 ≤ fid) (hfl : fid < c.fe.length) (h : Passed c stop p.head fid) :
    (∀ p', step c ci stop p fid = .ok p' → Passed c stop p'.head fid) ∧
    (∀ stop', step c ci stop p fid = .resched stop' → Raised c stop stop' fid) := by
  obtain ⟨g1, g2⟩ := swapIn_passed c stop (c.order.drop p.head) { p with fid := fid } rfl h
  change Passed c stop _ fid at g1
  change _ = fid at g2
  unfold step
  simp only
  generalize swapIn c stop (c.order.drop p.head) { p with fid := fid } = p1 at *
  unfold reserve
  simp only
  generalize hneed : ((unprefetchedKeys c p1).map fun k => c.bytes k.1 k.2).sum = need
  cases hl : reserveLoop c need (c.fbegin p1.fid - p1.tail) p1 with
  | inl q =>
    obtain ⟨k1, k2⟩ := reserveLoop_inl c need _ p1 q hl
    simp only
    constructor
    · intro p' hp
      split at hp
      · cases hp
      · have := (Res.ok.inj hp).symm
        have hh : p'.head = p1.head := by
          rw [this]
          unfold swapOut
          rw [swapOut_head]
          split
          · change ((List.foldl _ _ _ : P S D)).head = _
            rw [swapOut_head]
            change (unprefetchedToIn c _).head = _
            unfold unprefetchedToIn
            rw [(toIn_head c _ _).1]; exact k1
          · change (unprefetchedToIn c _).head = _
            unfold unprefetchedToIn
            rw [(toIn_head c _ _).1]; exact k1
        rw [hh]; exact g1
    · intro stop' hp
      split at hp <;> cases hp
  | inr q =>
    obtain ⟨k1, k2, k3⟩ := reserveLoop_inr c need _ p1 q hl
    simp only
    rw [k1, k2, g2]
    cases hb : backtrack c fid need p1.head q.st stop (wsub (wsub c.maxBytes q.sin) q.sout) with
    | none => exact ⟨fun p' hp => (by cases hp), fun stop' hp => (by cases hp)⟩
    | some stop1 =>
      refine ⟨fun p' hp => (by cases hp), fun stop' hp => ?_⟩
      have : stop1 = stop' := by simpa using hp
      subst this
      have hpos : c.fend 0 ≤ c.fend fid - 1 := by
        -- something is unprefetched, so the block is not empty
        have hne : unprefetchedKeys c p1 ≠ [] := by
          intro e
          rw [e] at hneed
          simp at hneed
          omega
        obtain ⟨k, hk⟩ := List.exists_mem_of_ne_nil _ hne
        obtain ⟨s, d⟩ := k
        obtain ⟨-, i, hi, -⟩ := (mem_keys c p1 s d).mp hk
        have := (mem_block c p1.fid i).mp hi
        rw [g2] at this
        have hfb : c.fbegin fid = c.fend (fid - 1) := by unfold Cfg.fbegin; rw [if_neg (by omega)]
        have := w.mono 0 (fid - 1) (by omega) (by omega)
        omega
      obtain ⟨m1, m2, m3⟩ := backtrack_spec c fid need p1.head q.st stop stop1 _ hb
        (fun i hi h2 r ho hc => g1 i (by omega) hi r ho hc)
      exact ⟨m1, m3 k3, m2⟩

theorem steps_passed (c : Cfg S D) (w : c.WF) (ci : ClearInfo) (stop : Nat → Nat) (n : Nat) : ∀ (fid : Nat) (p : P S D),
    1 ≤ fid → fid + n = c.fe.length → Passed c stop p.head (fid - 1) → ∀ stop',
    steps c ci stop (List.range' fid n) p = .resched stop' → ∃ f, f < c.fe.length ∧ Raised c stop stop' f := by
  induction n with
  | zero => intro fid p _ _ _ stop' h; simp [steps] at h
  | succ n ih =>
    intro fid p hf hn hp stop' h
    rw [List.range'_succ] at h
    unfold steps at h
    have hp' : Passed c stop p.head fid := fun i h0 h1 r h2 h3 => by have := hp i h0 h1 r h2 h3; omega
    obtain ⟨g1, g2⟩ := step_passed c w ci stop p fid hf (by omega) hp'
    cases hs : step c ci stop p fid with
    | ok p1 =>
      rw [hs] at h
      exact ih (fid + 1) p1 (by omega) (by omega) (g1 p1 hs) stop' h
    | resched s =>
      rw [hs] at h
      have : s = stop' := by simpa using h
      subst this
      exact ⟨fid, by omega, g2 s hs⟩
    | outOfMemory => rw [hs] at h; cases h
    | notPrefetched => rw [hs] at h; cases h
    | stateError => rw [hs] at h; cases h
    | unclassified => rw [hs] at h; cases h

theorem calcMem_head (c : Cfg S D) (n : Nat) : ∀ p p' : P S D, calcMem c n p = some p' → p'.head = p.head + n := by
  induction n with
  | zero => intro p p' h; have : p = p' := by simpa [calcMem] using h
            subst this; rfl
  | succ n ih =>
    intro p p' h
    unfold calcMem at h
    cases ho : c.order[p.head]? with
    | none => rw [ho] at h; simp only at h; have := ih _ p' h; simp only at this; omega
    | some r =>
      rw [ho] at h
      simp only at h
      split at h
      · have := ih _ p' h; simp only at this; omega
      · split at h
        · split at h
          · cases h
          · have := ih _ p' h; simp only [enqueue] at this; omega
        · have := ih _ p' h; simp only [enqueue] at this; omega

variable [Fintype S]

theorem attempt_raises (c : Cfg S D) (w : c.WF) (stop stop' : Nat → Nat) (h : attempt c stop = .resched stop') :
    ∃ f, f < c.fe.length ∧ Raised c stop stop' f := by
  unfold attempt at h
  cases hc : calcMem c (c.fend 0) (P.start c) with
  | none => rw [hc] at h; cases h
  | some p =>
    rw [hc] at h
    simp only at h
    have hh : p.head = c.fend 0 := by
      rw [calcMem_head c _ _ _ hc]; exact Nat.zero_add _
    have hp : Passed c stop p.head 0 := by
      intro i h0 h1; omega
    cases hs : steps c (clearInfo c) stop (List.range' 1 (c.fe.length - 1)) p with
    | ok p1 => rw [hs] at h; simp only at h; split at h <;> cases h
    | resched s =>
      rw [hs] at h
      have : s = stop' := by simpa using h
      subst this
      exact steps_passed c w _ stop _ 1 p (le_refl _) (by have := w.two; omega) hp s hs
    | outOfMemory => rw [hs] at h; cases h
    | notPrefetched => rw [hs] at h; cases h
    | stateError => rw [hs] at h; cases h
    | unclassified => rw [hs] at h; cases h

/-- Sum of the stoppers. -/
def stopSum (c : Cfg S D) (stop : Nat → Nat) : Nat := ∑ i ∈ Finset.range c.order.length, stop i

omit [Fintype S] in
theorem stopSum_lt (c : Cfg S D) (stop stop' : Nat → Nat) (f : Nat) (h : Raised c stop stop' f) :
    stopSum c stop < stopSum c stop' := by
  unfold stopSum
  obtain ⟨i, hi, hlt⟩ := h.lt
  exact Finset.sum_lt_sum (fun j _ => h.le j) ⟨i, Finset.mem_range.mpr hi, hlt⟩

omit [Fintype S] in
theorem stopSum_le (c : Cfg S D) (stop : Nat → Nat) (h : ∀ i, stop i ≤ c.fe.length) :
    stopSum c stop ≤ c.order.length * c.fe.length := by
  unfold stopSum
  calc _ ≤ ∑ _i ∈ Finset.range c.order.length, c.fe.length := Finset.sum_le_sum fun j _ => h j
    _ = _ := by simp

theorem scheduleLoop_some (c : Cfg S D) (w : c.WF) (n : Nat) : ∀ stop : Nat → Nat, (∀ i, stop i ≤ c.fe.length) →
    c.order.length * c.fe.length < n + stopSum c stop → ∃ r, scheduleLoop c n stop = some r ∧ ∀ s, r ≠ .resched s := by
  induction n with
  | zero =>
    intro stop hb h
    have := stopSum_le c stop hb
    omega
  | succ n ih =>
    intro stop hb h
    unfold scheduleLoop
    cases ha : attempt c stop with
    | resched stop' =>
      simp only
      obtain ⟨f, hf, hr⟩ := attempt_raises c w stop stop' ha
      have := stopSum_lt c stop stop' f hr
      refine ih stop' (fun i => (hr.bd i).trans (max_le (hb i) (by omega))) (by omega)
    | ok p => exact ⟨_, rfl, by simp⟩
    | outOfMemory => exact ⟨_, rfl, by simp⟩
    | notPrefetched => exact ⟨_, rfl, by simp⟩
    | stateError => exact ⟨_, rfl, by simp⟩
    | unclassified => exact ⟨_, rfl, by simp⟩

/-- The result does not depend on the fuel. -/
theorem scheduleLoop_fuel (c : Cfg S D) (n m : Nat) : ∀ (stop : Nat → Nat) (r : Res (P S D)), n ≤ m →
    scheduleLoop c n stop = some r → scheduleLoop c m stop = some r := by
  induction n generalizing m with
  | zero => intro stop r _ h; simp [scheduleLoop] at h
  | succ n ih =>
    intro stop r hm h
    obtain ⟨m, rfl⟩ : ∃ k, m = k + 1 := ⟨m - 1, by omega⟩
    unfold scheduleLoop at h ⊢
    cases ha : attempt c stop with
    | resched stop' =>
      rw [ha] at h; simp only at h ⊢
      exact ih m stop' r (by omega) h
    | ok p => rw [ha] at h; exact h
    | outOfMemory => rw [ha] at h; exact h
    | notPrefetched => rw [ha] at h; exact h
    | stateError => rw [ha] at h; exact h
    | unclassified => rw [ha] at h; exact h

/-- A result comes from an attempt. -/
theorem scheduleLoop_attempt (c : Cfg S D) (n : Nat) : ∀ (stop : Nat → Nat) (r : Res (P S D)),
    scheduleLoop c n stop = some r → ∃ stop', attempt c stop' = r := by
  induction n with
  | zero => intro stop r h; simp [scheduleLoop] at h
  | succ n ih =>
    intro stop r h
    unfold scheduleLoop at h
    cases ha : attempt c stop with
    | resched stop' => rw [ha] at h; exact ih stop' r h
    | ok p => rw [ha] at h; exact ⟨stop, by rw [ha]; simpa using h⟩
    | outOfMemory => rw [ha] at h; exact ⟨stop, by rw [ha]; simpa using h⟩
    | notPrefetched => rw [ha] at h; exact ⟨stop, by rw [ha]; simpa using h⟩
    | stateError => rw [ha] at h; exact ⟨stop, by rw [ha]; simpa using h⟩
    | unclassified => rw [ha] at h; exact ⟨stop, by rw [ha]; simpa using h⟩

/-- Under the accounting invariant the internal checks never fail. -/
theorem attempt_checks (c : Cfg S D) (dt : S → D) (w : c.WF) (u : Uni c dt) (hb : blk0 c dt ≤ c.maxBytes)
    (stop : Nat → Nat) : attempt c stop ≠ .stateError ∧ attempt c stop ≠ .unclassified := by
  obtain ⟨p0, h0, hi0, -, -⟩ := calcMem_start c dt w u hb
  have hstep : ∀ p f, step c (clearInfo c) stop p f ≠ .stateError ∧ step c (clearInfo c) stop p f ≠ .unclassified := by
    intro p f
    unfold step
    simp only
    have hres : ∀ p1 : P S D, reserve c stop p1 ≠ .stateError ∧ reserve c stop p1 ≠ .unclassified := by
      intro p1
      unfold reserve
      simp only
      split
      · split <;> exact ⟨by simp, by simp⟩
      · exact ⟨by simp, by simp⟩
    generalize swapIn c stop (c.order.drop p.head) { p with fid := f } = p1
    cases hr : reserve c stop p1 with
    | ok p2 => simp only; split <;> exact ⟨by simp, by simp⟩
    | resched s => exact ⟨by simp, by simp⟩
    | outOfMemory => exact ⟨by simp, by simp⟩
    | notPrefetched => exact ⟨by simp, by simp⟩
    | stateError => exact absurd hr (hres p1).1
    | unclassified => exact absurd hr (hres p1).2
  have hsteps : ∀ l p, steps c (clearInfo c) stop l p ≠ .stateError ∧ steps c (clearInfo c) stop l p ≠ .unclassified := by
    intro l
    induction l with
    | nil => intro p; unfold steps; exact ⟨by simp, by simp⟩
    | cons f l ih =>
      intro p
      unfold steps
      cases hs : step c (clearInfo c) stop p f with
      | ok p2 => exact ih p2
      | resched s => exact ⟨by simp, by simp⟩
      | outOfMemory => exact ⟨by simp, by simp⟩
      | notPrefetched => exact ⟨by simp, by simp⟩
      | stateError => exact absurd hs (hstep p f).1
      | unclassified => exact absurd hs (hstep p f).2
  unfold attempt
  rw [h0]
  simp only
  have htwo := w.two
  cases hs : steps c (clearInfo c) stop (List.range' 1 (c.fe.length - 1)) p0 with
  | ok p1 =>
    simp only
    have h1 := steps_inv c dt w u (clearInfo c) stop (c.fe.length - 1) 1 p0 p1 (le_refl _) (by omega) hi0 (by omega) hs
    obtain ⟨k1, k2, k3⟩ := waitAll_inv c dt u c.order.length (c.order.length - p1.tail) { p1 with fid := c.fe.length }
      (h1.setFid _) (by have := h1.tailq; change p1.tail + _ = _; omega)
    rw [if_pos (endOk_of_inv c dt _ k1 k2)]
    exact ⟨by simp, by simp⟩
  | resched s => exact ⟨by simp, by simp⟩
  | outOfMemory => exact ⟨by simp, by simp⟩
  | notPrefetched => exact ⟨by simp, by simp⟩
  | stateError => exact absurd hs (hsteps _ _).1
  | unclassified => exact absurd hs (hsteps _ _).2

end Verif.Lms
