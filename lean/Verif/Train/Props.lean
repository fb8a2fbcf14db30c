import Verif.Train.Model
/-
C35: dynamic loss scaling.
-/
namespace Verif.Train

/-! ### Specification -/

/-- The calls of one attempt made at loss scale `scale`, ending with the overflow check. -/
def attempt (c : Cfg) (scale : Rat) (overflow : Bool) : List Ev :=
  Ev.zeroGrad :: ((List.replicate c.accumGrad [Ev.feed, .forward, .backward scale]).flatten ++
    (if c.comm then [Ev.allReduce] else []) ++ [Ev.check overflow])

/-- The calls of `k` overflowing attempts, the scale being divided by `factor` after each. -/
def failed (c : Cfg) (scale : Rat) : Nat → List Ev
  | 0 => []
  | k + 1 => attempt c scale true ++ failed c (scale / c.factor) k

/-- The calls of applying gradients computed at `scale`. -/
def apply (c : Cfg) (scale : Rat) : List Ev :=
  Ev.scaleGrad (1 / scale) :: (c.weightDecay.toList.map Ev.weightDecay ++ [Ev.update])

/-- Number of overflowing attempts among the first `n`. -/
def overflows (ov : Nat → Bool) (n : Nat) : Nat := (List.range n).countP ov

/-! ### Lemmas -/

theorem pow_add' (x : Rat) (a b : Nat) : x ^ (a + b) = x ^ a * x ^ b := by
  induction b with
  | zero => simp
  | succ b ih => rw [← Nat.add_assoc, Rat.pow_succ, Rat.pow_succ, ih]; grind

theorem rounds_eq (scale : Rat) (n : Nat) :
    rounds scale n = (List.replicate n [Ev.feed, .forward, .backward scale]).flatten := by
  induction n with
  | zero => rfl
  | succ n ih => simp [rounds, ih, round, List.replicate_succ]

theorem prefix_eq (c : Cfg) (scale : Rat) (o : Bool) :
    prefixEvs c scale ++ [Ev.check o] = attempt c scale o := by
  simp [prefixEvs, attempt, rounds_eq]

/-- What `update` does, from `fuel = maxRec + 1 - recCount` remaining attempts. -/
theorem updateF_spec (c : Cfg) (ov : Nat → Bool) (fuel : Nat) (s : St)
    (hf : fuel + s.recCount = c.maxRec + 1) (hpos : 0 < fuel) :
    (∃ k, k < fuel ∧ (∀ j < k, ov (s.attempts + j) = true) ∧ ov (s.attempts + k) = false ∧
      updateF c ov fuel s =
        (let sc := s.scale / c.factor ^ k
         let ctr := if k = 0 then s.counter else 0
         { scale := if ctr > c.N then sc * c.factor else sc
           counter := if ctr > c.N then 1 else ctr + 1
           recCount := 0
           attempts := s.attempts + k + 1
           log := s.log ++ failed c s.scale k ++ attempt c sc false ++ apply c sc })) ∨
    ((∀ j < fuel, ov (s.attempts + j) = true) ∧
      updateF c ov fuel s =
        { scale := s.scale / c.factor ^ fuel
          counter := 0
          recCount := 0
          attempts := s.attempts + fuel
          log := s.log ++ failed c s.scale fuel }) := by
  induction fuel generalizing s with
  | zero => omega
  | succ fuel ih =>
    cases ho : ov s.attempts with
    | false =>
      left
      refine ⟨0, by omega, by omega, by simpa using ho, ?_⟩
      simp only [updateF, ho, Rat.pow_zero, if_pos]
      have e1 : s.scale / 1 = s.scale := by grind
      simp only [e1]
      have e2 : ∀ l, l ++ prefixEvs c s.scale ++ [Ev.check false] = l ++ attempt c s.scale false := by
        intro l; rw [List.append_assoc, prefix_eq]
      rw [e2]
      unfold finish apply
      cases c.weightDecay <;> by_cases hN : s.counter > c.N <;> simp [hN, failed]
    | true =>
      by_cases hr : s.recCount + 1 > c.maxRec
      · have hf0 : fuel = 0 := by omega
        subst hf0
        right
        refine ⟨?_, ?_⟩
        · intro j hj; have : j = 0 := by omega
          subst this; simpa using ho
        · simp only [updateF, ho, if_true, hr]
          have : s.log ++ prefixEvs c s.scale ++ [Ev.check true] = s.log ++ attempt c s.scale true := by
            rw [List.append_assoc, prefix_eq]
          rw [this]
          have e1 : c.factor ^ (0 + 1) = c.factor := by simp [Rat.pow_succ]
          rw [e1]
          simp [failed]
      · have hstep : updateF c ov (fuel + 1) s = updateF c ov fuel
            { s with
              log := s.log ++ attempt c s.scale true
              attempts := s.attempts + 1
              scale := s.scale / c.factor
              counter := 0
              recCount := s.recCount + 1 } := by
          simp only [updateF, ho, if_true, hr, if_false]
          rw [List.append_assoc, prefix_eq]
        have hpow : ∀ k, s.scale / c.factor / c.factor ^ k = s.scale / c.factor ^ (k + 1) := by
          intro k; rw [Rat.pow_succ]; grind
        rcases ih { s with
              log := s.log ++ attempt c s.scale true
              attempts := s.attempts + 1
              scale := s.scale / c.factor
              counter := 0
              recCount := s.recCount + 1 } (by simp; omega) (by omega) with ⟨k, hk, h1, h2, h3⟩ | ⟨h1, h2⟩
        · left
          refine ⟨k + 1, by omega, ?_, ?_, ?_⟩
          · intro j hj
            cases j with
            | zero => simpa using ho
            | succ j => have := h1 j (by omega); simp only at this; rw [← this]; congr 1; omega
          · simp only at h2; rw [← h2]; congr 1; omega
          · rw [hstep, h3]
            simp only [hpow]
            simp [failed, List.append_assoc]
            omega
        · right
          refine ⟨?_, ?_⟩
          · intro j hj
            cases j with
            | zero => simpa using ho
            | succ j => have := h1 j (by omega); simp only at this; rw [← this]; congr 1; omega
          · rw [hstep, h2]
            simp only [hpow]
            simp [failed, List.append_assoc]
            omega

/-! ### Properties -/

/-- **C35, one `update()`.** Either some attempt `k ≤ maxRec` (100) is the first without Inf/NaN: then
the calls are exactly `k` overflowing attempts at scales `scale, scale/factor, …`, one clean attempt at
`scale / factor^k`, the rescaling by the reciprocal of that very scale, the weight decay if any and the
solver update; or `maxRec + 1` attempts in a row overflow: then the solver is not updated, and the scale
has been divided `maxRec + 1` times. -/
theorem C35_update (c : Cfg) (ov : Nat → Bool) (s : St) (h0 : s.recCount = 0) :
    (∃ k ≤ c.maxRec, (∀ j < k, ov (s.attempts + j) = true) ∧ ov (s.attempts + k) = false ∧
      (update c ov s).attempts = s.attempts + k + 1 ∧ (update c ov s).recCount = 0 ∧
      (update c ov s).log = s.log ++ failed c s.scale k ++
        attempt c (s.scale / c.factor ^ k) false ++ apply c (s.scale / c.factor ^ k) ∧
      ((update c ov s).scale = s.scale / c.factor ^ k ∨
        k = 0 ∧ s.counter > c.N ∧ (update c ov s).scale = s.scale * c.factor)) ∨
    ((∀ j ≤ c.maxRec, ov (s.attempts + j) = true) ∧
      (update c ov s).attempts = s.attempts + (c.maxRec + 1) ∧ (update c ov s).recCount = 0 ∧
      (update c ov s).log = s.log ++ failed c s.scale (c.maxRec + 1) ∧
      (update c ov s).scale = s.scale / c.factor ^ (c.maxRec + 1)) := by
  rcases updateF_spec c ov (c.maxRec + 1 - s.recCount) s (by omega) (by omega) with
    ⟨k, hk, h1, h2, h3⟩ | ⟨h1, h2⟩
  · left
    refine ⟨k, by omega, h1, h2, ?_⟩
    unfold update
    rw [h3]
    refine ⟨rfl, rfl, rfl, ?_⟩
    by_cases hk0 : k = 0
    · subst hk0
      by_cases hN : s.counter > c.N
      · right
        refine ⟨rfl, hN, ?_⟩
        simp only [hN, if_true, Rat.pow_zero]
        grind
      · left; simp [hN]
    · left; simp [hk0]
  · right
    unfold update
    rw [h2]
    refine ⟨fun j hj => h1 j (by omega), by simp [h0], rfl, by simp [h0], by simp [h0]⟩

/-- The updater's state between calls of `update()`: reachable from `new`. -/
inductive Reach (c : Cfg) (ov : Nat → Bool) (init : Rat) : St → Prop
  | new : Reach c ov init (new init)
  | step {s} : Reach c ov init s → Reach c ov init (update c ov s)

theorem overflows_succ (ov : Nat → Bool) (n : Nat) :
    overflows ov (n + 1) = overflows ov n + if ov n then 1 else 0 := by
  simp [overflows, List.range_succ, List.countP_append]

theorem overflows_add (ov : Nat → Bool) (a k : Nat) (h : ∀ j < k, ov (a + j) = true) :
    overflows ov (a + k) = overflows ov a + k := by
  induction k with
  | zero => rfl
  | succ k ih =>
    have := ih (fun j hj => h j (by omega))
    rw [← Nat.add_assoc, overflows_succ, this, h k (by omega)]; simp; omega

theorem reach_inv (c : Cfg) (hfac : c.factor ≠ 0) (ov : Nat → Bool) (init : Rat) (s : St)
    (h : Reach c ov init s) :
    s.recCount = 0 ∧ s.counter ≤ s.attempts ∧
    (∀ j, s.attempts < j + 1 + s.counter → j < s.attempts → ov j = false) ∧
    ∃ G, s.scale * c.factor ^ (overflows ov s.attempts) = init * c.factor ^ G ∧
      G * (c.N + 1) + s.counter + overflows ov s.attempts ≤ s.attempts := by
  induction h with
  | new => exact ⟨rfl, Nat.le_refl _, by simp [new], 0, by simp [new, overflows], by simp [new, overflows]⟩
  | @step s _ ih =>
    obtain ⟨h0, hca, hcl, G, hG, hb⟩ := ih
    rcases updateF_spec c ov (c.maxRec + 1 - s.recCount) s (by omega) (by omega) with
      ⟨k, hk, h1, h2, h3⟩ | ⟨h1, h2⟩
    · unfold update
      rw [h3]
      have hov : overflows ov (s.attempts + k + 1) = overflows ov s.attempts + k := by
        rw [overflows_succ, h2, overflows_add ov _ _ h1]; rfl
      have hpk : c.factor ^ k ≠ 0 := by
        intro h; exact hfac (by
          have := h
          clear h3 h1 h2 hk hov
          induction k with
          | zero => simp at this
          | succ k ih =>
            rw [Rat.pow_succ] at this
            rcases Rat.mul_eq_zero.mp this with h | h
            · exact ih h h
            · exact h)
      have hsc : s.scale / c.factor ^ k * c.factor ^ (overflows ov s.attempts + k) = init * c.factor ^ G := by
        rw [pow_add', ← hG]; grind
      refine ⟨rfl, ?_, ?_, ?_⟩
      · simp only
        split <;> split <;> omega
      · intro j hj1 hj2
        simp only at hj1 hj2
        by_cases hjk : j = s.attempts + k
        · rw [hjk]; exact h2
        · have hk0 : k = 0 := by
            split at hj1 <;> split at hj1 <;> omega
          subst hk0
          apply hcl
          · simp only [if_true] at hj1
            split at hj1 <;> omega
          · omega
      · simp only [hov]
        by_cases hN : (if k = 0 then s.counter else 0) > c.N
        · refine ⟨G + 1, ?_, ?_⟩
          · rw [if_pos hN, Rat.pow_succ, ← Rat.mul_assoc, ← hsc]; grind
          · rw [if_pos hN, Nat.add_mul]
            split at hN <;> omega
        · refine ⟨G, ?_, ?_⟩
          · rw [if_neg hN]; exact hsc
          · rw [if_neg hN]
            split <;> omega
    · unfold update
      rw [h2]
      have hov := overflows_add ov s.attempts _ h1
      refine ⟨rfl, Nat.zero_le _, by intro j hj1 hj2; simp only at hj1 hj2; omega, G, ?_, ?_⟩
      · simp only [hov]
        have hpk : c.factor ^ (c.maxRec + 1 - s.recCount) ≠ 0 := by
          generalize c.maxRec + 1 - s.recCount = k
          intro h; exact hfac (by
            have := h
            induction k with
            | zero => simp at this
            | succ k ih =>
              rw [Rat.pow_succ] at this
              rcases Rat.mul_eq_zero.mp this with h | h
              · exact ih h h
              · exact h)
        rw [pow_add', ← hG]; grind
      · simp only [hov]; omega

/-- **C35.** In every reachable state the scale is the initial scale, divided by the factor once per
overflowing attempt and multiplied by it once per growth; and there was at most one growth per `N + 1`
clean attempts. -/
theorem C35_scale (c : Cfg) (hfac : c.factor ≠ 0) (ov : Nat → Bool) (init : Rat) (s : St)
    (h : Reach c ov init s) :
    ∃ growths, s.scale * c.factor ^ (overflows ov s.attempts) = init * c.factor ^ growths ∧
      growths * (c.N + 1) ≤ s.attempts - overflows ov s.attempts := by
  obtain ⟨_, _, _, G, hG, hb⟩ := reach_inv c hfac ov init s h
  exact ⟨G, hG, by omega⟩

/-- **C35.** If a call of `update()` raises the scale, then its own attempt and at least the `N + 1`
attempts before it were free of Inf/NaN. -/
theorem C35_growth_after_clean (c : Cfg) (hfac : c.factor > 1) (ov : Nat → Bool) (init : Rat)
    (hi : init > 0) (s : St) (h : Reach c ov init s) (hg : (update c ov s).scale > s.scale) :
    c.N + 1 ≤ s.attempts ∧ ∀ j, s.attempts ≤ j + (c.N + 1) → j ≤ s.attempts → ov j = false := by
  have hf0 : c.factor ≠ 0 := by grind
  have hfp : (0 : Rat) < c.factor := by grind
  obtain ⟨h0, hca, hcl, G, hG, hb⟩ := reach_inv c hf0 ov init s h
  have powpos : ∀ k : Nat, (0 : Rat) < c.factor ^ k := by
    intro k
    induction k with
    | zero => simp; decide
    | succ k ih => rw [Rat.pow_succ]; exact Rat.mul_pos ih hfp
  have powge : ∀ k : Nat, (1 : Rat) ≤ c.factor ^ k := by
    intro k
    induction k with
    | zero => simp
    | succ k ih =>
      rw [Rat.pow_succ]
      have := Rat.mul_le_mul_of_nonneg_left (a := 1) (b := c.factor) (c := c.factor ^ k) (by grind)
        (Rat.le_of_lt (powpos k))
      grind
  have hsp : 0 < s.scale := by
    rcases (by grind : s.scale < 0 ∨ s.scale = 0 ∨ 0 < s.scale) with hs | hs | hs
    · exfalso
      have h1 : 0 < init * c.factor ^ G := Rat.mul_pos hi (powpos G)
      have h2 : 0 < (-s.scale) * c.factor ^ overflows ov s.attempts :=
        Rat.mul_pos (by grind) (powpos _)
      rw [← hG] at h1; grind
    · exfalso
      have h1 : 0 < init * c.factor ^ G := Rat.mul_pos hi (powpos G)
      rw [← hG, hs] at h1; simp at h1
    · exact hs
  have hdiv : ∀ k : Nat, ¬ s.scale / c.factor ^ k > s.scale := by
    intro k hgt
    have hk := powpos k
    have h1 : s.scale / c.factor ^ k * c.factor ^ k > s.scale * c.factor ^ k :=
      Rat.mul_lt_mul_of_pos_right hgt hk
    have h2 : s.scale / c.factor ^ k * c.factor ^ k = s.scale := by
      have : c.factor ^ k ≠ 0 := by grind
      grind
    have h3 := Rat.mul_le_mul_of_nonneg_left (a := 1) (b := c.factor ^ k) (c := s.scale) (powge k)
      (Rat.le_of_lt hsp)
    grind
  rcases C35_update c ov s h0 with ⟨k, hk, h1, h2, _, _, _, h3 | ⟨hk0, hN, _⟩⟩ | ⟨_, _, _, _, h3⟩
  · rw [h3] at hg; exact absurd hg (hdiv k)
  · subst hk0
    refine ⟨by omega, fun j hj1 hj2 => ?_⟩
    by_cases e : j = s.attempts
    · rw [e]; exact h2
    · exact hcl j (by omega) (by omega)
  · rw [h3] at hg; exact absurd hg (hdiv _)

theorem updates_succ (c : Cfg) (ov : Nat → Bool) (n : Nat) (s : St) :
    updates c ov (n + 1) s = update c ov (updates c ov n s) := by
  induction n generalizing s with
  | zero => rfl
  | succ n ih => exact ih (update c ov s)

/-- **C35, growth schedule.** On a run without overflow the scale grows at the (N+2)-nd call of
`update()` and then every N+1 calls. -/
theorem C35_clean_schedule (c : Cfg) (init : Rat) (n : Nat) :
    (updates c (fun _ => false) n (new init)).scale = init * c.factor ^ ((n - 1) / (c.N + 1)) ∧
    (updates c (fun _ => false) n (new init)).recCount = 0 ∧
    (updates c (fun _ => false) n (new init)).counter = if n = 0 then 0 else (n - 1) % (c.N + 1) + 1 := by
  induction n with
  | zero => simp [updates, new]
  | succ n ih =>
    obtain ⟨h1, h2, h3⟩ := ih
    rw [updates_succ]
    generalize updates c (fun _ => false) n (new init) = s at *
    rcases updateF_spec c (fun _ => false) (c.maxRec + 1 - s.recCount) s (by omega) (by omega) with
      ⟨k, hk, hk1, hk2, hk3⟩ | ⟨hk1, hk2⟩
    · have hk0 : k = 0 := by
        rcases Nat.eq_zero_or_pos k with h | h
        · exact h
        · exact absurd (hk1 0 h) (by simp)
      subst hk0
      unfold update
      rw [hk3]
      simp only [if_true, Rat.pow_zero, Nat.add_sub_cancel, Nat.succ_ne_zero, if_false]
      have e1 : s.scale / 1 = s.scale := by grind
      rw [e1]
      cases n with
      | zero =>
        simp only [if_true] at h3
        rw [h3]; simp [h1]
      | succ n =>
        simp only [Nat.add_sub_cancel, Nat.succ_ne_zero, if_false] at h1 h3
        have hlt : n % (c.N + 1) < c.N + 1 := Nat.mod_lt n (Nat.succ_pos c.N)
        have hd := Nat.div_add_mod n (c.N + 1)
        by_cases hg : n % (c.N + 1) = c.N
        · have hq : (n + 1) / (c.N + 1) = n / (c.N + 1) + 1 := by
            apply Nat.div_eq_of_lt_le
            · rw [Nat.mul_comm, Nat.mul_add]; omega
            · rw [Nat.mul_comm, Nat.mul_add, Nat.mul_add]; omega
          have hr : (n + 1) % (c.N + 1) = 0 := by
            have := Nat.div_add_mod (n + 1) (c.N + 1)
            rw [hq, Nat.mul_add] at this; omega
          have : s.counter > c.N := by omega
          rw [hq, hr]
          simp only [this, if_true, h1, Rat.pow_succ]
          exact ⟨by grind, trivial, trivial⟩
        · have hq : (n + 1) / (c.N + 1) = n / (c.N + 1) := by
            apply Nat.div_eq_of_lt_le
            · rw [Nat.mul_comm]; omega
            · rw [Nat.mul_comm, Nat.mul_add]; omega
          have hr : (n + 1) % (c.N + 1) = n % (c.N + 1) + 1 := by
            have := Nat.div_add_mod (n + 1) (c.N + 1)
            rw [hq] at this; omega
          have : ¬ s.counter > c.N := by omega
          rw [hq, hr]
          simp only [this, if_false]
          exact ⟨h1, trivial, by omega⟩
    · exact absurd (hk1 0 (by omega)) (by simp)

/-- **C35, refutation of the documented interval.** The docstring calls `N` "the number of iterations
in training for increasing loss scale"; with `N = 1` the scale has not grown after two clean
iterations. -/
theorem C35_interval_refuted :
    ¬ ∀ (c : Cfg) (init : Rat) (n : Nat),
      (updates c (fun _ => false) n (new init)).scale = init * c.factor ^ (n / c.N) := by
  intro h
  have h1 := h ⟨2, 1, 1, none, false, 100⟩ 8 2
  rw [(C35_clean_schedule _ 8 2).1] at h1
  exact absurd h1 (by decide +kernel)

/-! ### Non-vacuity -/

example : (update ⟨2, 1, 2, some (1/10), true, 100⟩ (fun k => decide (k < 1)) (new 8)).log =
    [.zeroGrad, .feed, .forward, .backward 8, .feed, .forward, .backward 8, .allReduce, .check true,
     .zeroGrad, .feed, .forward, .backward 4, .feed, .forward, .backward 4, .allReduce, .check false,
     .scaleGrad (1/4), .weightDecay (1/10), .update] := by decide +kernel

example : (update ⟨2, 2, 1, none, false, 3⟩ (fun _ => true) (new 8)).scale = 1 / 2 := by decide +kernel

example : Reach ⟨2, 0, 1, none, false, 3⟩ (fun _ => false) 8
    (update ⟨2, 0, 1, none, false, 3⟩ (fun _ => false) (new 8)) ∧
    (update ⟨2, 0, 1, none, false, 3⟩ (fun _ => false)
      (update ⟨2, 0, 1, none, false, 3⟩ (fun _ => false) (new 8))).scale = 16 :=
  ⟨.step .new, by decide +kernel⟩

end Verif.Train
