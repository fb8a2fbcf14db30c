/-
C103, C104: dynamic loss scaling.
-/
import Verif.LossScale.Model

namespace Verif.LossScale

variable {W G : Type} [AddCommGroup G] [Module ℝ G]

/-- Specification: the gradient of the unscaled loss, summed over `m` batches from batch `k`, reduced. -/
noncomputable def trueGrad (e : Env W G) (w : W) (k m : Nat) : G := e.reduce (∑ j ∈ Finset.range m, e.grad w (k + j))

theorem fold_feed (e : Env W G) (n : Nat) (s : St W G) :
    (List.range n).foldl (fun s _ => feedOne e s) s =
      { s with grad := s.grad + s.scale • ∑ j ∈ Finset.range n, e.grad s.w (s.fed + j), fed := s.fed + n } := by
  induction n with
  | zero => simp
  | succ n ih =>
    rw [List.range_succ, List.foldl_append, ih]
    simp only [List.foldl_cons, List.foldl_nil, feedOne, Finset.sum_range_succ, smul_add]
    rw [add_assoc]
    rfl

theorem collect_eq (e : Env W G) (a : Args) (s : St W G) :
    collect e a s = { s with grad := s.scale • trueGrad e s.w s.fed a.accum, fed := s.fed + a.accum } := by
  unfold collect trueGrad
  rw [fold_feed]
  simp

/-- The state after `k` failed attempts. -/
noncomputable def afterFail (e : Env W G) (a : Args) (s : St W G) : Nat → St W G
  | 0 => s
  | k + 1 => { s with
      grad := (s.scale / a.factor ^ k) • trueGrad e s.w (s.fed + k * a.accum) a.accum
      fed := s.fed + (k + 1) * a.accum, scale := s.scale / a.factor ^ (k + 1), counter := 0, recur := s.recur + (k + 1) }

theorem afterFail_succ (e : Env W G) (a : Args) (s : St W G) (k : Nat) :
    afterFail e a { s with grad := s.scale • trueGrad e s.w s.fed a.accum, fed := s.fed + a.accum, scale := s.scale / a.factor, counter := 0, recur := s.recur + 1 } k
      = afterFail e a s (k + 1) := by
  cases k with
  | zero => simp [afterFail]
  | succ k =>
    have h1 : s.fed + a.accum + k * a.accum = s.fed + (k + 1) * a.accum := by ring
    have h2 : s.fed + a.accum + (k + 1) * a.accum = s.fed + (k + 1 + 1) * a.accum := by ring
    have h3 : s.recur + 1 + (k + 1) = s.recur + (k + 1 + 1) := by ring
    have h4 : s.scale / a.factor / a.factor ^ k = s.scale / a.factor ^ (k + 1) := by rw [div_div, pow_succ']
    have h5 : s.scale / a.factor / a.factor ^ (k + 1) = s.scale / a.factor ^ (k + 1 + 1) := by
      rw [div_div, ← pow_succ']
    simp only [afterFail, h1, h2, h3, h4, h5]

/-- Attempt number `k` of the call fails. -/
def Fails (e : Env W G) (a : Args) (s : St W G) (k : Nat) : Prop :=
  e.bad s.w (s.fed + k * a.accum) (s.scale / a.factor ^ k) = true

theorem Fails_succ (e : Env W G) (a : Args) (s : St W G) (k : Nat) (g : G) (c r : Nat) :
    Fails e a { s with grad := g, fed := s.fed + a.accum, scale := s.scale / a.factor, counter := c, recur := r } k ↔ Fails e a s (k + 1) := by
  unfold Fails
  have h1 : s.fed + a.accum + k * a.accum = s.fed + (k + 1) * a.accum := by ring
  have h4 : s.scale / a.factor / a.factor ^ k = s.scale / a.factor ^ (k + 1) := by rw [div_div, pow_succ']
  simp only [h1, h4]

theorem tryUpdate_ok (e : Env W G) (a : Args) (k : Nat) : ∀ (n : Nat) (s : St W G), k < n → s.recur + k ≤ maxRec →
    (∀ j < k, Fails e a s j) → ¬ Fails e a s k →
    tryUpdate e a n s = finish e a { collect e a (afterFail e a s k) with recur := 0 } := by
  induction k with
  | zero =>
    intro n s hn _ _ h
    obtain ⟨n, rfl⟩ : ∃ m, n = m + 1 := ⟨n - 1, by omega⟩
    unfold tryUpdate
    have : e.bad s.w s.fed s.scale = false := by
      unfold Fails at h
      simpa using h
    simp only [this, afterFail]
    rfl
  | succ k ih =>
    intro n s hn hm hf h
    obtain ⟨n, rfl⟩ : ∃ m, n = m + 1 := ⟨n - 1, by omega⟩
    unfold tryUpdate
    have h0 : e.bad s.w s.fed s.scale = true := by
      have := hf 0 (by omega)
      unfold Fails at this
      simpa using this
    simp only [h0, if_true, collect_eq]
    rw [if_neg (by omega)]
    rw [ih n _ (by omega) (by simp only; omega) (fun j hj => (Fails_succ e a s j _ _ _).2 (hf (j + 1) (by omega)))
      (fun hc => h ((Fails_succ e a s k _ _ _).1 hc)), afterFail_succ, collect_eq]

theorem tryUpdate_skip (e : Env W G) (a : Args) (n : Nat) : ∀ s : St W G, s.recur + n = maxRec → (∀ j ≤ n, Fails e a s j) →
    tryUpdate e a (n + 1) s = { afterFail e a s (n + 1) with recur := 0 } := by
  induction n with
  | zero =>
    intro s hm hf
    unfold tryUpdate
    have h0 : e.bad s.w s.fed s.scale = true := by
      have := hf 0 (by omega)
      unfold Fails at this
      simpa using this
    simp only [h0, if_true, collect_eq]
    rw [if_pos (by omega)]
    simp [afterFail]
  | succ n ih =>
    intro s hm hf
    unfold tryUpdate
    have h0 : e.bad s.w s.fed s.scale = true := by
      have := hf 0 (by omega)
      unfold Fails at this
      simpa using this
    simp only [h0, if_true, collect_eq]
    rw [if_neg (by omega)]
    rw [ih _ (by simp only; omega) (fun j hj => (Fails_succ e a s j _ _ _).2 (hf (j + 1) (by omega))), afterFail_succ]

theorem collect_afterFail (e : Env W G) (a : Args) (s : St W G) (k : Nat) :
    (collect e a (afterFail e a s k)).grad = (s.scale / a.factor ^ k) • trueGrad e s.w (s.fed + k * a.accum) a.accum ∧
    (collect e a (afterFail e a s k)).fed = s.fed + (k + 1) * a.accum ∧
    (collect e a (afterFail e a s k)).w = s.w ∧
    (collect e a (afterFail e a s k)).scale = s.scale / a.factor ^ k ∧
    (collect e a (afterFail e a s k)).counter = if k = 0 then s.counter else 0 := by
  rw [collect_eq]
  cases k with
  | zero => simp [afterFail]
  | succ k => simp [afterFail]; ring

/-! ### C103 -/

/-- C103.  One call of `update()`, at any state between calls: let attempt `j` use the scale
`scale / factor^j` and the `j`-th group of `accum_grad` batches.
* If attempts 0..k-1 overflow and attempt `k ≤ 100` does not, then the parameters are updated exactly
  once, with the gradient of the *unscaled* loss summed over the batches of attempt `k` (no trace of
  the scale or of the failed attempts), and `k + 1` groups of batches have been consumed.
* If all 101 attempts overflow, the parameters are not touched; the scale has been divided 101 times. -/
theorem c103_update (e : Env W G) (a : Args) (s : St W G) (hr : s.recur = 0) (hs : s.scale ≠ 0) (hf : a.factor ≠ 0) :
    (∀ k ≤ 100, (∀ j < k, Fails e a s j) → ¬ Fails e a s k →
      (update e a s).w = e.step s.w (trueGrad e s.w (s.fed + k * a.accum) a.accum) ∧
      (update e a s).fed = s.fed + (k + 1) * a.accum ∧ (update e a s).recur = 0) ∧
    ((∀ j ≤ 100, Fails e a s j) →
      (update e a s).w = s.w ∧ (update e a s).fed = s.fed + 101 * a.accum ∧
      (update e a s).scale = s.scale / a.factor ^ 101 ∧ (update e a s).counter = 0 ∧ (update e a s).recur = 0) := by
  constructor
  · intro k hk h1 h2
    unfold update
    rw [tryUpdate_ok e a k _ s (by unfold maxRec; omega) (by unfold maxRec; omega) h1 h2]
    obtain ⟨g1, g2, g3, g4, g5⟩ := collect_afterFail e a s k
    have hne : s.scale / a.factor ^ k ≠ 0 := div_ne_zero hs (pow_ne_zero _ hf)
    unfold finish
    simp only [g1, g2, g3, g4, g5]
    rw [smul_smul, one_div, inv_mul_cancel₀ hne, one_smul]
    generalize (if k = 0 then s.counter else 0) = q
    by_cases hq : q > a.N
    · rw [if_pos hq]; exact ⟨rfl, rfl, rfl⟩
    · rw [if_neg hq]; exact ⟨rfl, rfl, rfl⟩
  · intro h
    unfold update
    rw [hr, show maxRec + 1 - 0 = 100 + 1 from rfl]
    rw [tryUpdate_skip e a 100 s (by rw [hr]; rfl) h]
    exact ⟨rfl, by simp [afterFail], rfl, rfl, rfl⟩

/-- Every call is one of the two cases. -/
theorem c103_cases (e : Env W G) (a : Args) (s : St W G) :
    (∃ k ≤ 100, (∀ j < k, Fails e a s j) ∧ ¬ Fails e a s k) ∨ ∀ j ≤ 100, Fails e a s j := by
  classical
  by_cases h : ∃ k, k ≤ 100 ∧ ¬ Fails e a s k
  · left
    have hs := Nat.find_spec h
    refine ⟨Nat.find h, hs.1, fun j hj => ?_, hs.2⟩
    have := Nat.find_min h hj
    push Not at this
    exact this (by omega)
  · right
    push Not at h
    exact h

/-- After any number of calls the invariants hold: `_recursive_count` is back at 0 and the scale is a
power of the factor times the initial scale (so it is never 0 and `c103_update` applies again). -/
theorem c103_history (e : Env W G) (a : Args) (w : W) (sc : ℝ) (hs : sc ≠ 0) (hf : a.factor ≠ 0) (n : Nat) :
    ∃ z : ℤ, (updates e a n (start w sc)).scale = sc * a.factor ^ z ∧ (updates e a n (start (G := G) w sc)).recur = 0 := by
  suffices ∀ (n : Nat) (s : St W G), s.recur = 0 → (∃ z : ℤ, s.scale = sc * a.factor ^ z) →
      ∃ z : ℤ, (updates e a n s).scale = sc * a.factor ^ z ∧ (updates e a n s).recur = 0 from
    this n (start w sc) rfl ⟨0, by simp [start]⟩
  intro n
  induction n with
  | zero => intro s hr ⟨z, hz⟩; exact ⟨z, hz, hr⟩
  | succ n ih =>
    intro s hr ⟨z, hz⟩
    have hsc : s.scale ≠ 0 := by rw [hz]; exact mul_ne_zero hs (zpow_ne_zero _ hf)
    obtain ⟨h1, h2⟩ := c103_update e a s hr hsc hf
    refine ih (update e a s) ?_ ?_
    · rcases c103_cases e a s with ⟨k, hk, hj, hn⟩ | h
      · exact (h1 k hk hj hn).2.2
      · exact (h2 h).2.2.2.2
    · rcases c103_cases e a s with ⟨k, hk, hj, hn⟩ | h
      · have : (update e a s).scale = s.scale / a.factor ^ k ∨ (update e a s).scale = s.scale / a.factor ^ k * a.factor := by
          unfold update
          rw [tryUpdate_ok e a k _ s (by unfold maxRec; omega) (by unfold maxRec; omega) hj hn]
          obtain ⟨-, -, -, g4, -⟩ := collect_afterFail e a s k
          unfold finish
          simp only [g4]
          split
          · exact .inr rfl
          · exact .inl rfl
        rcases this with h | h
        · refine ⟨z - k, ?_⟩
          rw [h, hz, zpow_sub₀ hf, zpow_natCast]; ring
        · refine ⟨z - k + 1, ?_⟩
          rw [h, hz, zpow_add₀ hf, zpow_sub₀ hf, zpow_natCast, zpow_one]; ring
      · refine ⟨z - 101, ?_⟩
        rw [(h2 h).2.2.1, hz, zpow_sub₀ hf]
        norm_cast
        ring

/-- A one-parameter example: the first batch of the first update overflows at scale 8, the second is
fine: the parameter moves by the unscaled gradient of batch 1. -/
noncomputable def exEnv : Env ℝ ℝ where
  grad _ k := k + 3
  reduce := LinearMap.id
  bad _ k _ := k == 0
  step w g := w - g

example : (update exEnv ⟨2, 2000, 1⟩ (start 10 8)).w = 10 - 4 ∧ (update exEnv ⟨2, 2000, 1⟩ (start 10 8)).fed = 2 := by
  obtain ⟨h, -⟩ := c103_update exEnv ⟨2, 2000, 1⟩ (start 10 8) rfl (by norm_num [start]) (by norm_num)
  obtain ⟨h1, h2, -⟩ := h 1 (by norm_num) (by intro j hj; obtain rfl : j = 0 := (by omega); simp [Fails, exEnv, start])
    (by simp [Fails, exEnv, start])
  refine ⟨?_, by rw [h2]; simp [start]⟩
  rw [h1]
  simp [exEnv, trueGrad, start]
  norm_num

/-! ### C104: the interval -/

/-- The number of times the scale has been raised after `n` updates without overflow. -/
def raises (N n : Nat) : Nat := (n - 1) / (N + 1)

/-- One update without overflow. -/
theorem update_good (e : Env W G) (a : Args) (s : St W G) (hr : s.recur = 0) (hb : e.bad s.w s.fed s.scale = false) :
    (update e a s).recur = 0 ∧
    (update e a s).scale = (if s.counter > a.N then s.scale * a.factor else s.scale) ∧
    (update e a s).counter = (if s.counter > a.N then 1 else s.counter + 1) := by
  unfold update
  rw [tryUpdate_ok e a 0 _ s (by rw [hr]; decide) (by rw [hr]; decide) (by intro j hj; omega) (by unfold Fails; simpa using hb)]
  obtain ⟨-, -, -, g4, g5⟩ := collect_afterFail e a s 0
  unfold finish
  simp only [g4, g5]
  by_cases h : s.counter > a.N
  · simp [h]
  · simp [h]

theorem interval (e : Env W G) (a : Args) (hb : ∀ w k s, e.bad w k s = false) (n : Nat) : ∀ (s : St W G), s.recur = 0 →
    (updates e a n s).recur = 0 ∧
    (s.counter = 0 → (updates e a n s).scale = s.scale * a.factor ^ ((n - 1) / (a.N + 1))) ∧
    (1 ≤ s.counter → s.counter ≤ a.N + 1 → (updates e a n s).scale = s.scale * a.factor ^ ((n + s.counter - 1) / (a.N + 1))) := by
  induction n with
  | zero =>
    intro s hr
    refine ⟨hr, fun _ => by simp [updates], fun h1 h2 => ?_⟩
    have : (0 + s.counter - 1) / (a.N + 1) = 0 := Nat.div_eq_of_lt (by omega)
    rw [this]; simp [updates]
  | succ n ih =>
    intro s hr
    obtain ⟨g1, g2, g3⟩ := update_good e a s hr (hb _ _ _)
    obtain ⟨i1, i2, i3⟩ := ih (update e a s) g1
    refine ⟨i1, fun h0 => ?_, fun h1 h2 => ?_⟩
    · rw [if_neg (by omega)] at g2 g3
      have := i3 (by omega) (by omega)
      rw [g2, g3, h0] at this
      exact this
    · by_cases h : s.counter > a.N
      · rw [if_pos h] at g2 g3
        have := i3 (by omega) (by omega)
        rw [g2, g3] at this
        have e1 : s.counter = a.N + 1 := by omega
        rw [e1]
        change (updates e a n (update e a s)).scale = _
        rw [this, mul_assoc, ← pow_succ']
        congr 2
        have : n + 1 + (a.N + 1) - 1 = n + (a.N + 1) := by omega
        rw [this, Nat.add_div_right _ (by omega)]
        simp
      · rw [if_neg h] at g2 g3
        have := i3 (by omega) (by omega)
        rw [g2, g3] at this
        change (updates e a n (update e a s)).scale = _
        rw [this]
        congr 3
        omega

/-- C104.  Without overflows, after `n` updates the scale has been raised exactly
`(n - 1) / (N + 1)` times: first in update `N + 2`, then every `N + 1` updates. -/
theorem c104_interval_partial (e : Env W G) (a : Args) (hb : ∀ w k s, e.bad w k s = false) (w : W) (sc : ℝ) (n : Nat) :
    (updates e a n (start (G := G) w sc)).scale = sc * a.factor ^ raises a.N n :=
  (interval e a hb n (start w sc) rfl).2.1 rfl

/-- C104 as documented ("N: interval, the number of iterations for increasing the loss scale") is
false: with N = 1, factor 2, after 2 updates the scale has not been raised even once. -/
theorem c104_not_every_N : ∃ (e : Env ℝ ℝ) (a : Args), (∀ w k s, e.bad w k s = false) ∧ a.N = 1 ∧ a.factor = 2 ∧
    (updates e a 2 (start 0 8)).scale = 8 := by
  refine ⟨⟨fun _ _ => 1, LinearMap.id, fun _ _ _ => false, fun w g => w - g⟩, ⟨2, 1, 1⟩, fun _ _ _ => rfl, rfl, rfl, ?_⟩
  rw [c104_interval_partial _ _ (fun _ _ _ => rfl)]
  simp [raises]

/-- With N = 1 the scale is raised in updates 3, 5, 7. -/
example : (List.range 8).map (raises 1) = [0, 0, 0, 1, 1, 2, 2, 3] := by decide

end Verif.LossScale
