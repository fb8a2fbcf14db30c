import Verif.Solver.History
/-!
# C200, C201: AdaBelief (/repo/src/nbla/solver/generic/adabelief.cpp)

Simplifications: exact reals; one element of one parameter (the loop of L98-124 treats the elements independently, with the same
scalars L64-84).
-/

namespace Verif.Solver

open Real Finset

noncomputable section

/-! ## Model -/

/-- The constructor's arguments (adabelief.cpp L30-35), with the decay rate of this update; `decouple` is weight_decay_is_fused. -/
structure ABCfg where
  (alpha b1 b2 eps wd : ℝ)
  (amsgrad decouple fixedDecay rectify : Bool)

/-- The arrays of set_state_impl (adabelief.cpp L40-54). -/
structure AB where
  (m s smax : ℝ)

/-- `rho_inf` (adabelief.cpp L74). -/
def rhoInf (b2 : ℝ) : ℝ := 2 / (1 - b2) - 1

/-- `rho_t` (adabelief.cpp L72, L75). -/
def rhoT (rectify : Bool) (b2 : ℝ) (t : ℕ) : ℝ := if rectify then rhoInf b2 - 2 * t * b2 ^ t / (1 - b2 ^ t) else 0

/-- The radicand of `r_t` (adabelief.cpp L76-78). -/
def radicand (b2 : ℝ) (t : ℕ) : ℝ :=
  ((rhoT true b2 t - 4) * (rhoT true b2 t - 2) * rhoInf b2) / ((rhoInf b2 - 4) * (rhoInf b2 - 2) * rhoT true b2 t)

/-- `r_t` (adabelief.cpp L71, L78). -/
def rT (rectify : Bool) (b2 : ℝ) (t : ℕ) : ℝ := if rectify then √(radicand b2 t) else 1

open Classical in
/-- One element of update_impl (adabelief.cpp L60-125); `n` counts the calls: L67 stops counting at 2^32 - 2. -/
def adabelief (c : ABCfg) (n : ℕ) (st : AB) (g x : ℝ) : AB × ℝ :=
  let t := min n (2 ^ 32 - 2)
  let bc1 := 1 - c.b1 ^ t
  let bc2 := √(1 - c.b2 ^ t)
  let sgdUpdate := c.rectify = true ∧ rhoT c.rectify c.b2 t ≤ 4
  let alphaT := if sgdUpdate then c.alpha else c.alpha * rT c.rectify c.b2 t / bc1
  let decay := if c.fixedDecay then c.wd else c.wd * c.alpha
  let m := c.b1 * st.m + (1 - c.b1) * g
  let s := c.b2 * st.s + (1 - c.b2) * (g - m) ^ 2
  let x := if c.decouple then x - x * decay else x
  let smax := if c.amsgrad then max st.smax s + c.eps else st.smax
  let s := if c.amsgrad then s else s + c.eps
  if sgdUpdate then (⟨m, s, smax⟩, x - alphaT * m)
  else
    let sT := if c.amsgrad then smax else s
    (⟨m, s, smax⟩, x - alphaT * m / (√sT / bc2 + c.eps))

/-- A run from the fresh state. -/
def abRun (c : ABCfg) (gs : List ℝ) (x : ℝ) : AB × ℝ := trajectory (adabelief c) gs 0 ⟨0, 0, 0⟩ x

/-! ## Specification -/

/-- The squared deviations `(g_i - m_i)^2` of the gradients from the moving average. -/
def dev (b1 : ℝ) (gs : List ℝ) : List ℝ :=
  (List.range gs.length).map fun i => (gs.getD i 0 - ema b1 (gs.take (i + 1))) ^ 2

/-- `s` at time `j`: the moving average of the first `j` squared deviations. -/
def belief (b1 b2 : ℝ) (gs : List ℝ) (j : ℕ) : ℝ := ema b2 (dev b1 (gs.take j))

/-- What the documentation says one update does (solvers.yaml, AdaBelief), for the gradients `gs` received so far, this one included. -/
def documented (c : ABCfg) (gs : List ℝ) (x : ℝ) : ℝ :=
  x - c.alpha * (√(1 - c.b2 ^ gs.length) / (1 - c.b1 ^ gs.length)) * (ema c.b1 gs / (√(ema c.b2 (dev c.b1 gs) + c.eps) + c.eps))

/-- The value under the square root: the moving average of the squared deviations plus `eps` discounted over the whole history, and
with amsgrad the number `M` characterised in `IsMax`. -/
def IsMax (c : ABCfg) (gs : List ℝ) (M : ℝ) : Prop :=
  (∀ j, j < gs.length → belief c.b1 c.b2 gs (j + 1) + (gs.length - j) * c.eps ≤ M) ∧
  ∃ j, j < gs.length ∧ belief c.b1 c.b2 gs (j + 1) + (gs.length - j) * c.eps = M

/-! ## Proofs -/

theorem dev_snoc (b1 : ℝ) (gs : List ℝ) (g : ℝ) : dev b1 (gs ++ [g]) = dev b1 gs ++ [(g - ema b1 (gs ++ [g])) ^ 2] := by
  unfold dev
  rw [List.length_append, List.length_singleton, List.range_succ, List.map_append]
  congr 1
  · apply List.map_congr_left
    intro i hi
    rw [List.mem_range] at hi
    rw [List.getD_append _ _ _ _ hi, List.take_append_of_le_length (by omega)]
  · simp [List.getD_eq_getElem?_getD, List.take_of_length_le]

/-- The state without amsgrad. -/
theorem ab_state (c : ABCfg) (ha : c.amsgrad = false) (gs : List ℝ) (x : ℝ) :
    (abRun c gs x).1 = ⟨ema c.b1 gs, ema c.b2 (dev c.b1 gs) + c.eps * ∑ i ∈ range gs.length, c.b2 ^ i, 0⟩ := by
  have := trajectory_state (adabelief c) (fun gs => ⟨ema c.b1 gs, ema c.b2 (dev c.b1 gs) + c.eps * ∑ i ∈ range gs.length, c.b2 ^ i, 0⟩) (by
    intro t gs g x
    have e1 : (adabelief c t ⟨ema c.b1 gs, ema c.b2 (dev c.b1 gs) + c.eps * ∑ i ∈ range gs.length, c.b2 ^ i, 0⟩ g x).1 =
        ⟨c.b1 * ema c.b1 gs + (1 - c.b1) * g, c.b2 * (ema c.b2 (dev c.b1 gs) + c.eps * ∑ i ∈ range gs.length, c.b2 ^ i) +
          (1 - c.b2) * (g - (c.b1 * ema c.b1 gs + (1 - c.b1) * g)) ^ 2 + c.eps, 0⟩ := by
      unfold adabelief
      simp only [ha, Bool.false_eq_true, if_false]
      split <;> rfl
    rw [e1, dev_snoc, ema_snoc, ema_snoc, List.length_append, List.length_singleton, Finset.sum_range_succ']
    congr 1
    have : ∑ k ∈ range gs.length, c.b2 ^ (k + 1) = c.b2 * ∑ i ∈ range gs.length, c.b2 ^ i := by
      rw [Finset.mul_sum]; exact Finset.sum_congr rfl fun i _ => by ring
    rw [this]
    ring) gs x
  simpa [dev, abRun] using this

theorem ema_nonneg (b : ℝ) (h0 : 0 ≤ b) (h1 : b ≤ 1) (a : List ℝ) (ha : ∀ x ∈ a, 0 ≤ x) : 0 ≤ ema b a := by
  induction a using List.reverseRecOn with
  | nil => simp
  | append_singleton a g ih =>
    rw [ema_snoc]
    have := ih fun x hx => ha x (by simp [hx])
    have := ha g (by simp)
    nlinarith [mul_nonneg h0 (ih fun x hx => ha x (by simp [hx])), mul_nonneg (sub_nonneg.mpr h1) this]

theorem belief_nonneg (b1 b2 : ℝ) (h0 : 0 ≤ b2) (h1 : b2 ≤ 1) (gs : List ℝ) (j : ℕ) : 0 ≤ belief b1 b2 gs j := by
  apply ema_nonneg b2 h0 h1
  intro x hx
  simp only [dev, List.mem_map] at hx
  obtain ⟨i, -, rfl⟩ := hx
  positivity

/-- The state with amsgrad. -/
theorem ab_state_ams (c : ABCfg) (ha : c.amsgrad = true) (h0 : 0 ≤ c.b2) (h1 : c.b2 ≤ 1) (gs : List ℝ) (x : ℝ) :
    (abRun c gs x).1.m = ema c.b1 gs ∧ (abRun c gs x).1.s = ema c.b2 (dev c.b1 gs) ∧
    (gs = [] → (abRun c gs x).1.smax = 0) ∧ (gs ≠ [] → IsMax c gs (abRun c gs x).1.smax) := by
  induction gs using List.reverseRecOn with
  | nil => simp [abRun, trajectory, dev]
  | append_singleton gs g ih =>
    obtain ⟨hm, hs, hz, hM⟩ := ih
    unfold abRun at *
    rw [trajectory_snoc]
    set st := (trajectory (adabelief c) gs 0 ⟨0, 0, 0⟩ x).1 with hst
    have e1 : ∀ t x, (adabelief c t st g x).1 = ⟨c.b1 * st.m + (1 - c.b1) * g, c.b2 * st.s + (1 - c.b2) * (g - (c.b1 * st.m + (1 - c.b1) * g)) ^ 2,
        max st.smax (c.b2 * st.s + (1 - c.b2) * (g - (c.b1 * st.m + (1 - c.b1) * g)) ^ 2) + c.eps⟩ := by
      intro t x
      unfold adabelief
      simp only [ha, if_true]
      split <;> rfl
    rw [e1]
    have em : c.b1 * st.m + (1 - c.b1) * g = ema c.b1 (gs ++ [g]) := by rw [hm, ema_snoc]
    have es : c.b2 * st.s + (1 - c.b2) * (g - ema c.b1 (gs ++ [g])) ^ 2 = ema c.b2 (dev c.b1 (gs ++ [g])) := by rw [hs, dev_snoc, ema_snoc c.b2]
    simp only [em, es]
    refine ⟨trivial, trivial, by simp, fun _ => ?_⟩
    have last : belief c.b1 c.b2 (gs ++ [g]) (gs.length + 1) = ema c.b2 (dev c.b1 (gs ++ [g])) := by
      unfold belief; rw [List.take_of_length_le (by simp)]
    have old : ∀ j, j < gs.length → belief c.b1 c.b2 (gs ++ [g]) (j + 1) = belief c.b1 c.b2 gs (j + 1) := by
      intro j hj; unfold belief; rw [List.take_append_of_le_length (by omega)]
    have len : ((gs ++ [g]).length : ℝ) = gs.length + 1 := by simp
    by_cases hg : gs = []
    · subst hg
      rw [hz rfl]
      have hb := belief_nonneg c.b1 c.b2 h0 h1 ([] ++ [g]) 1
      rw [show (1 : ℕ) = ([] : List ℝ).length + 1 from rfl, last] at hb
      rw [max_eq_right hb]
      constructor
      · intro j hj
        have : j = 0 := by simpa using hj
        subst this
        rw [show (0 + 1 : ℕ) = ([] : List ℝ).length + 1 from rfl, last]
        simp
      · exact ⟨0, by simp, by rw [show (0 + 1 : ℕ) = ([] : List ℝ).length + 1 from rfl, last]; simp⟩
    · obtain ⟨hle, j0, hj0, he⟩ := hM hg
      constructor
      · intro j hj
        rw [len]
        by_cases hjl : j < gs.length
        · rw [old j hjl]
          have := hle j hjl
          have := le_max_left st.smax (ema c.b2 (dev c.b1 (gs ++ [g])))
          linarith
        · have : j = gs.length := by simp at hj; omega
          subst this
          rw [last]
          have := le_max_right st.smax (ema c.b2 (dev c.b1 (gs ++ [g])))
          linarith
      · rcases le_total st.smax (ema c.b2 (dev c.b1 (gs ++ [g]))) with h | h
        · refine ⟨gs.length, by simp, ?_⟩
          rw [last, max_eq_right h, len]; ring
        · refine ⟨j0, by simp; omega, ?_⟩
          rw [old j0 hj0, max_eq_left h, len, ← he]; ring

/-- The learning rate of the n-th update (rectified: RAdam's). -/
def abRate (c : ABCfg) (n : ℕ) : ℝ := c.alpha * (if c.rectify then √(radicand c.b2 n) else 1) / (1 - c.b1 ^ n)

open Classical in
/-- **C200 (partial).** After any list of gradients (fewer than 2^32 - 2 of them) the next update first decays the parameter
(decoupled decay only), then subtracts the bias corrected moving average of all gradients over the root of V, where V is the moving
average of the squared deviations plus the discounted sum of `eps` over the whole history; with amsgrad, the largest of the moving
averages so far, each raised by `eps` for every update since; with rectification and `rho_n ≤ 4` it subtracts `alpha` times the
moving average instead. -/
theorem C200_adabelief_partial (c : ABCfg) (h0 : 0 ≤ c.b2) (h1 : c.b2 ≤ 1) (gs : List ℝ) (g x : ℝ) (hlen : gs.length < 2 ^ 32 - 2) :
    ∃ V : ℝ, (c.amsgrad = false → V = ema c.b2 (dev c.b1 (gs ++ [g])) + c.eps * ∑ i ∈ range (gs.length + 1), c.b2 ^ i) ∧
      (c.amsgrad = true → IsMax c (gs ++ [g]) V) ∧
      (abRun c (gs ++ [g]) x).2 =
        (if c.decouple then (1 - (if c.fixedDecay then c.wd else c.wd * c.alpha)) else 1) * (abRun c gs x).2 -
          (if c.rectify = true ∧ rhoInf c.b2 - 2 * (gs.length + 1) * c.b2 ^ (gs.length + 1) / (1 - c.b2 ^ (gs.length + 1)) ≤ 4 then
            c.alpha * ema c.b1 (gs ++ [g])
          else abRate c (gs.length + 1) * ema c.b1 (gs ++ [g]) / (√V / √(1 - c.b2 ^ (gs.length + 1)) + c.eps)) := by
  have hmin : min (0 + gs.length + 1) (2 ^ 32 - 2) = gs.length + 1 := by omega
  have hx : ∀ d, (if c.decouple then (abRun c gs x).2 - (abRun c gs x).2 * d else (abRun c gs x).2) =
      (if c.decouple then (1 - d) else 1) * (abRun c gs x).2 := by
    intro d; split <;> ring
  have hcond : (c.rectify = true ∧ rhoT c.rectify c.b2 (gs.length + 1) ≤ 4) ↔
      (c.rectify = true ∧ rhoInf c.b2 - 2 * (gs.length + 1) * c.b2 ^ (gs.length + 1) / (1 - c.b2 ^ (gs.length + 1)) ≤ 4) := by
    apply and_congr_right
    intro hr
    rw [rhoT, if_pos hr]
    push_cast
    rfl
  have hrate : c.alpha * rT c.rectify c.b2 (gs.length + 1) / (1 - c.b1 ^ (gs.length + 1)) = abRate c (gs.length + 1) := rfl
  have step : abRun c (gs ++ [g]) x = adabelief c (0 + gs.length + 1) (abRun c gs x).1 g (abRun c gs x).2 := trajectory_snoc _ _ _ _ _ _
  cases ha : c.amsgrad
  · have hs := ab_state c ha gs x
    have hs' := ab_state c ha (gs ++ [g]) x
    refine ⟨_, fun _ => rfl, fun h => (by cases h), ?_⟩
    have hm' : c.b1 * (abRun c gs x).1.m + (1 - c.b1) * g = ema c.b1 (gs ++ [g]) := by rw [hs, ema_snoc]
    have hv' : c.b2 * (abRun c gs x).1.s + (1 - c.b2) * (g - ema c.b1 (gs ++ [g])) ^ 2 + c.eps =
        ema c.b2 (dev c.b1 (gs ++ [g])) + c.eps * ∑ i ∈ range (gs.length + 1), c.b2 ^ i := by
      have : (abRun c (gs ++ [g]) x).1.s = c.b2 * (abRun c gs x).1.s + (1 - c.b2) * (g - ema c.b1 (gs ++ [g])) ^ 2 + c.eps := by
        rw [step]
        unfold adabelief
        simp only [ha, Bool.false_eq_true, if_false, hm']
        split <;> rfl
      rw [← this, hs']
      simp
    rw [step]
    unfold adabelief
    simp only [hmin, ha, Bool.false_eq_true, if_false, hm', hv', hx, hrate]
    by_cases hc : c.rectify = true ∧ rhoT c.rectify c.b2 (gs.length + 1) ≤ 4
    · rw [if_pos hc, if_pos hc, if_pos (hcond.mp hc)]
    · rw [if_neg hc, if_neg hc, if_neg (fun h => hc (hcond.mpr h))]
  · obtain ⟨em, es, -, -⟩ := ab_state_ams c ha h0 h1 gs x
    obtain ⟨-, -, -, hM⟩ := ab_state_ams c ha h0 h1 (gs ++ [g]) x
    refine ⟨_, fun h => (by cases h), fun _ => hM (by simp), ?_⟩
    have hm' : c.b1 * (abRun c gs x).1.m + (1 - c.b1) * g = ema c.b1 (gs ++ [g]) := by rw [em, ema_snoc]
    have hv' : (abRun c (gs ++ [g]) x).1.smax = max (abRun c gs x).1.smax (c.b2 * (abRun c gs x).1.s + (1 - c.b2) * (g - ema c.b1 (gs ++ [g])) ^ 2) + c.eps := by
      rw [step]
      unfold adabelief
      simp only [ha, if_true, hm']
      split <;> rfl
    rw [hv', step]
    unfold adabelief
    simp only [hmin, ha, if_true, hm', hx, hrate]
    by_cases hc : c.rectify = true ∧ rhoT c.rectify c.b2 (gs.length + 1) ≤ 4
    · rw [if_pos hc, if_pos hc, if_pos (hcond.mp hc)]
    · rw [if_neg hc, if_neg hc, if_neg (fun h => hc (hcond.mpr h))]

/-- C200, what fails: the documented formula. Already the first update differs: the code adds `eps` after the bias correction of the
denominator. -/
theorem C200_documented_refuted : ∃ (c : ABCfg) (g x : ℝ), 0 < c.alpha ∧ 0 ≤ c.b1 ∧ c.b1 < 1 ∧ 0 < c.b2 ∧ c.b2 < 1 ∧ 0 < c.eps ∧
    c.amsgrad = false ∧ c.rectify = false ∧ c.decouple = false ∧ (abRun c [g] x).2 ≠ documented c [g] x := by
  refine ⟨⟨1, 0, 3 / 4, 1, 0, false, false, false, false⟩, 1, 0, by norm_num, by norm_num, by norm_num, by norm_num, by norm_num, by norm_num, rfl, rfl, rfl, ?_⟩
  have h2 : √(1 - 3 / 4 : ℝ) = 1 / 2 := by rw [show (1 - 3 / 4 : ℝ) = (1 / 2) ^ 2 by norm_num]; exact Real.sqrt_sq (by norm_num)
  have e1 : (abRun ⟨1, 0, 3 / 4, 1, 0, false, false, false, false⟩ [1] 0).2 = -(1 / 3) := by
    have h4 : √(4 : ℝ) = 2 := by rw [show (4 : ℝ) = 2 ^ 2 by norm_num]; exact Real.sqrt_sq (by norm_num)
    norm_num [abRun, trajectory, adabelief, rT, h4]
  have e2 : documented ⟨1, 0, 3 / 4, 1, 0, false, false, false, false⟩ [1] 0 = -(1 / 4) := by
    have d : dev 0 [1] = [0] := by simp [dev, ema, disc]
    norm_num [documented, d]
    norm_num [ema, disc]
    norm_num at h2
    rw [h2]; norm_num
  rw [e1, e2]; norm_num

/-- C200, what fails: with amsgrad the number under the root is not the running maximum of the moving averages. It grows by `eps` with
every update: for gradients that never deviate from their average (all maxima 0), it is `n * eps` after `n` updates. -/
theorem C200_amsgrad_grows_refuted (c : ABCfg) (ha : c.amsgrad = true) (hb : c.b1 = 0) (h0 : 0 ≤ c.b2) (h1 : c.b2 ≤ 1) (he : 0 < c.eps) (gs : List ℝ)
    (x : ℝ) : (∀ j, belief c.b1 c.b2 gs j = 0) ∧ (abRun c gs x).1.smax = gs.length * c.eps := by
  have hd : ∀ j, belief c.b1 c.b2 gs j = 0 := by
    intro j
    unfold belief
    generalize gs.take j = l
    rw [hb]
    induction l using List.reverseRecOn with
    | nil => simp [dev]
    | append_singleton l g ih => rw [dev_snoc, ema_snoc, ih, ema_snoc]; ring
  refine ⟨hd, ?_⟩
  obtain ⟨-, -, hz, hM⟩ := ab_state_ams c ha h0 h1 gs x
  by_cases hg : gs = []
  · subst hg; rw [hz rfl]; simp
  · obtain ⟨hle, j, hj, hj2⟩ := hM hg
    have h3 := hle 0 (List.length_pos_iff.mpr hg)
    rw [hd] at h3 hj2
    have : (j : ℝ) * c.eps ≥ 0 := by positivity
    simp only [Nat.cast_zero, sub_zero, zero_add] at h3
    nlinarith

/-- **C201.** The rectified rate is well defined: whenever the code uses it (`rho_t > 4`), the radicand lies strictly between 0 and 1,
so that rectification only ever lowers the learning rate. -/
theorem C201_rectification (b2 : ℝ) (h0 : 0 < b2) (h1 : b2 < 1) (t : ℕ) (ht : 1 ≤ t) (hr : ¬ rhoT true b2 t ≤ 4) :
    0 < radicand b2 t ∧ radicand b2 t < 1 ∧ 0 < rT true b2 t ∧ rT true b2 t < 1 := by
  have hp : b2 ^ t < 1 := pow_lt_one₀ h0.le h1 (by omega)
  have hp0 : 0 < b2 ^ t := pow_pos h0 t
  have ht' : (0 : ℝ) < t := by exact_mod_cast ht
  have hlt : rhoT true b2 t < rhoInf b2 := by
    simp only [rhoT, if_true]
    have : 0 < 2 * (t : ℝ) * b2 ^ t / (1 - b2 ^ t) := div_pos (by positivity) (by linarith)
    linarith
  push Not at hr
  unfold rT radicand
  simp only [if_true]
  generalize rhoT true b2 t = r at hr hlt
  generalize rhoInf b2 = R at hlt
  have a1 : 0 < (r - 4) * (r - 2) * R := mul_pos (mul_pos (by linarith) (by linarith)) (by linarith)
  have a2 : 0 < (R - 4) * (R - 2) * r := mul_pos (mul_pos (by linarith) (by linarith)) (by linarith)
  have a3 : (r - 4) * (r - 2) * R < (R - 4) * (R - 2) * r := by nlinarith [mul_pos (show (0:ℝ) < R - r by linarith) (show (0 : ℝ) < r * R - 8 by nlinarith)]
  have b1 : 0 < (r - 4) * (r - 2) * R / ((R - 4) * (R - 2) * r) := div_pos a1 a2
  have b2 : (r - 4) * (r - 2) * R / ((R - 4) * (R - 2) * r) < 1 := by rw [div_lt_one a2]; exact a3
  exact ⟨b1, b2, Real.sqrt_pos.mpr b1, by rw [show (1 : ℝ) = √1 by simp]; exact Real.sqrt_lt_sqrt b1.le b2⟩

/-- Non-vacuous: with b2 = 9/10 the rectified rate is used from the seventh update on. -/
example : ¬ rhoT true (9 / 10) 7 ≤ 4 := by norm_num [rhoT, rhoInf]

end

end Verif.Solver
