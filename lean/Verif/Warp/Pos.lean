import Verif.Warp.Model
import Mathlib.Analysis.Calculus.Deriv.Mul
import Mathlib.Topology.Algebra.Order.Floor
import Mathlib.Tactic.Linarith
import Mathlib.Tactic.FieldSimp
import Mathlib.Algebra.Order.Floor.Ring
/-
The source position: unnormalisation and padding, and their derivatives.
-/
namespace Verif.Warp
open Filter Topology

/-! ### Reflection -/

/-- Specification of reflection at the ends of [L, U]: t lies in [L, U] and is an image of s under the reflections (s moved by a
multiple of the period 2 (U - L), or that of the mirror image of s). -/
def Reflected (s t : ℝ) (L U : ℤ) : Prop :=
  (L : ℝ) ≤ t ∧ t ≤ U ∧ ∃ k : ℤ, t = s + 2 * k * (U - L) ∨ t = 2 * L - s + 2 * k * (U - L)

theorem trunc_nonneg {x : ℝ} (h : 0 ≤ x) : trunc x = ⌊x⌋ := by rw [trunc, if_pos h]

/-- The remainder. -/
theorem rem_bounds (d len : ℝ) (hl : 0 < len) : 0 ≤ d - ⌊d / len⌋ * len ∧ d - ⌊d / len⌋ * len < len := by
  have h1 := Int.floor_le (d / len)
  have h2 := Int.lt_floor_add_one (d / len)
  rw [le_div_iff₀ hl] at h1
  rw [div_lt_iff₀ hl] at h2
  constructor <;> nlinarith

theorem reflect_form (s : ℝ) (L U : ℤ) (h : L < U) :
    (L : ℝ) ≤ reflect s L U ∧ reflect s L U ≤ U ∧
    ((reflectCoef s L U = 1 ∧ ∃ k : ℤ, reflect s L U = s + 2 * k * (U - L)) ∨
     (reflectCoef s L U = -1 ∧ ∃ k : ℤ, reflect s L U = 2 * L - s + 2 * k * (U - L))) := by
  have hl : (0 : ℝ) < ((U - L : ℤ) : ℝ) := by exact_mod_cast (by omega : 0 < U - L)
  have hl' : (0 : ℝ) < (U : ℝ) - L := by push_cast at hl; exact hl
  unfold reflect reflectCoef
  simp only []
  by_cases h1 : s < L
  · simp only [if_pos h1]
    have hd : 0 ≤ ((L : ℝ) - s) / ((U - L : ℤ) : ℝ) := div_nonneg (by linarith) hl.le
    rw [trunc_nonneg hd]
    obtain ⟨r1, r2⟩ := rem_bounds ((L : ℝ) - s) _ hl
    generalize hn : ⌊((L : ℝ) - s) / ((U - L : ℤ) : ℝ)⌋ = n at r1 r2 ⊢
    push_cast at r1 r2 ⊢
    by_cases hp : n % 2 = 0
    · simp only [if_pos hp]
      refine ⟨by linarith, by linarith, Or.inr ⟨trivial, -(n / 2), ?_⟩⟩
      have e : (n : ℝ) = 2 * ((n / 2 : ℤ) : ℝ) := by exact_mod_cast (by omega : n = 2 * (n / 2))
      generalize (n / 2) = m at e ⊢
      rw [e]; push_cast; ring
    · simp only [if_neg hp]
      refine ⟨by linarith, by linarith, Or.inl ⟨trivial, n / 2 + 1, ?_⟩⟩
      have e : (n : ℝ) = 2 * ((n / 2 : ℤ) : ℝ) + 1 := by exact_mod_cast (by omega : n = 2 * (n / 2) + 1)
      generalize (n / 2) = m at e ⊢
      rw [e]; push_cast; ring
  · simp only [if_neg h1]
    by_cases h2 : s > U
    · simp only [if_pos h2]
      have hd : 0 ≤ (s - (U : ℝ)) / ((U - L : ℤ) : ℝ) := div_nonneg (by linarith) hl.le
      rw [trunc_nonneg hd]
      obtain ⟨r1, r2⟩ := rem_bounds (s - (U : ℝ)) _ hl
      generalize hn : ⌊(s - (U : ℝ)) / ((U - L : ℤ) : ℝ)⌋ = n at r1 r2 ⊢
      push_cast at r1 r2 ⊢
      by_cases hp : n % 2 = 0
      · simp only [if_pos hp]
        refine ⟨by linarith, by linarith, Or.inr ⟨trivial, n / 2 + 1, ?_⟩⟩
        have e : (n : ℝ) = 2 * ((n / 2 : ℤ) : ℝ) := by exact_mod_cast (by omega : n = 2 * (n / 2))
        generalize (n / 2) = m at e ⊢
        rw [e]; push_cast; ring
      · simp only [if_neg hp]
        refine ⟨by linarith, by linarith, Or.inl ⟨trivial, -(n / 2 + 1), ?_⟩⟩
        have e : (n : ℝ) = 2 * ((n / 2 : ℤ) : ℝ) + 1 := by exact_mod_cast (by omega : n = 2 * (n / 2) + 1)
        generalize (n / 2) = m at e ⊢
        rw [e]; push_cast; ring
    · simp only [if_neg h2]
      exact ⟨by linarith, by linarith, Or.inl ⟨trivial, 0, by simp⟩⟩

theorem reflect_reflected (s : ℝ) (L U : ℤ) (h : L < U) : Reflected s (reflect s L U) L U := by
  obtain ⟨h1, h2, ⟨-, k, h3⟩ | ⟨-, k, h3⟩⟩ := reflect_form s L U h
  · exact ⟨h1, h2, k, Or.inl h3⟩
  · exact ⟨h1, h2, k, Or.inr h3⟩

/-- No other point of [L, U] is an image of s. -/
theorem reflected_unique (s t u : ℝ) (L U : ℤ) (h : L < U) (ht : Reflected s t L U) (hu : Reflected s u L U) : t = u := by
  obtain ⟨t1, t2, k, hk⟩ := ht
  obtain ⟨u1, u2, m, hm⟩ := hu
  have hl : (0 : ℝ) < (U : ℝ) - L := by
    have : (L : ℝ) < U := by exact_mod_cast h
    linarith
  have small : ∀ a : ℤ, (2 * (a : ℝ) * ((U : ℝ) - L) ≤ U - L) → -((U : ℝ) - L) ≤ 2 * a * (U - L) → a = 0 := by
    intro a h1 h2
    by_contra hne
    rcases lt_or_gt_of_ne hne with h0 | h0
    · have : (a : ℝ) ≤ -1 := by exact_mod_cast (by omega : a ≤ -1)
      nlinarith
    · have : (1 : ℝ) ≤ a := by exact_mod_cast (by omega : 1 ≤ a)
      nlinarith
  have ends : ∀ a : ℤ, t + u = 2 * L + 2 * a * ((U : ℝ) - L) → t = u := by
    intro a ha
    by_cases h0 : a ≤ 0
    · have : (a : ℝ) ≤ 0 := by exact_mod_cast h0
      nlinarith
    · have : (1 : ℝ) ≤ a := by exact_mod_cast (by omega : 1 ≤ a)
      nlinarith
  rcases hk with hk | hk <;> rcases hm with hm | hm
  · have e : t - u = 2 * ((k - m : ℤ) : ℝ) * (U - L) := by push_cast; rw [hk, hm]; ring
    have := small (k - m) (by rw [← e]; linarith) (by rw [← e]; linarith)
    rw [this] at e
    simp at e
    linarith
  · exact ends (k + m) (by push_cast; rw [hk, hm]; ring)
  · exact ends (k + m) (by push_cast; rw [hk, hm]; ring)
  · have e : t - u = 2 * ((k - m : ℤ) : ℝ) * (U - L) := by push_cast; rw [hk, hm]; ring
    have := small (k - m) (by rw [← e]; linarith) (by rw [← e]; linarith)
    rw [this] at e
    simp at e
    linarith

/-- Near a point with an image inside, reflection is s ↦ σ s + c. -/
theorem reflect_inside (s : ℝ) (L U : ℤ) (h : L < U) (h1 : (L : ℝ) < reflect s L U) (h2 : reflect s L U < U) :
    ∃ c : ℝ, reflect s L U = reflectCoef s L U * s + c ∧ ∀ᶠ s' in 𝓝 s, reflect s' L U = reflectCoef s L U * s' + c := by
  obtain ⟨-, -, hf⟩ := reflect_form s L U h
  rcases hf with ⟨e, k, hk⟩ | ⟨e, k, hk⟩
  · refine ⟨2 * k * (U - L), by rw [e, one_mul]; exact hk, ?_⟩
    have c : Tendsto (fun s' : ℝ => s' + 2 * k * ((U : ℝ) - L)) (𝓝 s) (𝓝 (reflect s L U)) := by
      rw [hk]; exact (continuous_id.add continuous_const).tendsto s
    filter_upwards [c.eventually (lt_mem_nhds h1), c.eventually (gt_mem_nhds h2)] with s' a b
    rw [e, one_mul]
    exact reflected_unique s' _ _ L U h (reflect_reflected s' L U h) ⟨le_of_lt a, le_of_lt b, k, Or.inl rfl⟩
  · refine ⟨2 * L + 2 * k * (U - L), by rw [e, hk]; ring, ?_⟩
    have c : Tendsto (fun s' : ℝ => 2 * L - s' + 2 * k * ((U : ℝ) - L)) (𝓝 s) (𝓝 (reflect s L U)) := by
      rw [hk]; exact ((continuous_const.sub continuous_id).add continuous_const).tendsto s
    filter_upwards [c.eventually (lt_mem_nhds h1), c.eventually (gt_mem_nhds h2)] with s' a b
    rw [e, reflected_unique s' _ _ L U h (reflect_reflected s' L U h) ⟨le_of_lt a, le_of_lt b, k, Or.inr rfl⟩]
    ring

/-- Reflection is a contraction. -/
theorem reflect_lipschitz (s s' : ℝ) (L U : ℤ) (h : L < U) : |reflect s' L U - reflect s L U| ≤ |s' - s| ∨ ((U : ℝ) - L) < |s' - s| := by
  by_cases hb : ((U : ℝ) - L) < |s' - s|
  · exact Or.inr hb
  left
  have hb : |s' - s| ≤ (U : ℝ) - L := not_lt.mp hb
  have r := reflect_reflected s L U h
  obtain ⟨r1, r2, k, hk⟩ := r
  generalize hρ : reflect s L U = ρ at r1 r2 hk ⊢
  -- the image g of s' under the same motion, folded once if it leaves [L, U]
  have key : ∀ g : ℝ, |g - ρ| = |s' - s| → (∃ j : ℤ, g = s' + 2 * j * (U - L) ∨ g = 2 * L - s' + 2 * j * (U - L)) →
      |reflect s' L U - ρ| ≤ |s' - s| := by
    intro g hg hgj
    obtain ⟨j, hj⟩ := hgj
    have hg' := abs_le.mp (hg.trans_le hb)
    have mirror : ∀ i : ℤ, ∃ j' : ℤ, 2 * (L : ℝ) - g + 2 * i * (U - L) = s' + 2 * j' * (U - L) ∨
        2 * (L : ℝ) - g + 2 * i * (U - L) = 2 * L - s' + 2 * j' * (U - L) := by
      intro i
      rcases hj with hj | hj
      · exact ⟨i - j, Or.inr (by rw [hj]; push_cast; ring)⟩
      · exact ⟨i - j, Or.inl (by rw [hj]; push_cast; ring)⟩
    rw [← hg]
    by_cases c1 : g < L
    · obtain ⟨j', hj'⟩ := mirror 0
      simp only [Int.cast_zero, mul_zero, zero_mul, add_zero] at hj'
      rw [reflected_unique s' _ (2 * L - g) L U h (reflect_reflected s' L U h) ⟨by linarith, by linarith, j', hj'⟩]
      rw [abs_of_nonpos (by linarith : g - ρ ≤ 0), abs_le]
      constructor <;> linarith
    · by_cases c2 : (U : ℝ) < g
      · obtain ⟨j', hj'⟩ := mirror 1
        simp only [Int.cast_one, mul_one] at hj'
        rw [reflected_unique s' _ (2 * L - g + 2 * (U - L)) L U h (reflect_reflected s' L U h) ⟨by linarith, by linarith, j', hj'⟩]
        rw [abs_of_nonneg (by linarith : 0 ≤ g - ρ), abs_le]
        constructor <;> linarith
      · rw [reflected_unique s' _ g L U h (reflect_reflected s' L U h) ⟨by linarith, by linarith, j, hj⟩]
  rcases hk with hk | hk
  · exact key (s' + 2 * k * (U - L)) (by rw [hk]; congr 1; ring) ⟨k, Or.inl rfl⟩
  · exact key (2 * L - s' + 2 * k * (U - L)) (by rw [hk, ← abs_neg]; congr 1; ring) ⟨k, Or.inr rfl⟩

theorem reflect_continuous (s : ℝ) (L U : ℤ) (h : L < U) : Tendsto (fun s' => reflect s' L U) (𝓝 s) (𝓝 (reflect s L U)) := by
  have hl : (0 : ℝ) < (U : ℝ) - L := by
    have : (L : ℝ) < U := by exact_mod_cast h
    linarith
  rw [Metric.tendsto_nhds]
  intro ε hε
  rw [Metric.eventually_nhds_iff]
  refine ⟨min ε (U - L), lt_min hε hl, fun y hy => ?_⟩
  rw [Real.dist_eq] at hy ⊢
  rcases reflect_lipschitz s y L U h with g | g
  · exact lt_of_le_of_lt g (lt_of_lt_of_le hy (min_le_left _ _))
  · exact absurd (lt_of_lt_of_le hy (min_le_right _ _)) (by linarith)

/-! ### The padded position near a point that is not an integer -/

/-- Near s the padded position is either constant, with coefficient 0, or ± s plus an integer, with that sign as coefficient. -/
def LocalPad (f : ℝ → ℝ) (s σ : ℝ) : Prop :=
  (σ = 0 ∧ ∀ᶠ s' in 𝓝 s, f s' = f s) ∨
  ((σ = 1 ∨ σ = -1) ∧ ∃ c : ℤ, f s = σ * s + c ∧ ∀ᶠ s' in 𝓝 s, f s' = σ * s' + c)

def NotInt (s : ℝ) : Prop := ∀ m : ℤ, s ≠ m

theorem repeat_local (s : ℝ) (S : Nat) (hs : NotInt s) : LocalPad (fun s => repeatPad s S) s (repeatCoef s S) := by
  by_cases h0 : s < 0
  · left
    refine ⟨by rw [repeatCoef, if_pos h0], ?_⟩
    filter_upwards [gt_mem_nhds h0] with s' h
    simp only [repeatPad]; rw [if_pos h, if_pos h0]
  · have h0' : 0 < s := lt_of_le_of_ne (not_lt.mp h0) (by have := hs 0; simpa using this.symm)
    by_cases h1 : s > (S : ℝ) - 1
    · left
      refine ⟨by rw [repeatCoef, if_neg h0, if_pos h1], ?_⟩
      filter_upwards [lt_mem_nhds h0', lt_mem_nhds h1] with s' a b
      simp only [repeatPad]; rw [if_neg (by linarith), if_neg h0, if_pos h1, if_pos b]
    · right
      have h1' : s < (S : ℝ) - 1 := lt_of_le_of_ne (not_lt.mp h1) (by have := hs (S - 1); push_cast at this; exact this)
      have e : repeatCoef s S = 1 := by rw [repeatCoef, if_neg h0, if_neg h1]
      refine ⟨Or.inl e, 0, by simp only [repeatPad]; rw [if_neg h0, if_neg h1, e]; simp, ?_⟩
      filter_upwards [lt_mem_nhds h0', gt_mem_nhds h1'] with s' a b
      simp only [repeatPad]; rw [if_neg (by linarith), if_neg (by linarith), e]; simp

theorem reflect_local_ac (s : ℝ) (S : Nat) (hS : 2 ≤ S) (hs : NotInt s) :
    LocalPad (fun s => reflectPad true s S) s (reflectPadCoef true s S) := by
  have h : (0 : ℤ) < (S : ℤ) - 1 := by omega
  right
  simp only [reflectPad, reflectPadCoef, if_true]
  obtain ⟨h1, h2, hf⟩ := reflect_form s 0 ((S : ℤ) - 1) h
  have hn : ∃ c : ℤ, (reflectCoef s 0 ((S : ℤ) - 1) = 1 ∨ reflectCoef s 0 ((S : ℤ) - 1) = -1) ∧
      reflect s 0 ((S : ℤ) - 1) = reflectCoef s 0 ((S : ℤ) - 1) * s + c := by
    rcases hf with ⟨e, k, hk⟩ | ⟨e, k, hk⟩
    · exact ⟨2 * k * ((S : ℤ) - 1 - 0), Or.inl e, by rw [e, hk]; push_cast; ring⟩
    · exact ⟨2 * k * ((S : ℤ) - 1 - 0), Or.inr e, by rw [e, hk]; push_cast; ring⟩
  obtain ⟨c, hσ, hc⟩ := hn
  have hni : NotInt (reflect s 0 ((S : ℤ) - 1)) := by
    intro m e
    rw [hc] at e
    rcases hσ with g | g
    · rw [g] at e; exact hs (m - c) (by push_cast; linarith)
    · rw [g] at e; exact hs (c - m) (by push_cast; linarith)
  obtain ⟨c', e', hev⟩ := reflect_inside s 0 ((S : ℤ) - 1) h (lt_of_le_of_ne h1 (Ne.symm (hni 0))) (lt_of_le_of_ne h2 (hni _))
  have : c' = c := by linarith
  subst this
  exact ⟨hσ, c, hc, hev⟩

theorem reflect_local_nac (s : ℝ) (S : Nat) (hS : 1 ≤ S) (hs : NotInt s) :
    LocalPad (fun s => reflectPad false s S) s (reflectPadCoef false s S) := by
  have h : (-1 : ℤ) < 2 * (S : ℤ) - 1 := by omega
  simp only [reflectPad, reflectPadCoef, Bool.false_eq_true, if_false]
  have cont : Tendsto (fun s' : ℝ => reflect (2 * s') (-1) (2 * (S : ℤ) - 1) * (1 / 2)) (𝓝 s)
      (𝓝 (reflect (2 * s) (-1) (2 * (S : ℤ) - 1) * (1 / 2))) :=
    ((reflect_continuous (2 * s) _ _ h).comp ((continuous_const.mul continuous_id).tendsto s)).mul_const _
  obtain ⟨h1, h2, hf⟩ := reflect_form (2 * s) (-1) (2 * (S : ℤ) - 1) h
  have hn : ∃ c : ℤ, (reflectCoef (2 * s) (-1) (2 * (S : ℤ) - 1) = 1 ∨ reflectCoef (2 * s) (-1) (2 * (S : ℤ) - 1) = -1) ∧
      reflect (2 * s) (-1) (2 * (S : ℤ) - 1) * (1 / 2) = reflectCoef (2 * s) (-1) (2 * (S : ℤ) - 1) * s + c := by
    rcases hf with ⟨e, k, hk⟩ | ⟨e, k, hk⟩
    · exact ⟨2 * k * S, Or.inl e, by rw [e, hk]; push_cast; ring⟩
    · exact ⟨-1 + 2 * k * S, Or.inr e, by rw [e, hk]; push_cast; ring⟩
  obtain ⟨c, hσ, hc⟩ := hn
  generalize hsf : reflect (2 * s) (-1) (2 * (S : ℤ) - 1) * (1 / 2) = sf at cont hc ⊢
  have hni : NotInt sf := by
    intro m e
    rw [hc] at e
    rcases hσ with g | g
    · rw [g] at e; exact hs (m - c) (by push_cast; linarith)
    · rw [g] at e; exact hs (c - m) (by push_cast; linarith)
  rcases repeat_local sf S hni with ⟨e, hev⟩ | ⟨hσ', c', e', hev⟩
  · left
    refine ⟨by rw [e, mul_zero], ?_⟩
    show ∀ᶠ s' in 𝓝 s, repeatPad (reflect (2 * s') (-1) (2 * (S : ℤ) - 1) * (1 / 2)) S = repeatPad (reflect (2 * s) (-1) (2 * (S : ℤ) - 1) * (1 / 2)) S
    rw [hsf]
    exact cont.eventually hev
  · right
    have hcoef : repeatCoef sf S = 1 := by
      rcases hσ' with g | g
      · exact g
      · exfalso
        unfold repeatCoef at g
        split at g
        · norm_num at g
        · split at g <;> norm_num at g
    have in1 : 0 ≤ sf := by
      by_contra hlt
      rw [repeatCoef, if_pos (not_le.mp hlt)] at hcoef; norm_num at hcoef
    have in2 : sf ≤ (S : ℝ) - 1 := by
      by_contra hlt
      rw [repeatCoef, if_neg (not_lt.mpr in1), if_pos (not_le.mp hlt)] at hcoef; norm_num at hcoef
    rw [hcoef, mul_one]
    have hid : repeatPad sf S = sf := by
      rw [repeatPad, if_neg (not_lt.mpr in1), if_neg (not_lt.mpr in2)]
    refine ⟨hσ, c, by simp only []; rw [hsf, hid]; exact hc, ?_⟩
    obtain ⟨b, hb, hev2⟩ := reflect_inside (2 * s) (-1) (2 * (S : ℤ) - 1) h (by push_cast; linarith) (by push_cast; linarith)
    have hev2' := ((continuous_const.mul continuous_id).tendsto s).eventually hev2
    rw [hcoef] at e' hev
    have hc' : c' = 0 := by
      have : (c' : ℝ) = 0 := by simp only [] at e'; rw [hid] at e'; linarith
      exact_mod_cast this
    filter_upwards [cont.eventually hev, hev2'] with s' g1 g2
    have g2' : reflect (2 * s') (-1) (2 * (S : ℤ) - 1) = reflectCoef (2 * s) (-1) (2 * (S : ℤ) - 1) * (2 * s') + b := g2
    rw [g1, hc', g2']
    have : b = 2 * c := by linarith
    rw [this]; push_cast; ring

/-- The padded position near a point that is not an integer. -/
theorem findex_local (p : Pad) (ac : Bool) (s : ℝ) (S : Nat) (hS : 1 ≤ S) (h1 : p = .reflect → ac = true → 2 ≤ S) (hs : NotInt s) :
    LocalPad (fun s => findex p ac s S) s (padCoef p ac s S) := by
  cases p with
  | zero => exact Or.inr ⟨Or.inl rfl, 0, by simp [findex, padCoef], Eventually.of_forall fun s' => by simp [findex, padCoef]⟩
  | repeat' => exact repeat_local s S hs
  | reflect =>
    cases ac with
    | true => exact reflect_local_ac s S (h1 rfl rfl) hs
    | false => exact reflect_local_nac s S hS hs

/-- A grid coordinate at which the sampled image is smooth: the source position is not a pixel centre (nor, by the periods of
the padding, the image of one); or there is a single pixel along the axis with align_corners, whose position does not depend on
the coordinate. -/
def Smooth (ac : Bool) (g : ℝ) (S : Nat) : Prop := NotInt (unnormalize ac g S) ∨ (ac = true ∧ S = 1)

theorem unnormalize_deriv (ac : Bool) (g : ℝ) (S : Nat) :
    HasDerivAt (fun g => unnormalize ac g S) (if ac then ((S : ℝ) - 1) / 2 else (S : ℝ) / 2) g := by
  cases ac with
  | true =>
    simp only [unnormalize, if_true]
    refine ((((hasDerivAt_id g).add_const 1).mul_const ((S : ℝ) - 1)).div_const 2).congr_deriv (by ring)
  | false =>
    simp only [unnormalize, Bool.false_eq_true, if_false]
    refine (((((hasDerivAt_id g).add_const 1).mul_const (S : ℝ)).sub_const 1).div_const 2).congr_deriv (by ring)

/-- Along every differentiable path through a smooth coordinate: the pixel below the source position stays the same, and the
position moves with the coefficient of the code. -/
theorem src_path (p : Pad) (ac : Bool) (S : Nat) (hS : 1 ≤ S) (c : ℝ → ℝ) (v : ℝ) (hc : HasDerivAt c v 0) (hs : Smooth ac (c 0) S) :
    (∀ᶠ t in 𝓝 (0 : ℝ), ⌊src p ac (c t) S⌋ = ⌊src p ac (c 0) S⌋) ∧
    HasDerivAt (fun t => src p ac (c t) S) (v * gradCoef p ac (unnormalize ac (c 0) S) S) 0 := by
  by_cases hone : ac = true ∧ S = 1
  · obtain ⟨rfl, rfl⟩ := hone
    have e : ∀ g, src p true g 1 = src p true (c 0) 1 := by
      intro g; simp [src, unnormalize]
    refine ⟨Eventually.of_forall fun t => by rw [e], ?_⟩
    have : (fun t => src p true (c t) 1) = fun _ => src p true (c 0) 1 := by funext t; exact e _
    rw [this]
    refine (hasDerivAt_const _ _).congr_deriv ?_
    simp [gradCoef]
  · have hs : NotInt (unnormalize ac (c 0) S) := hs.resolve_right hone
    have hd : HasDerivAt (fun t => unnormalize ac (c t) S) ((if ac then ((S : ℝ) - 1) / 2 else (S : ℝ) / 2) * v) 0 :=
      HasDerivAt.comp (0 : ℝ) (h₂ := fun g => unnormalize ac g S) (unnormalize_deriv ac (c 0) S) hc
    have hcont : Tendsto (fun t => unnormalize ac (c t) S) (𝓝 0) (𝓝 (unnormalize ac (c 0) S)) := hd.continuousAt
    have eg : gradCoef p ac (unnormalize ac (c 0) S) S =
        padCoef p ac (unnormalize ac (c 0) S) S * (if ac then ((S : ℝ) - 1) / 2 else (S : ℝ) / 2) := by
      cases ac <;> simp [gradCoef] <;> ring
    rcases findex_local p ac _ S hS (fun _ ha => by
        by_contra hlt
        exact hone ⟨ha, by omega⟩) hs with ⟨e, hev⟩ | ⟨hσ, m, e, hev⟩
    · have hev' := hcont.eventually hev
      refine ⟨by filter_upwards [hev'] with t ht; simp only [src]; rw [ht], ?_⟩
      have h0 : HasDerivAt (fun _ : ℝ => src p ac (c 0) S) 0 (0 : ℝ) := hasDerivAt_const _ _
      refine (h0.congr_of_eventuallyEq hev').congr_deriv ?_
      rw [eg, e]; ring
    · have hev' := hcont.eventually hev
      have hni : NotInt (src p ac (c 0) S) := by
        intro j hj
        have hj' : padCoef p ac (unnormalize ac (c 0) S) S * unnormalize ac (c 0) S + m = j := by rw [← hj]; exact e.symm
        rcases hσ with g | g
        · rw [g] at hj'; exact hs (j - m) (by push_cast; linarith)
        · rw [g] at hj'; exact hs (m - j) (by push_cast; linarith)
      have hder : HasDerivAt (fun t => src p ac (c t) S) (v * gradCoef p ac (unnormalize ac (c 0) S) S) 0 := by
        have h0 := (hd.const_mul (padCoef p ac (unnormalize ac (c 0) S) S)).add_const (m : ℝ)
        refine (h0.congr_of_eventuallyEq hev').congr_deriv ?_
        rw [eg]; ring
      refine ⟨?_, hder⟩
      have hct : Tendsto (fun t => src p ac (c t) S) (𝓝 0) (𝓝 (src p ac (c 0) S)) := hder.continuousAt
      have l1 : (⌊src p ac (c 0) S⌋ : ℝ) < src p ac (c 0) S := lt_of_le_of_ne (Int.floor_le _) (Ne.symm (hni _))
      have l2 := Int.lt_floor_add_one (src p ac (c 0) S)
      filter_upwards [hct.eventually (lt_mem_nhds l1), hct.eventually (gt_mem_nhds l2)] with t a b
      exact Int.floor_eq_iff.mpr ⟨le_of_lt a, b⟩

end Verif.Warp
