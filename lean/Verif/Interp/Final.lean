import Verif.Interp.Props
/-
F.interpolate: the property theorems.
-/
namespace Verif.Interp
open Verif.ND Verif.Fn Verif.Act Verif.Elem

theorem zip_self' {α} (l : List α) : l.zip l = l.map fun a => (a, a) := by
  induction l with
  | nil => rfl
  | cons a l ih => simp [ih]

theorem set_range (k : Nat) (outer is qs tl : Shape) (hi : is.length = k) (hq : qs.length = k) (hk : k ≤ 3) :
    (List.range k).foldl (fun s d => s.set (d + outer.length) (qs.getD d 0)) (outer ++ is ++ tl) = outer ++ qs ++ tl := by
  rcases is with _ | ⟨a, _ | ⟨b, _ | ⟨d, _ | ⟨e, is⟩⟩⟩⟩ <;> rcases qs with _ | ⟨a', _ | ⟨b', _ | ⟨d', _ | ⟨e', qs⟩⟩⟩⟩ <;>
    simp at hi hq <;> subst hi <;> simp at hq hk
  · simp
  · simp [List.range_succ, List.set_append]
  · simp [List.range_succ, List.set_append]
  · simp [List.range_succ, List.set_append]
  · exfalso; omega

/-- C183: which arguments F.interpolate accepts and the shape it gives. The last len(output_size) dimensions (before the
channel when channel_last) are replaced by output_size and nothing else changes; wrong lengths of output_size, unknown modes
and align_corners together with half_pixel are rejected; with channel_last both passes fail on the CPU.
Partial: an input with fewer dimensions than output_size is not rejected (see `C183_too_few_dimensions_refuted`). -/
theorem C183_interpolate_setup_partial (c : Cfg) (outer is tl : Shape) (hl : is.length = c.outputSize.length)
    (ht : tl.length = if c.channelLast then 1 else 0) :
    (1 ≤ c.outputSize.length → c.outputSize.length ≤ 3 → c.mode = "linear" ∨ c.mode = "nearest" →
      ¬ (c.alignCorners = true ∧ c.halfPixel = true) → setup c (outer ++ is ++ tl) = .ok (outer ++ c.outputSize ++ tl)) ∧
    (∀ sh, c.outputSize.length = 0 ∨ 3 < c.outputSize.length ∨ (c.mode ≠ "linear" ∧ c.mode ≠ "nearest") →
      setup c sh = .error .notImplemented) ∧
    (∀ sh, 1 ≤ c.outputSize.length → c.outputSize.length ≤ 3 → c.mode = "linear" ∨ c.mode = "nearest" →
      c.alignCorners = true → c.halfPixel = true → setup c sh = .error .value) ∧
    (c.channelLast = true → ∀ xsh ysh, forward c xsh ysh = .error .notImplemented ∧ backward c xsh ysh = .error .notImplemented) := by
  refine ⟨?_, ?_, ?_, ?_⟩
  · intro h1 h2 h3 h4
    have h4' : c.alignCorners = false ∨ c.halfPixel = false := by
      cases h : c.alignCorners <;> cases h' : c.halfPixel <;> simp_all
    have e : (outer ++ is ++ tl).length = outer.length + (if c.channelLast then c.outputSize.length + 1 else c.outputSize.length) := by
      simp only [List.length_append, ht, hl]
      split <;> omega
    rw [setup, if_neg (by simp [h1, h2]), if_neg (by simp [h3]), if_neg (by simp [h4'])]
    simp only []
    rw [e, if_neg (by omega), Nat.add_sub_cancel]
    rw [set_range _ outer is c.outputSize tl hl rfl h2]
  · intro sh h
    rw [setup]
    by_cases h1 : 1 ≤ c.outputSize.length ∧ c.outputSize.length ≤ 3
    · rw [if_neg (by simp [h1])]
      rcases h with h | h | h
      · omega
      · omega
      · rw [if_pos (by simp [h])]
    · rw [if_pos h1]
  · intro sh h1 h2 h3 h4 h5
    rw [setup, if_neg (by simp [h1, h2]), if_neg (by simp [h3]), if_pos (by simp [h4, h5])]
  · intro h xsh ysh
    simp [forward, backward, h]

example : setup ⟨[4, 5], "linear", false, true, false, false⟩ [2, 3, 7, 8] = .ok [2, 3, 4, 5] := by decide
example : setup ⟨[4, 5], "linear", false, true, false, true⟩ [2, 7, 8, 3] = .ok [2, 4, 5, 3] := by decide

/-- C183, what is missing: a one-dimensional input with a two-dimensional output_size passes every check and the shape is
written outside of its vector. -/
theorem C183_too_few_dimensions_refuted :
    ¬ ∀ (c : Cfg) (sh : Shape), sh.length < c.outputSize.length →
      setup c sh = .error .notImplemented ∨ setup c sh = .error .value := by
  intro h
  have := h ⟨[4, 5], "linear", false, false, false, false⟩ [3] (by simp)
  revert this
  decide

section
variable (c : Cfg) (outer is qs : Shape) (hq : c.outputSize = qs) (hl : is.length = qs.length)
    (hk : 1 ≤ is.length ∧ is.length ≤ 3) (hcl : c.channelLast = false) (hi : ∀ i ∈ is, 0 < i)
    (hah : ¬ (c.alignCorners = true ∧ c.halfPixel = true))

include hq hl hk hcl hi hah in
/-- C184: in mode "linear" every output is the multilinear interpolation of the inputs at the documented input coordinate,
moved to the border when it lies outside: the sum of all samples of the same outer index, each weighted by the product over the
axes of max(0, 1 - distance). Nothing outside of the output is written. Partial: not on an axis of output size 1 with
half_pixel (see `C184_half_pixel_single_output_refuted`). -/
theorem C184_interpolate_linear_partial (hm : c.mode = "linear")
    (hx : ∀ p ∈ is.zip qs, c.halfPixel = true → p.2 = 1 → p.1 = 1) :
    ∃ F, forward c (outer ++ is) (outer ++ qs) = .ok F ∧
      (∀ x y n o, InBounds outer n → InBounds qs o → F x y (ravel (outer ++ qs) (n ++ o)) =
        ((indices is).map fun j =>
          lerpWeight c.alignCorners c.halfPixel is qs o j * x (ravel (outer ++ is) (n ++ j))).sum) ∧
      ∀ x y k, prod (outer ++ qs) ≤ k → F x y k = y k := by
  refine ⟨_, (kernels c outer is qs hq hl hk hcl hi (Or.inl ⟨hm, hah⟩) _ (fun _ => rfl) (fun e => by rw [hm] at e; simp at e)).1, ?_, ?_⟩
  · intro x y n o hn ho
    rw [ravel_append _ _ _ _ hn.length, weighted_value _ _ _ _ _ _ _ (ravel_lt hn) _ ho,
      corners_lerp hah is qs o hi hl ho hx]
    congr 1
    apply List.map_congr_left
    intro j _
    rw [ravel_append _ _ _ _ hn.length]
  · intro x y k hk
    rw [prod_append] at hk
    exact weighted_outside _ _ _ _ _ _ _ hk

include hq hl hk hcl hi hah in
/-- C186: in mode "nearest" every output is a copy of the input sample at or just before the documented input coordinate on
every axis. Partial: not on an axis of output size 1 with half_pixel, and the sample is the one before the coordinate, not
the nearest one (see `C186_not_nearest_refuted`). -/
theorem C186_interpolate_nearest_partial (hm : c.mode = "nearest")
    (hx : ∀ p ∈ is.zip qs, c.halfPixel = true → c.halfPixelForNN = false → p.2 = 1 → p.1 = 1) :
    ∃ F, forward c (outer ++ is) (outer ++ qs) = .ok F ∧
      (∀ x y n o, InBounds outer n → InBounds qs o →
        InBounds is (sampleBefore c.alignCorners c.halfPixel c.halfPixelForNN is qs o) ∧
        F x y (ravel (outer ++ qs) (n ++ o)) =
          x (ravel (outer ++ is) (n ++ sampleBefore c.alignCorners c.halfPixel c.halfPixelForNN is qs o))) ∧
      ∀ x y k, prod (outer ++ qs) ≤ k → F x y k = y k := by
  refine ⟨_, (kernels c outer is qs hq hl hk hcl hi (Or.inr hm) _ (fun e => by rw [hm] at e; simp at e) (fun _ => rfl)).1, ?_, ?_⟩
  · intro x y n o hn ho
    have e := nears_eq hah is qs o hi hl ho hx
    refine ⟨e ▸ nears_inBounds _ _ _ is qs o hi hl ho, ?_⟩
    rw [ravel_append _ _ _ _ hn.length, weighted_value _ _ _ _ _ _ _ (ravel_lt hn) _ ho, e, ravel_append _ _ _ _ hn.length]
    simp [wsum]
  · intro x y k hk
    rw [prod_append] at hk
    exact weighted_outside _ _ _ _ _ _ _ hk

include hq hl hk hcl hi hah in
/-- C187: the gradient of F.interpolate, in both modes and for all options (including those excluded in C184 and C186): the
backward pass is the transpose of the forward pass (which is linear in x), it accumulates, and it writes only inside the
gradient of x. -/
theorem C187_interpolate_grad (hm : c.mode = "linear" ∨ c.mode = "nearest") :
    ∃ F B, forward c (outer ++ is) (outer ++ qs) = .ok F ∧ backward c (outer ++ is) (outer ++ qs) = .ok B ∧
      (∀ y, GradOK (prod (outer ++ is)) (prod (outer ++ qs)) (fun x => F x y) (callBackward B)) ∧
      ∀ a dy dx k, prod (outer ++ is) ≤ k → B a dy dx k = dx k := by
  have out : ∀ T : List Nat → List (Nat × ℝ), (∀ o, InBounds qs o → ∀ c ∈ T o, c.1 < prod is) → ∀ (dy dx : Mem ℝ) k,
      prod (outer ++ is) ≤ k → adds (outerLoop (prod outer) (prod qs) (prod is) (scatterW qs T) dy) dx k = dx k := by
    intro T hT dy dx k hk
    rw [prod_append] at hk
    rw [adds_eq, List.sum_eq_zero, add_zero]
    intro v hv
    obtain ⟨p, hp, rfl⟩ := List.mem_map.mp hv
    simp only [outerLoop, scatterW, List.mem_flatMap, List.mem_range, List.mem_map] at hp
    obtain ⟨n, hn, q, ⟨o, ho, c, hc, rfl⟩, rfl⟩ := hp
    have h1 := hT o ((mem_indices _ _).mp ho) c hc
    have h2 := Nat.mul_le_mul_right (prod is) (show n + 1 ≤ prod outer by omega)
    rw [Nat.succ_mul] at h2
    rw [if_neg]
    show n * prod is + c.1 ≠ k
    omega
  rcases hm with hm | hm
  · have hT := fun o (ho : InBounds qs o) => corners_lt hah is qs o hi hl ho
    have e := kernels c outer is qs hq hl hk hcl hi (Or.inl ⟨hm, hah⟩) _ (fun _ => rfl) (fun e => by rw [hm] at e; simp at e)
    refine ⟨_, _, e.1, e.2, ?_, fun _ dy dx k => out _ hT dy dx k⟩
    intro y
    rw [prod_append, prod_append]
    exact weighted_grad _ _ qs _ hT y
  · have hT : ∀ o, InBounds qs o → ∀ p ∈ [(ravel is (nears c.alignCorners c.halfPixel c.halfPixelForNN is qs o), (1 : ℝ))],
        p.1 < prod is := by
      intro o ho p hp
      rw [List.mem_singleton] at hp
      rw [hp]
      exact ravel_lt (nears_inBounds _ _ _ is qs o hi hl ho)
    have e := kernels c outer is qs hq hl hk hcl hi (Or.inr hm) _ (fun e => by rw [hm] at e; simp at e) (fun _ => rfl)
    refine ⟨_, _, e.1, e.2, ?_, fun _ dy dx k => out _ hT dy dx k⟩
    intro y
    rw [prod_append, prod_append]
    exact weighted_grad _ _ qs _ hT y

end

/-! ### What interpolation weights do -/

theorem hat_nonneg (t : ℝ) : 0 ≤ hat t := le_max_left _ _

theorem lerpWeight_nonneg (a h : Bool) (is qs o j : List Nat) : 0 ≤ lerpWeight a h is qs o j := by
  induction is generalizing qs o j with
  | nil => simp [lerpWeight]
  | cons i is ih =>
    rcases qs with _ | ⟨q, qs⟩
    · simp [lerpWeight]
    rcases o with _ | ⟨o, os⟩
    · simp [lerpWeight]
    rcases j with _ | ⟨j, js⟩
    · simp [lerpWeight]
    exact mul_nonneg (hat_nonneg _) (ih _ _ _)

theorem clamp_range {i : Nat} (hi : 0 < i) (t : ℝ) : 0 ≤ clamp i t ∧ clamp i t ≤ (i : ℝ) - 1 := by
  have hi' : (1 : ℝ) ≤ i := by exact_mod_cast hi
  exact ⟨le_max_left _ _, max_le (by linarith) (min_le_right _ _)⟩

/-- Along one axis the weights add up to 1. -/
theorem hat_sum (i : Nat) (f : ℝ) (h0 : 0 ≤ f) (h : f ≤ (i : ℝ) - 1) :
    ((List.range i).map fun j : Nat => hat (f - (j : ℝ))).sum = 1 := by
  have := axis_lerp i f h0 (by linarith) fun _ => 1
  rw [min_eq_left h] at this
  simp only [mul_one] at this
  rw [← this]; ring

theorem lerpWeight_sum (a h : Bool) (is qs o : List Nat) (hi : ∀ i ∈ is, 0 < i) (hl : is.length = qs.length)
    (ho : InBounds qs o) : ((indices is).map fun j => lerpWeight a h is qs o j).sum = 1 := by
  induction is generalizing qs o with
  | nil => simp [indices, lerpWeight]
  | cons i is ih =>
    rcases qs with _ | ⟨q, qs⟩
    · simp at hl
    rcases o with _ | ⟨o, os⟩
    · simp [InBounds] at ho
    have ih' := ih qs os (fun j hj => hi j (List.mem_cons_of_mem _ hj)) (by simpa using hl) ho.2
    rw [indices, sum_flatMap]
    have hc := clamp_range (hi i (by simp)) (coord a h i q o)
    rw [← hat_sum i _ hc.1 hc.2]
    congr 1
    apply List.map_congr_left
    intro k _
    rw [List.map_map]
    have : ((indices is).map ((fun j => lerpWeight a h (i :: is) (q :: qs) (o :: os) j) ∘ (k :: ·))).sum =
        ((indices is).map fun j => hat (clamp i (coord a h i q o) - k) * lerpWeight a h is qs os j).sum := rfl
    rw [this, List.sum_map_mul_left, ih', mul_one]

/-- At an integer position only that sample counts. -/
theorem lerpWeight_at (a h : Bool) (is qs o t : List Nat) (hl : is.length = qs.length) (ho : InBounds qs o) (ht : InBounds is t)
    (hp : ∀ p ∈ (is.zip qs).zip (o.zip t), clamp p.1.1 (coord a h p.1.1 p.1.2 p.2.1) = p.2.2) (s : List Nat → ℝ) :
    ((indices is).map fun j => lerpWeight a h is qs o j * s j).sum = s t := by
  induction is generalizing qs o t s with
  | nil =>
    cases t
    · simp [indices, lerpWeight]
    · simp [InBounds] at ht
  | cons i is ih =>
    rcases qs with _ | ⟨q, qs⟩
    · simp at hl
    rcases o with _ | ⟨o, os⟩
    · simp [InBounds] at ho
    rcases t with _ | ⟨t, ts⟩
    · simp [InBounds] at ht
    have ih' := ih qs os ts (by simpa using hl) ho.2 ht.2 (fun p hp' => hp p (by simp [hp'])) 
    have h0 := hp ((i, q), (o, t)) (by simp)
    simp only at h0
    rw [indices, sum_flatMap]
    have e : ∀ k : Nat, (((indices is).map (k :: ·)).map fun j => lerpWeight a h (i :: is) (q :: qs) (o :: os) j * s j).sum =
        hat ((t : ℝ) - k) * s (k :: ts) := by
      intro k
      rw [← ih' fun js => s (k :: js), ← List.sum_map_mul_left, List.map_map]
      congr 1
      apply List.map_congr_left
      intro j _
      simp only [Function.comp, lerpWeight, h0]
      ring
    simp only [e]
    rw [← sum_range_list, Finset.sum_eq_single t]
    · simp [hat]
    · intro k _ hk
      have : (1 : ℝ) ≤ |(t : ℝ) - k| := by
        rcases Nat.lt_or_ge k t with hk' | hk'
        · have : (k : ℝ) + 1 ≤ t := by exact_mod_cast hk'
          exact le_trans (by linarith) (le_abs_self _)
        · have h2 : t + 1 ≤ k := by omega
          have : (t : ℝ) + 1 ≤ k := by exact_mod_cast h2
          exact le_trans (by linarith) (neg_le_abs _)
      rw [hat, max_eq_left (by linarith), zero_mul]
    · intro hh; exact absurd (Finset.mem_range.mpr ht.1) hh

theorem weighted_between (l : List (List Nat)) (w s : List Nat → ℝ) (lo hi : ℝ) (hw : ∀ j ∈ l, 0 ≤ w j)
    (h : ∀ j ∈ l, lo ≤ s j ∧ s j ≤ hi) :
    (l.map w).sum * lo ≤ (l.map fun j => w j * s j).sum ∧ (l.map fun j => w j * s j).sum ≤ (l.map w).sum * hi := by
  induction l with
  | nil => simp
  | cons a l ih =>
    have ih' := ih (fun j hj => hw j (by simp [hj])) (fun j hj => h j (by simp [hj]))
    have h1 := hw a (by simp)
    have h2 := h a (by simp)
    simp only [List.map_cons, List.sum_cons, add_mul]
    exact ⟨add_le_add (mul_le_mul_of_nonneg_left h2.1 h1) ih'.1, add_le_add (mul_le_mul_of_nonneg_left h2.2 h1) ih'.2⟩

theorem coord_same (a h : Bool) (i o : Nat) (ho : o < i) : clamp i (coord a h i i o) = o := by
  have hi : 0 < i := by omega
  have hi' : (1 : ℝ) ≤ i := by exact_mod_cast hi
  have ho' : (o : ℝ) + 1 ≤ i := by exact_mod_cast ho
  have ho0 : (0 : ℝ) ≤ o := by positivity
  have key : coord a h i i o = o := by
    cases a
    · cases h
      · simp only [coord, Bool.false_eq_true, if_false]; field_simp
      · simp only [coord, Bool.false_eq_true, if_false, if_true]; field_simp; ring
    · simp only [coord, if_true]
      by_cases h1 : i = 1
      · subst h1
        have : o = 0 := by omega
        simp [this]
      · have : (2 : ℝ) ≤ i := by exact_mod_cast (by omega : 2 ≤ i)
        have : ((i : ℝ) - 1) ≠ 0 := by linarith
        field_simp
  rw [key, clamp, min_eq_left (by linarith), max_eq_right ho0]

section
variable (c : Cfg) (outer is qs : Shape) (hq : c.outputSize = qs) (hl : is.length = qs.length)
    (hk : 1 ≤ is.length ∧ is.length ≤ 3) (hcl : c.channelLast = false) (hi : ∀ i ∈ is, 0 < i)
    (hah : ¬ (c.alignCorners = true ∧ c.halfPixel = true)) (hm : c.mode = "linear")
    (hx : ∀ p ∈ is.zip qs, c.halfPixel = true → p.2 = 1 → p.1 = 1)

include hq hl hk hcl hi hah hm hx in
/-- C185: linear interpolation never leaves the range of the samples of its plane (no overshoot; in particular a constant plane
stays constant). -/
theorem C185_interpolate_range :
    ∃ F, forward c (outer ++ is) (outer ++ qs) = .ok F ∧ ∀ x y n o lo up, InBounds outer n → InBounds qs o →
      (∀ j, InBounds is j → lo ≤ x (ravel (outer ++ is) (n ++ j)) ∧ x (ravel (outer ++ is) (n ++ j)) ≤ up) →
      lo ≤ F x y (ravel (outer ++ qs) (n ++ o)) ∧ F x y (ravel (outer ++ qs) (n ++ o)) ≤ up := by
  obtain ⟨F, hF, hv, -⟩ := C184_interpolate_linear_partial c outer is qs hq hl hk hcl hi hah hm hx
  refine ⟨F, hF, ?_⟩
  intro x y n o lo up hn ho hb
  rw [hv x y n o hn ho]
  have := weighted_between (indices is) (lerpWeight c.alignCorners c.halfPixel is qs o)
    (fun j => x (ravel (outer ++ is) (n ++ j))) lo up (fun j _ => lerpWeight_nonneg _ _ _ _ _ _)
    (fun j hj => hb j ((mem_indices _ _).mp hj))
  rw [lerpWeight_sum _ _ is qs o hi hl ho, one_mul, one_mul] at this
  exact this

include hq hl hk hcl hi hah hm hx in
/-- C185: with align_corners the corner samples are kept: an output index that is on every axis the first or (with at least two
outputs on that axis) the last one has the value of the corresponding corner of the input. -/
theorem C185_interpolate_corners (ha : c.alignCorners = true) :
    ∃ F, forward c (outer ++ is) (outer ++ qs) = .ok F ∧ ∀ x y n o t, InBounds outer n → InBounds qs o → InBounds is t →
      (∀ p ∈ (is.zip qs).zip (o.zip t), (p.2.1 = 0 ∧ p.2.2 = 0) ∨ (2 ≤ p.1.2 ∧ p.2.1 = p.1.2 - 1 ∧ p.2.2 = p.1.1 - 1)) →
      F x y (ravel (outer ++ qs) (n ++ o)) = x (ravel (outer ++ is) (n ++ t)) := by
  obtain ⟨F, hF, hv, -⟩ := C184_interpolate_linear_partial c outer is qs hq hl hk hcl hi hah hm hx
  refine ⟨F, hF, ?_⟩
  intro x y n o t hn ho ht hc
  rw [hv x y n o hn ho]
  refine lerpWeight_at _ _ is qs o t hl ho ht ?_ fun j => x (ravel (outer ++ is) (n ++ j))
  rintro ⟨⟨i, q⟩, ⟨o', t'⟩⟩ hp
  have hip : 0 < i := hi i (List.of_mem_zip (List.of_mem_zip hp).1).1
  have hi' : (1 : ℝ) ≤ i := by exact_mod_cast hip
  rcases hc _ hp with ⟨h1, h2⟩ | ⟨h0, h1, h2⟩
  · simp only at h1 h2 ⊢
    rw [h1, h2, ha]
    simp [coord, clamp]
  · simp only at h0 h1 h2 ⊢
    have e : ((q - 1 : ℕ) : ℝ) = q - 1 := by rw [Nat.cast_sub (by omega)]; simp
    have e2 : ((i - 1 : ℕ) : ℝ) = i - 1 := by rw [Nat.cast_sub (by omega)]; simp
    have h2' : (2 : ℝ) ≤ q := by exact_mod_cast h0
    have h3 : ((q : ℝ) - 1) ≠ 0 := by linarith
    rw [h1, h2, ha]
    simp only [coord, if_true, e, e2]
    have e3 : ((q : ℝ) - 1) * (i - 1) / (q - 1) = i - 1 := by field_simp
    rw [e3, clamp, min_self, max_eq_right (by linarith)]

end

/-- C185: resizing to the same size changes nothing, in every option combination. -/
theorem C185_interpolate_same_size (c : Cfg) (outer is : Shape) (hq : c.outputSize = is)
    (hk : 1 ≤ is.length ∧ is.length ≤ 3) (hcl : c.channelLast = false) (hi : ∀ i ∈ is, 0 < i)
    (hah : ¬ (c.alignCorners = true ∧ c.halfPixel = true)) (hm : c.mode = "linear") :
    ∃ F, forward c (outer ++ is) (outer ++ is) = .ok F ∧ ∀ x y k, k < prod (outer ++ is) → F x y k = x k := by
  have hz : ∀ p ∈ is.zip is, p.1 = p.2 := by
    intro p hp
    rw [zip_self'] at hp
    obtain ⟨a, _, rfl⟩ := List.mem_map.mp hp
    rfl
  obtain ⟨F, hF, hv, -⟩ := C184_interpolate_linear_partial c outer is is hq rfl hk hcl hi hah hm
    (fun p hp _ h1 => by rw [hz p hp]; exact h1)
  refine ⟨F, hF, ?_⟩
  intro x y k hk'
  have hmem : k ∈ (indices (outer ++ is)).map (ravel (outer ++ is)) := by rw [indices_ravel]; exact List.mem_range.mpr hk'
  obtain ⟨j, hj, rfl⟩ := List.mem_map.mp hmem
  rw [mem_indices] at hj
  have hj2 : InBounds outer (j.take outer.length) ∧ InBounds is (j.drop outer.length) := by
    have hlen := hj.length
    have := (inBounds_append outer is (j.take outer.length) (j.drop outer.length) (by simp [hlen])).mp (by rw [List.take_append_drop]; exact hj)
    exact this
  rw [← List.take_append_drop outer.length j, hv x y _ _ hj2.1 hj2.2]
  refine lerpWeight_at _ _ is is _ _ rfl hj2.2 hj2.2 ?_ fun t => x (ravel (outer ++ is) (j.take outer.length ++ t))
  rintro ⟨⟨i, q⟩, ⟨o', t'⟩⟩ hp
  have h1 := hz _ (List.of_mem_zip hp).1
  have h2 : o' = t' := by
    have := (List.of_mem_zip hp).2
    rw [zip_self'] at this
    obtain ⟨a, _, e⟩ := List.mem_map.mp this
    simp at e
    rw [← e.1, ← e.2]
  simp only at h1
  subst h1
  subst h2
  have ho : o' < i := by
    have key : ∀ (s u : List Nat), InBounds s u → ∀ p ∈ (s.zip s).zip (u.zip u), p.2.1 < p.1.1 := by
      intro s
      induction s with
      | nil => intro u _ p hp; simp at hp
      | cons a s ih =>
        intro u hu p hp
        cases u with
        | nil => simp at hp
        | cons b u =>
          simp only [List.zip_cons_cons, List.mem_cons] at hp
          rcases hp with rfl | hp
          · exact hu.1
          · exact ih u hu.2 p hp
    exact key is _ hj2.2 _ hp
  exact coord_same _ _ _ _ ho

/-! ### Witnesses -/

/-- C184, what is missing: half_pixel, linear, three samples resized to one. The documented coordinate is 0.5 * 3 / 1 - 0.5 = 1,
the middle sample; the code returns the first one. -/
theorem C184_half_pixel_single_output_refuted :
    coord false true 3 1 0 = 1 ∧
    ∃ F, forward ⟨[1], "linear", false, true, false, false⟩ [3] [1] = .ok F ∧
      ∀ x y, F x y 0 = x 0 := by
  refine ⟨by norm_num [coord], _, rfl, ?_⟩
  intro x y
  have e : srcIndex (computeScale 3 1 false) 0 true = 0 := by norm_num [srcIndex, computeScale]
  simp [dimFromEnd, size, sizeFrom, outerLoop, lin1, puts, cor, e]

/-- C186, what is missing: nearest, align_corners, four samples resized to five. Output 1 has input coordinate 3/4, sample 1 is
at distance 1/4; the code copies sample 0, at distance 3/4. -/
theorem C186_not_nearest_refuted :
    coord true false 4 5 1 = 3 / 4 ∧
    ∃ F, forward ⟨[5], "nearest", true, false, false, false⟩ [4] [5] = .ok F ∧ ∀ x y, F x y 1 = x 0 := by
  have hc : coord true false 4 5 1 = 3 / 4 := by norm_num [coord]
  refine ⟨hc, ?_⟩
  obtain ⟨F, hF, hv, -⟩ := C186_interpolate_nearest_partial ⟨[5], "nearest", true, false, false, false⟩ [] [4] [5] rfl rfl
    (by simp) rfl (by simp) (by simp) rfl (by simp)
  refine ⟨F, hF, ?_⟩
  intro x y
  have := (hv x y [] [1] (by simp [InBounds]) (by simp [InBounds])).2
  have e : sampleBefore true false false [4] [5] [1] = [0] := by
    simp only [sampleBefore, coordNN, Bool.false_eq_true, if_false, hc]
    have : clamp 4 (3 / 4) = 3 / 4 := by norm_num [clamp]
    rw [this]
    norm_num
  rw [e] at this
  simpa [ravel, prod] using this

/-- The hypotheses of C184 are met and the value is a proper mixture: two samples resized to four without alignment, output 1
is at coordinate 1/2. -/
example : ∃ F, forward ⟨[4], "linear", false, false, false, false⟩ [2] [4] = .ok F ∧
    ∀ x y, F x y 1 = (1 / 2) * x 0 + (1 / 2) * x 1 := by
  obtain ⟨F, hF, hv, -⟩ := C184_interpolate_linear_partial ⟨[4], "linear", false, false, false, false⟩ [] [2] [4] rfl rfl
    (by simp) rfl (by simp) (by simp) rfl (by simp)
  refine ⟨F, hF, ?_⟩
  intro x y
  have := hv x y [] [1] (by simp [InBounds]) (by simp [InBounds])
  have e : clamp 2 (coord false false 2 4 1) = 1 / 2 := by norm_num [clamp, coord]
  simp only [indices, List.range_succ, List.range_zero, List.nil_append, List.singleton_append, List.flatMap_cons, List.flatMap_nil, List.map_cons, List.map_nil,
    List.append_nil, List.cons_append, List.sum_cons, List.sum_nil, lerpWeight, e, ravel, prod] at this
  norm_num [hat, abs] at this
  simpa using this

/-- C187 on a batch of 3-dimensional images, and with half_pixel and a single output. -/
example : ∃ F B, forward ⟨[4, 3, 1], "linear", false, true, false, false⟩ [2, 3, 2, 5, 6] [2, 3, 4, 3, 1] = .ok F ∧
    backward ⟨[4, 3, 1], "linear", false, true, false, false⟩ [2, 3, 2, 5, 6] [2, 3, 4, 3, 1] = .ok B ∧
    (∀ y, GradOK 360 72 (fun x => F x y) (callBackward B)) ∧ ∀ a dy dx k, 360 ≤ k → B a dy dx k = dx k :=
  C187_interpolate_grad ⟨[4, 3, 1], "linear", false, true, false, false⟩ [2, 3] [2, 5, 6] [4, 3, 1] rfl rfl (by simp) rfl
    (by simp) (by simp) (Or.inl rfl)

/-- C185 on the last row, last column of an aligned image: its value is that of the input's last row and column. -/
example : ∃ F, forward ⟨[4, 7], "linear", true, false, false, false⟩ [2, 3, 5] [2, 4, 7] = .ok F ∧
    ∀ x y, F x y 55 = x 29 := by
  obtain ⟨F, hF, h⟩ := C185_interpolate_corners ⟨[4, 7], "linear", true, false, false, false⟩ [2] [3, 5] [4, 7] rfl rfl
    (by simp) rfl (by simp) (by simp) rfl (by simp) rfl
  exact ⟨F, hF, fun x y => h x y [1] [3, 6] [2, 4] (by simp [InBounds]) (by simp [InBounds]) (by simp [InBounds]) (by simp)⟩

/-! ### The Python wrapper -/

/-- C188: the output size. With output_size it is used as given (scale is ignored); with scale of at least one and at most
ndim factors (ndim - 1 with channel_last) every spatial dimension d is replaced by the largest integer not above factor * d;
with neither the call raises ValueError. Partial: more factors than dimensions are not rejected
(see `C188_too_many_factors_refuted`). -/
theorem C188_interpolate_output_size_partial (outer is tl : Shape) (cl : Bool) (s : List ℚ)
    (ht : tl.length = if cl then 1 else 0) (hs : s.length = is.length) (h1 : 1 ≤ is.length) :
    (∃ out, pyOutputSize (outer ++ is ++ tl) (some s) none cl = .ok out ∧ out.length = is.length ∧
      ∀ (a : Nat) (d : Nat) (f : ℚ), is[a]? = some d → s[a]? = some f →
        ∃ v : Int, out[a]? = some v ∧ (v : ℚ) ≤ f * d ∧ f * d < v + 1) ∧
    (∀ sh sc o, pyOutputSize sh sc (some o) cl = .ok (o.map Int.ofNat)) ∧
    ∀ sh, pyOutputSize sh none none cl = .error .value := by
  refine ⟨?_, ?_, ?_⟩
  · have e : (if cl then (lastK (outer ++ is ++ tl) (s.length + 1)).dropLast else lastK (outer ++ is ++ tl) s.length) = is := by
      cases cl
      · simp only [Bool.false_eq_true, if_false, List.length_eq_zero_iff] at ht ⊢
        subst ht
        rw [lastK, if_neg (by omega), List.append_nil, List.length_append, hs, Nat.add_sub_cancel]
        simp
      · simp only [if_true] at ht ⊢
        obtain ⟨t, rfl⟩ := List.length_eq_one_iff.mp ht
        rw [lastK, if_neg (by omega)]
        have : (outer ++ is ++ [t]).length - (s.length + 1) = outer.length := by simp [hs]
        rw [this, List.append_assoc, List.drop_left]
        simp
    refine ⟨_, rfl, ?_, ?_⟩
    · simp only [e]; simp [hs]
    · intro a d f hd hf
      refine ⟨⌊f * (d : ℚ)⌋, ?_, Int.floor_le _, Int.lt_floor_add_one _⟩
      simp only [e, List.getElem?_map]
      rw [List.getElem?_zip_eq_some.mpr (show is[a]? = some (d, f).1 ∧ s[a]? = some (d, f).2 from ⟨hd, hf⟩)]
      rfl
  · intro sh sc o
    cases sc <;> rfl
  · intro sh; rfl

example : pyOutputSize [2, 3, 5, 7] (some [3 / 2, 2]) none false = .ok [7, 14] := by
  simp [pyOutputSize, lastK]; norm_num

/-- C188, what is missing: a one-dimensional input with two scale factors is resized by the first factor only, no error. -/
theorem C188_too_many_factors_refuted :
    ¬ ∀ (sh : Shape) (s : List ℚ), sh.length < s.length → ∃ e, pyOutputSize sh (some s) none false = .error e := by
  intro h
  obtain ⟨e, he⟩ := h [4] [2, 3] (by simp)
  simp [pyOutputSize] at he

end Verif.Interp
