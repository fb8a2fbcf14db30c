import Verif.Warp.Pos
import Verif.Interp.Weighted
import Verif.Elem.Vjp
import Mathlib.Analysis.Calculus.Deriv.Add
/-
What WarpByGrid computes, and its gradients.
-/
namespace Verif.Warp
open Verif.ND Verif.Fn Verif.Act Verif.Elem Verif.Interp Filter Topology

/-! ### Specification -/

/-- The place between the pixels that a coordinate in [-1, 1] stands for: with align_corners -1 and 1 are the centres of the
first and the last pixel, without they are the outer edges of these pixels. -/
noncomputable def place (ac : Bool) (g : ℝ) (S : Nat) : ℝ := if ac then (g + 1) / 2 * (S - 1) else (g + 1) / 2 * S - 1 / 2

/-- The nearest place on the image. -/
noncomputable def clamp (s : ℝ) (S : Nat) : ℝ := max 0 (min ((S : ℝ) - 1) s)

/-- The place where the image is sampled. -/
def Sampled (p : Pad) (ac : Bool) (g : ℝ) (S : Nat) (t : ℝ) : Prop :=
  match p with
  | .zero => t = place ac g S
  | .repeat' => t = clamp (place ac g S) S
  | .reflect =>
    if ac then 0 ≤ t ∧ t ≤ (S : ℝ) - 1 ∧ ∃ k : ℤ, t = place ac g S + 2 * k * ((S : ℝ) - 1) ∨ t = -place ac g S + 2 * k * ((S : ℝ) - 1)
    else ∃ u : ℝ, (-(1 / 2) ≤ u ∧ u ≤ (S : ℝ) - 1 / 2 ∧ ∃ k : ℤ, u = place ac g S + 2 * k * S ∨ u = -1 - place ac g S + 2 * k * S) ∧ t = clamp u S

/-- The triangle kernel of linear interpolation. -/
noncomputable def tri (t : ℝ) : ℝ := max 0 (1 - |t|)

/-- i is the integer nearest to t; halfway cases go away from zero. -/
def Nearest (t : ℝ) (i : ℤ) : Prop := |(i : ℝ) - t| ≤ 1 / 2 ∧ (|(i : ℝ) - t| = 1 / 2 → |t| < |(i : ℝ)|)

/-! ### Positions -/

theorem unnormalize_place (ac : Bool) (g : ℝ) (S : Nat) : unnormalize ac g S = place ac g S := by
  cases ac <;> simp [unnormalize, place] <;> ring

theorem repeatPad_clamp (s : ℝ) (S : Nat) (hS : 1 ≤ S) : repeatPad s S = clamp s S := by
  have h1 : (1 : ℝ) ≤ S := by exact_mod_cast hS
  unfold repeatPad clamp
  split
  · rename_i h
    rw [min_eq_right (by linarith), max_eq_left h.le]
  · rename_i h
    split
    · rename_i h2
      rw [min_eq_left h2.le, max_eq_right (by linarith)]
    · rename_i h2
      rw [min_eq_right (not_lt.mp h2), max_eq_right (not_lt.mp h)]

/-- C192: the place at which the image is sampled is the one the documentation describes, for every padding mode, with and
without align_corners; the description leaves no choice. -/
theorem C192_sample_position (p : Pad) (ac : Bool) (g : ℝ) (S : Nat) (hS : 1 ≤ S) :
    Sampled p ac g S (src p ac g S) ∧ ∀ t, Sampled p ac g S t → t = src p ac g S := by
  have hcl := fun s => repeatPad_clamp s S hS
  cases p with
  | zero => exact ⟨unnormalize_place ac g S, fun t h => h.trans (unnormalize_place ac g S).symm⟩
  | repeat' =>
    refine ⟨?_, fun t h => ?_⟩
    · show repeatPad (unnormalize ac g S) S = _
      rw [hcl, unnormalize_place]
    · show t = repeatPad (unnormalize ac g S) S
      rw [hcl, unnormalize_place]; exact h
  | reflect =>
    cases ac with
    | true =>
      by_cases h2 : 2 ≤ S
      · have h : (0 : ℤ) < (S : ℤ) - 1 := by omega
        have hr := reflect_reflected (unnormalize true g S) 0 ((S : ℤ) - 1) h
        have tr : ∀ t, Sampled .reflect true g S t ↔ Reflected (unnormalize true g S) t 0 ((S : ℤ) - 1) := by
          intro t
          simp only [Sampled, if_true, Reflected, unnormalize_place]
          push_cast
          simp only [sub_zero, mul_zero, zero_sub]
        exact ⟨(tr _).mpr hr, fun t ht => reflected_unique _ _ _ _ _ h ((tr t).mp ht) hr⟩
      · have h1 : S = 1 := by omega
        subst h1
        have hp : place true g 1 = 0 := by simp [place]
        have hs : src .reflect true g 1 = 0 := by
          simp [src, findex, reflectPad, reflect, unnormalize]
        simp only [Sampled, if_true, hp, hs]
        refine ⟨⟨le_rfl, by simp, 0, by simp⟩, ?_⟩
        rintro t ⟨a, b, -⟩
        simp at b
        linarith
    | false =>
      have h : (-1 : ℤ) < 2 * (S : ℤ) - 1 := by omega
      have hr := reflect_reflected (2 * unnormalize false g S) (-1) (2 * (S : ℤ) - 1) h
      have tr : ∀ u : ℝ, (-(1 / 2) ≤ u ∧ u ≤ (S : ℝ) - 1 / 2 ∧ ∃ k : ℤ, u = place false g S + 2 * k * S ∨ u = -1 - place false g S + 2 * k * S) ↔
          Reflected (2 * unnormalize false g S) (2 * u) (-1) (2 * (S : ℤ) - 1) := by
        intro u
        simp only [Reflected, unnormalize_place]
        push_cast
        constructor
        · rintro ⟨a, b, k, hk⟩
          refine ⟨by linarith, by linarith, k, ?_⟩
          rcases hk with hk | hk
          · left; rw [hk]; ring
          · right; rw [hk]; ring
        · rintro ⟨a, b, k, hk⟩
          refine ⟨by linarith, by linarith, k, ?_⟩
          rcases hk with hk | hk
          · left; linarith
          · right; linarith
      have e : src .reflect false g S = clamp (reflect (2 * unnormalize false g S) (-1) (2 * (S : ℤ) - 1) * (1 / 2)) S := by
        simp only [src, findex, reflectPad, Bool.false_eq_true, if_false]; exact hcl _
      rw [e]
      simp only [Sampled, Bool.false_eq_true, if_false]
      refine ⟨⟨_, (tr _).mpr ?_, rfl⟩, ?_⟩
      · rw [show 2 * (reflect (2 * unnormalize false g S) (-1) (2 * (S : ℤ) - 1) * (1 / 2)) = reflect (2 * unnormalize false g S) (-1) (2 * (S : ℤ) - 1) by ring]
        exact hr
      · rintro t ⟨u, hu, rfl⟩
        have := reflected_unique _ _ _ _ _ h ((tr u).mp hu) hr
        rw [← this]
        congr 1; ring

/-- Non-vacuous: five pixels, reflection at the outer edges; the coordinate 1.4 is one pixel outside. -/
example : src .reflect false (7 / 5) 5 = 7 / 2 := by
  refine ((C192_sample_position .reflect false (7 / 5) 5 (by norm_num)).2 (7 / 2) ?_).symm
  simp only [Sampled, Bool.false_eq_true, if_false]
  refine ⟨7 / 2, ⟨by norm_num, by norm_num, 1, Or.inr ?_⟩, ?_⟩
  · simp only [place, Bool.false_eq_true, if_false]; norm_num
  · simp only [clamp]; norm_num

/-! ### Values -/

theorem inBounds4 {a b c d : Nat} {o : List Nat} (h : InBounds [a, b, c, d] o) :
    ∃ i j k l, o = [i, j, k, l] ∧ i < a ∧ j < b ∧ k < c ∧ l < d := by
  match o, h with
  | [i, j, k, l], ⟨h1, h2, h3, h4, _⟩ => exact ⟨i, j, k, l, rfl, h1, h2, h3, h4⟩

theorem inBounds5 {a b c d e : Nat} {o : List Nat} (h : InBounds [a, b, c, d, e] o) :
    ∃ i j k l m, o = [i, j, k, l, m] ∧ i < a ∧ j < b ∧ k < c ∧ l < d ∧ m < e := by
  match o, h with
  | [i, j, k, l, m], ⟨h1, h2, h3, h4, h5, _⟩ => exact ⟨i, j, k, l, m, rfl, h1, h2, h3, h4, h5⟩

/-- Linear interpolation along one axis of an array continued by zeros. -/
theorem interp1 (S : Nat) (s : ℝ) (f : ℤ → ℝ) (hf : ∀ i : ℤ, ¬ (0 ≤ i ∧ i < S) → f i = 0) :
    ∑ j ∈ Finset.range S, tri (s - j) * f j = (1 - (s - ⌊s⌋)) * f ⌊s⌋ + (s - ⌊s⌋) * f (⌊s⌋ + 1) := by
  have h1 := Int.floor_le s
  have h2 := Int.lt_floor_add_one s
  have t0 : tri (s - ⌊s⌋) = 1 - (s - ⌊s⌋) := by
    rw [tri, abs_of_nonneg (by linarith), max_eq_right (by linarith)]
  have t1 : tri (s - ((⌊s⌋ + 1 : ℤ) : ℝ)) = s - ⌊s⌋ := by
    push_cast
    rw [tri, abs_of_nonpos (by linarith), max_eq_right (by linarith)]; ring
  have key : ∀ i : ℤ, tri (s - i) * f i = (if i = ⌊s⌋ then (1 - (s - ⌊s⌋)) * f ⌊s⌋ else 0) +
      (if i = ⌊s⌋ + 1 then (s - ⌊s⌋) * f (⌊s⌋ + 1) else 0) := by
    intro i
    by_cases a : i = ⌊s⌋
    · rw [if_pos a, if_neg (by omega), a, t0, add_zero]
    · rw [if_neg a]
      by_cases b : i = ⌊s⌋ + 1
      · rw [if_pos b, b, t1, zero_add]
      · rw [if_neg b]
        have : tri (s - i) = 0 := by
          rw [tri]
          apply max_eq_left
          rcases lt_or_gt_of_ne a with c | c
          · have : (i : ℝ) ≤ ⌊s⌋ - 1 := by exact_mod_cast (by omega : i ≤ ⌊s⌋ - 1)
            rw [abs_of_nonneg (by linarith)]; linarith
          · have : (⌊s⌋ : ℝ) + 2 ≤ i := by exact_mod_cast (by omega : ⌊s⌋ + 2 ≤ i)
            rw [abs_of_nonpos (by linarith)]; linarith
        rw [this]; ring
  have one : ∀ (m : ℤ) (a : ℝ), (¬ (0 ≤ m ∧ m < S) → a = 0) → ∑ j ∈ Finset.range S, (if (j : ℤ) = m then a else 0) = a := by
    intro m a ha
    by_cases hm : 0 ≤ m ∧ m < S
    · rw [Finset.sum_eq_single m.toNat]
      · rw [if_pos (by omega)]
      · intro j _ hj; rw [if_neg (by omega)]
      · intro hj; exact absurd (Finset.mem_range.mpr (by omega)) hj
    · rw [ha hm]; simp
  rw [Finset.sum_congr rfl fun (j : Nat) _ => by have := key (j : ℤ); push_cast at this; exact this, Finset.sum_add_distrib]
  rw [one _ _ fun h => by rw [hf _ h, mul_zero], one _ _ fun h => by rw [hf _ h, mul_zero]]

theorem round_nearest (t : ℝ) : Nearest t (round t) := by
  unfold round Nearest
  split
  · rename_i h
    have h1 := Int.floor_le (t + 1 / 2)
    have h2 := Int.lt_floor_add_one (t + 1 / 2)
    refine ⟨abs_le.mpr ⟨by linarith, by linarith⟩, fun e => ?_⟩
    rcases abs_cases ((⌊t + 1 / 2⌋ : ℝ) - t) with ⟨e1, _⟩ | ⟨e1, _⟩
    · rw [abs_of_nonneg h, abs_of_nonneg (by linarith)]; linarith
    · rw [e1] at e; linarith
  · rename_i h
    have h := not_le.mp h
    have h1 := Int.le_ceil (t - 1 / 2)
    have h2 := Int.ceil_lt_add_one (t - 1 / 2)
    refine ⟨abs_le.mpr ⟨by linarith, by linarith⟩, fun e => ?_⟩
    rcases abs_cases ((⌈t - 1 / 2⌉ : ℝ) - t) with ⟨e1, _⟩ | ⟨e1, _⟩
    · rw [e1] at e; linarith
    · rw [abs_of_neg h, abs_of_nonpos (by linarith)]; linarith

theorem forward_at (qs : Shape) (f : List Nat → ℝ) (y : Mem ℝ) (o : List Nat) (ho : InBounds qs o) :
    puts ((indices qs).map fun o => (ravel qs o, f o)) y (ravel qs o) = f o := by
  refine puts_mem _ y ?_ (ravel qs o, f o) (List.mem_map.mpr ⟨o, (mem_indices _ _).mpr ho, rfl⟩)
  rw [List.map_map]
  have : (Prod.fst ∘ fun o => (ravel qs o, f o)) = ravel qs := rfl
  rw [this, indices_ravel]
  exact List.nodup_range

theorem pixel2_nat (n : Dim2) (x : Mem ℝ) (b c i j : Nat) (hi : i < n.Hi) (hj : j < n.Wi) :
    pixel2 n x b c i j = x (ravel n.ish [b, c, i, j]) := by
  rw [pixel2, if_pos ⟨⟨by omega, by omega⟩, by omega, by omega⟩]; rfl

theorem pixel3_nat (n : Dim3) (x : Mem ℝ) (b c h i j : Nat) (hh : h < n.Di) (hi : i < n.Hi) (hj : j < n.Wi) :
    pixel3 n x b c h i j = x (ravel n.ish [b, c, h, i, j]) := by
  rw [pixel3, if_pos ⟨⟨by omega, by omega⟩, ⟨by omega, by omega⟩, by omega, by omega⟩]; rfl

/-- C193: images. At every output position the linear mode gives the image, continued by zeros, interpolated linearly along both
axes (the triangle kernel) at the place of the grid point; the nearest mode gives the pixel nearest to that place, or 0 when it
is outside of the image. -/
theorem C193_warp2 (k : Cfg) (ish gsh : Shape) (s : Setup) (n : Dim2) (hs : setup k ish gsh = .ok s) (hn : s.kern = .two n)
    (x grid y : Mem ℝ) (b c h w : Nat) (hb : b < n.B) (hc : c < n.C) (hh : h < n.Ho) (hw : w < n.Wo) (tx ty : ℝ)
    (htx : tx = src s.pad k.ac (grid (ravel n.gsh [b, h, w, 0])) n.Wi)
    (hty : ty = src s.pad k.ac (grid (ravel n.gsh [b, h, w, 1])) n.Hi) :
    (k.mode = "linear" → forward k.ac s x grid y (ravel n.osh [b, c, h, w]) =
      ∑ i ∈ Finset.range n.Hi, ∑ j ∈ Finset.range n.Wi, tri (ty - i) * tri (tx - j) * x (ravel n.ish [b, c, i, j])) ∧
    (k.mode = "nearest" → ∃ i j : ℤ, Nearest ty i ∧ Nearest tx j ∧ forward k.ac s x grid y (ravel n.osh [b, c, h, w]) =
      if (0 ≤ i ∧ i < n.Hi) ∧ (0 ≤ j ∧ j < n.Wi) then x (ravel n.ish [b, c, i.toNat, j.toNat]) else 0) := by
  have ho : InBounds n.osh [b, c, h, w] := ⟨hb, hc, hh, hw, trivial⟩
  have hlin : s.lin = decide (k.mode = "linear") := by
    unfold setup at hs
    simp only [] at hs
    split at hs; · cases hs
    split at hs; · cases hs
    split at hs; · cases hs
    split at hs; · cases hs
    split at hs; · cases hs
    split at hs; · cases hs; rfl
    split at hs; · cases hs; rfl
    cases hs; rfl
  have e1 : ravel n.gsh [b, h, w, 1] = gidx2 n [b, c, h, w] + 1 := by simp [gidx2, ravel, Dim2.gsh, prod]; ring
  have e0 : ravel n.gsh [b, h, w, 0] = gidx2 n [b, c, h, w] + 0 := by simp [gidx2]
  rw [e0] at htx
  rw [e1] at hty
  simp only [forward, hn]
  rw [forward_at n.osh _ y _ ho, hlin]
  refine ⟨fun hm => ?_, fun hm => ?_⟩
  · simp only [hm, decide_true, if_true, linear2]
    rw [← htx, ← hty]
    simp only [List.getD_cons_zero, List.getD_cons_succ]
    have inner : ∀ i : ℤ, ∑ j ∈ Finset.range n.Wi, tri (tx - j) * pixel2 n x b c i j =
        (1 - (tx - ⌊tx⌋)) * pixel2 n x b c i ⌊tx⌋ + (tx - ⌊tx⌋) * pixel2 n x b c i (⌊tx⌋ + 1) := fun i =>
      interp1 n.Wi tx (pixel2 n x b c i) fun j hj => by rw [pixel2, if_neg (fun h => hj ⟨h.2.1, h.2.2⟩)]
    have outer := interp1 n.Hi ty (fun i => ∑ j ∈ Finset.range n.Wi, tri (tx - j) * pixel2 n x b c i j) fun i hi =>
      Finset.sum_eq_zero fun j _ => by rw [pixel2, if_neg (fun h => hi ⟨h.1.1, h.1.2⟩), mul_zero]
    have e : ∑ i ∈ Finset.range n.Hi, ∑ j ∈ Finset.range n.Wi, tri (ty - i) * tri (tx - j) * x (ravel n.ish [b, c, i, j]) =
        ∑ i ∈ Finset.range n.Hi, tri (ty - i) * ∑ j ∈ Finset.range n.Wi, tri (tx - j) * pixel2 n x b c i j := by
      refine Finset.sum_congr rfl fun i hi => ?_
      rw [Finset.mul_sum]
      refine Finset.sum_congr rfl fun j hj => ?_
      rw [pixel2_nat n x b c i j (Finset.mem_range.mp hi) (Finset.mem_range.mp hj)]; ring
    rw [e, outer, inner, inner]
    ring
  · refine ⟨round ty, round tx, round_nearest ty, round_nearest tx, ?_⟩
    have : decide (k.mode = "linear") = false := by rw [hm]; decide
    simp only [this, Bool.false_eq_true, if_false, nearest2]
    rw [← htx, ← hty]
    simp only [List.getD_cons_zero, List.getD_cons_succ, pixel2, ge_iff_le]

/-- C193: volumes. -/
theorem C193_warp3 (k : Cfg) (ish gsh : Shape) (s : Setup) (n : Dim3) (hs : setup k ish gsh = .ok s) (hn : s.kern = .three n)
    (x grid y : Mem ℝ) (b c d h w : Nat) (hb : b < n.B) (hc : c < n.C) (hd : d < n.Do) (hh : h < n.Ho) (hw : w < n.Wo) (tx ty tz : ℝ)
    (htx : tx = src s.pad k.ac (grid (ravel n.gsh [b, d, h, w, 0])) n.Wi)
    (hty : ty = src s.pad k.ac (grid (ravel n.gsh [b, d, h, w, 1])) n.Hi)
    (htz : tz = src s.pad k.ac (grid (ravel n.gsh [b, d, h, w, 2])) n.Di) :
    (k.mode = "linear" → forward k.ac s x grid y (ravel n.osh [b, c, d, h, w]) =
      ∑ l ∈ Finset.range n.Di, ∑ i ∈ Finset.range n.Hi, ∑ j ∈ Finset.range n.Wi,
        tri (tz - l) * tri (ty - i) * tri (tx - j) * x (ravel n.ish [b, c, l, i, j])) ∧
    (k.mode = "nearest" → ∃ l i j : ℤ, Nearest tz l ∧ Nearest ty i ∧ Nearest tx j ∧ forward k.ac s x grid y (ravel n.osh [b, c, d, h, w]) =
      if (0 ≤ l ∧ l < n.Di) ∧ (0 ≤ i ∧ i < n.Hi) ∧ (0 ≤ j ∧ j < n.Wi) then x (ravel n.ish [b, c, l.toNat, i.toNat, j.toNat]) else 0) := by
  have ho : InBounds n.osh [b, c, d, h, w] := ⟨hb, hc, hd, hh, hw, trivial⟩
  have hlin : s.lin = decide (k.mode = "linear") := by
    unfold setup at hs
    simp only [] at hs
    split at hs; · cases hs
    split at hs; · cases hs
    split at hs; · cases hs
    split at hs; · cases hs
    split at hs; · cases hs
    split at hs; · cases hs; rfl
    split at hs; · cases hs; rfl
    cases hs; rfl
  have e2 : ravel n.gsh [b, d, h, w, 2] = gidx3 n [b, c, d, h, w] + 2 := by simp [gidx3, ravel, Dim3.gsh, prod]; ring
  have e1 : ravel n.gsh [b, d, h, w, 1] = gidx3 n [b, c, d, h, w] + 1 := by simp [gidx3, ravel, Dim3.gsh, prod]; ring
  have e0 : ravel n.gsh [b, d, h, w, 0] = gidx3 n [b, c, d, h, w] + 0 := by simp [gidx3]
  rw [e0] at htx
  rw [e1] at hty
  rw [e2] at htz
  simp only [forward, hn]
  rw [forward_at n.osh _ y _ ho, hlin]
  refine ⟨fun hm => ?_, fun hm => ?_⟩
  · simp only [hm, decide_true, if_true, linear3]
    rw [← htx, ← hty, ← htz]
    simp only [List.getD_cons_zero, List.getD_cons_succ]
    have inner : ∀ l i : ℤ, ∑ j ∈ Finset.range n.Wi, tri (tx - j) * pixel3 n x b c l i j =
        (1 - (tx - ⌊tx⌋)) * pixel3 n x b c l i ⌊tx⌋ + (tx - ⌊tx⌋) * pixel3 n x b c l i (⌊tx⌋ + 1) := fun l i =>
      interp1 n.Wi tx (pixel3 n x b c l i) fun j hj => by rw [pixel3, if_neg (fun h => hj ⟨h.2.2.1, h.2.2.2⟩)]
    have middle : ∀ l : ℤ, _ := fun l : ℤ => interp1 n.Hi ty (fun i => ∑ j ∈ Finset.range n.Wi, tri (tx - j) * pixel3 n x b c l i j) fun i hi =>
      Finset.sum_eq_zero fun j _ => by rw [pixel3, if_neg (fun h => hi ⟨h.2.1.1, h.2.1.2⟩), mul_zero]
    have outer := interp1 n.Di tz (fun l => ∑ i ∈ Finset.range n.Hi, tri (ty - i) * ∑ j ∈ Finset.range n.Wi, tri (tx - j) * pixel3 n x b c l i j) fun l hl =>
      Finset.sum_eq_zero fun i _ => by
        rw [Finset.sum_eq_zero fun j _ => by rw [pixel3, if_neg (fun h => hl ⟨h.1.1, h.1.2⟩), mul_zero], mul_zero]
    have e : ∑ l ∈ Finset.range n.Di, ∑ i ∈ Finset.range n.Hi, ∑ j ∈ Finset.range n.Wi,
          tri (tz - l) * tri (ty - i) * tri (tx - j) * x (ravel n.ish [b, c, l, i, j]) =
        ∑ l ∈ Finset.range n.Di, tri (tz - l) * ∑ i ∈ Finset.range n.Hi, tri (ty - i) * ∑ j ∈ Finset.range n.Wi, tri (tx - j) * pixel3 n x b c l i j := by
      refine Finset.sum_congr rfl fun l hl => ?_
      rw [Finset.mul_sum]
      refine Finset.sum_congr rfl fun i hi => ?_
      rw [Finset.mul_sum, Finset.mul_sum]
      refine Finset.sum_congr rfl fun j hj => ?_
      rw [pixel3_nat n x b c l i j (Finset.mem_range.mp hl) (Finset.mem_range.mp hi) (Finset.mem_range.mp hj)]; ring
    rw [e, outer, middle, middle]
    simp only [inner]
    ring
  · refine ⟨round tz, round ty, round tx, round_nearest tz, round_nearest ty, round_nearest tx, ?_⟩
    have : decide (k.mode = "linear") = false := by rw [hm]; decide
    simp only [this, Bool.false_eq_true, if_false, nearest3]
    rw [← htx, ← hty, ← htz]
    simp only [List.getD_cons_zero, List.getD_cons_succ, pixel3, ge_iff_le]

end Verif.Warp
