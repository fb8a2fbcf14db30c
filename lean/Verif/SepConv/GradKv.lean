import Verif.SepConv.Forward
import Mathlib.Algebra.BigOperators.Ring.Finset
/-
AdaptiveSeparableConvolution: gradient of the vertical filter (/repo/src/nbla/function/generic/adaptive_separable_convolution.cpp:193-221)
and property C225.
-/
namespace Verif.SepConv

open Finset

variable {α : Type} [CommSemiring α]

/-- isum (adaptive_separable_convolution.cpp:208-212). -/
def isum (sx skh : Sh) (x kh : Nat → Option α) (b c h w j : Nat) : Nat → Option α
  | 0 => some 0
  | i + 1 =>
    match isum sx skh x kh b c h w j i with
    | none => none
    | some s =>
      match kh (skh.str0 * b + (skh.str1 * i + skh.str2 * h + w)), x (sx.str0 * b + (sx.str1 * c + sx.str2 * (h + j) + (w + i))) with
      | some k, some p => some (s + k * p)
      | _, _ => none

/-- osum (adaptive_separable_convolution.cpp:206-214). -/
def osum (sy sx skh : Sh) (x kh gy : Nat → Option α) (b h w j : Nat) : Nat → Option α
  | 0 => some 0
  | c + 1 =>
    match osum sy sx skh x kh gy b h w j c with
    | none => none
    | some s =>
      match isum sx skh x kh b c h w j skh.d1, gy (sy.str0 * b + (sy.str1 * c + sy.str2 * h + w)) with
      | some i, some g => some (s + g * i)
      | _, _ => none

/-- The iterations (b, j, h, w), in the order b, h, w, j of the loops (adaptive_separable_convolution.cpp:196-204). -/
def kvIters (sy skv : Sh) : List (Nat × Nat × Nat × Nat) :=
  (List.range sy.d0).flatMap fun b => (List.range sy.d2).flatMap fun h => (List.range sy.d3).flatMap fun w =>
    (List.range skv.d1).map fun j => (b, j, h, w)

/-- The loops with their writes (adaptive_separable_convolution.cpp:215-218). -/
def runAcc (s : Sh) (accum : Bool) (val : Nat × Nat × Nat × Nat → Option α) :
    List (Nat × Nat × Nat × Nat) → (Nat → α) → Option (Nat → α)
  | [], y => some y
  | t :: ts, y =>
    match val t with
    | none => none
    | some v => runAcc s accum val ts (Function.update y (ypos s t) (if accum then y (ypos s t) + v else v))

/-- The gradient of the vertical filter (adaptive_separable_convolution.cpp:193-221). Without accum, the cast is write-only: it drops the
zeros that Function::backward asked for (function.cpp:160-171; NdArray::cast), so `g` is whatever the memory holds. -/
def gradKv (sy sx skv skh : Sh) (accum : Bool) (x kh gy : Nat → Option α) (g : Nat → α) : Option (Nat → α) :=
  runAcc skv accum (fun (b, j, h, w) => osum sy sx skh x kh gy b h w j sy.d1) (kvIters sy skv) g

/-! ## Specification -/

/-- The coefficient of kv[b, j, h, w] in Σ gy * y (see `coefficient`). -/
def kvCoef (C Kh : Nat) (x kh gy : Nat → Nat → Nat → Nat → α) (b j h w : Nat) : α :=
  ∑ c ∈ range C, gy b c h w * ∑ i ∈ range Kh, kh b i h w * x b c (h + j) (w + i)

/-- The weighted outputs at (b, h, w) are linear in kv with exactly these coefficients, which do not depend on kv: kvCoef is the partial derivative. -/
theorem coefficient (C Kv Kh : Nat) (x kv kh gy : Nat → Nat → Nat → Nat → α) (b h w : Nat) :
    ∑ c ∈ range C, gy b c h w * value Kv Kh x kv kh b c h w = ∑ j ∈ range Kv, kv b j h w * kvCoef C Kh x kh gy b j h w := by
  simp only [value, kvCoef, mul_sum]
  rw [sum_comm]
  refine sum_congr rfl fun j _ => sum_congr rfl fun c _ => sum_congr rfl fun i _ => ?_
  ring

/-! ## Proofs -/

theorem isum_eq (sx skh : Sh) (x kh : Nat → Nat → Nat → Nat → α) (b c h w j : Nat) (hb : b < sx.d0) (hbh : b < skh.d0) (hc : c < sx.d1)
    (hhh : h < skh.d2) (hwh : w < skh.d3) (hx : h + j < sx.d2) :
    ∀ n, n ≤ skh.d1 → w + n ≤ sx.d3 → isum sx skh (flat sx x) (flat skh kh) b c h w j n =
      some (∑ i ∈ range n, kh b i h w * x b c (h + j) (w + i)) := by
  intro n
  induction n with
  | zero => intro _ _; simp [isum]
  | succ n ih =>
    intro h1 h2
    rw [isum, ih (by omega) (by omega)]
    simp only [Sh.str0, Sh.str1, Sh.str2]
    rw [flat_at skh kh b n h w hbh (by omega) hhh hwh, flat_at sx x b c (h + j) (w + n) hb hc hx (by omega)]
    simp only
    rw [sum_range_succ]

theorem osum_eq (sy sx skh : Sh) (x kh gy : Nat → Nat → Nat → Nat → α) (b h w j : Nat) (hb : b < sx.d0) (hbh : b < skh.d0)
    (hby : b < sy.d0) (hC : sy.d1 = sx.d1) (hhy : h < sy.d2) (hwy : w < sy.d3) (hhh : h < skh.d2) (hwh : w < skh.d3) (hx : h + j < sx.d2)
    (hxw : w + skh.d1 ≤ sx.d3) : ∀ n, n ≤ sy.d1 → osum sy sx skh (flat sx x) (flat skh kh) (flat sy gy) b h w j n =
      some (kvCoef n skh.d1 x kh gy b j h w) := by
  intro n
  induction n with
  | zero => intro _; simp [osum, kvCoef]
  | succ n ih =>
    intro h1
    rw [osum, ih (by omega), isum_eq sx skh x kh b n h w j hb hbh (by omega) hhh hwh hx skh.d1 le_rfl hxw]
    simp only [Sh.str0, Sh.str1, Sh.str2]
    rw [flat_at sy gy b n h w hby (by omega) hhy hwy]
    simp only [kvCoef]
    rw [sum_range_succ]

theorem mem_kvIters (sy skv : Sh) (b j h w : Nat) :
    (b, j, h, w) ∈ kvIters sy skv ↔ b < sy.d0 ∧ h < sy.d2 ∧ w < sy.d3 ∧ j < skv.d1 := by
  simp only [kvIters, List.mem_flatMap, List.mem_range, List.mem_map, Prod.mk.injEq]
  constructor
  · rintro ⟨b', hb, h', hh, w', hw, j', hj, rfl, rfl, rfl, rfl⟩
    exact ⟨hb, hh, hw, hj⟩
  · rintro ⟨hb, hh, hw, hj⟩
    exact ⟨b, hb, h, hh, w, hw, j, hj, rfl, rfl, rfl, rfl⟩

theorem kvIters_nodup (sy skv : Sh) : (kvIters sy skv).Nodup := by
  unfold kvIters
  refine List.nodup_flatMap.2 ⟨fun b _ => List.nodup_flatMap.2 ⟨fun h _ => List.nodup_flatMap.2 ⟨fun w _ => ?_, ?_⟩, ?_⟩, ?_⟩
  · exact List.nodup_range.map fun j j' h => by simpa using h
  all_goals
    refine List.nodup_range.imp fun {a a'} hne => ?_
    intro t h1 h2
    simp only [List.mem_flatMap, List.mem_range, List.mem_map] at h1 h2
    obtain ⟨t1, t2, t3, t4⟩ := t
    simp only [Prod.mk.injEq] at h1 h2
    grind

theorem runAcc_ok (s : Sh) (accum : Bool) (val : Nat × Nat × Nat × Nat → Option α) (v : Nat × Nat × Nat × Nat → α) :
    ∀ (ts : List (Nat × Nat × Nat × Nat)), ts.Nodup → (∀ t ∈ ts, t ∈ iters s ∧ val t = some (v t)) → ∀ y : Nat → α,
    ∃ y', runAcc s accum val ts y = some y' ∧ (∀ t ∈ ts, y' (ypos s t) = if accum then y (ypos s t) + v t else v t) ∧
      ∀ p, (∀ t ∈ ts, p ≠ ypos s t) → y' p = y p := by
  intro ts
  induction ts with
  | nil => intro _ _ y; exact ⟨y, rfl, by simp, fun _ _ => rfl⟩
  | cons t ts ih =>
    intro hnd hs y
    rw [List.nodup_cons] at hnd
    have hne : ∀ t' ∈ ts, ypos s t' ≠ ypos s t := by
      intro t' ht' he
      have := ypos_inj s t' t (hs _ (by simp [ht'])).1 (hs _ (by simp)).1 he
      exact hnd.1 (this ▸ ht')
    obtain ⟨y', h1, h2, h3⟩ := ih hnd.2 (fun t ht => hs t (by simp [ht]))
      (Function.update y (ypos s t) (if accum then y (ypos s t) + v t else v t))
    refine ⟨y', ?_, ?_, ?_⟩
    · rw [runAcc, (hs t (by simp)).2]; exact h1
    · intro t' ht'
      rcases List.mem_cons.1 ht' with rfl | ht'
      · rw [h3 _ fun t'' ht'' => (hne t'' ht'').symm, Function.update_self]
      · rw [h2 t' ht', Function.update_of_ne (hne t' ht')]
    · intro p hp
      rw [h3 p fun t' ht' => hp t' (by simp [ht']), Function.update_of_ne (hp t (by simp))]

/-- C225. For all shapes as in C224: the gradient of every element of kv that the output uses is the partial derivative, added to the old
gradient exactly if it is to be accumulated; elements of kv beyond the height or width of the output keep the content of the memory. -/
theorem C225_gradient_partial (sx skv skh sy : Sh) (hs : setup sx skv skh = .ok sy) (hwv : sy.d3 ≤ skv.d3) (hhh : sy.d2 ≤ skh.d2)
    (accum : Bool) (x kh gy : Nat → Nat → Nat → Nat → α) (g : Nat → α) :
    ∃ g', gradKv sy sx skv skh accum (flat sx x) (flat skh kh) (flat sy gy) g = some g' ∧
      ∀ b j h w, b < skv.d0 → j < skv.d1 → h < skv.d2 → w < skv.d3 →
        g' (ypos skv (b, j, h, w)) =
          if h < sy.d2 ∧ w < sy.d3 then (if accum then g (ypos skv (b, j, h, w)) else 0) + kvCoef sx.d1 skh.d1 x kh gy b j h w
          else g (ypos skv (b, j, h, w)) := by
  obtain ⟨g1, g2, g3, g4, g5, g6, g7, g8, g9, g10, g11, g12⟩ := setup_ok sx skv skh sy hs
  have hsub : ∀ t ∈ kvIters sy skv, t ∈ iters skv := by
    rintro ⟨b, j, h, w⟩ ht
    obtain ⟨k1, k2, k3, k4⟩ := (mem_kvIters sy skv b j h w).1 ht
    exact (mem_iters skv b j h w).2 ⟨by omega, by omega, by omega, by omega⟩
  obtain ⟨g', h1, h2, h3⟩ := runAcc_ok skv accum
    (fun (b, j, h, w) => osum sy sx skh (flat sx x) (flat skh kh) (flat sy gy) b h w j sy.d1)
    (fun (b, j, h, w) => kvCoef sy.d1 skh.d1 x kh gy b j h w) (kvIters sy skv) (kvIters_nodup sy skv) (by
      rintro ⟨b, j, h, w⟩ ht
      refine ⟨hsub _ ht, ?_⟩
      obtain ⟨k1, k2, k3, k4⟩ := (mem_kvIters sy skv b j h w).1 ht
      exact osum_eq sy sx skh x kh gy b h w j (by omega) (by omega) k1 g4 k2 k3 (by omega) (by omega) (by omega) (by omega) sy.d1
        le_rfl) g
  refine ⟨g', h1, fun b j h w hb hj hh hw => ?_⟩
  by_cases hin : h < sy.d2 ∧ w < sy.d3
  · rw [if_pos hin, h2 (b, j, h, w) ((mem_kvIters sy skv b j h w).2 ⟨by omega, hin.1, hin.2, hj⟩), ← g4]
    cases accum <;> simp
  · rw [if_neg hin]
    refine h3 _ ?_
    rintro ⟨b', j', h', w'⟩ ht he
    have := ypos_inj skv _ _ ((mem_iters skv b j h w).2 ⟨hb, hj, hh, hw⟩) (hsub _ ht) he
    simp only [Prod.mk.injEq] at this
    obtain ⟨rfl, rfl, rfl, rfl⟩ := this
    obtain ⟨_, k2, k3, _⟩ := (mem_kvIters sy skv b j h w).1 ht
    exact hin ⟨k2, k3⟩

/-- With a vertical filter of exactly the extents of the output every element gets its derivative. -/
theorem C225_exact_extents (sx skv skh sy : Sh) (hs : setup sx skv skh = .ok sy) (hv : skv.d2 = sy.d2) (hwv : skv.d3 = sy.d3)
    (hhh : sy.d2 ≤ skh.d2) (accum : Bool) (x kh gy : Nat → Nat → Nat → Nat → α) (g : Nat → α) :
    ∃ g', gradKv sy sx skv skh accum (flat sx x) (flat skh kh) (flat sy gy) g = some g' ∧
      ∀ b j h w, b < skv.d0 → j < skv.d1 → h < skv.d2 → w < skv.d3 →
        g' (ypos skv (b, j, h, w)) = (if accum then g (ypos skv (b, j, h, w)) else 0) + kvCoef sx.d1 skh.d1 x kh gy b j h w := by
  obtain ⟨g', h1, h2⟩ := C225_gradient_partial sx skv skh sy hs (by omega) hhh accum x kh gy g
  exact ⟨g', h1, fun b j h w hb hj hh hw => by rw [h2 b j h w hb hj hh hw, if_pos (by omega)]⟩

/-- A case, and what is false: filters as large as the image (which setup accepts) have elements that the output does not use; their gradient
should be 0, but is the old content of the memory (77) if it is not to be accumulated. -/
example : setup ⟨1, 1, 3, 2⟩ ⟨1, 2, 3, 2⟩ ⟨1, 1, 3, 2⟩ = .ok ⟨1, 1, 2, 2⟩ := by decide +kernel
example : (gradKv ⟨1, 1, 2, 2⟩ ⟨1, 1, 3, 2⟩ ⟨1, 2, 3, 2⟩ ⟨1, 1, 3, 2⟩ false (flat ⟨1, 1, 3, 2⟩ fun _ _ h w => (h + 10 * w : Int))
    (flat ⟨1, 1, 3, 2⟩ fun _ _ _ _ => 1) (flat ⟨1, 1, 2, 2⟩ fun _ _ _ _ => 2) fun _ => 77).map
      (fun g => (List.range 12).map g) = some [0, 20, 2, 22, 77, 77, 2, 22, 4, 24, 77, 77] := by decide +kernel

end Verif.SepConv
