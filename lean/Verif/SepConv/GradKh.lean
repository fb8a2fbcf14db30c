import Verif.SepConv.GradX
/-
AdaptiveSeparableConvolution: gradient of the horizontal filter (/repo/src/nbla/function/generic/adaptive_separable_convolution.cpp:222-250)
and property C227.
-/
namespace Verif.SepConv

open Finset

variable {α : Type} [CommSemiring α]

/-- isum for the horizontal filter (adaptive_separable_convolution.cpp:237-241). -/
def isumH (sx skv : Sh) (x kv : Nat → Option α) (b c h w i : Nat) : Nat → Option α
  | 0 => some 0
  | j + 1 =>
    match isumH sx skv x kv b c h w i j with
    | none => none
    | some s =>
      match kv (skv.str0 * b + (skv.str1 * j + skv.str2 * h + w)), x (sx.str0 * b + (sx.str1 * c + sx.str2 * (h + j) + (w + i))) with
      | some k, some p => some (s + k * p)
      | _, _ => none

/-- osum for the horizontal filter (adaptive_separable_convolution.cpp:235-243). -/
def osumH (sy sx skv : Sh) (x kv gy : Nat → Option α) (b h w i : Nat) : Nat → Option α
  | 0 => some 0
  | c + 1 =>
    match osumH sy sx skv x kv gy b h w i c with
    | none => none
    | some s =>
      match isumH sx skv x kv b c h w i skv.d1, gy (sy.str0 * b + (sy.str1 * c + sy.str2 * h + w)) with
      | some t, some g => some (s + g * t)
      | _, _ => none

/-- The gradient of the horizontal filter (adaptive_separable_convolution.cpp:222-250); loops b, h, w, i; the cast is write-only without
accum, as for the vertical filter. -/
def gradKh (sy sx skv skh : Sh) (accum : Bool) (x kv gy : Nat → Option α) (g : Nat → α) : Option (Nat → α) :=
  runAcc skh accum (fun (b, i, h, w) => osumH sy sx skv x kv gy b h w i sy.d1) (kvIters sy skh) g

/-! ## Specification -/

/-- The coefficient of kh[b, i, h, w] in Σ gy * y. -/
def khCoef (C Kv : Nat) (x kv gy : Nat → Nat → Nat → Nat → α) (b i h w : Nat) : α :=
  ∑ c ∈ range C, gy b c h w * ∑ j ∈ range Kv, kv b j h w * x b c (h + j) (w + i)

/-- The weighted outputs at (b, h, w) are linear in kh with exactly these coefficients, which do not depend on kh. -/
theorem coefficient_kh (C Kv Kh : Nat) (x kv kh gy : Nat → Nat → Nat → Nat → α) (b h w : Nat) :
    ∑ c ∈ range C, gy b c h w * value Kv Kh x kv kh b c h w = ∑ i ∈ range Kh, kh b i h w * khCoef C Kv x kv gy b i h w := by
  simp only [value, khCoef, mul_sum]
  rw [sum_congr rfl fun c (_ : c ∈ range C) => sum_comm (s := range Kv) (t := range Kh), sum_comm]
  refine sum_congr rfl fun i _ => sum_congr rfl fun c _ => sum_congr rfl fun j _ => ?_
  ring

/-! ## Proofs -/

theorem isumH_eq (sx skv : Sh) (x kv : Nat → Nat → Nat → Nat → α) (b c h w i : Nat) (hb : b < sx.d0) (hbv : b < skv.d0) (hc : c < sx.d1)
    (hhv : h < skv.d2) (hwv : w < skv.d3) (hx : w + i < sx.d3) :
    ∀ n, n ≤ skv.d1 → h + n ≤ sx.d2 → isumH sx skv (flat sx x) (flat skv kv) b c h w i n =
      some (∑ j ∈ range n, kv b j h w * x b c (h + j) (w + i)) := by
  intro n
  induction n with
  | zero => intro _ _; simp [isumH]
  | succ n ih =>
    intro h1 h2
    rw [isumH, ih (by omega) (by omega)]
    simp only [Sh.str0, Sh.str1, Sh.str2]
    rw [flat_at skv kv b n h w hbv (by omega) hhv hwv, flat_at sx x b c (h + n) (w + i) hb hc (by omega) hx]
    simp only
    rw [sum_range_succ]

theorem osumH_eq (sy sx skv : Sh) (x kv gy : Nat → Nat → Nat → Nat → α) (b h w i : Nat) (hb : b < sx.d0) (hbv : b < skv.d0)
    (hby : b < sy.d0) (hC : sy.d1 = sx.d1) (hhy : h < sy.d2) (hwy : w < sy.d3) (hhv : h < skv.d2) (hwv : w < skv.d3) (hx : w + i < sx.d3)
    (hxh : h + skv.d1 ≤ sx.d2) : ∀ n, n ≤ sy.d1 → osumH sy sx skv (flat sx x) (flat skv kv) (flat sy gy) b h w i n =
      some (khCoef n skv.d1 x kv gy b i h w) := by
  intro n
  induction n with
  | zero => intro _; simp [osumH, khCoef]
  | succ n ih =>
    intro h1
    rw [osumH, ih (by omega), isumH_eq sx skv x kv b n h w i hb hbv (by omega) hhv hwv hx skv.d1 le_rfl hxh]
    simp only [Sh.str0, Sh.str1, Sh.str2]
    rw [flat_at sy gy b n h w hby (by omega) hhy hwy]
    simp only [khCoef]
    rw [sum_range_succ]

/-- C227. For all shapes as in C224: the gradient of every element of kh that the output uses is the partial derivative, added to the old
gradient exactly if it is to be accumulated; elements of kh beyond the height or width of the output keep the content of the memory. -/
theorem C227_gradient_partial (sx skv skh sy : Sh) (hs : setup sx skv skh = .ok sy) (hwv : sy.d3 ≤ skv.d3) (hhh : sy.d2 ≤ skh.d2)
    (accum : Bool) (x kv gy : Nat → Nat → Nat → Nat → α) (g : Nat → α) :
    ∃ g', gradKh sy sx skv skh accum (flat sx x) (flat skv kv) (flat sy gy) g = some g' ∧
      ∀ b i h w, b < skh.d0 → i < skh.d1 → h < skh.d2 → w < skh.d3 →
        g' (ypos skh (b, i, h, w)) =
          if h < sy.d2 ∧ w < sy.d3 then (if accum then g (ypos skh (b, i, h, w)) else 0) + khCoef sx.d1 skv.d1 x kv gy b i h w
          else g (ypos skh (b, i, h, w)) := by
  obtain ⟨g1, g2, g3, g4, g5, g6, g7, g8, g9, g10, g11, g12⟩ := setup_ok sx skv skh sy hs
  have hsub : ∀ t ∈ kvIters sy skh, t ∈ iters skh := by
    rintro ⟨b, i, h, w⟩ ht
    obtain ⟨k1, k2, k3, k4⟩ := (mem_kvIters sy skh b i h w).1 ht
    exact (mem_iters skh b i h w).2 ⟨by omega, by omega, by omega, by omega⟩
  obtain ⟨g', h1, h2, h3⟩ := runAcc_ok skh accum
    (fun (b, i, h, w) => osumH sy sx skv (flat sx x) (flat skv kv) (flat sy gy) b h w i sy.d1)
    (fun (b, i, h, w) => khCoef sy.d1 skv.d1 x kv gy b i h w) (kvIters sy skh) (kvIters_nodup sy skh) (by
      rintro ⟨b, i, h, w⟩ ht
      refine ⟨hsub _ ht, ?_⟩
      obtain ⟨k1, k2, k3, k4⟩ := (mem_kvIters sy skh b i h w).1 ht
      exact osumH_eq sy sx skv x kv gy b h w i (by omega) (by omega) k1 g4 k2 k3 (by omega) (by omega) (by omega) (by omega) sy.d1
        le_rfl) g
  refine ⟨g', h1, fun b i h w hb hi hh hw => ?_⟩
  by_cases hin : h < sy.d2 ∧ w < sy.d3
  · rw [if_pos hin, h2 (b, i, h, w) ((mem_kvIters sy skh b i h w).2 ⟨by omega, hin.1, hin.2, hi⟩), ← g4]
    cases accum <;> simp
  · rw [if_neg hin]
    refine h3 _ ?_
    rintro ⟨b', i', h', w'⟩ ht he
    have := ypos_inj skh _ _ ((mem_iters skh b i h w).2 ⟨hb, hi, hh, hw⟩) (hsub _ ht) he
    simp only [Prod.mk.injEq] at this
    obtain ⟨rfl, rfl, rfl, rfl⟩ := this
    obtain ⟨_, k2, k3, _⟩ := (mem_kvIters sy skh b i h w).1 ht
    exact hin ⟨k2, k3⟩

/-- With a horizontal filter of exactly the extents of the output every element gets its derivative. -/
theorem C227_exact_extents (sx skv skh sy : Sh) (hs : setup sx skv skh = .ok sy) (hh : skh.d2 = sy.d2) (hw : skh.d3 = sy.d3)
    (hwv : sy.d3 ≤ skv.d3) (accum : Bool) (x kv gy : Nat → Nat → Nat → Nat → α) (g : Nat → α) :
    ∃ g', gradKh sy sx skv skh accum (flat sx x) (flat skv kv) (flat sy gy) g = some g' ∧
      ∀ b i h w, b < skh.d0 → i < skh.d1 → h < skh.d2 → w < skh.d3 →
        g' (ypos skh (b, i, h, w)) = (if accum then g (ypos skh (b, i, h, w)) else 0) + khCoef sx.d1 skv.d1 x kv gy b i h w := by
  obtain ⟨g', h1, h2⟩ := C227_gradient_partial sx skv skh sy hs hwv (by omega) accum x kv gy g
  exact ⟨g', h1, fun b i h w hb hi hh' hw' => by rw [h2 b i h w hb hi hh' hw', if_pos (by omega)]⟩

/-- A case, and what is false: the unused row of a filter as large as the image keeps the old content of the memory (77). -/
example : (gradKh ⟨1, 1, 2, 2⟩ ⟨1, 1, 3, 2⟩ ⟨1, 2, 3, 2⟩ ⟨1, 1, 3, 2⟩ false (flat ⟨1, 1, 3, 2⟩ fun _ _ h w => (h + 10 * w : Int))
    (flat ⟨1, 2, 3, 2⟩ fun _ j _ _ => 1 + j) (flat ⟨1, 1, 2, 2⟩ fun _ _ _ _ => 2) fun _ => 77).map
      (fun g => (List.range 6).map g) = some [4, 64, 10, 70, 77, 77] := by decide +kernel

end Verif.SepConv
