import Verif.Fn.Masked
import Verif.Fn.Props
import Verif.Fn.ChunkProps
/-
Pad: models /repo/src/nbla/function/generic/pad.cpp.
Simplifications: sizes are unbounded; positions are natural numbers where the C++ difference cannot be
negative (`dst_shape[axis] - padding.second`, because dst_shape is the source extent plus both widths);
`src_max_idx = -1` (padding an axis of extent 0 in mode 'repeat') becomes 0: the theorems exclude it.
-/
namespace Verif.Fn
open Verif.ND

/-- pad.cpp:157-166. -/
inductive PadMode | constant | reflect | repeat_
deriving DecidableEq, Repr

/-- pad_reflect_impl::reflect_index (pad.cpp:66-72); a negative `len` and 0 behave alike. -/
def reflectIndex (idx len : Nat) : Nat :=
  if len > 0 then ((((idx / len) % 2 * len : Nat) : Int) - (idx % len : Nat)).natAbs else 0

/-- Body of the loop over axes in pad_forward (pad.cpp:37-43), pad_reflect_forward (:82-90) and
pad_repeat_forward (:121-128); the backward functions compute the same. `d` is the destination extent.
`none` = the element is a constant. -/
def padAxis (mode : PadMode) (d : Nat) (p : Nat × Nat) (i : Nat) : Option Nat :=
  match mode with
  | .constant => if i < p.1 ∨ i ≥ d - p.2 then none else some (i - p.1)
  | .reflect => some (reflectIndex ((i : Int) - p.1).natAbs (d - p.1 - p.2 - 1))
  | .repeat_ => some (min ((d : Int) - p.1 - p.2 - 1) (max 0 ((i : Int) - p.1))).toNat

/-- The loop over axes, with its early return. -/
def padSrc (mode : PadMode) : Nat → List Nat → Shape → List (Nat × Nat) → List Nat → Option Nat
  | acc, i :: is, d :: ds, p :: ps, st :: sts =>
    match padAxis mode d p i with
    | none => none
    | some k => padSrc mode (acc + k * st) is ds ps sts
  | acc, _, _, _, _ => some acc

/-- Members set by setup_impl. -/
structure PadState where
  oshape : Shape
  padding : List (Nat × Nat)
  xStride : List Nat
  yStride : List Nat
  yShape : Shape
deriving DecidableEq, Repr

/-- Consecutive pairs (pad.cpp:184-187). -/
def pairsOf : List Int → List (Nat × Nat)
  | a :: b :: r => (a.toNat, b.toNat) :: pairsOf r
  | _ => []

/-- Pad::setup_impl (pad.cpp:151-222). -/
def padSetup (w : List Int) (xsh : Shape) : Except String PadState :=
  if ¬ w.length % 2 = 0 then .error "pad_width must hold an even number of elements."
  else if ¬ w.length ≤ 2 * xsh.length then .error "pad_width has more values than allowed by input dimensions."
  else if ∃ v ∈ w, v < 0 then .error "All pad_width values must be positive."
  else
    let padding := List.replicate (xsh.length - w.length / 2) (0, 0) ++ pairsOf w
    let ysh := List.zipWith (fun d p => d + p.1 + p.2) xsh padding
    let ndimPad := w.length / 2 + 1
    let ndimOut := ysh.length
    if ndimOut > ndimPad then
      let e := ndimOut - ndimPad
      .ok { oshape := ysh
            padding := padding.drop e
            xStride := ((cStrides xsh).drop e).set 0 (innerSize xsh (e + 1))
            yStride := ((cStrides ysh).drop e).set 0 (innerSize ysh (e + 1))
            yShape := (ysh.drop e).set 0 (outerSize ysh (e + 1)) }
    else .ok { oshape := ysh, padding, xStride := cStrides xsh, yStride := cStrides ysh, yShape := ysh }

/-- The pairs touched by the do-while loop of forward and backward (pad.cpp:241-262, 283-313). -/
def padPairs (mode : PadMode) (s : PadState) : CPairs :=
  (visitLoop s.yShape (prod s.yShape + 1) (flat2nd 0 s.yStride)).map fun j =>
    (nd2flat j s.yStride, padSrc mode 0 j s.yShape s.padding s.xStride)

/-- Pad::forward_impl; `c` is constant_value_. -/
def padForward {R} (mode : PadMode) (s : PadState) (c : R) (x y : Mem R) : Mem R := fwdC (padPairs mode s) c x y

/-- Pad::backward_impl (pad.cpp:265-315). -/
def padBackward {R} [Zero R] [Add R] (mode : PadMode) (s : PadState) (accum : Bool) (dy dx : Mem R) : Mem R :=
  match mode with
  | .constant => if accum then bwdAdd (somes (padPairs mode s)) dy dx else bwdSet (somes (padPairs mode s)) dy dx
  | _ => bwdAdd (somes (padPairs mode s)) dy (if accum then dx else zeros)

/-! ### Specification -/

/-- Position `p` on the infinite line obtained by walking an array of `n` elements back and forth without
repeating the ends (NumPy's mode "reflect"): period `2(n-1)`. -/
def backForth (n : Nat) (p : Int) : Nat :=
  if n ≤ 1 then 0
  else
    let q := (p % (2 * ((n : Int) - 1))).toNat
    if q < n then q else 2 * (n - 1) - q

/-- The source of position `p` (relative to the start of the input) along an axis of extent `n`; `none` is
the constant. -/
def padIndex (mode : PadMode) (n : Nat) (p : Int) : Option Nat :=
  match mode with
  | .constant => if 0 ≤ p ∧ p < n then some p.toNat else none
  | .reflect => some (backForth n p)
  | .repeat_ => some (clamped n p)

/-- The widths of axis `a`: `w` is aligned with the last axes, other axes are not padded. -/
def axisPad (w : List (Nat × Nat)) (ndim a : Nat) : Nat × Nat :=
  if ndim ≤ a + w.length then w.getD (a + w.length - ndim) (0, 0) else (0, 0)

/-! ### One axis -/

theorem reflectIndex_eq (n : Nat) (p : Int) : reflectIndex p.natAbs (n - 1) = backForth n p := by
  simp only [reflectIndex, backForth]
  by_cases hn : n ≤ 1
  · rw [if_pos hn, if_neg (by omega)]
  · rw [if_neg hn, if_pos (by omega)]
    obtain ⟨L, hL⟩ : ∃ L, L = n - 1 := ⟨_, rfl⟩
    have hLpos : 0 < L := by omega
    have e1 : ((n : Int) - 1) = L := by omega
    have e2 : n = L + 1 := by omega
    rw [← hL, e1, e2]
    -- write |p| = (2 t + b) L + r
    obtain ⟨m, hm⟩ : ∃ m, m = p.natAbs := ⟨_, rfl⟩
    rw [← hm]
    have hr := Nat.mod_lt m hLpos
    have hdm := Nat.div_add_mod m L
    have hq := Nat.div_add_mod (m / L) 2
    have hb := Nat.mod_lt (m / L) (show 0 < 2 by omega)
    generalize hrr : m % L = r at *
    generalize hqq : m / L = q at *
    generalize hbb : q % 2 = b at *
    generalize htt : q / 2 = t at *
    have hm2 : (m : Int) = 2 * L * t + (b * L + r) := by
      have : m = L * (2 * t + b) + r := by rw [hq]; exact hdm.symm
      rw [this]; push_cast; ring
    have hbL : b * L ≤ L := by
      rcases (show b = 0 ∨ b = 1 by omega) with rfl | rfl <;> omega
    have key : ∀ z : Int, 0 ≤ z → z < 2 * L → ∀ k : Int, (2 * L * k + z) % (2 * (L : Int)) = z := by
      intro z h0 h1 k
      rw [Int.add_comm, Int.add_mul_emod_self_left, Int.emod_eq_of_lt h0 h1]
    have hz : (0 : Int) ≤ b * L + r := by
      have : (0 : Int) ≤ ((b * L + r : Nat) : Int) := Int.natCast_nonneg _
      push_cast at this; exact this
    have hz2 : ((b * L + r : Nat) : Int) < 2 * L := by omega
    have hz2' : (b : Int) * L + r < 2 * L := by push_cast at hz2; exact hz2
    have hpm : p = m ∨ p = -(m : Int) := by omega
    rcases hpm with hp | hp
    · have e : p % (2 * (L : Int)) = b * L + r := by
        rw [hp, hm2]; exact key _ hz hz2' _
      rw [e]
      rcases (show b = 0 ∨ b = 1 by omega) with rfl | rfl
      · simp only [Nat.zero_mul, Nat.cast_zero, Int.zero_mul, Int.zero_add]
        rw [if_pos (by omega)]; omega
      · simp only [Nat.one_mul, Nat.cast_one, Int.one_mul]
        by_cases h0 : r = 0
        · subst h0; rw [if_pos (by omega)]; omega
        · rw [if_neg (by omega)]; omega
    · rcases (show b = 0 ∨ b = 1 by omega) with rfl | rfl
      · by_cases h0 : r = 0
        · have e : p % (2 * (L : Int)) = 0 := by
            rw [hp, hm2, h0]
            have := key 0 (by omega) (by omega) (-t)
            rw [← this]; congr 1; push_cast; ring
          rw [e, h0]; simp
        · have e : p % (2 * (L : Int)) = 2 * L - r := by
            rw [hp, hm2]
            have := key (2 * L - r) (by omega) (by omega) (-t - 1)
            rw [← this]; congr 1; push_cast; ring
          rw [e]
          simp only [Nat.zero_mul, Nat.cast_zero, Int.zero_sub]
          rw [if_neg (by omega)]; omega
      · have e : p % (2 * (L : Int)) = L - r := by
          rw [hp, hm2]
          have := key (L - r) (by omega) (by omega) (-t - 1)
          rw [← this]; congr 1; push_cast; ring
        rw [e]
        simp only [Nat.one_mul]
        rw [if_pos (by omega)]; omega

theorem padAxis_eq (mode : PadMode) (n : Nat) (p : Nat × Nat) (i : Nat) (hn : mode ≠ .constant → 0 < n) :
    padAxis mode (n + p.1 + p.2) p i = padIndex mode n ((i : Int) - p.1) := by
  cases mode
  · simp only [padAxis, padIndex]
    by_cases h : i < p.1 ∨ i ≥ n + p.1 + p.2 - p.2
    · rw [if_pos h, if_neg (by omega)]
    · rw [if_neg h, if_pos (by omega)]; congr 1; omega
  · simp only [padAxis, padIndex]
    rw [show n + p.1 + p.2 - p.1 - p.2 - 1 = n - 1 by omega, reflectIndex_eq]
  · have hn := hn (by simp)
    simp only [padAxis, padIndex, clamped]
    congr 1
    split
    · omega
    · split <;> omega

theorem padIndex_lt (mode : PadMode) (n : Nat) (p : Int) (k : Nat) (hn : mode ≠ .constant → 0 < n)
    (h : padIndex mode n p = some k) : k < n := by
  cases mode
  · simp only [padIndex] at h
    split at h
    · simp only [Option.some.injEq] at h; omega
    · cases h
  · have hn := hn (by simp)
    simp only [padIndex, Option.some.injEq, backForth] at h
    subst h
    split
    · omega
    · rename_i hn1
      have := Int.emod_nonneg p (b := 2 * ((n : Int) - 1)) (by omega)
      have := Int.emod_lt_of_pos p (b := 2 * ((n : Int) - 1)) (by omega)
      split <;> omega
  · have hn := hn (by simp)
    simp only [padIndex, Option.some.injEq, clamped] at h
    subst h
    split
    · omega
    · split <;> omega

theorem padAxis_zero (mode : PadMode) (d i : Nat) (h : i < d) : padAxis mode d (0, 0) i = some i := by
  have := padAxis_eq mode d (0, 0) i (fun _ => by omega)
  rw [show d + (0, 0).1 + (0, 0).2 = d by simp] at this
  rw [this]
  cases mode
  · simp only [padIndex]; rw [if_pos (by omega)]; simp
  · simp only [padIndex, backForth]
    congr 1
    by_cases h1 : d ≤ 1
    · rw [if_pos h1]; omega
    · rw [if_neg h1]
      simp only [Nat.cast_zero, Int.sub_zero]
      by_cases h2 : i = 2 * (d - 1)
      · omega
      · rw [Int.emod_eq_of_lt (by omega) (by omega), if_pos (by omega)]; omega
  · simp only [padIndex, clamped]
    congr 1
    rw [if_neg (by omega), if_neg (by omega)]; omega

/-! ### All axes -/

/-- Source multi-index. -/
def padIdx (mode : PadMode) : Shape → List (Nat × Nat) → List Nat → Option (List Nat)
  | d :: ds, p :: ps, i :: is =>
    match padAxis mode d p i with
    | none => none
    | some k => (padIdx mode ds ps is).map (k :: ·)
  | _, _, _ => some []

theorem padSrc_eq (mode : PadMode) (acc : Nat) (is : List Nat) (ds : Shape) (ps : List (Nat × Nat)) (sts : List Nat)
    (h1 : is.length = ds.length) (h2 : ps.length = ds.length) (h3 : sts.length = ds.length) :
    padSrc mode acc is ds ps sts = (padIdx mode ds ps is).map fun k => acc + nd2flat k sts := by
  induction ds generalizing acc is ps sts with
  | nil => cases is <;> cases ps <;> cases sts <;> simp_all [padSrc, padIdx, nd2flat]
  | cons d ds ih =>
    cases is with
    | nil => simp at h1
    | cons i is => cases ps with
      | nil => simp at h2
      | cons p ps => cases sts with
        | nil => simp at h3
        | cons st sts =>
          simp only [padSrc, padIdx]
          cases padAxis mode d p i with
          | none => rfl
          | some k =>
            simp only
            rw [ih _ _ _ _ (by simpa using h1) (by simpa using h2) (by simpa using h3), Option.map_map]
            congr 1; funext l
            simp only [Function.comp, nd2flat, Nat.add_assoc]

theorem padIdx_bound (mode : PadMode) (xsh : Shape) (ps : List (Nat × Nat)) (hl : ps.length = xsh.length)
    (hpos : mode ≠ .constant → 0 < prod xsh) (j k : List Nat)
    (hj : InBounds (List.zipWith (fun d p => d + p.1 + p.2) xsh ps) j)
    (h : padIdx mode (List.zipWith (fun d p => d + p.1 + p.2) xsh ps) ps j = some k) : InBounds xsh k := by
  induction xsh generalizing ps j k with
  | nil => cases ps <;> cases j <;> simp_all [padIdx, InBounds]
  | cons d ds ih => cases ps with
    | nil => simp at hl
    | cons p ps => cases j with
      | nil => exact hj.elim
      | cons i is =>
        have hp1 : mode ≠ .constant → 0 < d := fun hm => Nat.pos_of_mul_pos_right (by simpa [prod] using hpos hm)
        have hp2 : mode ≠ .constant → 0 < prod ds := fun hm => Nat.pos_of_mul_pos_left (by simpa [prod] using hpos hm)
        simp only [List.zipWith_cons_cons, padIdx] at h
        rw [padAxis_eq _ _ _ _ hp1] at h
        cases hk : padIndex mode d ((i : Int) - p.1) with
        | none => rw [hk] at h; cases h
        | some a =>
          rw [hk] at h
          simp only [Option.map_eq_some_iff] at h
          obtain ⟨l, hl2, rfl⟩ := h
          exact ⟨padIndex_lt _ _ _ _ hp1 hk, ih ps (by simpa using hl) hp2 is l hj.2 hl2⟩

theorem flat2nd_zero (st : List Nat) : flat2nd 0 st = zeroIndex st.length := by
  induction st with
  | nil => rfl
  | cons s st ih => simp only [flat2nd, Nat.zero_div, Nat.zero_mul, Nat.sub_zero, ih, zeroIndex, List.length_cons,
      List.replicate_succ]

/-- The kernel on shapes without folding. -/
theorem padKernel (mode : PadMode) (xsh : Shape) (ps : List (Nat × Nat)) (hl : ps.length = xsh.length)
    (hpos : mode ≠ .constant → 0 < prod xsh) (s : PadState) (h1 : s.padding = ps) (h2 : s.xStride = cStrides xsh)
    (h3 : s.yShape = List.zipWith (fun d p => d + p.1 + p.2) xsh ps) (h4 : s.yStride = cStrides s.yShape)
    (hy : 0 < prod s.yShape) :
    GathersC s.yShape xsh (padIdx mode s.yShape ps) (padPairs mode s) where
  perm := by
    have hyl : s.yShape.length = xsh.length := by rw [h3]; simp [hl]
    rw [padPairs, flat2nd_zero, h4, cStrides_length, visit_eq _ _ hy (by omega)]
    apply List.Perm.of_eq
    apply List.map_congr_left
    intro j hj
    have hj := (mem_indices _ _).mp hj
    rw [nd2flat_eq, padSrc_eq _ _ _ _ _ _ hj.length (by rw [h1]; omega) (by rw [h2, cStrides_length]; omega), h1, h2]
    congr 2
    funext k
    rw [nd2flat_eq, Nat.zero_add]
  bound := by
    intro j k hj hk
    rw [h3] at hj hk
    exact padIdx_bound mode xsh ps hl hpos j k hj hk

theorem indices_append (A B : Shape) :
    indices (A ++ B) = (indices A).flatMap fun ja => (indices B).map (ja ++ ·) := by
  induction A with
  | nil => simp [indices]
  | cons d A ih =>
    simp only [List.cons_append, indices, ih, List.map_flatMap, List.flatMap_assoc, List.flatMap_map, List.map_map]
    rfl

theorem padIdx_append (mode : PadMode) (A B : Shape) (w : List (Nat × Nat)) (ja jb : List Nat) (h : InBounds A ja) :
    padIdx mode (A ++ B) (List.replicate A.length (0, 0) ++ w) (ja ++ jb) = (padIdx mode B w jb).map (ja ++ ·) := by
  induction A generalizing ja with
  | nil => cases ja with
    | nil => simp
    | cons _ _ => exact h.elim
  | cons d A ih => cases ja with
    | nil => exact h.elim
    | cons i is =>
      simp only [List.cons_append, List.length_cons, List.replicate_succ, padIdx, padAxis_zero _ _ _ h.1, ih is h.2,
        Option.map_map]
      rfl

/-- Folding the leading axes into one does not change the pairs. -/
theorem padUnfold (mode : PadMode) (A B B' : Shape) (w : List (Nat × Nat)) (ps : CPairs)
    (h : GathersC (prod A :: B') (prod A :: B) (padIdx mode (prod A :: B') ((0, 0) :: w)) ps)
    (hb : ∀ j k, InBounds (A ++ B') j → padIdx mode (A ++ B') (List.replicate A.length (0, 0) ++ w) j = some k →
      InBounds (A ++ B) k) :
    GathersC (A ++ B') (A ++ B) (padIdx mode (A ++ B') (List.replicate A.length (0, 0) ++ w)) ps where
  bound := hb
  perm := by
    refine h.perm.trans (List.Perm.of_eq ?_)
    rw [indices_append, indices, List.map_flatMap, List.map_flatMap, ← indices_ravel, List.flatMap_map]
    apply List.flatMap_congr
    intro ja hja
    have hja := (mem_indices _ _).mp hja
    rw [List.map_map, List.map_map]
    apply List.map_congr_left
    intro jb hjb
    simp only [Function.comp, padIdx_append _ _ _ _ _ _ hja, padIdx, padAxis_zero _ _ _ (ravel_lt hja),
      ravel_append _ _ _ _ hja.length, ravel, Option.map_map]
    congr 2
    funext k
    simp only [Function.comp, ravel_append _ _ _ _ hja.length, ravel]

theorem zipWith_replicate_zero (A : Shape) :
    List.zipWith (fun d (p : Nat × Nat) => d + p.1 + p.2) A (List.replicate A.length (0, 0)) = A := by
  induction A with
  | nil => rfl
  | cons a A ih => simp [List.replicate_succ, ih]

theorem pairsOf_flat (w : List (Nat × Nat)) :
    pairsOf (w.flatMap fun p => [(p.1 : Int), (p.2 : Int)]) = w ∧
    (w.flatMap fun p => [(p.1 : Int), (p.2 : Int)]).length = 2 * w.length ∧
    ¬ ∃ v ∈ (w.flatMap fun p => [(p.1 : Int), (p.2 : Int)]), v < 0 := by
  induction w with
  | nil => simp [pairsOf]
  | cons p w ih =>
    obtain ⟨h1, h2, h3⟩ := ih
    refine ⟨by simp [pairsOf, h1], by simp [h2]; omega, ?_⟩
    rintro ⟨v, hv, hneg⟩
    simp only [List.flatMap_cons, List.cons_append, List.nil_append, List.mem_cons] at hv
    rcases hv with rfl | rfl | hv
    · omega
    · omega
    · exact h3 ⟨v, hv, hneg⟩

/-- What setup computes, for an input `A ++ B` padded on the axes of `B`. -/
theorem padSetup_gathers (mode : PadMode) (A B : Shape) (w : List (Nat × Nat)) (hw : w.length = B.length)
    (hpos : mode ≠ .constant → 0 < prod (A ++ B))
    (hy : 0 < prod (A ++ List.zipWith (fun d p => d + p.1 + p.2) B w)) :
    ∃ s, padSetup (w.flatMap fun p => [(p.1 : Int), (p.2 : Int)]) (A ++ B) = .ok s ∧
      s.oshape = A ++ List.zipWith (fun d p => d + p.1 + p.2) B w ∧
      GathersC s.oshape (A ++ B) (padIdx mode s.oshape (List.replicate A.length (0, 0) ++ w)) (padPairs mode s) := by
  obtain ⟨e1, e2, e3⟩ := pairsOf_flat w
  obtain ⟨B', hB'⟩ : ∃ B', B' = List.zipWith (fun d (p : Nat × Nat) => d + p.1 + p.2) B w := ⟨_, rfl⟩
  have hB'l : B'.length = B.length := by rw [hB']; simp [hw]
  have hsh : List.zipWith (fun d (p : Nat × Nat) => d + p.1 + p.2) (A ++ B) (List.replicate A.length (0, 0) ++ w) = A ++ B' := by
    rw [List.zipWith_append (by simp), zipWith_replicate_zero, hB']
  rw [← hB'] at hy ⊢
  have hlen : (A ++ B).length - (2 * w.length) / 2 = A.length := by simp; omega
  rw [padSetup, e2, if_neg (by omega), if_neg (by simp; omega), if_neg e3]
  simp only [e1, hlen, hsh]
  have hbound : ∀ j k, InBounds (A ++ B') j → padIdx mode (A ++ B') (List.replicate A.length (0, 0) ++ w) j = some k →
      InBounds (A ++ B) k := by
    intro j k hj hk
    rw [← hsh] at hj hk
    exact padIdx_bound mode (A ++ B) _ (by simp [hw]) hpos j k hj hk
  by_cases hf : (A ++ B').length > 2 * w.length / 2 + 1
  · rw [if_pos hf]
    refine ⟨_, rfl, rfl, ?_⟩
    simp only [List.length_append] at hf
    obtain ⟨e, he⟩ : ∃ e, e = (A ++ B').length - (2 * w.length / 2 + 1) := ⟨_, rfl⟩
    have heA : e + 1 = A.length := by simp only [he, List.length_append]; omega
    simp only [← he]
    obtain ⟨A1, a, hA⟩ : ∃ A1 a, A = A1 ++ [a] := by
      rcases List.eq_nil_or_concat A with h | ⟨A1, a, h⟩
      · subst h; simp at heA
      · exact ⟨A1, a, by simpa using h⟩
    have heA1 : e = A1.length := by rw [hA] at heA; simpa using heA
    apply padUnfold mode A B B' w _ ?_ hbound
    have hdropS : ∀ (X : Shape), ((cStrides (A ++ X)).drop e).set 0 (innerSize (A ++ X) (e + 1)) = cStrides (prod A :: X) := by
      intro X
      have hc : ∀ (P Y : Shape), (cStrides (P ++ Y)).drop P.length = cStrides Y := by
        intro P Y
        induction P with
        | nil => simp
        | cons p P ih => rw [List.cons_append, cStrides_cons]; simpa using ih
      have : A ++ X = A1 ++ (a :: X) := by rw [hA]; simp
      rw [this, heA1, hc, cStrides_cons, cStrides_cons]
      simp only [List.set_cons_zero, innerSize]
      rw [foldl_mul, Nat.one_mul, show A1 ++ a :: X = (A1 ++ [a]) ++ X by simp,
        show A1.length + 1 = (A1 ++ [a]).length by simp, List.drop_left]
    have hys : ((A ++ B').drop e).set 0 (outerSize (A ++ B') (e + 1)) = prod A :: B' := by
      have : A ++ B' = A1 ++ (a :: B') := by rw [hA]; simp
      rw [outerSize, heA, List.take_left, foldl_mul, Nat.one_mul, this, heA1, List.drop_left, List.set_cons_zero]
    have hpd : (List.replicate A.length ((0, 0) : Nat × Nat) ++ w).drop e = (0, 0) :: w := by
      rw [← heA, List.replicate_succ', List.append_assoc, List.drop_append_of_le_length (by simp)]
      simp
    have hz : List.zipWith (fun d (p : Nat × Nat) => d + p.1 + p.2) (prod A :: B) ((0, 0) :: w) = prod A :: B' := by
      simp [hB']
    have := padKernel mode (prod A :: B) ((0, 0) :: w) (by simp [hw])
      (fun hm => by have := hpos hm; rw [prod_append] at this; exact this)
      { oshape := A ++ B'
        padding := (List.replicate A.length ((0, 0) : Nat × Nat) ++ w).drop e
        xStride := ((cStrides (A ++ B)).drop e).set 0 (innerSize (A ++ B) (e + 1))
        yStride := ((cStrides (A ++ B')).drop e).set 0 (innerSize (A ++ B') (e + 1))
        yShape := ((A ++ B').drop e).set 0 (outerSize (A ++ B') (e + 1)) }
      hpd (hdropS B) (by rw [hz]; exact hys) (by rw [hdropS B', hys])
      (by simp only [hys]; rw [prod_append] at hy; exact hy)
    simp only [hys] at this
    simpa only [hys] using this
  · rw [if_neg hf]
    refine ⟨_, rfl, rfl, ?_⟩
    exact padKernel mode (A ++ B) (List.replicate A.length (0, 0) ++ w) (by simp [hw]) hpos
      { oshape := A ++ B', padding := List.replicate A.length (0, 0) ++ w, xStride := cStrides (A ++ B),
        yStride := cStrides (A ++ B'), yShape := A ++ B' } rfl rfl hsh.symm rfl hy

/-! ### From lists to axes -/

theorem padIdx_all (mode : PadMode) (ysh : Shape) (ps : List (Nat × Nat)) (j k : List Nat) (hl : ps.length = ysh.length)
    (hj : j.length = ysh.length) (hk : k.length = ysh.length)
    (h : ∀ a, a < ysh.length → padAxis mode (ysh.getD a 0) (ps.getD a (0, 0)) (j.getD a 0) = some (k.getD a 0)) :
    padIdx mode ysh ps j = some k := by
  induction ysh generalizing ps j k with
  | nil => cases k <;> simp_all [padIdx]
  | cons d ysh ih => cases ps with
    | nil => simp at hl
    | cons p ps => cases j with
      | nil => simp at hj
      | cons i is => cases k with
        | nil => simp at hk
        | cons l ls =>
          have h0 := h 0 (by simp)
          simp only [List.getD_cons_zero] at h0
          simp only [padIdx, h0]
          rw [ih ps is ls (by simpa using hl) (by simpa using hj) (by simpa using hk)]
          · rfl
          · intro a ha
            simpa using h (a + 1) (by simpa using ha)

theorem padIdx_none (mode : PadMode) (ysh : Shape) (ps : List (Nat × Nat)) (j : List Nat) (hl : ps.length = ysh.length)
    (hj : j.length = ysh.length) (a : Nat) (ha : a < ysh.length)
    (h : padAxis mode (ysh.getD a 0) (ps.getD a (0, 0)) (j.getD a 0) = none) : padIdx mode ysh ps j = none := by
  induction ysh generalizing ps j a with
  | nil => simp at ha
  | cons d ysh ih => cases ps with
    | nil => simp at hl
    | cons p ps => cases j with
      | nil => simp at hj
      | cons i is =>
        cases a with
        | zero =>
          simp only [List.getD_cons_zero] at h
          simp only [padIdx, h]
        | succ a =>
          simp only [padIdx]
          rw [ih ps is (by simpa using hl) (by simpa using hj) a (by simpa using ha) (by simpa using h)]
          cases padAxis mode d p i <;> rfl

theorem axisPad_eq (w : List (Nat × Nat)) (ndim a : Nat) (hw : w.length ≤ ndim) (ha : a < ndim) :
    (List.replicate (ndim - w.length) ((0, 0) : Nat × Nat) ++ w).getD a (0, 0) = axisPad w ndim a := by
  simp only [axisPad]
  by_cases h : ndim ≤ a + w.length
  · rw [if_pos h, List.getD_eq_getElem?_getD, List.getElem?_append_right (by simp; omega), List.getD_eq_getElem?_getD]
    congr 2
    simp; omega
  · rw [if_neg h, List.getD_eq_getElem?_getD, List.getElem?_append_left (by simp; omega)]
    rw [List.getElem?_replicate, if_pos (by omega)]; rfl

theorem pad_pos_axis (xsh : Shape) (h : 0 < prod xsh) (a : Nat) (ha : a < xsh.length) : 0 < xsh.getD a 0 := by
  induction xsh generalizing a with
  | nil => simp at ha
  | cons d ds ih =>
    cases a with
    | zero => exact Nat.pos_of_mul_pos_right (by simpa [prod] using h)
    | succ a => simpa using ih (Nat.pos_of_mul_pos_left (by simpa [prod] using h)) a (by simpa using ha)

/-! ### C76 -/

/-- **C76.** `pad(x, pad_width, mode, constant_value)` (pad_width given as pairs `w` for the last axes): the
result has extent `n + before + after` on each axis; its element at `j` is the element of x at the source
positions of `j - before`, by the rule of the mode on every axis, or the constant when one axis is outside
(mode 'constant'). How many leading unpadded axes are folded together makes no difference. -/
theorem C76_pad {R} (mode : PadMode) (xsh : Shape) (w : List (Nat × Nat)) (hw : w.length ≤ xsh.length)
    (hpos : mode ≠ .constant → 0 < prod xsh)
    (hy : 0 < prod ((List.range xsh.length).map fun a =>
      xsh.getD a 0 + (axisPad w xsh.length a).1 + (axisPad w xsh.length a).2)) :
    ∃ s, padSetup (w.flatMap fun p => [(p.1 : Int), (p.2 : Int)]) xsh = .ok s ∧
      s.oshape = ((List.range xsh.length).map fun a =>
        xsh.getD a 0 + (axisPad w xsh.length a).1 + (axisPad w xsh.length a).2) ∧
      ∀ (c : R) (x y : Mem R) (j : List Nat), InBounds s.oshape j →
        (∀ k : List Nat, k.length = xsh.length →
          (∀ a, a < xsh.length →
            padIndex mode (xsh.getD a 0) ((j.getD a 0 : Int) - (axisPad w xsh.length a).1) = some (k.getD a 0)) →
          padForward mode s c x y (ravel s.oshape j) = x (ravel xsh k)) ∧
        ((∃ a, a < xsh.length ∧
            padIndex mode (xsh.getD a 0) ((j.getD a 0 : Int) - (axisPad w xsh.length a).1) = none) →
          padForward mode s c x y (ravel s.oshape j) = c) := by
  obtain ⟨A, B, hAB, hB⟩ : ∃ A B, xsh = A ++ B ∧ w.length = B.length :=
    ⟨xsh.take (xsh.length - w.length), xsh.drop (xsh.length - w.length), by simp, by simp; omega⟩
  have hAl : A.length = xsh.length - w.length := by rw [hAB]; simp; omega
  have hP : List.replicate A.length ((0, 0) : Nat × Nat) ++ w =
      List.replicate (xsh.length - w.length) (0, 0) ++ w := by rw [hAl]
  have hosh : A ++ List.zipWith (fun d (p : Nat × Nat) => d + p.1 + p.2) B w =
      (List.range xsh.length).map fun a => xsh.getD a 0 + (axisPad w xsh.length a).1 + (axisPad w xsh.length a).2 := by
    have h1 : A ++ List.zipWith (fun d (p : Nat × Nat) => d + p.1 + p.2) B w =
        List.zipWith (fun d (p : Nat × Nat) => d + p.1 + p.2) xsh (List.replicate (xsh.length - w.length) (0, 0) ++ w) := by
      rw [← hP, hAB, List.zipWith_append (by simp), zipWith_replicate_zero]
    rw [h1]
    apply List.ext_getElem
    · simp; omega
    · intro a h2 h3
      have ha : a < xsh.length := by simpa using h3
      have ha2 : a < (List.replicate (xsh.length - w.length) ((0, 0) : Nat × Nat) ++ w).length := by simp; omega
      simp only [List.getElem_zipWith, List.getElem_map, List.getElem_range]
      have e := axisPad_eq w xsh.length a hw ha
      rw [List.getD_eq_getElem?_getD, List.getElem?_eq_getElem ha2] at e
      simp only [Option.getD_some] at e
      rw [e, List.getD_eq_getElem?_getD, List.getElem?_eq_getElem ha]
      rfl
  rw [← hosh] at hy
  obtain ⟨s, h1, h2, h3⟩ := padSetup_gathers mode A B w hB (by rw [← hAB]; exact hpos) hy
  rw [← hAB] at h1 h3
  refine ⟨s, h1, by rw [h2, hosh], ?_⟩
  intro c x y j hj
  have hol : s.oshape.length = xsh.length := by rw [h2, hosh]; simp
  have hax : ∀ a, a < xsh.length → padAxis mode (s.oshape.getD a 0)
      ((List.replicate A.length ((0, 0) : Nat × Nat) ++ w).getD a (0, 0)) (j.getD a 0) =
      padIndex mode (xsh.getD a 0) ((j.getD a 0 : Int) - (axisPad w xsh.length a).1) := by
    intro a ha
    rw [hP, axisPad_eq _ _ _ hw ha, ← padAxis_eq _ _ _ _ (fun hm => pad_pos_axis _ (hpos hm) a ha), h2, hosh,
      getD_range_map _ _ _ ha]
  have hpl : (List.replicate A.length ((0, 0) : Nat × Nat) ++ w).length = s.oshape.length := by
    rw [hP]; simp; omega
  constructor
  · intro k hk hall
    rw [padForward, h3.forward c x y j hj, padIdx_all mode _ _ j k hpl hj.length (by omega)]
    · rfl
    · intro a ha
      rw [hax a (by omega)]; exact hall a (by omega)
  · rintro ⟨a, ha, hnone⟩
    rw [padForward, h3.forward c x y j hj, padIdx_none mode _ _ j hpl hj.length a (by omega)]
    · rfl
    · rw [hax a ha]; exact hnone

theorem padAxis_inj (d : Nat) (p : Nat × Nat) (i i' k : Nat) (h : padAxis .constant d p i = some k)
    (h' : padAxis .constant d p i' = some k) : i = i' := by
  simp only [padAxis] at h h'
  split at h
  · cases h
  · split at h'
    · cases h'
    · simp only [Option.some.injEq] at h h'; omega

theorem padIdx_inj (ysh : Shape) (ps : List (Nat × Nat)) (hl : ps.length = ysh.length) (j j' k : List Nat)
    (hj : j.length = ysh.length) (hj' : j'.length = ysh.length)
    (h : padIdx .constant ysh ps j = some k) (h' : padIdx .constant ysh ps j' = some k) : j = j' := by
  induction ysh generalizing ps j j' k with
  | nil => cases j <;> cases j' <;> simp_all
  | cons d ysh ih => cases ps with
    | nil => simp at hl
    | cons p ps => cases j with
      | nil => simp at hj
      | cons i is => cases j' with
        | nil => simp at hj'
        | cons i' is' =>
          simp only [padIdx] at h h'
          cases e : padAxis .constant d p i with
          | none => rw [e] at h; cases h
          | some a =>
            rw [e] at h
            cases e' : padAxis .constant d p i' with
            | none => rw [e'] at h'; cases h'
            | some a' =>
              rw [e'] at h'
              simp only [Option.map_eq_some_iff] at h h'
              obtain ⟨l, hl1, rfl⟩ := h
              obtain ⟨l', hl1', e2⟩ := h'
              simp only [List.cons.injEq] at e2
              obtain ⟨rfl, rfl⟩ := e2
              rw [padAxis_inj d p i i' _ e e', ih ps (by simpa using hl) is is' _ (by simpa using hj) (by simpa using hj') hl1 hl1']

/-- **C76.** Backward of pad is the derivative of its forward (which is affine in x because of the
constant), in all modes, with and without accumulation. -/
theorem C76_pad_grad {R} [CommSemiring R] (mode : PadMode) (xsh : Shape) (w : List (Nat × Nat)) (hw : w.length ≤ xsh.length)
    (hpos : mode ≠ .constant → 0 < prod xsh)
    (hy : 0 < prod ((List.range xsh.length).map fun a =>
      xsh.getD a 0 + (axisPad w xsh.length a).1 + (axisPad w xsh.length a).2)) (c : R) (y : Mem R) :
    ∃ s, padSetup (w.flatMap fun p => [(p.1 : Int), (p.2 : Int)]) xsh = .ok s ∧
      GradAffine (prod xsh) (prod s.oshape) (fun x => padForward mode s c x y) (callBackward (padBackward mode s)) := by
  obtain ⟨A, B, hAB, hB⟩ : ∃ A B, xsh = A ++ B ∧ w.length = B.length :=
    ⟨xsh.take (xsh.length - w.length), xsh.drop (xsh.length - w.length), by simp, by simp; omega⟩
  have hAl : A.length = xsh.length - w.length := by rw [hAB]; simp; omega
  have hy2 : 0 < prod (A ++ List.zipWith (fun d (p : Nat × Nat) => d + p.1 + p.2) B w) := by
    have hosh : A ++ List.zipWith (fun d (p : Nat × Nat) => d + p.1 + p.2) B w =
        (List.range xsh.length).map fun a => xsh.getD a 0 + (axisPad w xsh.length a).1 + (axisPad w xsh.length a).2 := by
      have h1 : A ++ List.zipWith (fun d (p : Nat × Nat) => d + p.1 + p.2) B w =
          List.zipWith (fun d (p : Nat × Nat) => d + p.1 + p.2) xsh (List.replicate (xsh.length - w.length) (0, 0) ++ w) := by
        rw [← hAl, hAB, List.zipWith_append (by simp), zipWith_replicate_zero]
      rw [h1]
      apply List.ext_getElem
      · simp; omega
      · intro a h2 h3
        have ha : a < xsh.length := by simpa using h3
        have ha2 : a < (List.replicate (xsh.length - w.length) ((0, 0) : Nat × Nat) ++ w).length := by simp; omega
        simp only [List.getElem_zipWith, List.getElem_map, List.getElem_range]
        have e := axisPad_eq w xsh.length a hw ha
        rw [List.getD_eq_getElem?_getD, List.getElem?_eq_getElem ha2] at e
        simp only [Option.getD_some] at e
        rw [e, List.getD_eq_getElem?_getD, List.getElem?_eq_getElem ha]
        rfl
    rw [hosh]; exact hy
  obtain ⟨s, h1, h2, h3⟩ := padSetup_gathers mode A B w hB (by rw [← hAB]; exact hpos) hy2
  rw [← hAB] at h1 h3
  refine ⟨s, h1, h3.gradAffine c y _ ?_⟩
  intro accum dy dx
  cases mode
  · cases accum
    · simp only [callBackward, padBackward, Bool.false_eq_true, if_false]
      apply bwdSet_nodup
      apply h3.somes_nodup
      intro j j' k hj hj' hk hk'
      refine padIdx_inj _ _ ?_ j j' k hj.length hj'.length hk hk'
      rw [h2]; simp [hB]
    · simp only [callBackward, padBackward, if_true]
  · cases accum <;> rfl
  · cases accum <;> rfl

example : ∃ s, padSetup [1, 2] [2, 2, 3] = .ok s ∧ s.oshape = [2, 2, 6] ∧ s.yShape = [4, 6] ∧
    (List.range 24).map (padForward .reflect s 9 (fun i => i) (fun _ => 0)) =
      [1, 0, 1, 2, 1, 0, 4, 3, 4, 5, 4, 3, 7, 6, 7, 8, 7, 6, 10, 9, 10, 11, 10, 9] ∧
    ((List.range 24).map (padForward .constant s 99 (fun i => i) (fun _ => 0))).take 12 =
      [99, 0, 1, 2, 99, 99, 99, 3, 4, 5, 99, 99] ∧
    ((List.range 24).map (padForward .repeat_ s 99 (fun i => i) (fun _ => 0))).take 6 = [0, 0, 1, 2, 2, 2] := by
  refine ⟨_, rfl, ?_⟩
  decide

end Verif.Fn
