import Verif.Fn.Separable
import Verif.Fn.ChunkProps
/-
Unpooling: models /repo/src/nbla/function/generic/unpooling.cpp.
Simplifications: `int` is unbounded, kernel sizes are natural numbers. A 0-dimensional input makes the C++ read
`strides()[0]` of an empty vector (undefined behaviour): the model touches nothing then and the theorems require at least
one axis. With channel_last and as many kernel sizes as axes, setup_impl computes the offset -1 (undefined behaviour): the
model rejects.
-/
namespace Verif.Act
open Verif.ND Verif.Fn

/-! ### Model -/

/-- Unpooling::setup_impl (unpooling.cpp:28-48): the output shape. -/
def unpoolSetup (kernel : List Nat) (channelLast : Bool) (ish : Shape) : Except String Shape :=
  if ish.length < kernel.length then .error "value: Length of kernel must be less than length of inshape."
  else if channelLast && decide (ish.length < kernel.length + 1) then .error "undefined behaviour"
  else
    let offset := if channelLast then ish.length - kernel.length - 1 else ish.length - kernel.length
    .ok ((List.range kernel.length).foldl (fun out i => out.set (offset + i) (ish.getD (offset + i) 0 * kernel.getD i 0)) ish)

/-- The counting loop (unpooling.cpp:77-85, 88-97, 126-144): `size` steps; the position in y advances at every step, the one
in x after each `kernel` steps. The list of (offset in y, offset in x). -/
def upLoop (kernel xst yst : Nat) : Nat → Nat → Nat → Nat → Pairs
  | 0, _, _, _ => []
  | n + 1, count, xo, yo =>
    (yo, xo) :: if count + 1 ≥ kernel then upLoop kernel xst yst n 0 (xo + xst) (yo + yst)
      else upLoop kernel xst yst n (count + 1) xo (yo + yst)

/-- Unpooling::unpooling_forward_recursive (unpooling.cpp:50-99) with `copy`, unpooling_backward_recursive (110-146) without:
one entry per axis (extent of y, kernel, stride of x, stride of y). -/
def upRec (copy : Bool) : List (Nat × Nat × Nat × Nat) → Nat → Nat → Pairs
  | [], _, _ => []
  | [(n, k, xst, yst)], xo, yo =>
    if copy && decide (xst = 1) && decide (k = 1) then (List.range n).map fun i => (yo + i, xo + i)  -- memcpy
    else upLoop k xst yst n 0 xo yo
  | (n, k, xst, yst) :: rest, xo, yo => (upLoop k xst yst n 0 xo yo).flatMap fun p => upRec copy rest p.2 p.1

/-- The kernel size used for each axis (unpooling.cpp:59-63): 1 for the leading ones. -/
def kernels (kernel : List Nat) (ndim : Nat) : List Nat :=
  (List.range ndim).map fun dim => if dim < ndim - kernel.length then 1 else kernel.getD (dim - (ndim - kernel.length)) 0

/-- The accesses of one call. -/
def upPairs (copy : Bool) (kernel : List Nat) (ish osh : Shape) : Pairs :=
  upRec copy (osh.zip ((kernels kernel ish.length).zip ((cStrides ish).zip (cStrides osh)))) 0 0

/-- Unpooling::forward_impl (unpooling.cpp:101-111). -/
def unpoolForward {R} (kernel : List Nat) (channelLast : Bool) (ish osh : Shape) (x y : Mem R) : Except String (Mem R) :=
  if channelLast then .error "not_implemented: Unpooling with channel_last is not supported in CPU."
  else .ok (fwd (upPairs true kernel ish osh) x y)

/-- Unpooling::backward_impl (unpooling.cpp:149-161). -/
def unpoolBackward {R} [Zero R] [Add R] (kernel : List Nat) (ish osh : Shape) (accum : Bool) (dy dx : Mem R) : Mem R :=
  bwdAdd (upPairs false kernel ish osh) dy (if accum then dx else zeros)

/-! ### Lemmas -/

theorem upLoop_aux (k xst yst : Nat) (hk : 0 < k) (n c xo yo : Nat) (hc : c < k) :
    upLoop k xst yst n c xo yo = (List.range n).map fun i => (yo + i * yst, xo + ((c + i) / k) * xst) := by
  induction n generalizing c xo yo with
  | zero => rfl
  | succ n ih =>
    rw [upLoop, List.range_succ_eq_map, List.map_cons, List.map_map]
    have e0 : (c + 0) / k = 0 := by simpa using Nat.div_eq_of_lt hc
    rw [e0]
    simp only [Nat.zero_mul, Nat.add_zero]
    congr 1
    by_cases h : c + 1 ≥ k
    · have hck : c + 1 = k := by omega
      rw [if_pos h, ih 0 _ _ hk]
      apply List.map_congr_left
      intro i _
      have : (c + (i + 1)) / k = i / k + 1 := by
        rw [show c + (i + 1) = i + k by omega, Nat.add_div_right _ hk]
      simp only [Function.comp, this, Nat.zero_add, Nat.succ_eq_add_one, Nat.add_mul, Nat.one_mul]
      congr 1 <;> omega
    · rw [if_neg h, ih (c + 1) _ _ (by omega)]
      apply List.map_congr_left
      intro i _
      simp only [Function.comp, Nat.succ_eq_add_one, Nat.add_mul, Nat.one_mul]
      rw [show c + 1 + i = c + (i + 1) by omega]
      congr 1
      omega

theorem upLoop_eq (k d xst yst xo yo : Nat) :
    upLoop k xst yst (d * k) 0 xo yo = (List.range (d * k)).map fun i => (yo + i * yst, xo + (i / k) * xst) := by
  rcases Nat.eq_zero_or_pos k with rfl | hk
  · simp [upLoop]
  · rw [upLoop_aux k xst yst hk _ 0 _ _ hk]; simp

/-- Index maps of all axes. -/
def upMaps (ks : List Nat) : List (Nat → Nat) := ks.map fun k i => i / k

theorem up_mapsInto (ish : Shape) (ks : List Nat) (h : ks.length = ish.length) :
    MapsInto (List.zipWith (· * ·) ish ks) ish (upMaps ks) := by
  induction ish generalizing ks with
  | nil => cases ks <;> simp_all [upMaps, MapsInto]
  | cons d ish ih => cases ks with
    | nil => simp at h
    | cons k ks =>
      refine ⟨fun i hi => ?_, ih ks (by simpa using h)⟩
      have hi : i < d * k := hi
      exact Nat.div_lt_of_lt_mul (by rwa [Nat.mul_comm] at hi)

theorem upRec_nest (copy : Bool) (ish : Shape) (hne : ish ≠ []) (ks : List Nat) (h : ks.length = ish.length) (xo yo : Nat) :
    upRec copy ((List.zipWith (· * ·) ish ks).zip (ks.zip ((cStrides ish).zip (cStrides (List.zipWith (· * ·) ish ks))))) xo yo =
      nest (loops (List.zipWith (· * ·) ish ks) ish (upMaps ks)) yo xo := by
  induction ish generalizing ks xo yo with
  | nil => exact absurd rfl hne
  | cons d ish ih => cases ks with
    | nil => simp at h
    | cons k ks =>
      have hl : ks.length = ish.length := by simpa using h
      rw [List.zipWith_cons_cons, loops, cStrides_cons, cStrides_cons, upMaps]
      simp only [List.zip_cons_cons, List.map_cons, nest]
      cases ish with
      | nil =>
        cases ks with
        | cons _ _ => simp at hl
        | nil =>
          simp only [List.zipWith_nil_left, List.zip_nil_left, upRec, nest, prod, ← List.map_eq_flatMap]
          split
          · rename_i hc
            have : k = 1 := by simp at hc; exact hc.2
            subst this
            simp [List.map_eq_flatMap, nest]
          · rw [upLoop_eq]; simp [List.map_eq_flatMap, nest]
      | cons e ish =>
        cases ks with
        | nil => simp at hl
        | cons k' ks =>
          have key := ih (by simp) (k' :: ks) hl
          rw [List.zipWith_cons_cons, cStrides_cons, cStrides_cons] at key ⊢
          simp only [List.zip_cons_cons, upRec] at key ⊢
          rw [upLoop_eq, List.flatMap_map]
          apply List.flatMap_congr
          intro i _
          rw [key]
          simp only [loops, upMaps, cStrides_cons, List.zip_cons_cons, List.map_cons]

theorem set_loop (A S : Shape) (K : List Nat) (h : K.length = S.length) (src : Shape)
    (hsrc : ∀ i, i < S.length → src.getD (A.length + i) 0 = S.getD i 0) :
    (List.range K.length).foldl (fun out i => out.set (A.length + i) (src.getD (A.length + i) 0 * K.getD i 0)) (A ++ S) =
      A ++ List.zipWith (· * ·) S K := by
  induction S generalizing A K src with
  | nil => cases K <;> simp_all
  | cons d S ih => cases K with
    | nil => simp at h
    | cons k K =>
      have hl : K.length = S.length := by simpa using h
      rw [List.length_cons, List.range_succ_eq_map, List.foldl_cons, List.foldl_map]
      have h0 := hsrc 0 (by simp)
      simp only [Nat.add_zero, List.getD_cons_zero] at h0 ⊢
      rw [h0]
      have e1 : (A ++ d :: S).set A.length (d * k) = (A ++ [d * k]) ++ S := by simp
      rw [e1]
      have := ih (A ++ [d * k]) K hl src (by
        intro i hi
        have := hsrc (i + 1) (by simp; omega)
        simp only [List.getD_cons_succ, List.length_append, List.length_singleton] at this ⊢
        rw [← this]; congr 1; omega)
      simp only [List.length_append, List.length_singleton, List.append_assoc] at this
      simp only [Nat.succ_eq_add_one, List.getD_cons_succ, List.zipWith_cons_cons]
      rw [show (fun (out : List Nat) (i : Nat) => out.set (A.length + (i + 1)) (src.getD (A.length + (i + 1)) 0 * K.getD i 0)) =
        fun out i => out.set (A.length + 1 + i) (src.getD (A.length + 1 + i) 0 * K.getD i 0) from by
          funext out i; rw [show A.length + (i + 1) = A.length + 1 + i by omega]]
      rw [List.append_assoc]
      exact this

theorem kernels_eq (A S : Shape) (K : List Nat) (h : K.length = S.length) :
    kernels K (A ++ S).length = List.replicate A.length 1 ++ K := by
  apply List.ext_getElem
  · simp [kernels, h]
  · intro i h1 h2
    simp only [kernels, List.getElem_map, List.getElem_range, List.length_append, h, Nat.add_sub_cancel]
    by_cases hi : i < A.length
    · rw [if_pos hi, List.getElem_append_left (by simpa using hi)]; simp
    · rw [if_neg hi, List.getElem_append_right (by simpa using hi)]
      simp only [List.length_replicate]
      simp only [kernels, List.length_map, List.length_range, List.length_append] at h1
      rw [List.getD_eq_getElem?_getD, List.getElem?_eq_getElem (by omega)]; rfl

theorem zip_ones (A S : Shape) (K : List Nat) :
    List.zipWith (· * ·) (A ++ S) (List.replicate A.length 1 ++ K) = A ++ List.zipWith (· * ·) S K := by
  induction A with
  | nil => simp
  | cons a A ih => simp [List.replicate_succ, ih]

theorem apply_ones (A : Shape) (K : List Nat) (a i : List Nat) (ha : a.length = A.length) (hi : i.length = K.length) :
    applyAxes (upMaps (List.replicate A.length 1 ++ K)) (a ++ i) = a ++ List.zipWith (· / ·) i K := by
  induction A generalizing a with
  | nil =>
    cases a with
    | cons _ _ => simp at ha
    | nil =>
      simp only [List.length_nil, List.replicate_zero, List.nil_append]
      clear ha
      induction K generalizing i with
      | nil => cases i <;> simp_all [upMaps, applyAxes]
      | cons k K ih => cases i with
        | nil => simp at hi
        | cons j i =>
          have := ih i (by simpa using hi)
          simp only [upMaps] at this
          simp [upMaps, applyAxes, this]
  | cons d A ih => cases a with
    | nil => simp at ha
    | cons j a =>
      have := ih a (by simpa using ha)
      simp only [upMaps] at this
      simp only [List.length_cons, List.replicate_succ, List.cons_append, upMaps, List.map_cons, applyAxes, this, Nat.div_one]

theorem up_gathers (copy : Bool) (A S : Shape) (K : List Nat) (h : K.length = S.length) (hne : A ++ S ≠ []) :
    Gathers (A ++ List.zipWith (· * ·) S K) (A ++ S) (applyAxes (upMaps (List.replicate A.length 1 ++ K)))
      (upPairs copy K (A ++ S) (A ++ List.zipWith (· * ·) S K)) := by
  have hl : (List.replicate A.length 1 ++ K).length = (A ++ S).length := by simp [h]
  have hm := up_mapsInto (A ++ S) _ hl
  have hn := upRec_nest copy (A ++ S) hne _ hl 0 0
  rw [upPairs, kernels_eq A S K h]
  rw [zip_ones] at hm hn
  rw [hn]
  exact nest_gathers _ _ _ hm

theorem copy_pairs (A S : Shape) (K : List Nat) (h : K.length = S.length) (hne : A ++ S ≠ []) :
    upPairs true K (A ++ S) (A ++ List.zipWith (· * ·) S K) = upPairs false K (A ++ S) (A ++ List.zipWith (· * ·) S K) := by
  have hl : (List.replicate A.length 1 ++ K).length = (A ++ S).length := by simp [h]
  have h1 := upRec_nest true (A ++ S) hne _ hl 0 0
  have h2 := upRec_nest false (A ++ S) hne _ hl 0 0
  rw [zip_ones] at h1 h2
  rw [upPairs, upPairs, kernels_eq A S K h, h1, h2]

/-! ### C165 -/

/-- **C165 (shape).** With as many kernel sizes as trailing axes, unpooling multiplies those axes; with more kernel sizes than
axes it is rejected; channel_last is rejected at the latest when forward runs. -/
theorem C165_setup (A S : Shape) (K : List Nat) (h : K.length = S.length) :
    unpoolSetup K false (A ++ S) = .ok (A ++ List.zipWith (· * ·) S K) ∧
    (∀ (ish : Shape) (cl : Bool), ish.length < K.length → ∃ e, unpoolSetup K cl ish = .error e) ∧
    ∀ {R : Type} (ish osh : Shape) (x y : Mem R), ∃ e, unpoolForward K true ish osh x y = .error e := by
  refine ⟨?_, ?_, ?_⟩
  · rw [unpoolSetup, if_neg (by simp; omega)]
    simp only [Bool.false_and, Bool.false_eq_true, if_false]
    rw [show (A ++ S).length - K.length = A.length by simp; omega]
    rw [set_loop A S K h (A ++ S) (by intro i hi; simp [List.getD_eq_getElem?_getD, List.getElem?_append_right])]
  · intro ish cl hlt
    exact ⟨_, if_pos hlt⟩
  · intro R ish osh x y
    exact ⟨_, rfl⟩

/-- **C165.** Unpooling repeats: element (a, i) of the output is element (a, i / kernel) of the input; the kernel stays inside
both arrays; and backward is the transpose of forward, added to the old gradient when accumulating. -/
theorem C165_unpooling {R} [CommSemiring R] (A S : Shape) (K : List Nat) (h : K.length = S.length) (hne : A ++ S ≠ []) (x y : Mem R) :
    let osh := A ++ List.zipWith (· * ·) S K
    unpoolSetup K false (A ++ S) = .ok osh ∧
    (∃ out, unpoolForward K false (A ++ S) osh x y = .ok out ∧
      (∀ a i, InBounds A a → InBounds (List.zipWith (· * ·) S K) i →
        InBounds (A ++ S) (a ++ List.zipWith (· / ·) i K) ∧
        out (ravel osh (a ++ i)) = x (ravel (A ++ S) (a ++ List.zipWith (· / ·) i K))) ∧
      ∀ d, prod osh ≤ d → out d = y d) ∧
    (∃ fw : Mem R → Mem R, (∀ x, unpoolForward K false (A ++ S) osh x y = .ok (fw x)) ∧
      GradOK (prod (A ++ S)) (prod osh) fw (unpoolBackward K (A ++ S) osh)) ∧
    ∀ (dy dx : Mem R) k, prod (A ++ S) ≤ k → unpoolBackward K (A ++ S) osh true dy dx k = dx k := by
  intro osh
  have hg := up_gathers true A S K h hne
  have hg' := up_gathers false A S K h hne
  have hz : (List.zipWith (· * ·) S K).length = K.length := by simp [h]
  refine ⟨(C165_setup A S K h).1, ⟨_, rfl, ?_, ?_⟩, ⟨fun x => fwd (upPairs true K (A ++ S) osh) x y, fun _ => rfl, ?_⟩, ?_⟩
  · intro a i ha hi
    have la : a.length = A.length := ((inBounds_iff _ _).mp ha).1
    have li : i.length = K.length := by rw [((inBounds_iff _ _).mp hi).1, hz]
    have hb : InBounds osh (a ++ i) := (inBounds_append A _ a i la).mpr ⟨ha, hi⟩
    have hb' := hg.bound _ hb
    have hf := hg.forward x y _ hb
    rw [apply_ones A K a i la li] at hb' hf
    exact ⟨hb', hf⟩
  · intro d hd
    exact hg.forward_outside x y d hd
  · constructor
    · intro dx x dy
      have := hg.adjoint y x dy
      rw [show upPairs true K (A ++ S) osh = upPairs false K (A ++ S) osh from copy_pairs A S K h hne] at this ⊢
      exact this
    · intro dy dx dx' k
      exact bwdAdd_accum _ dy dx k
  · intro dy dx k hk
    show bwdAdd (upPairs false K (A ++ S) osh) dy dx k = dx k
    rw [bwdAdd_eq]
    have : ((upPairs false K (A ++ S) osh).map fun p => if p.2 = k then dy p.1 else 0) = (upPairs false K (A ++ S) osh).map fun _ => (0 : R) := by
      apply List.map_congr_left
      intro p hp
      have := (hg'.safe p hp).2
      rw [if_neg (by omega)]
    rw [this]; simp

/-- Non-vacuity: a [1, 2] map enlarged 2 × 3 times. -/
example : unpoolSetup [2, 3] false [1, 2] = .ok [2, 6] ∧
    (∃ out, unpoolForward [2, 3] false [1, 2] [2, 6] (fun i => (10 + i : Int)) (fun _ => -1) = .ok out ∧
      (List.range 13).map out = [10, 10, 10, 11, 11, 11, 10, 10, 10, 11, 11, 11, -1]) ∧
    (List.range 2).map (unpoolBackward [2, 3] [1, 2] [2, 6] true (fun i => (i : Int)) (fun _ => 100)) = [124, 142] := by
  refine ⟨by decide, ⟨_, rfl, by decide⟩, by decide⟩

end Verif.Act
