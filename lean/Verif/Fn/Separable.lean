import Verif.Fn.Transpose
/-
Flip and Shift: models /repo/src/nbla/function/generic/{flip,shift}.cpp. Both kernels are nests of loops,
one per axis, that map the position along each axis on its own.
Simplifications: `int` is unbounded; on a 0-dimensional input both kernels read `strides()[0]` of an empty
vector (undefined behaviour): the model touches nothing then, and the theorems require at least one axis.
-/
namespace Verif.Fn
open Verif.ND

/-! ### Flip -/

/-- Flip::flip_recursive (flip.cpp:36-94): (dst offset, src offset) in execution order. One entry per
axis: flip flag, extent, stride. In C++ the source offset starts at `x_offset + stride*(size-1)` and
decreases by `stride`; the subtraction never goes below `x_offset`. -/
def flipRec : List (Bool × Nat × Nat) → Nat → Nat → Pairs
  | [], _, _ => []
  | [(f, n, st)], xo, yo =>
    (List.range n).map fun i => (yo + i * st, if f then xo + st * (n - 1) - i * st else xo + i * st)
  | (f, n, st) :: rest, xo, yo =>
    (List.range n).flatMap fun i =>
      flipRec rest (if f then xo + st * (n - 1) - i * st else xo + i * st) (yo + i * st)

/-- Flip::setup_impl + the computation of `flip_` in forward_impl (flip.cpp:28-34, 100-103). -/
def flipFlags (axes : List Int) (ish : Shape) : Except String (List Bool) :=
  match refineAxes ish.length axes with
  | .error e => .error e
  | .ok r => .ok ((List.range ish.length).map fun d : Nat => decide ((d : Int) ∈ r))

/-- The pairs of one call (flip.cpp:104, 116): (dst, src). -/
def flipPairs (ish : Shape) (flags : List Bool) : Pairs := flipRec (flags.zip (ish.zip (cStrides ish))) 0 0

/-- Flip::forward_impl: dst is y, src is x. -/
def flipForward {R} (ish : Shape) (flags : List Bool) (x y : Mem R) : Mem R := fwd (flipPairs ish flags) x y

/-- Flip::backward_impl (flip.cpp:107-117): dst is dx, src is dy. -/
def flipBackward {R} [Add R] (ish : Shape) (flags : List Bool) (accum : Bool) (dy dx : Mem R) : Mem R :=
  if accum then bwdAdd ((flipPairs ish flags).map Prod.swap) dy dx
  else bwdSet ((flipPairs ish flags).map Prod.swap) dy dx

/-! ### Shift -/

/-- Border modes of Shift. Any string other than "reflect" behaves as "nearest" (shift.cpp:46-54). -/
inductive ShiftMode | reflect | nearest
deriving DecidableEq, Repr

/-- The shifted index (shift.cpp:43-54); `shift` is already negated. -/
def shiftIdx (mode : ShiftMode) (size : Nat) (shift : Int) (i : Nat) : Nat :=
  match mode with
  | .reflect =>
    let a := if size > 1 then ((i : Int) + size * 2 + shift).natAbs % (size * 2) else 0
    if a ≥ size then size * 2 - 1 - a else a
  | .nearest => (min (max ((i : Int) + shift) 0) ((size : Int) - 1)).toNat

/-- shift.cpp:40-41: shifts are aligned with the last axes. -/
def shiftOf (shifts : List Int) (ndim dim : Nat) : Int :=
  let k := (shifts.length : Int) - ndim + dim
  if k ≥ 0 then -(shifts.getD k.toNat 0) else 0

/-- Shift::shift_recursive (shift.cpp:30-75): (offset in y, offset in x); one entry per axis: extent,
stride, shift. -/
def shiftRec (mode : ShiftMode) : List (Nat × Nat × Int) → Nat → Nat → Pairs
  | [], _, _ => []
  | [(n, st, sh)], xo, yo => (List.range n).map fun i => (yo + i * st, xo + shiftIdx mode n sh i * st)
  | (n, st, sh) :: rest, xo, yo =>
    (List.range n).flatMap fun i => shiftRec mode rest (xo + shiftIdx mode n sh i * st) (yo + i * st)

/-- The pairs of one call. -/
def shiftPairs (mode : ShiftMode) (ish : Shape) (shifts : List Int) : Pairs :=
  shiftRec mode (ish.zip ((cStrides ish).zip ((List.range ish.length).map (shiftOf shifts ish.length)))) 0 0

/-- Shift::forward_impl. -/
def shiftForward {R} (mode : ShiftMode) (ish : Shape) (shifts : List Int) (x y : Mem R) : Mem R :=
  fwd (shiftPairs mode ish shifts) x y

/-- Shift::backward_impl (shift.cpp:85-98). -/
def shiftBackward {R} [Zero R] [Add R] (mode : ShiftMode) (ish : Shape) (shifts : List Int) (accum : Bool) (dy dx : Mem R) :
    Mem R :=
  bwdAdd (shiftPairs mode ish shifts) dy (if accum then dx else zeros)

/-! ### Lemmas: nests of loops -/

/-- One loop of the nest: extent, index map, strides. -/
structure AxisLoop where
  n : Nat
  g : Nat → Nat
  ys : Nat
  xs : Nat

/-- The nest. -/
def nest : List AxisLoop → Nat → Nat → Pairs
  | [], yo, xo => [(yo, xo)]
  | a :: r, yo, xo => (List.range a.n).flatMap fun i => nest r (yo + i * a.ys) (xo + a.g i * a.xs)

/-- Apply one map per axis. -/
def applyAxes : List (Nat → Nat) → List Nat → List Nat
  | g :: gs, i :: is => g i :: applyAxes gs is
  | _, _ => []

/-- The loops for given shapes and maps. -/
def loops (ysh xsh : Shape) (gs : List (Nat → Nat)) : List AxisLoop :=
  (gs.zip (ysh.zip ((cStrides ysh).zip (cStrides xsh)))).map fun p => ⟨p.2.1, p.1, p.2.2.1, p.2.2.2⟩

/-- Every map sends the extent of y into the extent of x. -/
def MapsInto : Shape → Shape → List (Nat → Nat) → Prop
  | y :: ys, x :: xs, g :: gs => (∀ i, i < y → g i < x) ∧ MapsInto ys xs gs
  | [], [], [] => True
  | _, _, _ => False

theorem nest_eq (ysh xsh : Shape) (gs : List (Nat → Nat)) (h : MapsInto ysh xsh gs) (yo xo : Nat) :
    nest (loops ysh xsh gs) yo xo = (indices ysh).map fun j => (yo + ravel ysh j, xo + ravel xsh (applyAxes gs j)) := by
  induction ysh generalizing xsh gs yo xo with
  | nil => cases xsh <;> cases gs <;> simp_all [MapsInto, loops, nest, indices, ravel, applyAxes]
  | cons d ysh ih => cases xsh with
    | nil => exact h.elim
    | cons e xsh => cases gs with
      | nil => exact h.elim
      | cons g gs =>
        rw [loops, cStrides_cons, cStrides_cons]
        simp only [List.zip_cons_cons, List.map_cons, nest, indices, List.map_flatMap, List.map_map]
        congr 1; funext i
        have := ih xsh gs h.2 (yo + i * prod ysh) (xo + g i * prod xsh)
        rw [loops] at this
        rw [this]
        apply List.map_congr_left
        intro j _
        simp only [Function.comp, ravel, applyAxes, Nat.add_assoc]

theorem mapsInto_bound (ysh xsh : Shape) (gs : List (Nat → Nat)) (h : MapsInto ysh xsh gs) (j : List Nat)
    (hj : InBounds ysh j) : InBounds xsh (applyAxes gs j) := by
  induction ysh generalizing xsh gs j with
  | nil => cases xsh <;> cases gs <;> cases j <;> simp_all [MapsInto, applyAxes, InBounds]
  | cons d ysh ih => cases xsh with
    | nil => exact h.elim
    | cons e xsh => cases gs with
      | nil => exact h.elim
      | cons g gs => cases j with
        | nil => exact hj.elim
        | cons i is => exact ⟨h.1 i hj.1, ih xsh gs h.2 is hj.2⟩

theorem nest_gathers (ysh xsh : Shape) (gs : List (Nat → Nat)) (h : MapsInto ysh xsh gs) :
    Gathers ysh xsh (applyAxes gs) (nest (loops ysh xsh gs) 0 0) where
  perm := by rw [nest_eq _ _ _ h]; simp
  bound := mapsInto_bound ysh xsh gs h

/-- Pairs of an invertible index map, seen from the other side. -/
theorem perm_inverse (ysh xsh : Shape) (f g : List Nat → List Nat) (hf : ∀ j, InBounds ysh j → InBounds xsh (f j))
    (hg : ∀ k, InBounds xsh k → InBounds ysh (g k)) (hfg : ∀ k, InBounds xsh k → f (g k) = k)
    (hgf : ∀ j, InBounds ysh j → g (f j) = j) :
    ((indices xsh).map fun k => (ravel ysh (g k), ravel xsh k)).Perm
      ((indices ysh).map fun j => (ravel ysh j, ravel xsh (f j))) := by
  have hp : (indices ysh).Perm ((indices xsh).map g) := by
    rw [List.perm_ext_iff_of_nodup]
    · intro j
      rw [mem_indices, List.mem_map]
      constructor
      · intro hj; exact ⟨f j, (mem_indices _ _).mpr (hf j hj), hgf j hj⟩
      · rintro ⟨k, hk, rfl⟩; exact hg k ((mem_indices _ _).mp hk)
    · exact (indices_nodup _).of_map _
    · apply List.Nodup.map_on
      · intro k hk k' hk' e
        rw [← hfg k ((mem_indices _ _).mp hk), e, hfg k' ((mem_indices _ _).mp hk')]
      · exact (indices_nodup _).of_map _
  refine List.Perm.symm ((hp.map _).trans ?_)
  rw [List.map_map]
  apply List.Perm.of_eq
  apply List.map_congr_left
  intro k hk
  simp only [Function.comp, hfg k ((mem_indices _ _).mp hk)]

/-! ### Flip -/

/-- Index map of one axis. -/
def flipMap (n : Nat) (f : Bool) (i : Nat) : Nat := if f then n - 1 - i else i

/-- Index maps of all axes. -/
def flipMaps (ish : Shape) (flags : List Bool) : List (Nat → Nat) := (ish.zip flags).map fun p => flipMap p.1 p.2

theorem flip_mapsInto (ish : Shape) (flags : List Bool) (h : flags.length = ish.length) :
    MapsInto ish ish (flipMaps ish flags) := by
  induction ish generalizing flags with
  | nil => cases flags <;> simp_all [flipMaps, MapsInto]
  | cons d ish ih => cases flags with
    | nil => simp at h
    | cons f flags =>
      refine ⟨fun i hi => ?_, ih flags (by simpa using h)⟩
      simp only [flipMap]; split <;> omega

theorem flipMap_offset (n st : Nat) (f : Bool) (xo i : Nat) (hi : i < n) :
    (if f then xo + st * (n - 1) - i * st else xo + i * st) = xo + flipMap n f i * st := by
  cases f
  · simp [flipMap]
  · simp only [flipMap, if_true]
    rw [Nat.sub_mul, Nat.mul_comm st]
    have : i * st ≤ (n - 1) * st := Nat.mul_le_mul_right _ (by omega)
    omega

theorem flipRec_nest (ish : Shape) (hne : ish ≠ []) (flags : List Bool) (h : flags.length = ish.length) (xo yo : Nat) :
    flipRec (flags.zip (ish.zip (cStrides ish))) xo yo = nest (loops ish ish (flipMaps ish flags)) yo xo := by
  induction ish generalizing flags xo yo with
  | nil => exact absurd rfl hne
  | cons d ish ih => cases flags with
    | nil => simp at h
    | cons f flags =>
      have hl : flags.length = ish.length := by simpa using h
      rw [loops, cStrides_cons, flipMaps]
      simp only [List.zip_cons_cons, List.map_cons, nest]
      cases ish with
      | nil =>
        cases flags with
        | cons _ _ => simp at hl
        | nil =>
          simp only [List.zip_nil_left, flipRec, nest, List.map_eq_flatMap]
          apply List.flatMap_congr
          intro i hi
          rw [flipMap_offset _ _ _ _ _ (List.mem_range.mp hi)]; rfl
      | cons e ish =>
        cases flags with
        | nil => simp at hl
        | cons f' flags =>
          have key := ih (by simp) (f' :: flags) hl
          rw [cStrides_cons] at key ⊢
          simp only [List.zip_cons_cons, flipRec] at key ⊢
          apply List.flatMap_congr
          intro i hi
          rw [flipMap_offset _ _ _ _ _ (List.mem_range.mp hi), key]
          simp only [loops, flipMaps, cStrides_cons, List.zip_cons_cons, List.map_cons]

theorem flip_invol (ish : Shape) (flags : List Bool) (h : flags.length = ish.length) (j : List Nat) (hj : InBounds ish j) :
    applyAxes (flipMaps ish flags) (applyAxes (flipMaps ish flags) j) = j := by
  induction ish generalizing flags j with
  | nil => cases flags <;> cases j <;> simp_all [flipMaps, applyAxes, InBounds]
  | cons d ish ih => cases flags with
    | nil => simp at h
    | cons f flags => cases j with
      | nil => exact hj.elim
      | cons i is =>
        simp only [flipMaps, List.zip_cons_cons, List.map_cons, applyAxes]
        have := ih flags (by simpa using h) is hj.2
        simp only [flipMaps] at this
        rw [this]
        have hi : i < d := hj.1
        congr 1
        simp only [flipMap]; split <;> omega

theorem flip_pairs (ish : Shape) (hne : ish ≠ []) (flags : List Bool) (h : flags.length = ish.length) :
    Gathers ish ish (applyAxes (flipMaps ish flags)) (flipPairs ish flags) ∧
    ((flipPairs ish flags).map Prod.swap).Perm (flipPairs ish flags) := by
  have hm := flip_mapsInto ish flags h
  have hp : flipPairs ish flags = nest (loops ish ish (flipMaps ish flags)) 0 0 := flipRec_nest ish hne flags h 0 0
  rw [hp]
  refine ⟨nest_gathers _ _ _ hm, ?_⟩
  rw [nest_eq _ _ _ hm, List.map_map]
  have := perm_inverse ish ish (applyAxes (flipMaps ish flags)) (applyAxes (flipMaps ish flags))
    (mapsInto_bound _ _ _ hm) (mapsInto_bound _ _ _ hm) (flip_invol ish flags h) (flip_invol ish flags h)
  simpa [Function.comp_def] using this

/-! ### Shift -/

theorem shift_range (mode : ShiftMode) (n : Nat) (sh : Int) (i : Nat) (hi : i < n) : shiftIdx mode n sh i < n := by
  cases mode
  · simp only [shiftIdx]
    by_cases h1 : n > 1
    · simp only [if_pos h1]
      have : ((i : Int) + n * 2 + sh).natAbs % (n * 2) < n * 2 := Nat.mod_lt _ (by omega)
      split <;> omega
    · simp only [if_neg h1]; split <;> omega
  · simp only [shiftIdx]
    omega

/-- Index maps of all axes. -/
def shiftMaps (mode : ShiftMode) (ish : Shape) (shs : List Int) : List (Nat → Nat) :=
  (ish.zip shs).map fun p => shiftIdx mode p.1 p.2

theorem shift_mapsInto (mode : ShiftMode) (ish : Shape) (shs : List Int) (h : shs.length = ish.length) :
    MapsInto ish ish (shiftMaps mode ish shs) := by
  induction ish generalizing shs with
  | nil => cases shs <;> simp_all [shiftMaps, MapsInto]
  | cons d ish ih => cases shs with
    | nil => simp at h
    | cons f shs => exact ⟨fun i hi => shift_range _ _ _ _ hi, ih shs (by simpa using h)⟩

theorem shiftRec_nest (mode : ShiftMode) (ish : Shape) (hne : ish ≠ []) (shs : List Int) (h : shs.length = ish.length)
    (xo yo : Nat) :
    shiftRec mode (ish.zip ((cStrides ish).zip shs)) xo yo = nest (loops ish ish (shiftMaps mode ish shs)) yo xo := by
  induction ish generalizing shs xo yo with
  | nil => exact absurd rfl hne
  | cons d ish ih => cases shs with
    | nil => simp at h
    | cons f shs =>
      have hl : shs.length = ish.length := by simpa using h
      rw [loops, cStrides_cons, shiftMaps]
      simp only [List.zip_cons_cons, List.map_cons, nest]
      cases ish with
      | nil =>
        cases shs with
        | cons _ _ => simp at hl
        | nil => simp only [List.zip_nil_left, shiftRec, nest, List.map_eq_flatMap]; rfl
      | cons e ish =>
        cases shs with
        | nil => simp at hl
        | cons f' shs =>
          have key := ih (by simp) (f' :: shs) hl
          rw [cStrides_cons] at key ⊢
          simp only [List.zip_cons_cons, shiftRec] at key ⊢
          apply List.flatMap_congr
          intro i hi
          rw [key]
          simp only [loops, shiftMaps, cStrides_cons, List.zip_cons_cons, List.map_cons]

theorem shift_pairs (mode : ShiftMode) (ish : Shape) (hne : ish ≠ []) (shifts : List Int) :
    Gathers ish ish (applyAxes (shiftMaps mode ish ((List.range ish.length).map (shiftOf shifts ish.length))))
      (shiftPairs mode ish shifts) := by
  have hl : ((List.range ish.length).map (shiftOf shifts ish.length)).length = ish.length := by simp
  rw [shiftPairs, shiftRec_nest mode ish hne _ hl]
  exact nest_gathers _ _ _ (shift_mapsInto mode ish _ hl)

end Verif.Fn
