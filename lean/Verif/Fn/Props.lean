import Verif.Fn.Broadcast
import Verif.Fn.Separable
/-
C72 (transpose), C73 (broadcast), C75 (flip, shift).
-/
namespace Verif.Fn
open Verif.ND

/-! ### C72 transpose -/

theorem refineAxes_nat (axes : List Nat) (n : Nat) (h : ∀ a ∈ axes, a < n) :
    refineAxes n (axes.map (fun a : Nat => (a : Int))) = .ok (axes.map (fun a : Nat => (a : Int))) := by
  induction axes with
  | nil => rfl
  | cons a axes ih =>
    have ha := h a List.mem_cons_self
    simp only [List.map_cons, refineAxes]
    rw [if_pos (by omega), ih (fun b hb => h b (List.mem_cons_of_mem _ hb))]
    simp only
    rw [if_neg (by omega)]

theorem trSetup_ok (axes : List Nat) (ish : Shape) (h : PermAxes axes ish.length) :
    trSetup (axes.map (fun a : Nat => (a : Int))) ish = .ok (axes.map (fun a : Nat => (a : Int)), trState axes ish) := by
  have e1 : (axes.map (fun a : Nat => (a : Int))).map Int.toNat = axes := by simp [Function.comp_def]
  simp only [trSetup, refineAxes_nat _ _ h.lt, e1]
  rw [if_neg (by simp [h.length]), if_neg, if_neg]
  · rintro ⟨a, ha, hneg⟩
    obtain ⟨b, _, rfl⟩ := List.mem_map.mp ha
    omega
  · rw [not_not]
    exact h.nodup.map_on (fun a _ b _ e => by simpa using e)

/-- **C72 (partial: non-negative axes).** `transpose(x, axes)` for a permutation `axes` of the axes of a
non-empty array: setting up succeeds (any number of times), the result has extent `ish[axes[i]]` on axis `i`,
and the element of x at `k` is found at `(k[axes[0]], k[axes[1]], …)`, as with NumPy's transpose. -/
theorem C72_transpose_partial {R} (axes : List Nat) (ish : Shape) (h : PermAxes axes ish.length) (hpos : 0 < prod ish) :
    ∃ s, trSetup (axes.map (fun a : Nat => (a : Int))) ish = .ok (axes.map (fun a : Nat => (a : Int)), s) ∧
      s.oshape = axes.map (fun a => ish.getD a 0) ∧
      ∀ (x y : Mem R) (k : List Nat), InBounds ish k →
        trForward s x y (ravel s.oshape (axes.map fun a => k.getD a 0)) = x (ravel ish k) := by
  refine ⟨_, trSetup_ok axes ish h, rfl, ?_⟩
  intro x y k hk
  have hj := (inBounds_perm h k hk.length).mpr hk
  have := (tr_pairs axes ish h hpos).1.forward x y _ hj
  rw [unperm_perm h k hk.length] at this
  exact this

/-- **C72 (partial: non-negative axes).** Backward of transpose is the transpose of its forward. -/
theorem C72_transpose_grad_partial {R} [CommSemiring R] (axes : List Nat) (ish : Shape) (h : PermAxes axes ish.length)
    (hpos : 0 < prod ish) (y : Mem R) :
    ∃ s, trSetup (axes.map (fun a : Nat => (a : Int))) ish = .ok (axes.map (fun a : Nat => (a : Int)), s) ∧
      GradOK (prod ish) (prod s.oshape) (fun x => trForward s x y) (callBackward (trBackward s)) := by
  refine ⟨_, trSetup_ok axes ish h, ?_⟩
  obtain ⟨g1, g2⟩ := tr_pairs axes ish h hpos
  have g3 : Gathers (axes.map (ish.getD · 0)) ish (unperm axes ish.length) (trBwdPairs (trState axes ish)) :=
    ⟨g2.trans g1.perm, g1.bound⟩
  refine g1.gradOK_add y _ ?_
  intro accum dy dx
  cases accum
  · simp only [callBackward, trBackward, Bool.false_eq_true, if_false]
    rw [g3.bwdSet, bwdAdd_perm g2]
    intro j j' hj hj' e
    have hl : ∀ j, InBounds (axes.map (ish.getD · 0)) j → j.length = ish.length := fun j hj => by
      rw [hj.length, List.length_map, h.length]
    rw [← perm_unperm h j (hl j hj), e, perm_unperm h j' (hl j' hj')]
  · simp only [callBackward, trBackward, if_true]
    rw [bwdAdd_perm g2]

/-- **C72, refuted part.** Negative axes are accepted by the range check, but setup copies `axes` before
making them non-negative, so the first setup indexes the shape with a negative number (undefined
behaviour); only a second setup of the same function object would see the refined axes. -/
theorem C72_refuted_negative :
    refineAxes 2 [-1, -2] = .ok [1, 0] ∧ trSetup [-1, -2] [2, 3] = .error "undefined behaviour" ∧
      ∃ s, trSetup [1, 0] [2, 3] = .ok s := by
  refine ⟨by decide, by decide, ?_⟩
  exact ⟨_, trSetup_ok [1, 0] [2, 3] ⟨by decide, by decide, rfl⟩⟩

example : ∃ s, trSetup [0, 2, 3, 1] [2, 3, 2, 2] = .ok ([0, 2, 3, 1], s) ∧ s.xShape = [2, 3, 4] ∧ s.oshape = [2, 2, 2, 3] ∧
    ((List.range 24).map (trForward s (fun i => i) (fun _ => 0))).take 12 = [0, 4, 8, 1, 5, 9, 2, 6, 10, 3, 7, 11] := by
  refine ⟨_, rfl, ?_⟩
  decide

/-! ### C73 broadcast -/

/-- **C73.** `broadcast(x, shape)` is accepted exactly when NumPy's rule allows it, and then every element
of the result is the element of x given by that rule; backward sums the output gradient over the stretched
axes (it is the transpose of forward, and accumulates when asked to). -/
theorem C73_broadcast {R} [CommSemiring R] (xsh target : Shape) :
    ((∃ st, bcSetup xsh target = .ok st) ↔ CanBroadcast xsh target) ∧
    ∀ x y : Mem R, CanBroadcast xsh target →
      ∃ r, bcForward xsh target x y = .ok r ∧
        (∀ j, InBounds target j → r (ravel target j) = x (ravel xsh (bcIndex xsh target j))) ∧
        (∀ j, InBounds target j → InBounds xsh (bcIndex xsh target j)) := by
  refine ⟨bcSetup_iff xsh target, ?_⟩
  intro x y h
  obtain ⟨st, h1, h2⟩ := bc_gathers xsh target h
  refine ⟨fwd (bcPairs st target) x y, by rw [bcForward, h1], ?_, h2.bound⟩
  intro j hj
  exact h2.forward x y j hj

/-- **C73.** Backward of broadcast. -/
theorem C73_broadcast_grad {R} [CommSemiring R] (xsh target : Shape) (h : CanBroadcast xsh target) :
    ∃ (fw : Mem R → Mem R → Mem R) (bw : Bool → Mem R → Mem R → Mem R),
      (∀ x y, bcForward xsh target x y = .ok (fw x y)) ∧
      (∀ a dy dx, bcBackward xsh target a dy dx = .ok (bw a dy dx)) ∧
      ∀ y, GradOK (prod xsh) (prod target) (fun x => fw x y) (callBackward bw) := by
  obtain ⟨st, h1, h2⟩ := bc_gathers xsh target h
  refine ⟨fwd (bcPairs st target), fun a dy dx => bwdAdd (bcPairs st target) dy (if a then dx else zeros),
    fun x y => by rw [bcForward, h1], fun a dy dx => by rw [bcBackward, h1], ?_⟩
  intro y
  refine h2.gradOK_add y _ ?_
  intro a dy dx
  cases a <;> rfl

example : CanBroadcast [3, 1] [2, 3, 2] := by
  refine ⟨by decide, ?_⟩
  intro a e t he ht
  rcases a with _ | _ | a <;> simp_all

example : ∃ r, bcForward [3, 1] [2, 3, 2] (fun i => i) (fun _ => 9) = .ok r ∧
    (List.range 12).map r = [0, 0, 1, 1, 2, 2, 0, 0, 1, 1, 2, 2] := ⟨_, rfl, by decide⟩

/-! ### C75 flip and shift -/

theorem refineAxes_ok (axes : List Int) (n : Nat) (h : ∀ a ∈ axes, -(n : Int) ≤ a ∧ a < n) :
    refineAxes n axes = .ok (axes.map fun a => if a < 0 then n + a else a) := by
  induction axes with
  | nil => rfl
  | cons a axes ih =>
    have ha := h a List.mem_cons_self
    simp only [List.map_cons, refineAxes]
    rw [if_pos (by omega), ih (fun b hb => h b (List.mem_cons_of_mem _ hb))]

theorem flipFlags_ok (axes : List Int) (ish : Shape) (h : ∀ a ∈ axes, -(ish.length : Int) ≤ a ∧ a < ish.length) :
    flipFlags axes ish = .ok ((List.range ish.length).map fun d : Nat =>
      decide ((d : Int) ∈ axes ∨ (d : Int) - ish.length ∈ axes)) := by
  rw [flipFlags, refineAxes_ok _ _ h]
  simp only
  congr 1
  apply List.map_congr_left
  intro d hd
  have hd := List.mem_range.mp hd
  congr 1
  rw [List.mem_map, eq_iff_iff]
  constructor
  · rintro ⟨a, ha, e⟩
    split at e
    · right
      have : (d : Int) - ish.length = a := by omega
      rw [this]; exact ha
    · left; rw [← e]; exact ha
  · rintro (hm | hm)
    · exact ⟨_, hm, by rw [if_neg (by omega)]⟩
    · exact ⟨_, hm, by rw [if_pos (by omega)]; omega⟩

theorem applyAxes_getD (gs : List (Nat → Nat)) (j : List Nat) (h : gs.length = j.length) (a : Nat) (ha : a < j.length) :
    (applyAxes gs j).getD a 0 = (gs.getD a id) (j.getD a 0) ∧ (applyAxes gs j).length = j.length := by
  induction gs generalizing j a with
  | nil => cases j <;> simp_all
  | cons g gs ih => cases j with
    | nil => simp at ha
    | cons i is =>
      have hl : gs.length = is.length := by simpa using h
      have hlen : ∀ (gs : List (Nat → Nat)) (is : List Nat), gs.length = is.length → (applyAxes gs is).length = is.length := by
        intro gs
        induction gs with
        | nil => intro is h; cases is <;> simp_all [applyAxes]
        | cons g gs ih2 => intro is h; cases is with
          | nil => simp at h
          | cons _ is => simpa [applyAxes] using ih2 is (by simpa using h)
      refine ⟨?_, by simp [applyAxes, hlen gs is hl]⟩
      cases a with
      | zero => simp [applyAxes]
      | succ a => simpa [applyAxes] using (ih is hl a (by simpa using ha)).1

/-- **C75.** `flip(x, axes)` (axes may be negative): each element of the result is the element of x whose
index is mirrored (`n-1-i`) along the listed axes and unchanged along the others. -/
theorem C75_flip {R} (axes : List Int) (ish : Shape) (hne : ish ≠ [])
    (h : ∀ a ∈ axes, -(ish.length : Int) ≤ a ∧ a < ish.length) :
    ∃ flags, flipFlags axes ish = .ok flags ∧
      ∀ (x y : Mem R) (j k : List Nat), InBounds ish j → k.length = ish.length →
        (∀ a, a < ish.length → k.getD a 0 = if (a : Int) ∈ axes ∨ (a : Int) - ish.length ∈ axes
          then ish.getD a 0 - 1 - j.getD a 0 else j.getD a 0) →
        flipForward ish flags x y (ravel ish j) = x (ravel ish k) := by
  refine ⟨_, flipFlags_ok axes ish h, ?_⟩
  intro x y j k hj hkl hk
  have hl : ((List.range ish.length).map fun d : Nat => decide ((d : Int) ∈ axes ∨ (d : Int) - ish.length ∈ axes)).length =
    ish.length := by simp
  rw [flipForward, (flip_pairs ish hne _ hl).1.forward x y j hj]
  congr 2
  have hjl := hj.length
  have hgl : (flipMaps ish ((List.range ish.length).map fun d : Nat =>
      decide ((d : Int) ∈ axes ∨ (d : Int) - ish.length ∈ axes))).length = j.length := by
    simp [flipMaps, hjl]
  apply List.ext_getElem?
  intro a
  by_cases ha : a < j.length
  · obtain ⟨h1, h2⟩ := applyAxes_getD _ j hgl a ha
    have h3 := hk a (by omega)
    have e : ∀ (l : List Nat), a < l.length → l[a]? = some (l.getD a 0) := by
      intro l hl; simp [List.getD_eq_getElem?_getD, List.getElem?_eq_getElem hl]
    rw [e _ (by omega), e _ (by omega), h1, h3]
    congr 1
    have ha' : a < ish.length := by omega
    have : (flipMaps ish ((List.range ish.length).map fun d : Nat =>
        decide ((d : Int) ∈ axes ∨ (d : Int) - ish.length ∈ axes))).getD a id =
        flipMap (ish.getD a 0) (decide ((a : Int) ∈ axes ∨ (a : Int) - ish.length ∈ axes)) := by
      simp [flipMaps, List.getD_eq_getElem?_getD, List.getElem?_zip_eq_some, ha', List.getElem?_eq_getElem ha']
    rw [this, flipMap]
    simp only [decide_eq_true_eq]
  · have h2 : ∀ l : List Nat, l.length = j.length → l[a]? = none := by
      intro l hl; rw [List.getElem?_eq_none]; omega
    rw [h2 k (by omega), h2]
    have : ∀ (gs : List (Nat → Nat)) (is : List Nat), gs.length = is.length → (applyAxes gs is).length = is.length := by
      intro gs
      induction gs with
      | nil => intro is h; cases is <;> simp_all [applyAxes]
      | cons g gs ih2 => intro is h; cases is with
        | nil => simp at h
        | cons _ is => simpa [applyAxes] using ih2 is (by simpa using h)
    exact this _ _ hgl

/-- **C75.** Backward of flip is the transpose of its forward. -/
theorem C75_flip_grad {R} [CommSemiring R] (axes : List Int) (ish : Shape) (hne : ish ≠ [])
    (h : ∀ a ∈ axes, -(ish.length : Int) ≤ a ∧ a < ish.length) (y : Mem R) :
    ∃ flags, flipFlags axes ish = .ok flags ∧
      GradOK (prod ish) (prod ish) (fun x => flipForward ish flags x y) (callBackward (flipBackward ish flags)) := by
  refine ⟨_, flipFlags_ok axes ish h, ?_⟩
  generalize hf : ((List.range ish.length).map fun d : Nat => decide ((d : Int) ∈ axes ∨ (d : Int) - ish.length ∈ axes)) = flags
  have hl : flags.length = ish.length := by rw [← hf]; simp
  obtain ⟨g1, g2⟩ := flip_pairs ish hne flags hl
  have g3 : Gathers ish ish (applyAxes (flipMaps ish flags)) ((flipPairs ish flags).map Prod.swap) :=
    ⟨g2.trans g1.perm, g1.bound⟩
  refine g1.gradOK_add y _ ?_
  intro accum dy dx
  cases accum
  · simp only [callBackward, flipBackward, Bool.false_eq_true, if_false]
    rw [g3.bwdSet, bwdAdd_perm g2]
    intro j j' hj hj' e
    rw [← flip_invol ish flags hl j hj, e, flip_invol ish flags hl j' hj']
  · simp only [callBackward, flipBackward, if_true]
    rw [bwdAdd_perm g2]

/-- Position `p` on the infinite line obtained by repeating an array of `n` elements forwards and
backwards: period `2n`, position `-1-p` shows the same element as `p`. -/
def mirrored (n : Nat) (p : Int) : Nat :=
  let q := (p % (2 * n)).toNat
  if q < n then q else 2 * n - 1 - q

/-- Position `p` on the infinite line obtained by repeating the first and last element. -/
def clamped (n : Nat) (p : Int) : Nat := if p < 0 then 0 else if (n : Int) ≤ p then n - 1 else p.toNat

theorem shiftIdx_nearest (n : Nat) (sh : Int) (i : Nat) (hi : i < n) : shiftIdx .nearest n sh i = clamped n (i + sh) := by
  simp only [shiftIdx, clamped]
  split
  · omega
  · split <;> omega

theorem shiftIdx_reflect (n : Nat) (sh : Int) (i : Nat) (hi : i < n) (hsh : -(2 * n : Int) ≤ sh) :
    shiftIdx .reflect n sh i = mirrored n (i + sh) := by
  simp only [shiftIdx, mirrored]
  by_cases h1 : n > 1
  · simp only [if_pos h1]
    have e : (((i : Int) + n * 2 + sh).natAbs % (n * 2) : Nat) = (((i : Int) + sh) % (2 * n)).toNat := by
      have h0 : 0 ≤ (i : Int) + n * 2 + sh := by omega
      have h2 : ((((i : Int) + n * 2 + sh).natAbs % (n * 2) : Nat) : Int) = ((i : Int) + sh) % (2 * n) := by
        rw [Int.natCast_mod, Int.natAbs_of_nonneg h0]
        have : (i : Int) + n * 2 + sh = (i : Int) + sh + (2 * n) * 1 := by omega
        rw [this]
        have e3 : ((n * 2 : Nat) : Int) = 2 * n := by omega
        rw [e3, Int.add_mul_emod_self_left]
      omega
    rw [e]
    generalize (((i : Int) + sh) % (2 * n)).toNat = q
    by_cases hq : q < n
    · rw [if_neg (by omega), if_pos hq]
    · rw [if_pos (by omega), if_neg hq]; omega
  · have : n = 1 := by omega
    subst this
    simp only [if_neg h1]
    have := Int.emod_nonneg ((i : Int) + sh) (b := 2 * ((1 : Nat) : Int)) (by omega)
    have := Int.emod_lt_of_pos ((i : Int) + sh) (b := 2 * ((1 : Nat) : Int)) (by omega)
    split <;> split <;> omega

/-- The shift of axis `a`: `shifts` is aligned with the last axes, missing entries are 0. -/
def axisShift (shifts : List Int) (ndim a : Nat) : Int :=
  if ndim ≤ a + shifts.length then shifts.getD (a + shifts.length - ndim) 0 else 0

theorem shiftOf_eq (shifts : List Int) (ndim a : Nat) : shiftOf shifts ndim a = -axisShift shifts ndim a := by
  simp only [shiftOf, axisShift]
  by_cases h : ndim ≤ a + shifts.length
  · rw [if_pos (by omega), if_pos h]
    congr 2
    omega
  · rw [if_neg (by omega), if_neg h]; rfl

theorem shift_index_eq {R} (mode : ShiftMode) (ish : Shape) (shifts : List Int) (x y : Mem R) (hne : ish ≠ []) (j k : List Nat)
    (hj : InBounds ish j) (hkl : k.length = ish.length)
    (hk : ∀ a, a < ish.length → k.getD a 0 = shiftIdx mode (ish.getD a 0) (-axisShift shifts ish.length a) (j.getD a 0)) :
    shiftForward mode ish shifts x y (ravel ish j) = x (ravel ish k) := by
  rw [shiftForward, (shift_pairs mode ish hne shifts).forward x y j hj]
  congr 2
  have hjl := hj.length
  have hgl : (shiftMaps mode ish ((List.range ish.length).map (shiftOf shifts ish.length))).length = j.length := by
    simp [shiftMaps, hjl]
  have hlen : ∀ (gs : List (Nat → Nat)) (is : List Nat), gs.length = is.length → (applyAxes gs is).length = is.length := by
    intro gs
    induction gs with
    | nil => intro is h; cases is <;> simp_all [applyAxes]
    | cons g gs ih2 => intro is h; cases is with
      | nil => simp at h
      | cons _ is => simpa [applyAxes] using ih2 is (by simpa using h)
  apply List.ext_getElem?
  intro a
  by_cases ha : a < j.length
  · obtain ⟨h1, h2⟩ := applyAxes_getD _ j hgl a ha
    have h3 := hk a (by omega)
    have e : ∀ (l : List Nat), a < l.length → l[a]? = some (l.getD a 0) := by
      intro l hl; simp [List.getD_eq_getElem?_getD, List.getElem?_eq_getElem hl]
    rw [e _ (by omega), e _ (by omega), h1, h3]
    congr 1
    have ha' : a < ish.length := by omega
    have : (shiftMaps mode ish ((List.range ish.length).map (shiftOf shifts ish.length))).getD a id =
        shiftIdx mode (ish.getD a 0) (shiftOf shifts ish.length a) := by
      simp [shiftMaps, List.getD_eq_getElem?_getD, List.getElem?_zip_eq_some, ha', List.getElem?_eq_getElem ha']
    rw [this, shiftOf_eq]
  · have h2 : ∀ l : List Nat, l.length = j.length → l[a]? = none := by
      intro l hl; rw [List.getElem?_eq_none]; omega
    rw [h2 k (by omega), h2 _ (hlen _ _ hgl)]

/-- **C75.** `shift(x, shifts, 'nearest')`: the element at `j` is the element of x at `j - shifts` (shifts
aligned with the last axes), positions outside being replaced by the nearest position inside. -/
theorem C75_shift_nearest {R} (ish : Shape) (hne : ish ≠ []) (shifts : List Int) (x y : Mem R) (j k : List Nat)
    (hj : InBounds ish j) (hkl : k.length = ish.length)
    (hk : ∀ a, a < ish.length → k.getD a 0 = clamped (ish.getD a 0) ((j.getD a 0 : Int) - axisShift shifts ish.length a)) :
    shiftForward .nearest ish shifts x y (ravel ish j) = x (ravel ish k) := by
  apply shift_index_eq _ _ _ _ _ hne j k hj hkl
  intro a ha
  rw [hk a ha, shiftIdx_nearest _ _ _ (((inBounds_iff ish j).mp hj).2 a ha)]
  rfl

/-- **C75 (partial: shifts of at most twice the extent).** `shift(x, shifts, 'reflect')` shows the mirrored
continuation of x. -/
theorem C75_shift_reflect_partial {R} (ish : Shape) (hne : ish ≠ []) (shifts : List Int) (x y : Mem R) (j k : List Nat)
    (hj : InBounds ish j) (hkl : k.length = ish.length)
    (hs : ∀ a, a < ish.length → axisShift shifts ish.length a ≤ 2 * ish.getD a 0)
    (hk : ∀ a, a < ish.length → k.getD a 0 = mirrored (ish.getD a 0) ((j.getD a 0 : Int) - axisShift shifts ish.length a)) :
    shiftForward .reflect ish shifts x y (ravel ish j) = x (ravel ish k) := by
  apply shift_index_eq _ _ _ _ _ hne j k hj hkl
  intro a ha
  rw [hk a ha, shiftIdx_reflect _ _ _ (((inBounds_iff ish j).mp hj).2 a ha) (by have := hs a ha; omega)]
  rfl

/-- **C75, refuted part.** For larger shifts the absolute value in the index computation reflects about the
wrong position: shifting (10, 11) by 5 with 'reflect' shows 11 first, although the mirrored continuation
… 10 11 11 10 10 11 … has 10 there. -/
theorem C75_refuted_reflect :
    shiftForward .reflect [2] [5] (fun i => 10 + i) (fun _ => (0 : Nat)) 0 = 11 ∧ mirrored 2 (0 - 5) = 0 := by
  constructor <;> decide

/-- **C75.** Backward of shift is the transpose of its forward, in both modes and for all shifts. -/
theorem C75_shift_grad {R} [CommSemiring R] (mode : ShiftMode) (ish : Shape) (hne : ish ≠ []) (shifts : List Int) (y : Mem R) :
    GradOK (prod ish) (prod ish) (fun x => shiftForward mode ish shifts x y) (callBackward (shiftBackward mode ish shifts)) := by
  refine (shift_pairs mode ish hne shifts).gradOK_add y _ ?_
  intro accum dy dx
  cases accum <;> rfl

example : (List.range 6).map (flipForward [2, 3] [false, true] (fun i => i) (fun _ => 0)) = [2, 1, 0, 5, 4, 3] ∧
    flipFlags [-1] [2, 3] = .ok [false, true] := by decide
example : (List.range 6).map (shiftForward .nearest [2, 3] [1] (fun i => i) (fun _ => 0)) = [0, 0, 1, 3, 3, 4] := by decide
example : (List.range 4).map (shiftForward .reflect [4] [-2] (fun i => i) (fun _ => 0)) = [2, 3, 3, 2] := by decide

end Verif.Fn
