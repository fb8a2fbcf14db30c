import Verif.Rand.Walk
/-
Specification vocabulary for the random augmentation functions.
-/
namespace Verif.Rand
open Verif.ND Verif.Fn

/-- Every axis `d` of the multi-index `j` mapped by `g d`; nothing if one axis has no image. -/
def mapAxes (g : Nat → Nat → Option Nat) : Nat → List Nat → Option (List Nat)
  | _, [] => some []
  | d, i :: is =>
    match g d i, mapAxes g (d + 1) is with
    | some a, some as => some (a :: as)
    | _, _ => none

/-- Which of the drawn patterns applies along axis `d` of the element `j`: the pattern of the sample (the
position along axis 0 when `base = 1`, a single pattern when `base = 0`); the axes of the sample index itself
follow pattern 0. -/
def patternOf (base : Nat) (j : List Nat) (d : Nat) : Nat := if d < base ∨ base = 0 then 0 else j.getD 0 0

/-- Position read along an axis of extent `size` when position `t` (possibly outside) is asked for. -/
def borderSpec (mode : Border) (size : Nat) (t : Int) : Option Nat :=
  match mode with
  | .constant => if 0 ≤ t ∧ t < size then some t.toNat else none
  | .nearest => some (if t < 0 then 0 else if t < size then t.toNat else size - 1)
  | .reflect =>
    -- the periodic extension of  0 1 … size-1 size-1 … 1 0
    let a := (t % (2 * size : Int)).toNat
    some (if a < size then a else 2 * size - 1 - a)

/-- The shift of axis `d`: the list of shifts is aligned with the last axes, other axes are not shifted. -/
def shiftOf (pat : List Int) (ndim d : Nat) : Int := pat.reverse.getD (ndim - 1 - d) 0

/-- `n` patterns with one shift per entry of `shifts`, within its limits. -/
def ShiftPats (shifts : List Nat) (n : Nat) (pats : List (List Int)) : Prop :=
  pats.length = n ∧ ∀ p ∈ pats, List.Forall₂ (fun (s : Nat) (v : Int) => -(s : Int) ≤ v ∧ v ≤ s) shifts p

/-! ### From the recursion to the specification, at most one sample axis -/

theorem span_ge (base : Nat) (sh : Shape) (dim : Nat) (h : base ≤ dim) : span base sh dim = 0 := by
  induction sh generalizing dim with
  | nil => rfl
  | cons s rest ih =>
    simp only [span]
    rw [ih (dim + 1) (by omega), if_neg (by omega)]; rfl

theorem stepOf_ge (base : Nat) (sh : Shape) (dim : Nat) (h : base ≤ dim) : stepOf base sh dim = 0 := by
  unfold stepOf
  rw [span_ge _ _ _ (by omega), if_neg (by omega)]

theorem pick_ge (base n : Nat) (m : Nat → Nat → Nat → Option Nat) (sh : Shape) (dim k : Nat) (h : base ≤ dim)
    (hk : k < n) (j : List Nat) (hj : InBounds sh j) : pick base n m sh dim k j = mapAxes (m k) dim j := by
  induction sh generalizing dim j with
  | nil => cases j with
    | nil => rfl
    | cons _ _ => simp [InBounds] at hj
  | cons s rest ih => cases j with
    | nil => simp [InBounds] at hj
    | cons i is =>
      simp only [pick, mapAxes]
      have e : (k + i * stepOf base rest dim) % n = k := by rw [stepOf_ge _ _ _ h]; exact Nat.mod_eq_of_lt hk
      rw [e, ih (dim + 1) (by omega) _ hj.2]
      cases m k dim i <;> cases mapAxes (m k) (dim + 1) is <;> rfl

theorem mapAxes_congr (g g' : Nat → Nat → Option Nat) (d : Nat) (j : List Nat)
    (h : ∀ e i, d ≤ e → i = j.getD (e - d) 0 → e < d + j.length → g e i = g' e i) : mapAxes g d j = mapAxes g' d j := by
  induction j generalizing d with
  | nil => rfl
  | cons i is ih =>
    simp only [mapAxes]
    rw [h d i (Nat.le_refl _) (by simp) (by simp), ih (d + 1) (by
      intro e i' he hi hl
      refine h e i' (by omega) ?_ (by simp only [List.length_cons]; omega)
      have : e - d = (e - (d + 1)) + 1 := by omega
      rw [this]; simpa using hi)]

theorem nPatterns_zero (sh : Shape) (h : 0 < prod sh) : nPatterns sh 0 = 1 := by
  simp [nPatterns, Nat.div_self h]

theorem nPatterns_one (s : Nat) (rest : Shape) (h : 0 < prod (s :: rest)) : nPatterns (s :: rest) 1 = s := by
  have : 0 < prod rest := Nat.pos_of_ne_zero (by rintro e; simp [prod, e] at h)
  show s * prod rest / prod rest = s
  exact Nat.mul_div_cancel _ this

theorem nPatterns_pos (sh : Shape) (base : Nat) (h : 0 < prod sh) : 0 < nPatterns sh base := by
  unfold nPatterns
  have key : ∀ (sh : Shape) (b : Nat), 0 < prod sh → 0 < prod (sh.drop b) ∧ prod (sh.drop b) ≤ prod sh := by
    intro sh
    induction sh with
    | nil => intro b _; simp [prod]
    | cons s rest ih =>
      intro b hb
      cases b with
      | zero => exact ⟨hb, Nat.le_refl _⟩
      | succ b =>
        have hs : 0 < s := Nat.pos_of_ne_zero (by rintro rfl; simp [prod] at hb)
        have hr : 0 < prod rest := Nat.pos_of_ne_zero (by rintro e; simp [prod, e] at hb)
        obtain ⟨h1, h2⟩ := ih b hr
        refine ⟨h1, Nat.le_trans h2 ?_⟩
        show prod rest ≤ s * prod rest
        exact Nat.le_mul_of_pos_left _ hs
  obtain ⟨h1, h2⟩ := key sh base h
  exact Nat.div_pos h2 h1

/-- With at most one sample axis the recursion applies pattern `i` to sample `i`. -/
theorem pick_one (base n : Nat) (hb : base ≤ 1) (m : Nat → Nat → Nat → Option Nat) (sh : Shape)
    (hn : 0 < n) (h1 : base = 1 → sh.headD 0 ≤ n) (j : List Nat) (hj : InBounds sh j) :
    pick base n m sh 0 0 j = mapAxes (fun d i => m (patternOf base j d) d i) 0 j := by
  rcases Nat.eq_zero_or_pos base with rfl | hp
  · rw [pick_ge 0 n m sh 0 0 (Nat.le_refl _) hn j hj]
    apply mapAxes_congr
    intro e i _ _ _
    simp [patternOf]
  · have hb1 : base = 1 := by omega
    subst hb1
    cases sh with
    | nil => cases j with
      | nil => rfl
      | cons _ _ => simp [InBounds] at hj
    | cons s rest => cases j with
      | nil => simp [InBounds] at hj
      | cons i is =>
        have hs : stepOf 1 rest 0 = 1 := by
          unfold stepOf; rw [span_ge _ _ _ (by omega)]; rfl
        have hi : i < n := by
          have := h1 rfl
          simp only [List.headD_cons] at this
          have := hj.1
          omega
        simp only [pick, mapAxes]
        have e : (0 + i * stepOf 1 rest 0) % n = i := by rw [hs, Nat.mul_one, Nat.zero_add]; exact Nat.mod_eq_of_lt hi
        rw [e, pick_ge 1 n m rest (0 + 1) i (Nat.le_refl _) hi is hj.2]
        have e0 : patternOf 1 (i :: is) 0 = 0 := rfl
        rw [e0]
        have : mapAxes (m i) (0 + 1) is = mapAxes (fun d i_1 => m (patternOf 1 (i :: is) d) d i_1) (0 + 1) is := by
          apply mapAxes_congr
          intro e i' he _ _
          have : patternOf 1 (i :: is) e = i := by
            unfold patternOf; rw [if_neg (by omega)]; rfl
          rw [this]
        rw [this]
        cases m 0 0 i <;> cases mapAxes (fun d i_1 => m (patternOf 1 (i :: is) d) d i_1) (0 + 1) is <;> rfl

end Verif.Rand
