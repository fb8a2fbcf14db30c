import Mathlib.Tactic.Ring
import Mathlib.Algebra.BigOperators.Intervals
import Mathlib.Algebra.Ring.Int.Defs
/-
AdaptiveSeparableConvolution (/repo/src/nbla/function/generic/adaptive_separable_convolution.cpp), setup and forward. Property C224.
Exact arithmetic over a commutative semiring.
-/
namespace Verif.SepConv

open Finset

/-- A shape of four dimensions. -/
structure Sh where
  d0 : Nat
  d1 : Nat
  d2 : Nat
  d3 : Nat
deriving DecidableEq

/-- Number of elements. -/
def Sh.size (s : Sh) : Nat := s.d0 * (s.d1 * (s.d2 * s.d3))

/-- strides() of a C-contiguous array of four dimensions (/repo/src/nbla/variable.cpp:53-58). -/
def Sh.str0 (s : Sh) : Nat := s.d1 * (s.d2 * s.d3)
/-- strides()[1]. -/
def Sh.str1 (s : Sh) : Nat := s.d2 * s.d3
/-- strides()[2]. -/
def Sh.str2 (s : Sh) : Nat := s.d3

/-- setup_impl (adaptive_separable_convolution.cpp:29-62): shape of the output, from the shapes of x, kv and kh. -/
def setup (x kv kh : Sh) : Except String Sh :=
  if ¬ (x.d0 = kv.d0 ∧ x.d0 = kh.d0) then .error "batch sizes differ" else
  let oH : Int := x.d2 - kv.d1 + 1
  let oW : Int := x.d3 - kh.d1 + 1
  if ¬ (oH > 0 ∧ oW > 0) then .error "filter too large" else
  if ¬ ((kv.d2 : Int) ≥ oH ∧ kv.d2 ≤ x.d2) then .error "height of the vertical filter" else
  if ¬ ((kh.d3 : Int) ≥ oW ∧ kh.d3 ≤ x.d3) then .error "width of the horizontal filter" else
  .ok ⟨x.d0, x.d1, oH.toNat, oW.toNat⟩

variable {α : Type} [CommSemiring α]

/-- The inner loop over i (adaptive_separable_convolution.cpp:101-106). A buffer yields none outside of its size: the program does not
check it. -/
def inner (sx skv skh : Sh) (x kv kh : Nat → Option α) (b c h w j : Nat) : Nat → α → Option α
  | 0, val => some val
  | i + 1, val =>
    match inner sx skv skh x kv kh b c h w j i val with
    | none => none
    | some val =>
      match kv (skv.str0 * b + (skv.str1 * j + skv.str2 * h + w)), kh (skh.str0 * b + (skh.str1 * i + skh.str2 * h + w)),
          x (sx.str0 * b + sx.str1 * c + (sx.str2 * (h + j) + (w + i))) with
      | some a, some k, some p => some (val + a * k * p)
      | _, _, _ => none

/-- The loop over j (adaptive_separable_convolution.cpp:99-107). -/
def outer (sx skv skh : Sh) (x kv kh : Nat → Option α) (b c h w : Nat) : Nat → Option α
  | 0 => some 0
  | j + 1 =>
    match outer sx skv skh x kv kh b c h w j with
    | none => none
    | some val => inner sx skv skh x kv kh b c h w j skh.d1 val

/-- The iterations (b, c, h, w) in the order of the loops (adaptive_separable_convolution.cpp:87-97). -/
def iters (s : Sh) : List (Nat × Nat × Nat × Nat) :=
  (List.range s.d0).flatMap fun b => (List.range s.d1).flatMap fun c => (List.range s.d2).flatMap fun h =>
    (List.range s.d3).map fun w => (b, c, h, w)

/-- Where the value is written (adaptive_separable_convolution.cpp:94, 108). -/
def ypos (s : Sh) : Nat × Nat × Nat × Nat → Nat
  | (b, c, h, w) => s.str0 * b + s.str1 * c + (s.str2 * h + w)

/-- The loops with their writes. -/
def run (s : Sh) (val : Nat × Nat × Nat × Nat → Option α) :
    List (Nat × Nat × Nat × Nat) → (Nat → α) → Option (Nat → α)
  | [], y => some y
  | t :: ts, y =>
    match val t with
    | none => none
    | some v => run s val ts (Function.update y (ypos s t) v)

/-- forward_impl (adaptive_separable_convolution.cpp:64-113). -/
def forward (sy sx skv skh : Sh) (x kv kh : Nat → Option α) (y : Nat → α) : Option (Nat → α) :=
  run sy (fun (b, c, h, w) => outer sx skv skh x kv kh b c h w skv.d1) (iters sy) y

/-! ## Specification -/

/-- The C-contiguous buffer of the array whose element at (a, b, c, d) is `t a b c d`. -/
def flat (s : Sh) (t : Nat → Nat → Nat → Nat → α) (n : Nat) : Option α :=
  if n < s.size then some (t (n / (s.d1 * (s.d2 * s.d3))) (n / (s.d2 * s.d3) % s.d1) (n / s.d3 % s.d2) (n % s.d3)) else none

/-- The documented value (comment in the program and functions.yaml). -/
def value (Kv Kh : Nat) (x kv kh : Nat → Nat → Nat → Nat → α) (b c h w : Nat) : α :=
  ∑ j ∈ range Kv, ∑ i ∈ range Kh, kv b j h w * kh b i h w * x b c (h + j) (w + i)

/-! ## Proofs -/

theorem decode (s : Sh) (a b c d : Nat) (ha : a < s.d0) (hb : b < s.d1) (hc : c < s.d2) (hd : d < s.d3) :
    s.d1 * (s.d2 * s.d3) * a + (s.d2 * s.d3 * b + s.d3 * c + d) < s.size ∧
    (s.d1 * (s.d2 * s.d3) * a + (s.d2 * s.d3 * b + s.d3 * c + d)) / (s.d1 * (s.d2 * s.d3)) = a ∧
    (s.d1 * (s.d2 * s.d3) * a + (s.d2 * s.d3 * b + s.d3 * c + d)) / (s.d2 * s.d3) % s.d1 = b ∧
    (s.d1 * (s.d2 * s.d3) * a + (s.d2 * s.d3 * b + s.d3 * c + d)) / s.d3 % s.d2 = c ∧
    (s.d1 * (s.d2 * s.d3) * a + (s.d2 * s.d3 * b + s.d3 * c + d)) % s.d3 = d := by
  have h3 : 0 < s.d3 := by omega
  have l2 : s.d3 * c + d < s.d2 * s.d3 := by
    have := Nat.mul_le_mul_left s.d3 (Nat.succ_le_of_lt hc)
    rw [Nat.mul_succ, Nat.mul_comm s.d3 s.d2] at this; omega
  have l1 : s.d2 * s.d3 * b + (s.d3 * c + d) < s.d1 * (s.d2 * s.d3) := by
    have := Nat.mul_le_mul_left (s.d2 * s.d3) (Nat.succ_le_of_lt hb)
    rw [Nat.mul_succ, Nat.mul_comm (s.d2 * s.d3) s.d1] at this; omega
  have l0 : s.d1 * (s.d2 * s.d3) * a + (s.d2 * s.d3 * b + (s.d3 * c + d)) < s.d0 * (s.d1 * (s.d2 * s.d3)) := by
    have := Nat.mul_le_mul_left (s.d1 * (s.d2 * s.d3)) (Nat.succ_le_of_lt ha)
    rw [Nat.mul_succ, Nat.mul_comm (s.d1 * (s.d2 * s.d3)) s.d0] at this; omega
  rw [Nat.add_assoc (s.d2 * s.d3 * b)]
  refine ⟨l0, ?_, ?_, ?_, ?_⟩
  · rw [Nat.mul_add_div (by omega), Nat.div_eq_of_lt l1, Nat.add_zero]
  · rw [show s.d1 * (s.d2 * s.d3) * a + (s.d2 * s.d3 * b + (s.d3 * c + d)) = s.d2 * s.d3 * (s.d1 * a + b) + (s.d3 * c + d) by ring,
      Nat.mul_add_div (by omega), Nat.div_eq_of_lt l2, Nat.add_zero, Nat.mul_add_mod, Nat.mod_eq_of_lt hb]
  · rw [show s.d1 * (s.d2 * s.d3) * a + (s.d2 * s.d3 * b + (s.d3 * c + d)) = s.d3 * (s.d2 * (s.d1 * a + b) + c) + d by ring,
      Nat.mul_add_div h3, Nat.div_eq_of_lt hd, Nat.add_zero, Nat.mul_add_mod, Nat.mod_eq_of_lt hc]
  · rw [show s.d1 * (s.d2 * s.d3) * a + (s.d2 * s.d3 * b + (s.d3 * c + d)) = s.d3 * (s.d2 * (s.d1 * a + b) + c) + d by ring,
      Nat.mul_add_mod, Nat.mod_eq_of_lt hd]

omit [CommSemiring α] in
theorem flat_at (s : Sh) (t : Nat → Nat → Nat → Nat → α) (a b c d : Nat) (ha : a < s.d0) (hb : b < s.d1) (hc : c < s.d2)
    (hd : d < s.d3) : flat s t (s.d1 * (s.d2 * s.d3) * a + (s.d2 * s.d3 * b + s.d3 * c + d)) = some (t a b c d) := by
  obtain ⟨h0, h1, h2, h3, h4⟩ := decode s a b c d ha hb hc hd
  unfold flat
  rw [if_pos h0, h1, h2, h3, h4]

theorem inner_eq (sx skv skh : Sh) (x kv kh : Nat → Nat → Nat → Nat → α) (b c h w j : Nat)
    (hb : b < sx.d0) (hbv : b < skv.d0) (hbh : b < skh.d0) (hc : c < sx.d1) (hj : j < skv.d1) (hhv : h < skv.d2) (hwv : w < skv.d3)
    (hhh : h < skh.d2) (hwh : w < skh.d3) (hx : h + j < sx.d2) (val : α) :
    ∀ n, n ≤ skh.d1 → w + n ≤ sx.d3 → inner sx skv skh (flat sx x) (flat skv kv) (flat skh kh) b c h w j n val =
      some (val + ∑ i ∈ range n, kv b j h w * kh b i h w * x b c (h + j) (w + i)) := by
  intro n
  induction n with
  | zero => intro _ _; simp [inner]
  | succ n ih =>
    intro h1 h2
    rw [inner, ih (by omega) (by omega)]
    simp only [Sh.str0, Sh.str1, Sh.str2]
    rw [flat_at skv kv b j h w hbv hj hhv hwv, flat_at skh kh b n h w hbh (by omega) hhh hwh,
      Nat.add_assoc (sx.d1 * (sx.d2 * sx.d3) * b), ← Nat.add_assoc (sx.d2 * sx.d3 * c),
      flat_at sx x b c (h + j) (w + n) hb hc hx (by omega)]
    simp only
    rw [sum_range_succ, add_assoc]

theorem outer_eq (sx skv skh : Sh) (x kv kh : Nat → Nat → Nat → Nat → α) (b c h w : Nat)
    (hb : b < sx.d0) (hbv : b < skv.d0) (hbh : b < skh.d0) (hc : c < sx.d1) (hhv : h < skv.d2) (hwv : w < skv.d3)
    (hhh : h < skh.d2) (hwh : w < skh.d3) (hxw : w + skh.d1 ≤ sx.d3) :
    ∀ n, n ≤ skv.d1 → h + n ≤ sx.d2 → outer sx skv skh (flat sx x) (flat skv kv) (flat skh kh) b c h w n =
      some (value n skh.d1 x kv kh b c h w) := by
  intro n
  induction n with
  | zero => intro _ _; simp [outer, value]
  | succ n ih =>
    intro h1 h2
    rw [outer, ih (by omega) (by omega)]
    simp only
    rw [inner_eq sx skv skh x kv kh b c h w n hb hbv hbh hc (by omega) hhv hwv hhh hwh (by omega) _ skh.d1 le_rfl hxw]
    simp only [value]
    rw [sum_range_succ]

theorem mem_iters (s : Sh) (b c h w : Nat) : (b, c, h, w) ∈ iters s ↔ b < s.d0 ∧ c < s.d1 ∧ h < s.d2 ∧ w < s.d3 := by
  simp [iters]

theorem ypos_eq (s : Sh) (b c h w : Nat) : ypos s (b, c, h, w) = s.d1 * (s.d2 * s.d3) * b + (s.d2 * s.d3 * c + s.d3 * h + w) := by
  simp only [ypos, Sh.str0, Sh.str1, Sh.str2]; omega

theorem ypos_inj (s : Sh) (t t' : Nat × Nat × Nat × Nat) (ht : t ∈ iters s) (ht' : t' ∈ iters s) (h : ypos s t = ypos s t') : t = t' := by
  obtain ⟨b, c, i, w⟩ := t
  obtain ⟨b', c', i', w'⟩ := t'
  obtain ⟨h1, h2, h3, h4⟩ := (mem_iters s b c i w).1 ht
  obtain ⟨h1', h2', h3', h4'⟩ := (mem_iters s b' c' i' w').1 ht'
  obtain ⟨_, e1, e2, e3, e4⟩ := decode s b c i w h1 h2 h3 h4
  obtain ⟨_, e1', e2', e3', e4'⟩ := decode s b' c' i' w' h1' h2' h3' h4'
  rw [ypos_eq, ypos_eq] at h
  rw [h] at e1 e2 e3 e4
  rw [← e1, ← e2, ← e3, ← e4, e1', e2', e3', e4']

omit [CommSemiring α] in
theorem run_ok (s : Sh) (val : Nat × Nat × Nat × Nat → Option α) (v : Nat × Nat × Nat × Nat → α)
    (hv : ∀ t ∈ iters s, val t = some (v t)) : ∀ (ts : List (Nat × Nat × Nat × Nat)), (∀ t ∈ ts, t ∈ iters s) → ∀ y : Nat → α,
    ∃ y', run s val ts y = some y' ∧ (∀ t ∈ ts, y' (ypos s t) = v t) ∧ ∀ p, (∀ t ∈ ts, p ≠ ypos s t) → y' p = y p := by
  intro ts
  induction ts with
  | nil => intro _ y; exact ⟨y, rfl, by simp, fun _ _ => rfl⟩
  | cons t ts ih =>
    intro hs y
    obtain ⟨y', h1, h2, h3⟩ := ih (fun t ht => hs t (by simp [ht])) (Function.update y (ypos s t) (v t))
    refine ⟨y', ?_, ?_, ?_⟩
    · rw [run, hv t (hs t (by simp))]; exact h1
    · intro t' ht'
      by_cases hin : t' ∈ ts
      · exact h2 t' hin
      · rcases List.mem_cons.1 ht' with rfl | ht'
        · rw [h3, Function.update_self]
          intro t'' ht'' he
          have := ypos_inj s t' t'' (hs _ (by simp)) (hs _ (by simp [ht''])) he
          exact hin (this ▸ ht'')
        · exact absurd ht' hin
    · intro p hp
      rw [h3 p fun t' ht' => hp t' (by simp [ht']), Function.update_of_ne (hp t (by simp))]

/-- What setup accepts. -/
theorem setup_ok (sx skv skh sy : Sh) (h : setup sx skv skh = .ok sy) :
    sx.d0 = skv.d0 ∧ sx.d0 = skh.d0 ∧ sy.d0 = sx.d0 ∧ sy.d1 = sx.d1 ∧ sy.d2 + skv.d1 = sx.d2 + 1 ∧ sy.d3 + skh.d1 = sx.d3 + 1 ∧
      0 < sy.d2 ∧ 0 < sy.d3 ∧ sy.d2 ≤ skv.d2 ∧ skv.d2 ≤ sx.d2 ∧ sy.d3 ≤ skh.d3 ∧ skh.d3 ≤ sx.d3 := by
  unfold setup at h
  split at h
  · cases h
  · next h1 =>
    simp only at h
    split at h
    · cases h
    · next h2 =>
      split at h
      · cases h
      · next h3 =>
        split at h
        · cases h
        · next h4 =>
          cases h
          simp only [not_not] at h1 h2 h3 h4
          refine ⟨h1.1, h1.2, rfl, rfl, ?_, ?_, ?_, ?_, ?_, h3.2, ?_, h4.2⟩ <;> simp only <;> omega

/-- C224. Whenever setup accepts the shapes and, in addition, the vertical filter is as wide and the horizontal filter as high as the output (what
setup does not check): all reads are inside of the arrays, every element of the output is the documented sum, and nothing outside of
the output is written. -/
theorem C224_forward_partial (sx skv skh sy : Sh) (hs : setup sx skv skh = .ok sy) (hwv : sy.d3 ≤ skv.d3) (hhh : sy.d2 ≤ skh.d2)
    (x kv kh : Nat → Nat → Nat → Nat → α) (y : Nat → α) :
    ∃ y', forward sy sx skv skh (flat sx x) (flat skv kv) (flat skh kh) y = some y' ∧
      (∀ n v, flat sy (fun b c h w => value skv.d1 skh.d1 x kv kh b c h w) n = some v → y' n = v) ∧
      ∀ n, sy.size ≤ n → y' n = y n := by
  obtain ⟨g1, g2, g3, g4, g5, g6, g7, g8, g9, g10, g11, g12⟩ := setup_ok sx skv skh sy hs
  obtain ⟨y', h1, h2, h3⟩ := run_ok sy (fun (b, c, h, w) => outer sx skv skh (flat sx x) (flat skv kv) (flat skh kh) b c h w skv.d1)
    (fun (b, c, h, w) => value skv.d1 skh.d1 x kv kh b c h w) (by
      rintro ⟨b, c, h, w⟩ ht
      obtain ⟨k1, k2, k3, k4⟩ := (mem_iters sy b c h w).1 ht
      exact outer_eq sx skv skh x kv kh b c h w (by omega) (by omega) (by omega) (by omega) (by omega) (by omega) (by omega)
        (by omega) (by omega) skv.d1 le_rfl (by omega)) (iters sy) (fun _ h => h) y
  refine ⟨y', h1, fun n v hn => ?_, fun n hn => h3 n ?_⟩
  · unfold flat at hn
    split at hn
    · next hlt =>
      simp only [Option.some.injEq] at hn
      rw [← hn]
      unfold Sh.size at hlt
      have p3 : 0 < sy.d3 := g8
      have p2 : 0 < sy.d2 := g7
      have p23 : 0 < sy.d2 * sy.d3 := Nat.mul_pos p2 p3
      have p1 : 0 < sy.d1 := by
        rcases Nat.eq_zero_or_pos sy.d1 with h | h
        · rw [h] at hlt; simp at hlt
        · exact h
      have hpos : ypos sy (n / (sy.d1 * (sy.d2 * sy.d3)), n / (sy.d2 * sy.d3) % sy.d1, n / sy.d3 % sy.d2, n % sy.d3) = n := by
        rw [ypos_eq]
        have e1 := Nat.div_add_mod n sy.d3
        have e2 := Nat.div_add_mod (n / sy.d3) sy.d2
        have e3 := Nat.div_add_mod (n / sy.d3 / sy.d2) sy.d1
        rw [show n / (sy.d1 * (sy.d2 * sy.d3)) = n / sy.d3 / sy.d2 / sy.d1 by
            rw [Nat.div_div_eq_div_mul, Nat.div_div_eq_div_mul]; congr 1; ring,
          show n / (sy.d2 * sy.d3) = n / sy.d3 / sy.d2 by rw [Nat.div_div_eq_div_mul, Nat.mul_comm]]
        calc _ = sy.d3 * (sy.d2 * (sy.d1 * (n / sy.d3 / sy.d2 / sy.d1) + n / sy.d3 / sy.d2 % sy.d1) + n / sy.d3 % sy.d2) + n % sy.d3 := by
              ring
          _ = n := by rw [e3, e2, e1]
      have := h2 (n / (sy.d1 * (sy.d2 * sy.d3)), n / (sy.d2 * sy.d3) % sy.d1, n / sy.d3 % sy.d2, n % sy.d3) ((mem_iters sy _ _ _ _).2
        ⟨Nat.div_lt_of_lt_mul (by rw [Nat.mul_comm]; exact hlt), Nat.mod_lt _ p1, Nat.mod_lt _ p2, Nat.mod_lt _ p3⟩)
      rw [hpos] at this
      exact this
    · cases hn
  · rintro ⟨b, c, h, w⟩ ht
    obtain ⟨k1, k2, k3, k4⟩ := (mem_iters sy b c h w).1 ht
    have := (decode sy b c h w k1 k2 k3 k4).1
    rw [ypos_eq]
    omega

/-- A case of the theorem: 3x4 image, filters of 2 and 3 rows, output 2x2. -/
example : setup ⟨1, 1, 3, 4⟩ ⟨1, 2, 2, 2⟩ ⟨1, 3, 2, 2⟩ = .ok ⟨1, 1, 2, 2⟩ := by decide +kernel
example : (forward ⟨1, 1, 2, 2⟩ ⟨1, 1, 3, 4⟩ ⟨1, 2, 2, 2⟩ ⟨1, 3, 2, 2⟩ (flat ⟨1, 1, 3, 4⟩ fun _ _ h w => (4 * h + w : Int))
    (flat ⟨1, 2, 2, 2⟩ fun _ j h w => j + h + w) (flat ⟨1, 3, 2, 2⟩ fun _ i _ _ => i) fun _ => 0).map (fun y => (y 0, y 3)) =
    some (17, 136) := by decide +kernel

/-- What is false: setup accepts a vertical filter that is narrower than the output (and a horizontal filter that is lower). Its rows are then read
beyond their ends: wrong elements first ... -/
example : setup ⟨1, 1, 2, 2⟩ ⟨1, 1, 2, 1⟩ ⟨1, 1, 2, 2⟩ = .ok ⟨1, 1, 2, 2⟩ := by decide +kernel
example : outer ⟨1, 1, 2, 2⟩ ⟨1, 1, 2, 1⟩ ⟨1, 1, 2, 2⟩ (flat ⟨1, 1, 2, 2⟩ fun _ _ _ _ => (1 : Int))
    (flat ⟨1, 1, 2, 1⟩ fun _ _ h _ => 10 * h) (flat ⟨1, 1, 2, 2⟩ fun _ _ _ _ => 1) 0 0 0 1 1 = some 10 := by decide +kernel
/-- ... and then elements outside of the array. -/
example : (forward ⟨1, 1, 2, 2⟩ ⟨1, 1, 2, 2⟩ ⟨1, 1, 2, 1⟩ ⟨1, 1, 2, 2⟩ (flat ⟨1, 1, 2, 2⟩ fun _ _ _ _ => (1 : Int))
    (flat ⟨1, 1, 2, 1⟩ fun _ _ h _ => 10 * h) (flat ⟨1, 1, 2, 2⟩ fun _ _ _ _ => 1) fun _ => 0).isNone = true := by decide +kernel

end Verif.SepConv
