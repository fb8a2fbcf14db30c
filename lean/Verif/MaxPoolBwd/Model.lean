import Mathlib.Algebra.BigOperators.Group.Finset.Basic
import Mathlib.Algebra.BigOperators.Ring.Finset
import Mathlib.Algebra.BigOperators.Group.List.Basic
import Mathlib.Algebra.Order.Ring.Int
import Mathlib.Order.Lattice
import Mathlib.Tactic.Ring
import Mathlib.Tactic.NormNum
/-
MaxPoolingBackward, two dimensions (/repo/src/nbla/function/generic/max_pooling_backward.cpp). Property C235.
Arrays are functions of the flat index; the values lie in an arbitrary linear order (input) and commutative semiring (gradients): no NaN, no rounding.
-/
namespace Verif.MaxPoolBwd

/-- The parameters of max_pooling_2d_forward (max_pooling_backward.cpp:43-46). -/
structure Par where
  (By Cy Hy Wy Cx Hx Wx hk wk hs ws hp wp : Int)

/-- nd2flat with the strides of Shape_t{By, Cx, Hx, Wx} (max_pooling_backward.cpp:62,263). -/
def flat (P : Par) (b c h w : Int) : Int := b * (P.Cx * P.Hx * P.Wx) + c * (P.Hx * P.Wx) + h * P.Wx + w

/-- for (i = lo; i < hi; ++i). -/
def loop (lo hi : Int) : List Int := (List.range (hi - lo).toNat).map (fun k : Nat => lo + k)

/-- The region of an output (max_pooling_backward.cpp:53-59). -/
def hStart (P : Par) (h : Int) : Int := max (h * P.hs - P.hp) 0
def hEnd (P : Par) (h : Int) : Int := min (h * P.hs - P.hp + P.hk) P.Hx
def wStart (P : Par) (w : Int) : Int := max (w * P.ws - P.wp) 0
def wEnd (P : Par) (w : Int) : Int := min (w * P.ws - P.wp + P.wk) P.Wx

/-- The flat indices the pooling loops visit, in order (max_pooling_backward.cpp:64-67). -/
def cells (P : Par) (o : Int × Int × Int × Int) : List Int :=
  (loop (hStart P o.2.2.1) (hEnd P o.2.2.1)).flatMap fun rh =>
    (loop (wStart P o.2.2.2) (wEnd P o.2.2.2)).map fun rw => flat P o.1 o.2.1 rh rw

variable {V R : Type} [LinearOrder V] [CommSemiring R]

/-- The body of the pooling loop: (max_val, max_idx) (max_pooling_backward.cpp:68-71). -/
def step (x : Int → V) (m : V × Int) (i : Int) : V × Int := if m.1 < x i then (x i, i) else m

/-- max_idx after the loops (max_pooling_backward.cpp:61-73). -/
def chosen (P : Par) (x : Int → V) (o : Int × Int × Int × Int) : Int :=
  let first := flat P o.1 o.2.1 (hStart P o.2.2.1) (wStart P o.2.2.2)
  ((cells P o).foldl (step x) (x first, first)).2

/-- The outputs in the order of the four outer loops (max_pooling_backward.cpp:48-51); oidx is the position. -/
def outs (P : Par) : List (Int × Int × Int × Int) :=
  (loop 0 P.By).flatMap fun b => (loop 0 P.Cy).flatMap fun c => (loop 0 P.Hy).flatMap fun h => (loop 0 P.Wy).map fun w => (b, c, h, w)

/-- One array update `a[i] = v`. -/
def set (a : Int → R) (i : Int) (v : R) : Int → R := fun j => if j = i then v else a j

/-- zeroing and max_pooling_2d_forward (max_pooling_backward.cpp:36-40, 74-75, 244). -/
def forward (P : Par) (x : Int → V) (dy : Nat → R) : Int → R :=
  (outs P).zipIdx.foldl (fun dx ok => set dx (chosen P x ok.1) (dx (chosen P x ok.1) + dy ok.2)) (fun _ => 0)

/-- max_pooling_2d_backward (max_pooling_backward.cpp:131-168). -/
def backward (P : Par) (x : Int → V) (gdx : Int → R) (accum : Bool) (gdy : Nat → R) : Nat → R :=
  (outs P).zipIdx.foldl (fun g ok => fun k => if k = ok.2 then (if accum then g ok.2 + gdx (chosen P x ok.1) else gdx (chosen P x ok.1)) else g k) gdy

/-- Specification: `p` is the first largest element of `l`. -/
def FirstMax (x : Int → V) (l : List Int) (p : Int) : Prop :=
  ∃ l1 l2, l = l1 ++ p :: l2 ∧ (∀ i ∈ l1, x i < x p) ∧ ∀ i ∈ l, x i ≤ x p

theorem foldl_step (x : Int → V) (l : List Int) (p : Int) (pre : List Int) (hp : FirstMax x pre p) :
    FirstMax x (pre ++ l) (l.foldl (step x) (x p, p)).2 := by
  induction l generalizing p pre with
  | nil => simpa using hp
  | cons i l ih =>
    obtain ⟨l1, l2, h1, h2, h3⟩ := hp
    rw [List.foldl_cons, show pre ++ i :: l = (pre ++ [i]) ++ l by simp]
    simp only [step]
    split
    · rename_i hlt
      refine ih i (pre ++ [i]) ⟨pre, [], by simp, fun j hj => lt_of_le_of_lt (h3 j hj) hlt, fun j hj => ?_⟩
      rcases List.mem_append.1 hj with hj | hj
      · exact (lt_of_le_of_lt (h3 j hj) hlt).le
      · rw [List.mem_singleton.1 hj]
    · rename_i hle
      refine ih p (pre ++ [i]) ⟨l1, l2 ++ [i], by simp [h1], h2, fun j hj => ?_⟩
      rcases List.mem_append.1 hj with hj | hj
      · exact h3 j hj
      · rw [List.mem_singleton.1 hj]; exact not_lt.1 hle

theorem loop_cons (lo hi : Int) (h : lo < hi) : ∃ t, loop lo hi = lo :: t := by
  unfold loop
  obtain ⟨n, hn⟩ : ∃ n, (hi - lo).toNat = n + 1 := ⟨(hi - lo).toNat - 1, by omega⟩
  rw [hn, List.range_succ_eq_map, List.map_cons]
  refine ⟨(List.map Nat.succ (List.range n)).map (fun k : Nat => lo + k), ?_⟩
  simp

theorem mem_loop (lo hi i : Int) : i ∈ loop lo hi ↔ lo ≤ i ∧ i < hi := by
  unfold loop
  simp only [List.mem_map, List.mem_range]
  constructor
  · rintro ⟨k, hk, rfl⟩; omega
  · intro h; exact ⟨(i - lo).toNat, by omega, by omega⟩

/-- C235 (choice). If the region of an output meets the source, the chosen index is that of a source pixel in the region, with the largest value there, the first such
one in row-major order. -/
theorem C235_choice (P : Par) (x : Int → V) (o : Int × Int × Int × Int) (hh : hStart P o.2.2.1 < hEnd P o.2.2.1) (hw : wStart P o.2.2.2 < wEnd P o.2.2.2) :
    FirstMax x (cells P o) (chosen P x o) ∧
      (∃ rh rw : Int, chosen P x o = flat P o.1 o.2.1 rh rw ∧ 0 ≤ rh ∧ rh < P.Hx ∧ 0 ≤ rw ∧ rw < P.Wx ∧
        o.2.2.1 * P.hs - P.hp ≤ rh ∧ rh < o.2.2.1 * P.hs - P.hp + P.hk ∧ o.2.2.2 * P.ws - P.wp ≤ rw ∧ rw < o.2.2.2 * P.ws - P.wp + P.wk) ∧
      ∀ rh rw : Int, 0 ≤ rh → rh < P.Hx → 0 ≤ rw → rw < P.Wx → o.2.2.1 * P.hs - P.hp ≤ rh → rh < o.2.2.1 * P.hs - P.hp + P.hk →
        o.2.2.2 * P.ws - P.wp ≤ rw → rw < o.2.2.2 * P.ws - P.wp + P.wk → x (flat P o.1 o.2.1 rh rw) ≤ x (chosen P x o) := by
  obtain ⟨t, ht⟩ := loop_cons _ _ hh
  obtain ⟨u, hu⟩ := loop_cons _ _ hw
  have hc : ∃ l, cells P o = flat P o.1 o.2.1 (hStart P o.2.2.1) (wStart P o.2.2.2) :: l := by
    unfold cells; rw [ht, hu]; simp only [List.flatMap_cons, List.map_cons, List.cons_append]; exact ⟨_, rfl⟩
  obtain ⟨l, hl⟩ := hc
  have hF : FirstMax x (cells P o) (chosen P x o) := by
    unfold chosen
    simp only [hl, List.foldl_cons, step, lt_irrefl, if_false]
    exact foldl_step x l _ [_] ⟨[], [], rfl, by simp, by simp⟩
  obtain ⟨l1, l2, h1, h2, h3⟩ := hF
  refine ⟨⟨l1, l2, h1, h2, h3⟩, ?_, fun rh rw' a1 a2 b1 b2 c1 c2 d1 d2 => h3 _ ?_⟩
  swap
  · unfold cells
    simp only [List.mem_flatMap, List.mem_map, mem_loop]
    exact ⟨rh, by unfold hStart hEnd; omega, rw', by unfold wStart wEnd; omega, rfl⟩
  have hm : chosen P x o ∈ cells P o := by rw [h1]; simp
  unfold cells at hm
  simp only [List.mem_flatMap, List.mem_map, mem_loop] at hm
  obtain ⟨rh, ⟨a1, a2⟩, rw', ⟨b1, b2⟩, e⟩ := hm
  unfold hStart at a1; unfold hEnd at a2; unfold wStart at b1; unfold wEnd at b2
  exact ⟨rh, rw', e.symm, by omega, by omega, by omega, by omega, by omega, by omega, by omega, by omega⟩

/-- C235 (region). With the output extent of the pooling functions (base_pooling.cpp:63-69) and less padding than kernel, the region of every output meets the source, in
each axis: the hypotheses of C235_choice hold. -/
theorem C235_region (inp ker pad st h : Int) (ignore : Bool) (hi : 0 < inp) (hp : 0 ≤ pad) (hk : pad < ker) (hs : 0 < st) (h0 : 0 ≤ h)
    (hout : h < (inp + pad - (if ignore then ker - pad else 1)).tdiv st + 1) : max (h * st - pad) 0 < min (h * st - pad + ker) inp := by
  have hst : 0 ≤ h * st := mul_nonneg h0 hs.le
  have key : ∀ N : Int, h < N.tdiv st + 1 → h * st ≤ max N 0 := by
    intro N hN
    by_cases hn : 0 ≤ N
    · rw [Int.tdiv_eq_ediv_of_nonneg hn] at hN
      have : h * st ≤ N := (Int.le_ediv_iff_mul_le hs).1 (by omega)
      omega
    · have h1 : N.tdiv st = -((-N).tdiv st) := by rw [Int.neg_tdiv, neg_neg]
      have h2 : 0 ≤ (-N).tdiv st := Int.tdiv_nonneg (by omega) hs.le
      have h3 : h = 0 := by omega
      rw [h3]; omega
  have := key _ hout
  cases ignore <;> simp only [if_true, if_false, Bool.false_eq_true] at this <;> generalize h * st = a at * <;> omega

theorem forward_aux (P : Par) (x : Int → V) (dy : Nat → R) (l : List ((Int × Int × Int × Int) × Nat)) (a : Int → R) (p : Int) :
    l.foldl (fun dx ok => set dx (chosen P x ok.1) (dx (chosen P x ok.1) + dy ok.2)) a p =
      a p + (l.map fun ok => if chosen P x ok.1 = p then dy ok.2 else 0).sum := by
  induction l generalizing a with
  | nil => simp
  | cons ok l ih =>
    rw [List.foldl_cons, ih, List.map_cons, List.sum_cons]
    by_cases h : chosen P x ok.1 = p
    · subst h; simp [set, add_assoc]
    · simp [set, h, Ne.symm h]

/-- C235 (forward). Element p of the result is the sum of the dy of exactly the outputs that chose p. -/
theorem C235_forward (P : Par) (x : Int → V) (dy : Nat → R) (p : Int) :
    forward P x dy p = ((outs P).zipIdx.map fun ok => if chosen P x ok.1 = p then dy ok.2 else 0).sum := by
  unfold forward; rw [forward_aux, zero_add]

theorem backward_aux (P : Par) (x : Int → V) (gdx : Int → R) (accum : Bool) (l : List (Int × Int × Int × Int)) (n : Nat) (g : Nat → R) (k : Nat) :
    (l.zipIdx n).foldl (fun g ok => fun k => if k = ok.2 then (if accum then g ok.2 + gdx (chosen P x ok.1) else gdx (chosen P x ok.1)) else g k) g k =
      if k < n then g k else match l[k - n]? with
        | some o => if accum then g k + gdx (chosen P x o) else gdx (chosen P x o)
        | none => g k := by
  induction l generalizing n g with
  | nil => simp
  | cons o l ih =>
    rw [List.zipIdx_cons, List.foldl_cons, ih]
    rcases lt_trichotomy k n with h | h | h
    · simp [h, Nat.lt_succ_of_lt h, Nat.ne_of_lt h]
    · subst h; simp
    · have h1 : ¬ k < n := by omega
      have h2 : ¬ k < n + 1 := by omega
      have h3 : k - n = (k - (n + 1)) + 1 := by omega
      have h4 : k ≠ n := by omega
      simp only [h1, h2, if_false, h3, List.getElem?_cons_succ, h4]

/-- C235 (backward). Element k of the gradient for dy is the incoming gradient at the index output k chose, written or added as requested; nothing else is touched. -/
theorem C235_backward (P : Par) (x : Int → V) (gdx : Int → R) (accum : Bool) (gdy : Nat → R) (k : Nat) :
    (∀ o, (outs P)[k]? = some o → backward P x gdx accum gdy k = (if accum then gdy k else 0) + gdx (chosen P x o)) ∧
      ((outs P).length ≤ k → backward P x gdx accum gdy k = gdy k) := by
  have h := backward_aux P x gdx accum (outs P) 0 gdy k
  constructor
  · intro o ho
    unfold backward
    rw [h]
    simp only [Nat.not_lt_zero, if_false, Nat.sub_zero, ho]
    cases accum <;> simp
  · intro hk
    unfold backward
    rw [h]
    simp [List.getElem?_eq_none hk]

/-- C235 (adjoint). Forward and backward are adjoint: the pairing of an incoming gradient with the result equals the pairing of its backward with dy. -/
theorem C235_adjoint (P : Par) (x : Int → V) (dy : Nat → R) (g : Int → R) (S : Finset Int) (hS : ∀ o ∈ outs P, chosen P x o ∈ S) :
    ∑ p ∈ S, g p * forward P x dy p = ((outs P).zipIdx.map fun ok => backward P x g false (fun _ => 0) ok.2 * dy ok.2).sum := by
  have e : ((outs P).zipIdx.map fun ok => backward P x g false (fun _ => 0) ok.2 * dy ok.2) =
      (outs P).zipIdx.map fun ok => g (chosen P x ok.1) * dy ok.2 := by
    refine List.map_congr_left fun ok hok => ?_
    have := List.mem_zipIdx_iff_getElem?.1 hok
    rw [(C235_backward P x g false (fun _ => 0) ok.2).1 ok.1 this]
    simp
  rw [e]
  simp only [C235_forward]
  have hS' : ∀ ok ∈ (outs P).zipIdx, chosen P x ok.1 ∈ S := fun ok hok =>
    hS _ (List.mem_of_getElem? (List.mem_zipIdx_iff_getElem?.1 hok))
  generalize (outs P).zipIdx = l at hS'
  induction l with
  | nil => simp
  | cons ok l ih =>
    simp only [List.map_cons, List.sum_cons, mul_add, Finset.sum_add_distrib]
    rw [ih fun o ho => hS' o (List.mem_cons_of_mem _ ho)]
    congr 1
    simp [hS' ok List.mem_cons_self]

theorem getElem?_flatMap_const {α β : Type} (l : List α) (f : α → List β) (n : Nat) (hf : ∀ a, (f a).length = n) (i j : Nat) (hj : j < n) (a : α)
    (ha : l[i]? = some a) : (l.flatMap f)[i * n + j]? = (f a)[j]? := by
  induction l generalizing i with
  | nil => simp at ha
  | cons b l ih =>
    rw [List.flatMap_cons]
    cases i with
    | zero =>
      simp only [List.getElem?_cons_zero, Option.some.injEq] at ha
      subst ha
      rw [Nat.zero_mul, Nat.zero_add, List.getElem?_append_left (by rw [hf]; exact hj)]
    | succ i =>
      rw [List.getElem?_cons_succ] at ha
      have e : (i + 1) * n + j = n + (i * n + j) := by ring
      rw [List.getElem?_append_right (by rw [hf]; omega), hf, e, Nat.add_sub_cancel_left]
      exact ih i ha

theorem loop_length (n : Nat) : (loop 0 n).length = n := by simp [loop]
theorem loop_get (n i : Nat) (h : i < n) : (loop 0 n)[i]? = some (i : Int) := by simp [loop, h]

theorem length_flatMap_const {α β : Type} (l : List α) (f : α → List β) (n : Nat) (hf : ∀ a, (f a).length = n) : (l.flatMap f).length = l.length * n := by
  induction l with
  | nil => simp
  | cons a l ih => rw [List.flatMap_cons, List.length_append, hf, ih, List.length_cons]; ring

/-- C235 (order). Output (b, c, h, w) is the element of dy at its row-major position in By x Cy x Hy x Wy, and there are no others. -/
theorem C235_order (P : Par) (B C H W : Nat) (hB : P.By = B) (hC : P.Cy = C) (hH : P.Hy = H) (hW : P.Wy = W) :
    (outs P).length = B * (C * (H * W)) ∧ ∀ b c h w : Nat, b < B → c < C → h < H → w < W →
      (outs P)[b * (C * (H * W)) + (c * (H * W) + (h * W + w))]? = some ((b : Int), (c : Int), (h : Int), (w : Int)) := by
  have l1 : ∀ b c h : Int, ((loop 0 W).map fun w => (b, c, h, w)).length = W := fun _ _ _ => by rw [List.length_map, loop_length]
  have l2 : ∀ b c : Int, ((loop 0 H).flatMap fun h => (loop 0 W).map fun w => (b, c, h, w)).length = H * W := fun b c => by
    rw [length_flatMap_const _ _ W (l1 b c), loop_length]
  have l3 : ∀ b : Int, ((loop 0 C).flatMap fun c => (loop 0 H).flatMap fun h => (loop 0 W).map fun w => (b, c, h, w)).length = C * (H * W) := fun b => by
    rw [length_flatMap_const _ _ (H * W) (l2 b), loop_length]
  unfold outs
  rw [hB, hC, hH, hW]
  refine ⟨by rw [length_flatMap_const _ _ _ l3, loop_length], fun b c h w b1 c1 h1 w1 => ?_⟩
  have k1 : h * W + w < H * W := by
    have : (h + 1) * W ≤ H * W := Nat.mul_le_mul_right _ h1
    have e : (h + 1) * W = h * W + W := by ring
    omega
  have k2 : c * (H * W) + (h * W + w) < C * (H * W) := by
    have : (c + 1) * (H * W) ≤ C * (H * W) := Nat.mul_le_mul_right _ c1
    have e : (c + 1) * (H * W) = c * (H * W) + H * W := by ring
    omega
  rw [getElem?_flatMap_const _ _ _ l3 b _ k2 b (loop_get _ _ b1), getElem?_flatMap_const _ _ _ (l2 b) c _ k1 c (loop_get _ _ c1),
    getElem?_flatMap_const _ _ _ (l1 b c) h _ w1 h (loop_get _ _ h1), List.getElem?_map, loop_get _ _ w1]
  rfl

/-- A case: one 2 x 3 image 1 5 2 / 5 0 7, kernel 2 x 2, stride 1: both outputs' windows; the first chooses the first 5 (index 1), the second 7 (index 5). -/
example : outs ⟨1, 1, 1, 2, 1, 2, 3, 2, 2, 1, 1, 0, 0⟩ = [(0, 0, 0, 0), (0, 0, 0, 1)] ∧
    chosen ⟨1, 1, 1, 2, 1, 2, 3, 2, 2, 1, 1, 0, 0⟩ (fun i => [1, 5, 2, 5, 0, 7].getD i.toNat (0 : Int)) (0, 0, 0, 0) = 1 ∧
    chosen ⟨1, 1, 1, 2, 1, 2, 3, 2, 2, 1, 1, 0, 0⟩ (fun i => [1, 5, 2, 5, 0, 7].getD i.toNat (0 : Int)) (0, 0, 0, 1) = 5 := by decide
/-- Its hypotheses are met: the region of output (0, 1). -/
example : hStart ⟨1, 1, 1, 2, 1, 2, 3, 2, 2, 1, 1, 0, 0⟩ 0 < hEnd ⟨1, 1, 1, 2, 1, 2, 3, 2, 2, 1, 1, 0, 0⟩ 0 ∧
    wStart ⟨1, 1, 1, 2, 1, 2, 3, 2, 2, 1, 1, 0, 0⟩ 1 < wEnd ⟨1, 1, 1, 2, 1, 2, 3, 2, 2, 1, 1, 0, 0⟩ 1 := by decide
/-- Without the condition pad < kernel (which no function checks) C235_choice fails: kernel 1, pad 1, image 3 x 1; output 0 lies in the padding, but its gradient
goes to pixel 0. -/
example : cells ⟨1, 1, 5, 1, 1, 3, 1, 1, 1, 1, 1, 1, 0⟩ (0, 0, 0, 0) = [] ∧
    chosen ⟨1, 1, 5, 1, 1, 3, 1, 1, 1, 1, 1, 1, 0⟩ (fun i => i) (0, 0, 0, 0) = 0 := by decide
/-- C235_region applies to every output of 3 pixels, kernel 2, pad 1, stride 2. -/
example : max (1 * 2 - 1) 0 < min (1 * 2 - 1 + 2) (3 : Int) := C235_region 3 2 1 2 1 true (by decide) (by decide) (by decide) (by decide) (by decide) (by decide)

end Verif.MaxPoolBwd
