import Verif.Elem.ConvLoops
/-
C88 (convolution) and C89 (deconvolution): the formula in multi-indices, the gradients, and what setup accepts.
-/
namespace Verif.Elem
open Verif.Fn Verif.ND

namespace Conv

/-! ### The trilinear form Σ dy[n, j, o] * x[n, seen by (j, r) at o] * w[j, r] -/

def idx (c : Conv) : Finset (Nat × Nat × Nat × Nat) :=
  (Finset.range c.outer ×ˢ Finset.range c.chO ×ˢ Finset.range c.R ×ˢ Finset.range c.O).filter
    fun t => (src c.chI c.ws (t.2.1 / c.M * c.R + t.2.2.1) t.2.2.2).isSome

def iY (c : Conv) (t : Nat × Nat × Nat × Nat) : Nat := t.1 * c.Y + (t.2.1 * c.O + t.2.2.2)
def iX (c : Conv) (t : Nat × Nat × Nat × Nat) : Nat := t.1 * c.I + (src c.chI c.ws (t.2.1 / c.M * c.R + t.2.2.1) t.2.2.2).getD 0
def iW (c : Conv) (t : Nat × Nat × Nat × Nat) : Nat := t.2.1 * c.R + t.2.2.1

noncomputable def form (c : Conv) (dy x w : Mem ℝ) : ℝ :=
  ∑ n ∈ Finset.range c.outer, ∑ j ∈ Finset.range c.chO, ∑ r ∈ Finset.range c.R, ∑ o ∈ Finset.range c.O,
    dy (n * c.Y + (j * c.O + o)) * (c.cval x n (j / c.M * c.R + r) o * w (j * c.R + r))

theorem tri_form (c : Conv) (dy x w : Mem ℝ) : tri c.idx c.iY c.iX c.iW dy x w = c.form dy x w := by
  rw [tri, idx, Finset.sum_filter, Finset.sum_product]
  refine Finset.sum_congr rfl fun n _ => ?_
  rw [Finset.sum_product]
  refine Finset.sum_congr rfl fun j _ => ?_
  rw [Finset.sum_product]
  refine Finset.sum_congr rfl fun r _ => Finset.sum_congr rfl fun o _ => ?_
  simp only [iY, iX, iW, cval]
  cases src c.chI c.ws (j / c.M * c.R + r) o <;> simp

theorem idx_mem (c : Conv) {t} (ht : t ∈ c.idx) : t.1 < c.outer ∧ t.2.1 < c.chO ∧ t.2.2.1 < c.R ∧ t.2.2.2 < c.O := by
  have := (Finset.mem_filter.mp ht).1
  simpa [Finset.mem_product] using this

theorem block_lt {N Y n i : Nat} (hn : n < N) (hi : i < Y) : n * Y + i < N * Y := row_lt hn hi

theorem iY_lt (c : Conv) {t} (ht : t ∈ c.idx) : c.iY t < c.outer * c.Y := by
  obtain ⟨h1, h2, h3, h4⟩ := c.idx_mem ht
  exact block_lt h1 (row_lt h2 h4)

theorem iW_lt (c : Conv) {t} (ht : t ∈ c.idx) : c.iW t < c.chO * c.R := by
  obtain ⟨h1, h2, h3, h4⟩ := c.idx_mem ht
  exact row_lt h2 h3

theorem iX_lt (c : Conv) (h : c.WF) {t} (ht : t ∈ c.idx) : c.iX t < c.outer * c.I := by
  obtain ⟨h1, h2, h3, h4⟩ := c.idx_mem ht
  obtain ⟨s, hs⟩ := Option.isSome_iff_exists.mp (Finset.mem_filter.mp ht).2
  have := c.src_in h (c.row_of h h2).1 h3 h4 hs
  unfold iX
  rw [hs]
  exact block_lt h1 this

/-! ### Dot products -/

theorem dot_blocks (N A B : Nat) (u v : Mem ℝ) : dot (N * (A * B)) u v =
    ∑ n ∈ Finset.range N, ∑ j ∈ Finset.range A, ∑ o ∈ Finset.range B, u (n * (A * B) + (j * B + o)) * v (n * (A * B) + (j * B + o)) := by
  unfold dot
  rw [sum_mul_range]
  refine Finset.sum_congr rfl fun n _ => ?_
  rw [sum_mul_range]

theorem dot_rows (A B : Nat) (u v : Mem ℝ) : dot (A * B) u v =
    ∑ j ∈ Finset.range A, ∑ o ∈ Finset.range B, u (j * B + o) * v (j * B + o) := by
  unfold dot
  rw [sum_mul_range]

/-- Σ over the (n, j, o) of dy times the row products. -/
theorem form_out (c : Conv) (dy x w : Mem ℝ) : c.form dy x w = ∑ n ∈ Finset.range c.outer, ∑ j ∈ Finset.range c.chO, ∑ o ∈ Finset.range c.O,
    dy (n * c.Y + (j * c.O + o)) * ∑ r ∈ Finset.range c.R, w (j * c.R + r) * c.cval x n (j / c.M * c.R + r) o := by
  refine Finset.sum_congr rfl fun n _ => Finset.sum_congr rfl fun j _ => ?_
  rw [Finset.sum_comm]
  refine Finset.sum_congr rfl fun o _ => ?_
  rw [Finset.mul_sum]
  refine Finset.sum_congr rfl fun r _ => ?_
  ring

theorem dot_forward (c : Conv) (h : c.WF) (dy x w : Mem ℝ) (b : Option (Mem ℝ)) (col y : Mem ℝ) :
    dot (c.outer * c.Y) dy (c.forward x w b col y) = c.form dy x w +
      ∑ n ∈ Finset.range c.outer, ∑ j ∈ Finset.range c.chO, ∑ o ∈ Finset.range c.O, dy (n * c.Y + (j * c.O + o)) * b.elim 0 (· j) := by
  rw [c.form_out, ← Finset.sum_add_distrib]
  refine (dot_blocks c.outer c.chO c.O dy _).trans (Finset.sum_congr rfl fun n hn => ?_)
  rw [← Finset.sum_add_distrib]
  refine Finset.sum_congr rfl fun j hj => ?_
  rw [← Finset.sum_add_distrib]
  refine Finset.sum_congr rfl fun o ho => ?_
  have := (c.forward_spec h x w b col y).1 n j o (Finset.mem_range.mp hn) (Finset.mem_range.mp hj) (Finset.mem_range.mp ho)
  rw [show n * (c.chO * c.O) + (j * c.O + o) = n * c.Y + (j * c.O + o) from rfl, this]
  ring

theorem dot_bias (N A B : Nat) (dy v : Mem ℝ) (D : Mem ℝ) (hD : ∀ j, j < A → D j = ∑ n ∈ Finset.range N, ∑ o ∈ Finset.range B, dy (n * (A * B) + (j * B + o))) :
    ∑ n ∈ Finset.range N, ∑ j ∈ Finset.range A, ∑ o ∈ Finset.range B, dy (n * (A * B) + (j * B + o)) * v j = dot A v D := by
  unfold dot
  rw [Finset.sum_comm]
  refine Finset.sum_congr rfl fun j hj => ?_
  rw [hD j (Finset.mem_range.mp hj), Finset.mul_sum]
  refine Finset.sum_congr rfl fun n _ => ?_
  rw [Finset.mul_sum]
  refine Finset.sum_congr rfl fun o _ => mul_comm _ _

theorem dot_dw (c : Conv) (x y v D : Mem ℝ)
    (hD : ∀ j r, j < c.chO → r < c.R → D (j * c.R + r) = ∑ n ∈ Finset.range c.outer, c.dwInc x y n j r) :
    dot (c.chO * c.R) v D = c.form y x v := by
  rw [dot_rows, form]
  conv_rhs => rw [Finset.sum_comm]
  refine Finset.sum_congr rfl fun j hj => ?_
  conv_rhs => rw [Finset.sum_comm]
  refine Finset.sum_congr rfl fun r hr => ?_
  rw [hD j r (Finset.mem_range.mp hj) (Finset.mem_range.mp hr), Finset.mul_sum]
  refine Finset.sum_congr rfl fun n _ => ?_
  rw [dwInc, Finset.mul_sum]
  refine Finset.sum_congr rfl fun o _ => ?_
  ring

theorem sum_push {ι} (N : Nat) (v : Mem ℝ) (S : Finset ι) (f : ι → Nat → ℝ) :
    ∑ i ∈ Finset.range N, v i * ∑ t ∈ S, f t i = ∑ t ∈ S, ∑ i ∈ Finset.range N, v i * f t i := by
  rw [Finset.sum_comm]
  refine Finset.sum_congr rfl fun i _ => ?_
  rw [Finset.mul_sum]

/-- The fold of every sample against v. -/
theorem dot_fold (c : Conv) (h : c.WF) (w y v D : Mem ℝ)
    (hD : ∀ i, i < c.outer * c.I → D i = ∑ n ∈ Finset.range c.outer, c.foldInc w y n i) :
    dot (c.outer * c.I) v D = c.form y v w := by
  have e : dot (c.outer * c.I) v D = ∑ i ∈ Finset.range (c.outer * c.I), v i * ∑ n ∈ Finset.range c.outer, c.foldInc w y n i :=
    Finset.sum_congr rfl fun i hi => by rw [hD i (Finset.mem_range.mp hi)]
  rw [e, sum_push, form]
  refine Finset.sum_congr rfl fun n hn => ?_
  unfold foldInc
  rw [sum_push, h.ho, sum_mul_range]
  refine Finset.sum_congr rfl fun g hg => ?_
  rw [sum_push]
  conv_rhs => rw [Finset.sum_comm]
  refine Finset.sum_congr rfl fun r hr => ?_
  rw [sum_push]
  conv_rhs => rw [Finset.sum_comm]
  refine Finset.sum_congr rfl fun o ho => ?_
  have hg := Finset.mem_range.mp hg
  have hr := Finset.mem_range.mp hr
  have ho := Finset.mem_range.mp ho
  have hn := Finset.mem_range.mp hn
  have hdiv : ∀ i ∈ Finset.range c.M, (g * c.M + i) / c.M = g := by
    intro i hi
    have hi := Finset.mem_range.mp hi
    rw [Nat.mul_comm, Nat.mul_add_div (by omega), Nat.div_eq_of_lt hi, Nat.add_zero]
  have rhs : ∑ i ∈ Finset.range c.M, y (n * c.Y + ((g * c.M + i) * c.O + o)) * (c.cval v n ((g * c.M + i) / c.M * c.R + r) o * w ((g * c.M + i) * c.R + r)) =
      c.cval v n (g * c.R + r) o * c.colv w y n g r o := by
    rw [colv, Finset.mul_sum]
    refine Finset.sum_congr rfl fun i hi => ?_
    rw [hdiv i hi]; ring
  rw [rhs]
  unfold cval
  cases hs : src c.chI c.ws (g * c.R + r) o with
  | none => simp
  | some s =>
    have := c.src_in h hg hr ho hs
    simp only [Option.elim_some, mul_ite, mul_zero]
    rw [Finset.sum_ite_eq (Finset.range (c.outer * c.I)) (n * c.I + s), if_pos (Finset.mem_range.mpr (block_lt hn this))]

/-! ### C88: gradients of convolution -/

/-- **C88.** Backward of convolution computes the vector-Jacobian product in the data, the weights and the bias (with a bias
and without one), whatever the gradient buffers and the column buffer contained. -/
theorem C88_conv_grad (c : Conv) (h : c.WF) (x w b col y0 : Mem ℝ) (s : CState) (p2 a2 : Bool) :
    IsVJP3 (c.outer * c.I) (c.chO * c.R) c.chO (c.outer * c.Y) (fun x w b => c.forward x w (some b) col y0) x w b
      (fun dy => (c.backward true true true false false false x w dy s).dx) (fun dy => (c.backward true true true false false false x w dy s).dw)
      (fun dy => (c.backward true true true false false false x w dy s).db) ∧
    IsVJP2 (c.outer * c.I) (c.chO * c.R) (c.outer * c.Y) (fun x w => c.forward x w none col y0) x w
      (fun dy => (c.backward true true p2 false false a2 x w dy s).dx) (fun dy => (c.backward true true p2 false false a2 x w dy s).dw) := by
  have hdx : ∀ p2 a2 dy v, dot (c.outer * c.I) v (c.backward true true p2 false false a2 x w dy s).dx = c.form dy v w := by
    intro p2 a2 dy v
    refine c.dot_fold h w dy v _ fun i hi => ?_
    rw [c.backward_dx h, if_pos rfl]
    simp [startGrad, hi]
  have hdw : ∀ p2 a2 dy v, dot (c.chO * c.R) v (c.backward true true p2 false false a2 x w dy s).dw = c.form dy x v := by
    intro p2 a2 dy v
    refine c.dot_dw x dy v _ fun j r hj hr => ?_
    rw [(c.backward_dw h true true p2 false false a2 x w dy s).1 j r hj hr, if_pos rfl]
    have := row_lt (Q := c.R) hj hr
    simp [startGrad, this]
  refine ⟨vjp3_of_tri c.idx c.iY c.iX c.iW _ _ _ _ (fun t ht => c.iX_lt h ht) (fun t ht => c.iW_lt ht) _ x w b _ _ _ ?_ ?_ ?_,
    vjp2_of_tri c.idx c.iY c.iX c.iW _ _ _ (fun t ht => c.iX_lt h ht) (fun t ht => c.iW_lt ht) _ x w _ _ ?_ ?_ ?_⟩
  · intro dy x' w' z
    rw [c.dot_forward h, c.tri_form]
    congr 1
    refine dot_bias c.outer c.chO c.O dy z _ fun j hj => ?_
    rw [c.backward_db, if_pos rfl]
    simp only [startGrad, hj, if_true, Bool.false_eq_true, if_false, zero_add]
    rfl
  · intro dy v; rw [hdx, c.tri_form]
  · intro dy v; rw [hdw, c.tri_form]
  · intro dy x' w'
    rw [c.dot_forward h, c.tri_form]
    simp
  · intro dy v; rw [hdx, c.tri_form]
  · intro dy v; rw [hdw, c.tri_form]

/-- **C88.** Each requested gradient is the one computed with all flags and no accumulation, added to the old content if
accumulating; a gradient that is not requested is untouched, and so is everything beyond the ends of the buffers. -/
theorem C88_conv_flags (c : Conv) (h : c.WF) (p0 p1 p2 a0 a1 a2 : Bool) (x w dy : Mem ℝ) (s s' : CState) :
    let r := c.backward p0 p1 p2 a0 a1 a2 x w dy s
    let q := c.backward true true true false false false x w dy s'
    (∀ i, i < c.outer * c.I → r.dx i = if p0 then (if a0 then s.dx i else 0) + q.dx i else s.dx i) ∧
    (∀ i, i < c.chO * c.R → r.dw i = if p1 then (if a1 then s.dw i else 0) + q.dw i else s.dw i) ∧
    (∀ i, i < c.chO → r.db i = if p2 then (if a2 then s.db i else 0) + q.db i else s.db i) ∧
    (∀ i, c.outer * c.I ≤ i → r.dx i = s.dx i) ∧ (∀ i, c.chO * c.R ≤ i → r.dw i = s.dw i) ∧ ∀ i, c.chO ≤ i → r.db i = s.db i := by
  refine ⟨?_, ?_, ?_, ?_, ?_, ?_⟩
  · intro i hi
    rw [c.backward_dx h, c.backward_dx h, if_pos rfl]
    cases p0 <;> cases a0 <;> simp [startGrad, hi]
  · intro i hi
    obtain ⟨j, r, hj, hr, rfl⟩ := cover hi
    rw [(c.backward_dw h p0 p1 p2 a0 a1 a2 x w dy s).1 j r hj hr, (c.backward_dw h true true true false false false x w dy s').1 j r hj hr, if_pos rfl]
    cases p1 <;> cases a1 <;> simp [startGrad, hi]
  · intro i hi
    rw [c.backward_db, c.backward_db, if_pos rfl]
    cases p2 <;> cases a2 <;> simp [startGrad, hi]
  · intro i hi
    rw [c.backward_dx h]
    have hz : ∑ n ∈ Finset.range c.outer, c.foldInc w dy n i = 0 := Finset.sum_eq_zero fun n hn => c.foldInc_out h w dy n i
      (by
        have := Nat.mul_le_mul_right c.I (show n + 1 ≤ c.outer from Finset.mem_range.mp hn)
        rw [Nat.succ_mul] at this; omega)
    have hni : ¬ i < c.outer * c.I := by omega
    rw [hz]
    cases p0 <;> cases a0 <;> simp [startGrad, hni]
  · exact (c.backward_dw h p0 p1 p2 a0 a1 a2 x w dy s).2
  · intro i hi
    rw [c.backward_db]
    have hni : ¬ i < c.chO := by omega
    cases p2 <;> cases a2 <;> simp [startGrad, hni]

/-! ### C89: gradients of deconvolution -/

theorem dot_deForward (c : Conv) (h : c.WF) (dx y w : Mem ℝ) (b : Option (Mem ℝ)) (col x : Mem ℝ) :
    dot (c.outer * c.I) dx (c.deForward y w b col x) = c.form y dx w +
      ∑ n ∈ Finset.range c.outer, ∑ j ∈ Finset.range c.chI, ∑ q ∈ Finset.range c.P, dx (n * c.I + (j * c.P + q)) * b.elim 0 (· j) := by
  rw [← c.dot_fold h w y dx (fun i => ∑ n ∈ Finset.range c.outer, c.foldInc w y n i) (fun i _ => rfl)]
  have e1 := dot_blocks c.outer c.chI c.P dx (c.deForward y w b col x)
  have e2 := dot_blocks c.outer c.chI c.P dx (fun i => ∑ n ∈ Finset.range c.outer, c.foldInc w y n i)
  refine e1.trans ?_
  rw [show c.outer * c.I = c.outer * (c.chI * c.P) from rfl, e2, ← Finset.sum_add_distrib]
  refine Finset.sum_congr rfl fun n hn => ?_
  rw [← Finset.sum_add_distrib]
  refine Finset.sum_congr rfl fun j hj => ?_
  rw [← Finset.sum_add_distrib]
  refine Finset.sum_congr rfl fun q hq => ?_
  have hn := Finset.mem_range.mp hn
  have hj := Finset.mem_range.mp hj
  have hq := Finset.mem_range.mp hq
  rw [show n * (c.chI * c.P) + (j * c.P + q) = n * c.I + (j * c.P + q) from rfl, (c.deForward_spec h y w b col x).1 n j q hn hj hq]
  have one : ∑ m ∈ Finset.range c.outer, c.foldInc w y m (n * c.I + (j * c.P + q)) = c.foldInc w y n (n * c.I + (j * c.P + q)) := by
    refine Finset.sum_eq_single_of_mem n (Finset.mem_range.mpr hn) fun m hm hne => c.foldInc_out h w y m _ ?_
    have hi : j * c.P + q < c.I := row_lt hj hq
    rcases Nat.lt_or_gt_of_ne hne with hlt | hlt
    · have := Nat.mul_le_mul_right c.I (show m + 1 ≤ n by omega)
      rw [Nat.succ_mul] at this; omega
    · have := Nat.mul_le_mul_right c.I (show n + 1 ≤ m by omega)
      rw [Nat.succ_mul] at this; omega
  rw [one]
  ring

theorem tri_form' (c : Conv) (dx y w : Mem ℝ) : tri c.idx c.iX c.iY c.iW dx y w = c.form y dx w := by
  rw [← c.tri_form]
  refine Finset.sum_congr rfl fun t _ => ?_
  ring

/-- **C89.** Backward of deconvolution computes the vector-Jacobian product in the data, the weights and the bias. -/
theorem C89_deconv_grad (c : Conv) (h : c.WF) (y w b col x0 : Mem ℝ) (s : CState) (p2 a2 : Bool) :
    IsVJP3 (c.outer * c.Y) (c.chO * c.R) c.chI (c.outer * c.I) (fun y w b => c.deForward y w (some b) col x0) y w b
      (fun dx => (c.deBackward true true true false false false y w dx s).dx) (fun dx => (c.deBackward true true true false false false y w dx s).dw)
      (fun dx => (c.deBackward true true true false false false y w dx s).db) ∧
    IsVJP2 (c.outer * c.Y) (c.chO * c.R) (c.outer * c.I) (fun y w => c.deForward y w none col x0) y w
      (fun dx => (c.deBackward true true p2 false false a2 y w dx s).dx) (fun dx => (c.deBackward true true p2 false false a2 y w dx s).dw) := by
  have hdx : ∀ p2 a2 dx v, dot (c.outer * c.Y) v (c.deBackward true true p2 false false a2 y w dx s).dx = c.form v dx w := by
    intro p2 a2 dx v
    rw [c.form_out]
    refine (dot_blocks c.outer c.chO c.O v _).trans (Finset.sum_congr rfl fun n hn => Finset.sum_congr rfl fun j hj => Finset.sum_congr rfl fun o ho => ?_)
    have := (c.deBackward_dx h true true p2 false false a2 y w dx s).1 n j o (Finset.mem_range.mp hn) (Finset.mem_range.mp hj) (Finset.mem_range.mp ho)
    rw [show n * (c.chO * c.O) + (j * c.O + o) = n * c.Y + (j * c.O + o) from rfl, this]
    simp
  have hdw : ∀ p2 a2 dx v, dot (c.chO * c.R) v (c.deBackward true true p2 false false a2 y w dx s).dw = c.form y dx v := by
    intro p2 a2 dx v
    refine c.dot_dw dx y v _ fun j r hj hr => ?_
    rw [(c.deBackward_dw h true true p2 false false a2 y w dx s).1 j r hj hr, if_pos rfl]
    have := row_lt (Q := c.R) hj hr
    simp [startGrad, this]
  refine ⟨vjp3_of_tri c.idx c.iX c.iY c.iW _ _ _ _ (fun t ht => c.iY_lt ht) (fun t ht => c.iW_lt ht) _ y w b _ _ _ ?_ ?_ ?_,
    vjp2_of_tri c.idx c.iX c.iY c.iW _ _ _ (fun t ht => c.iY_lt ht) (fun t ht => c.iW_lt ht) _ y w _ _ ?_ ?_ ?_⟩
  · intro dx y' w' z
    rw [c.dot_deForward h, c.tri_form']
    congr 1
    refine dot_bias c.outer c.chI c.P dx z _ fun j hj => ?_
    rw [c.deBackward_db, if_pos rfl]
    simp only [startGrad, hj, if_true, Bool.false_eq_true, if_false, zero_add]
    rfl
  · intro dx v; rw [hdx, c.tri_form']
  · intro dx v; rw [hdw, c.tri_form']
  · intro dx y' w'
    rw [c.dot_deForward h, c.tri_form']
    simp
  · intro dx v; rw [hdx, c.tri_form']
  · intro dx v; rw [hdw, c.tri_form']

/-- **C89.** As C88_conv_flags, for deconvolution. -/
theorem C89_deconv_flags (c : Conv) (h : c.WF) (p0 p1 p2 a0 a1 a2 : Bool) (y w dx : Mem ℝ) (s s' : CState) :
    let r := c.deBackward p0 p1 p2 a0 a1 a2 y w dx s
    let q := c.deBackward true true true false false false y w dx s'
    (∀ i, i < c.outer * c.Y → r.dx i = if p0 then (if a0 then s.dx i else 0) + q.dx i else s.dx i) ∧
    (∀ i, i < c.chO * c.R → r.dw i = if p1 then (if a1 then s.dw i else 0) + q.dw i else s.dw i) ∧
    (∀ i, i < c.chI → r.db i = if p2 then (if a2 then s.db i else 0) + q.db i else s.db i) ∧
    (∀ i, c.outer * c.Y ≤ i → r.dx i = s.dx i) ∧ (∀ i, c.chO * c.R ≤ i → r.dw i = s.dw i) ∧ ∀ i, c.chI ≤ i → r.db i = s.db i := by
  refine ⟨?_, ?_, ?_, ?_, ?_, ?_⟩
  · intro i hi
    obtain ⟨n, k, hn, hk, rfl⟩ := cover hi
    obtain ⟨j, o, hj, ho, rfl⟩ := cover hk
    rw [(c.deBackward_dx h p0 p1 p2 a0 a1 a2 y w dx s).1 n j o hn hj ho, (c.deBackward_dx h true true true false false false y w dx s').1 n j o hn hj ho, if_pos rfl]
    cases p0 <;> cases a0 <;> simp
  · intro i hi
    obtain ⟨j, r, hj, hr, rfl⟩ := cover hi
    rw [(c.deBackward_dw h p0 p1 p2 a0 a1 a2 y w dx s).1 j r hj hr, (c.deBackward_dw h true true true false false false y w dx s').1 j r hj hr, if_pos rfl]
    cases p1 <;> cases a1 <;> simp [startGrad, hi]
  · intro i hi
    rw [c.deBackward_db, c.deBackward_db, if_pos rfl]
    cases p2 <;> cases a2 <;> simp [startGrad, hi]
  · exact (c.deBackward_dx h p0 p1 p2 a0 a1 a2 y w dx s).2
  · exact (c.deBackward_dw h p0 p1 p2 a0 a1 a2 y w dx s).2
  · intro i hi
    rw [c.deBackward_db]
    have hni : ¬ i < c.chI := by omega
    cases p2 <;> cases a2 <;> simp [startGrad, hni]

end Conv
end Verif.Elem
