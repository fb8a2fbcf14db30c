/-
Gradients through a layout: what backward of batch normalization computes, seen from the original array.
-/
import Verif.Norm.Layout

namespace Verif.Norm
open Verif.Fn Verif.Elem Verif.BatchNorm Verif.ND

/-! ### Specification vocabulary -/

/-- `dx` (n elements) is the gradient of `L` at `x`: along every path through x, `L` changes at the rate Σ vx dx. -/
def IsGradX (n : Nat) (L : Mem ℝ → ℝ) (x dx : Mem ℝ) : Prop :=
  ∀ (cx : ℝ → Mem ℝ) (vx : Mem ℝ), (∀ k < n, cx 0 k = x k ∧ HasDerivAt (fun t => cx t k) (vx k) 0) →
    HasDerivAt (fun t => L (cx t)) (dot n vx dx) 0

/-- `gamma` or `beta` if it is an input. -/
def given (b : Bool) (m : Mem ℝ) : Option (Mem ℝ) := if b then some m else none

/-- The gradient of a number that depends on x (n elements) and on those of gamma (pg elements) and beta (pb elements) that are
inputs: along every path, it changes at the rate given by the scalar products with the gradients. -/
def IsGradO (n pg pb : Nat) (hasScale hasBias : Bool) (L : Mem ℝ → Option (Mem ℝ) → Option (Mem ℝ) → ℝ) (x gamma beta dx dg db : Mem ℝ) : Prop :=
  ∀ (cx cg cb : ℝ → Mem ℝ) (vx vg vb : Mem ℝ),
    (∀ k < n, cx 0 k = x k ∧ HasDerivAt (fun t => cx t k) (vx k) 0) →
    (∀ k < pg, cg 0 k = gamma k ∧ HasDerivAt (fun t => cg t k) (vg k) 0) →
    (∀ k < pb, cb 0 k = beta k ∧ HasDerivAt (fun t => cb t k) (vb k) 0) →
    HasDerivAt (fun t => L (cx t) (given hasScale (cg t)) (given hasBias (cb t)))
      (dot n vx dx + (if hasScale then dot pg vg dg else 0) + (if hasBias then dot pb vb db else 0)) 0

/-- The loss, linear in the outputs: y with gradient dy, the statistics with gradients dm, dv if they are outputs. -/
noncomputable def loss (n p : Nat) (dy : Mem ℝ) (dm dv : Option (Mem ℝ)) (y m v : Mem ℝ) : ℝ :=
  dot n dy y + ∑ q ∈ Finset.range p, (biasOf dm q * m q + biasOf dv q * v q)

/-! ### Lemmas -/

theorem sum_indices (s : Shape) (f : Nat → ℝ) : ∑ q ∈ Finset.range (prod s), f q = ((indices s).map fun k => f (ravel s k)).sum := by
  rw [← list_sum_range, ← indices_ravel, List.map_map]; rfl

theorem PView.lt {sh axes a π psh πp} (h : PView sh axes a π psh πp) {k : List Nat} (hk : InBounds psh k) : πp k < a.n1 :=
  List.mem_range.1 (h.perm.mem_iff.1 (List.mem_map_of_mem ((mem_indices _ _).2 hk)))

theorem PView.ex {sh axes a π psh πp} (h : PView sh axes a π psh πp) {q : Nat} (hq : q < a.n1) : ∃ k, InBounds psh k ∧ πp k = q := by
  obtain ⟨k, hk, e⟩ := List.mem_map.1 (h.perm.mem_iff.2 (List.mem_range.2 hq))
  exact ⟨k, (mem_indices _ _).1 hk, e⟩

theorem View.ex {sh axes a π} (h : View sh axes a π) {q : Nat} (hq : q < a.n0 * a.n1 * a.n2) : ∃ k, InBounds sh k ∧ π k = q := by
  obtain ⟨k, hk, e⟩ := List.mem_map.1 (h.perm.mem_iff.2 (List.mem_range.2 hq))
  exact ⟨k, (mem_indices _ _).1 hk, e⟩

theorem PView.sum {sh axes a π psh πp} (h : PView sh axes a π psh πp) (f : Nat → ℝ) :
    ∑ q ∈ Finset.range a.n1, f q = ((indices psh).map fun k => f (πp k)).sum := by
  rw [← list_sum_range, ← (h.perm.map f).sum_eq, List.map_map]; rfl

/-- Sums over the array and over its layout. -/
theorem View.transport {sh axes a π} (h : View sh axes a π) {f g : Nat → ℝ} (e : ∀ k, InBounds sh k → f (π k) = g (ravel sh k)) :
    ∑ q ∈ Finset.range (a.n0 * a.n1 * a.n2), f q = ∑ q ∈ Finset.range (prod sh), g q := by
  rw [h.sum, sum_indices]
  congr 1
  exact List.map_congr_left fun k hk => e k ((mem_indices _ _).1 hk)

theorem PView.transport {sh axes a π psh πp} (h : PView sh axes a π psh πp) {f g : Nat → ℝ}
    (e : ∀ k, InBounds psh k → f (πp k) = g (ravel psh k)) :
    ∑ q ∈ Finset.range a.n1, f q = ∑ q ∈ Finset.range (prod psh), g q := by
  rw [h.sum, sum_indices]
  congr 1
  exact List.map_congr_left fun k hk => e k ((mem_indices _ _).1 hk)

/-- The x gradient of batch normalization alone. -/
theorem bn_gradX (a : Args) (ok : Ok a) (x dy : Mem ℝ) (beta gamma dm dv : Option (Mem ℝ)) (o : Out) (dx : Mem ℝ) :
    let r := forwardBatch a x beta gamma true o
    IsGradX (a.n0 * a.n1 * a.n2)
      (fun x => let q := forwardBatch a x beta gamma true o
        loss (a.n0 * a.n1 * a.n2) a.n1 dy dm dv q.y q.m q.v)
      x (backwardX a x gamma r.m r.v dy dm dv false dx) := by
  intro r cx vx hx
  have := c106_backward a ok x (scaleOf gamma) (biasOf beta) dy dm dv o dx zeros zeros cx (fun _ => scaleOf gamma) (fun _ => biasOf beta)
    vx zeros zeros hx (fun k _ => ⟨rfl, hasDerivAt_const _ _⟩) (fun k _ => ⟨rfl, hasDerivAt_const _ _⟩)
  have hz : ∀ (n : Nat) (m : Mem ℝ), dot n zeros m = 0 := fun n m => by simp [dot, zeros]
  rw [hz, hz, add_zero, add_zero] at this
  exact this

/-- backward reads the statistics only at the channels. -/
theorem backwardX_congr (a : Args) (x : Mem ℝ) (gamma : Option (Mem ℝ)) {m m' v v' : Mem ℝ} (dy : Mem ℝ) (dm dv : Option (Mem ℝ)) (dx : Mem ℝ)
    (hm : ∀ i < a.n1, m i = m' i) (hv : ∀ i < a.n1, v i = v' i) {q : Nat} (hq : q < a.n0 * a.n1 * a.n2) :
    backwardX a x gamma m v dy dm dv false dx q = backwardX a x gamma m' v' dy dm dv false dx q := by
  obtain ⟨i0, i1, i2, k0, k1, k2, rfl⟩ := exists_off hq
  rw [← pos_eq a i1 i0 i2 k2, backwardX_at _ _ _ _ _ _ _ _ _ _ _ _ k1 (idx_lt a k0 k2), backwardX_at _ _ _ _ _ _ _ _ _ _ _ _ k1 (idx_lt a k0 k2)]
  simp only [gradAt, hm i1 k1, hv i1 k1]

theorem backwardX_buf (a : Args) (x : Mem ℝ) (gamma : Option (Mem ℝ)) (m v dy : Mem ℝ) (dm dv : Option (Mem ℝ)) (accum : Bool) (dx dx' : Mem ℝ)
    {q : Nat} (hq : q < a.n0 * a.n1 * a.n2) :
    backwardX a x gamma m v dy dm dv accum dx q = accOf accum (dx q) (backwardX a x gamma m v dy dm dv false dx' q) := by
  obtain ⟨i0, i1, i2, k0, k1, k2, rfl⟩ := exists_off hq
  rw [← pos_eq a i1 i0 i2 k2, backwardX_at _ _ _ _ _ _ _ _ _ _ _ _ k1 (idx_lt a k0 k2), backwardX_at _ _ _ _ _ _ _ _ _ _ _ _ k1 (idx_lt a k0 k2)]
  cases accum <;> simp [accOf]

theorem backwardGamma_buf (a : Args) (x m v dy : Mem ℝ) (accum : Bool) (dg dg' : Mem ℝ) {q : Nat} (hq : q < a.n1) :
    backwardGamma a x m v dy accum dg q = accOf accum (dg q) (backwardGamma a x m v dy false dg' q) := by
  unfold backwardGamma
  rw [(forPut_spec a.n1 (fun i1 => i1) _ dg (fun i j _ _ e => e)).1 q hq, (forPut_spec a.n1 (fun i1 => i1) _ dg' (fun i j _ _ e => e)).1 q hq]
  cases accum
  · simp [accOf]
  · simp only [Bool.false_eq_true, if_false, if_true, accOf]
    rw [BatchNorm.foldl_add, BatchNorm.foldl_add]; ring

theorem backwardBeta_buf (a : Args) (dy : Mem ℝ) (accum : Bool) (db db' : Mem ℝ) {q : Nat} (hq : q < a.n1) :
    backwardBeta a dy accum db q = accOf accum (db q) (backwardBeta a dy false db' q) := by
  unfold backwardBeta
  rw [(forPut_spec a.n1 (fun i1 => i1) _ db (fun i j _ _ e => e)).1 q hq, (forPut_spec a.n1 (fun i1 => i1) _ db' (fun i j _ _ e => e)).1 q hq]
  cases accum
  · simp [accOf]
  · simp only [Bool.false_eq_true, if_false, if_true, accOf]
    rw [BatchNorm.foldl_add, BatchNorm.foldl_add]; ring

theorem backwardGamma_congr (a : Args) (x : Mem ℝ) {m m' v v' : Mem ℝ} (dy dg : Mem ℝ)
    (hm : ∀ i < a.n1, m i = m' i) (hv : ∀ i < a.n1, v i = v' i) {q : Nat} (hq : q < a.n1) :
    backwardGamma a x m v dy false dg q = backwardGamma a x m' v' dy false dg q := by
  unfold backwardGamma
  rw [(forPut_spec a.n1 (fun i1 => i1) _ dg (fun i j _ _ e => e)).1 q hq, (forPut_spec a.n1 (fun i1 => i1) _ dg (fun i j _ _ e => e)).1 q hq]
  simp only [hm q hq, hv q hq]

/-! ### The layout of a set-up tensor normalization -/

/-- Everything the proofs need to know about one of the two ways to use batch normalization: the layouts, how arrays get
there (`fx`, `fp`) and back (the buffers `o0` it starts from). -/
structure Lay (sh : Shape) (axes : List Nat) (pl : Plan) (π πp : List Nat → Nat) (fx fp gx gp : Mem ℝ → Mem ℝ) (o0 : TN → Out) : Prop where
  psh : pl.psh = paramShape sh axes
  ok : Ok pl.args
  view : View sh axes pl.args π
  pview : PView sh axes pl.args π pl.psh πp
  hfx : ∀ x k, InBounds sh k → fx x (π k) = x (ravel sh k)
  hfp : ∀ x k, InBounds pl.psh k → fp x (πp k) = x (ravel pl.psh k)
  hgx : ∀ x k, InBounds sh k → gx x (π k) = x (ravel sh k)
  hgp : ∀ x k, InBounds pl.psh k → gp x (πp k) = x (ravel pl.psh k)
  fwd : ∀ x beta gamma o,
    let R := forwardBatch pl.args (fx x) (beta.map fp) (gamma.map fp) true (o0 o)
    let r := forward pl sh x beta gamma o
    (∀ k, InBounds sh k → r.y (ravel sh k) = R.y (π k)) ∧ (∀ k, InBounds pl.psh k → r.m (ravel pl.psh k) = R.m (πp k)) ∧
    (∀ k, InBounds pl.psh k → r.v (ravel pl.psh k) = R.v (πp k)) ∧ r.bm = R.m ∧ r.bv = R.v
  bwd : ∀ x (gamma : Option (Mem ℝ)) o stat dy dm dv ax ab ag g,
    let bm := if stat then fp o.m else o.bm
    let bv := if stat then fp o.v else o.bv
    let bdm := if stat then some (gp dm) else none
    let bdv := if stat then some (gp dv) else none
    let G := backward pl sh x gamma o stat dy dm dv ax ab ag g
    (∀ k, InBounds sh k → G.dx (ravel sh k) =
      accOf ax (g.dx (ravel sh k)) (backwardX pl.args (fx x) (gamma.map fp) bm bv (gx dy) bdm bdv false zeros (π k))) ∧
    (∀ k, InBounds pl.psh k → G.db (ravel pl.psh k) =
      accOf ab (g.db (ravel pl.psh k)) (backwardBeta pl.args (gx dy) false zeros (πp k))) ∧
    (∀ k, InBounds pl.psh k → G.dg (ravel pl.psh k) =
      accOf ag (g.dg (ravel pl.psh k)) (backwardGamma pl.args (fx x) bm bv (gx dy) false zeros (πp k)))

theorem opt_id (g : Option (Mem ℝ)) : g.map (fun x => x) = g := by cases g <;> rfl

/-- Setup succeeds for distinct axes of a non-empty array, and the function then works on a layout. -/
theorem setup_lay (sh : Shape) (axes : List Nat) (eps : ℝ) (hn : axes.Nodup) (ha : ∀ b ∈ axes, b < sh.length) (hpos : 0 < prod sh) (he : 0 < eps) :
    ∃ pl π πp fx fp gx gp o0, setup sh axes eps = .ok pl ∧ pl.args.eps = eps ∧ Lay sh axes pl π πp fx fp gx gp o0 := by
  have hpp := paramShape_pos ha hpos
  by_cases h1 : axes.length = 1
  · obtain ⟨b, rfl⟩ := List.length_eq_one_iff.1 h1
    have hb : b < sh.length := ha b (by simp)
    refine ⟨_, ravel sh, ravel (paramShape sh [b]), fun x => x, fun x => x, fun x => x, fun x => x, fun o => ⟨o.y, o.m, o.v, zeros, zeros⟩,
      single_setup eps hb hpos, rfl, rfl, ?_, single_view eps hb, single_pview eps hb, fun _ _ _ => rfl, fun _ _ _ => rfl,
      fun _ _ _ => rfl, fun _ _ _ => rfl, ?_, ?_⟩
    · have e : prod sh = prod (sh.take b) * (sh.getD b 0 * prod (sh.drop (b + 1))) := by
        conv_lhs => rw [split_at hb, prod_append]
        rfl
      refine ⟨Nat.pos_of_ne_zero ?_, Nat.pos_of_ne_zero ?_, he⟩ <;> intro e0 <;> simp only at e0 <;> simp [e, e0] at hpos
    · intro x beta gamma o
      simp only [opt_id]
      exact ⟨fun _ _ => rfl, fun _ _ => rfl, fun _ _ => rfl, rfl, rfl⟩
    · intro x gamma o stat dy dm dv ax ab ag g
      simp only [opt_id]
      have hv := single_view (sh := sh) eps hb
      have hp := single_pview (sh := sh) eps hb
      exact ⟨fun k hk => backwardX_buf _ _ _ _ _ _ _ _ _ _ _ (hv.lt hk), fun k hk => backwardBeta_buf _ _ _ _ _ (hp.lt hk),
        fun k hk => backwardGamma_buf _ _ _ _ _ _ _ _ (hp.lt hk)⟩
  · have hp := adapter_perm sh.length axes hn ha
    have hp' : PermAxes (adapterAxes sh.length axes) (paramShape sh axes).length := by rw [(paramShape_spec sh axes ha).1]; exact hp
    refine ⟨_, _, _, tn2bn (adapterAxes sh.length axes) sh, tn2bn (adapterAxes sh.length axes) (paramShape sh axes),
      bn2tnBackward (adapterAxes sh.length axes) sh, bn2tnBackward (adapterAxes sh.length axes) (paramShape sh axes),
      fun _ => ⟨zeros, zeros, zeros, zeros, zeros⟩, adapter_setup eps hn ha hpos h1, rfl, rfl, ?_, adapter_view eps hn ha, adapter_pview eps hn ha,
      fun x k hk => tn2bn_at hp hpos x hk, fun x k hk => tn2bn_at hp' hpp x hk,
      fun x k hk => bn2tn_backward_at hp hpos x hk, fun x k hk => bn2tn_backward_at hp' hpp x hk, ?_, ?_⟩
    · have hprod := transposed_prod (s := sh) hp
      rw [tshape_eq, prod_append] at hprod
      refine ⟨Nat.pos_of_ne_zero ?_, by norm_num, he⟩
      intro e0; simp only at e0; rw [e0, Nat.zero_mul] at hprod; omega
    · intro x beta gamma o
      exact ⟨fun k hk => bn2tn_at hp hpos _ _ hk, fun k hk => bn2tn_at hp' hpp _ _ hk, fun k hk => bn2tn_at hp' hpp _ _ hk, rfl, rfl⟩
    · intro x gamma o stat dy dm dv ax ab ag g
      exact ⟨fun k hk => tr_backward_at hp hpos _ _ _ hk, fun k hk => tr_backward_at hp' hpp _ _ _ hk, fun k hk => tr_backward_at hp' hpp _ _ _ hk⟩

end Verif.Norm
