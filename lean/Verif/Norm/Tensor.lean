/-
C141: tensor normalization (the C++ function all the others are built on).
-/
import Verif.Norm.Core

namespace Verif.Norm
open Verif.Fn Verif.Elem Verif.BatchNorm Verif.ND

/-- **C141, values.** For distinct axes of a non-empty array setup succeeds, and every element is normalised with the mean and
the variance of the elements that agree with it on `axes`, then scaled and shifted with the parameters at its coordinates on
`axes`; the statistics outputs hold that mean and that variance. `group`, `meanOf`, `varOf`, `mask`: Norm/View. -/
theorem C141_forward (sh : Shape) (axes : List Nat) (eps : ℝ) (hn : axes.Nodup) (ha : ∀ b ∈ axes, b < sh.length) (hpos : 0 < prod sh) (he : 0 < eps) :
    ∃ pl, setup sh axes eps = .ok pl ∧ pl.psh = paramShape sh axes ∧
      ∀ (x : Mem ℝ) (beta gamma : Option (Mem ℝ)) (o : TN) (i : List Nat), InBounds sh i →
        let r := forward pl sh x beta gamma o
        let q := ravel (paramShape sh axes) (mask axes i)
        r.y (ravel sh i) = scaleOf gamma q * (x (ravel sh i) - meanOf sh x (group sh axes i)) / √(varOf sh x (group sh axes i) + eps) + biasOf beta q ∧
        r.m q = meanOf sh x (group sh axes i) ∧ r.v q = varOf sh x (group sh axes i) := by
  obtain ⟨pl, π, πp, fx, fp, gx, gp, o0, h1, h2, L⟩ := setup_lay sh axes eps hn ha hpos he
  refine ⟨pl, h1, L.psh, fun x beta gamma o i hi => ?_⟩
  obtain ⟨f1, f2, f3, -, -⟩ := L.fwd x beta gamma o
  obtain ⟨v1, v2, v3⟩ := L.view.forward L.ok (fun k hk => L.hfx x k hk) (beta.map fp) (gamma.map fp) (o0 o) hi
  have hm := L.pview.inb i hi
  have hl := L.pview.link i hi
  have hs : scaleOf (gamma.map fp) (chan pl.args (π i)) = scaleOf gamma (ravel pl.psh (mask axes i)) := by
    cases gamma with
    | none => rfl
    | some g => rw [← hl]; exact L.hfp g _ hm
  have hb : biasOf (beta.map fp) (chan pl.args (π i)) = biasOf beta (ravel pl.psh (mask axes i)) := by
    cases beta with
    | none => rfl
    | some g => rw [← hl]; exact L.hfp g _ hm
  simp only
  rw [← L.psh, f1 i hi, f2 _ hm, f3 _ hm, hl, v1, v2, v3, hs, hb, h2]
  exact ⟨rfl, rfl, rfl⟩

/-- The gradients dm and dv, present only if the statistics are outputs. -/
def optOf (stat : Bool) (m : Mem ℝ) : Option (Mem ℝ) := if stat then some m else none

theorem stats_back {sh axes pl π πp fx fp gx gp o0} (L : Lay sh axes pl π πp fx fp gx gp o0) (x : Mem ℝ) (beta gamma : Option (Mem ℝ)) (o : TN) (stat : Bool) :
    let R := forwardBatch pl.args (fx x) (beta.map fp) (gamma.map fp) true (o0 o)
    let r := forward pl sh x beta gamma o
    (∀ i < pl.args.n1, (if stat then fp r.m else r.bm) i = R.m i) ∧ ∀ i < pl.args.n1, (if stat then fp r.v else r.bv) i = R.v i := by
  intro R r
  obtain ⟨-, f2, f3, f4, f5⟩ := L.fwd x beta gamma o
  constructor
  · intro i hi
    cases stat
    · exact congrFun f4 i
    · obtain ⟨k, hk, rfl⟩ := L.pview.ex hi
      simp only [if_true]
      rw [L.hfp _ k hk]; exact f2 k hk
  · intro i hi
    cases stat
    · exact congrFun f5 i
    · obtain ⟨k, hk, rfl⟩ := L.pview.ex hi
      simp only [if_true]
      rw [L.hfp _ k hk]; exact f3 k hk

/-- The loss of the outputs is the loss of the outputs of the batch normalization. -/
theorem loss_eq {sh axes pl π πp fx fp gx gp o0} (L : Lay sh axes pl π πp fx fp gx gp o0) (x : Mem ℝ) (beta gamma : Option (Mem ℝ)) (o : TN)
    (stat : Bool) (dy dm dv : Mem ℝ) :
    let R := forwardBatch pl.args (fx x) (beta.map fp) (gamma.map fp) true (o0 o)
    let r := forward pl sh x beta gamma o
    loss (prod sh) (prod pl.psh) dy (optOf stat dm) (optOf stat dv) r.y r.m r.v =
      loss (pl.args.n0 * pl.args.n1 * pl.args.n2) pl.args.n1 (gx dy) (optOf stat (gp dm)) (optOf stat (gp dv)) R.y R.m R.v := by
  intro R r
  obtain ⟨f1, f2, f3, -, -⟩ := L.fwd x beta gamma o
  unfold loss dot
  symm
  congr 1
  · exact L.view.transport fun k hk => by rw [L.hgx _ k hk, ← f1 k hk]
  · refine L.pview.transport fun k hk => ?_
    cases stat
    · simp [optOf, biasOf]
    · simp only [optOf, if_true, biasOf]
      rw [L.hgp _ k hk, L.hgp _ k hk]
      have e2 := f2 k hk
      have e3 := f3 k hk
      rw [← e2, ← e3]

/-- **C141, gradients.** Backward computes the gradient of the loss with respect to x and to whichever of gamma and beta are
inputs, through the mean and the variance, and, if the statistics are outputs, through those outputs too. -/
theorem C141_grad (sh : Shape) (axes : List Nat) (eps : ℝ) (hn : axes.Nodup) (ha : ∀ b ∈ axes, b < sh.length) (hpos : 0 < prod sh) (he : 0 < eps) :
    ∃ pl, setup sh axes eps = .ok pl ∧ pl.psh = paramShape sh axes ∧
      ∀ (hasScale hasBias : Bool) (x beta gamma dy dm dv : Mem ℝ) (stat : Bool) (o : TN) (g : Grads),
        let G := backward pl sh x (given hasScale gamma) (forward pl sh x (given hasBias beta) (given hasScale gamma) o) stat dy dm dv false false false g
        IsGradO (prod sh) (prod pl.psh) (prod pl.psh) hasScale hasBias
          (fun x gamma beta => let r := forward pl sh x beta gamma o
            loss (prod sh) (prod pl.psh) dy (optOf stat dm) (optOf stat dv) r.y r.m r.v)
          x gamma beta G.dx G.dg G.db := by
  obtain ⟨pl, π, πp, fx, fp, gx, gp, o0, h1, h2, L⟩ := setup_lay sh axes eps hn ha hpos he
  refine ⟨pl, h1, L.psh, fun hs hb' x beta gamma dy dm dv stat o g => ?_⟩
  intro G cx cg cb vx vg vb hx hg hb
  let R := forwardBatch pl.args (fx x) ((given hb' beta).map fp) ((given hs gamma).map fp) true (o0 o)
  obtain ⟨b1, b2, b3⟩ := L.bwd x (given hs gamma) (forward pl sh x (given hb' beta) (given hs gamma) o) stat dy dm dv false false false g
  obtain ⟨s1, s2⟩ := stats_back L x (given hb' beta) (given hs gamma) o stat
  have key := c106_backward pl.args L.ok (fx x) (scaleOf ((given hs gamma).map fp)) (biasOf ((given hb' beta).map fp)) (gx dy)
    (optOf stat (gp dm)) (optOf stat (gp dv)) (o0 o) zeros zeros zeros
    (fun t => fx (cx t)) (fun t => scaleOf ((given hs (cg t)).map fp)) (fun t => biasOf ((given hb' (cb t)).map fp)) (fx vx)
    (if hs then fp vg else zeros) (if hb' then fp vb else zeros)
    (fun q hq => by
      obtain ⟨k, hk, rfl⟩ := L.view.ex hq
      simp only [L.hfx _ k hk]
      exact hx _ (ravel_lt hk))
    (fun q hq => by
      cases hs
      · exact ⟨rfl, hasDerivAt_const _ _⟩
      · obtain ⟨k, hk, rfl⟩ := L.pview.ex hq
        simp only [given, if_true, Option.map_some, scaleOf, L.hfp _ k hk]
        exact hg _ (ravel_lt hk))
    (fun q hq => by
      cases hb'
      · exact ⟨rfl, hasDerivAt_const _ _⟩
      · obtain ⟨k, hk, rfl⟩ := L.pview.ex hq
        simp only [given, if_true, Option.map_some, biasOf, L.hfp _ k hk]
        exact hb _ (ravel_lt hk))
  have e : ∀ t, (let r := forward pl sh (cx t) (given hb' (cb t)) (given hs (cg t)) o
      loss (prod sh) (prod pl.psh) dy (optOf stat dm) (optOf stat dv) r.y r.m r.v) = _ := fun t => loss_eq L (cx t) (given hb' (cb t)) (given hs (cg t)) o stat dy dm dv
  simp only at e
  simp only [e]
  refine HasDerivAt.congr_deriv key ?_
  have d1 : dot (pl.args.n0 * pl.args.n1 * pl.args.n2) (fx vx) (backwardX pl.args (fx x) ((given hs gamma).map fp) R.m R.v (gx dy) (optOf stat (gp dm)) (optOf stat (gp dv)) false zeros) =
      dot (prod sh) vx G.dx := by
    unfold dot
    refine L.view.transport fun k hk => ?_
    rw [L.hfx _ k hk, b1 k hk]
    congr 1
    exact (backwardX_congr pl.args (fx x) _ (gx dy) _ _ zeros s1 s2 (L.view.lt hk)).symm
  have d2 : dot pl.args.n1 (fp vg) (backwardGamma pl.args (fx x) R.m R.v (gx dy) false zeros) = dot (prod pl.psh) vg G.dg := by
    unfold dot
    refine L.pview.transport fun k hk => ?_
    rw [L.hfp _ k hk, b3 k hk]
    congr 1
    exact (backwardGamma_congr pl.args (fx x) (gx dy) zeros s1 s2 (L.pview.lt hk)).symm
  have d3 : dot pl.args.n1 (fp vb) (backwardBeta pl.args (gx dy) false zeros) = dot (prod pl.psh) vb G.db := by
    unfold dot
    refine L.pview.transport fun k hk => ?_
    rw [L.hfp _ k hk, b2 k hk]
    rfl
  have hz : ∀ (n : Nat) (m : Mem ℝ), dot n zeros m = 0 := fun n m => by simp [dot, zeros]
  rw [← d1, ← d2, ← d3]
  cases hs <;> cases hb' <;> simp only [Bool.false_eq_true, if_false, if_true, hz] <;> rfl

/-- **C141, gradient of x**, also when there is no scale or no bias. -/
theorem C141_gradX (sh : Shape) (axes : List Nat) (eps : ℝ) (hn : axes.Nodup) (ha : ∀ b ∈ axes, b < sh.length) (hpos : 0 < prod sh) (he : 0 < eps) :
    ∃ pl, setup sh axes eps = .ok pl ∧ pl.psh = paramShape sh axes ∧
      ∀ (x dy dm dv : Mem ℝ) (beta gamma : Option (Mem ℝ)) (stat ab ag : Bool) (o : TN) (g : Grads),
        let G := backward pl sh x gamma (forward pl sh x beta gamma o) stat dy dm dv false ab ag g
        IsGradX (prod sh)
          (fun x => let r := forward pl sh x beta gamma o
            loss (prod sh) (prod pl.psh) dy (optOf stat dm) (optOf stat dv) r.y r.m r.v)
          x G.dx := by
  obtain ⟨pl, π, πp, fx, fp, gx, gp, o0, h1, h2, L⟩ := setup_lay sh axes eps hn ha hpos he
  refine ⟨pl, h1, L.psh, fun x dy dm dv beta gamma stat ab ag o g => ?_⟩
  intro G cx vx hx
  obtain ⟨b1, -, -⟩ := L.bwd x gamma (forward pl sh x beta gamma o) stat dy dm dv false ab ag g
  obtain ⟨s1, s2⟩ := stats_back L x beta gamma o stat
  have key := bn_gradX pl.args L.ok (fx x) (gx dy) (beta.map fp) (gamma.map fp) (optOf stat (gp dm)) (optOf stat (gp dv)) (o0 o) zeros
    (fun t => fx (cx t)) (fx vx)
    (fun q hq => by
      obtain ⟨k, hk, rfl⟩ := L.view.ex hq
      simp only [L.hfx _ k hk]
      exact hx _ (ravel_lt hk))
  have e : ∀ t, (let r := forward pl sh (cx t) beta gamma o
      loss (prod sh) (prod pl.psh) dy (optOf stat dm) (optOf stat dv) r.y r.m r.v) = _ := fun t => loss_eq L (cx t) beta gamma o stat dy dm dv
  simp only at e
  simp only [e]
  refine key.congr_deriv ?_
  unfold dot
  refine L.view.transport fun k hk => ?_
  rw [L.hfx _ k hk, b1 k hk]
  congr 1
  exact (backwardX_congr pl.args (fx x) _ (gx dy) _ _ zeros s1 s2 (L.view.lt hk)).symm

/-- **C141, accumulation.** With `accum` a gradient is added to what the buffer held. -/
theorem C141_accum (sh : Shape) (axes : List Nat) (eps : ℝ) (hn : axes.Nodup) (ha : ∀ b ∈ axes, b < sh.length) (hpos : 0 < prod sh) (he : 0 < eps) :
    ∃ pl, setup sh axes eps = .ok pl ∧ pl.psh = paramShape sh axes ∧
      ∀ (x dy dm dv : Mem ℝ) (gamma : Option (Mem ℝ)) (stat ax ab ag : Bool) (o : TN) (g g' : Grads),
        let G := backward pl sh x gamma o stat dy dm dv ax ab ag g
        let G' := backward pl sh x gamma o stat dy dm dv false false false g'
        (∀ q < prod sh, G.dx q = if ax then g.dx q + G'.dx q else G'.dx q) ∧
        (∀ q < prod pl.psh, G.db q = if ab then g.db q + G'.db q else G'.db q) ∧
        ∀ q < prod pl.psh, G.dg q = if ag then g.dg q + G'.dg q else G'.dg q := by
  obtain ⟨pl, π, πp, fx, fp, gx, gp, o0, h1, h2, L⟩ := setup_lay sh axes eps hn ha hpos he
  refine ⟨pl, h1, L.psh, fun x dy dm dv gamma stat ax ab ag o g g' => ?_⟩
  obtain ⟨b1, b2, b3⟩ := L.bwd x gamma o stat dy dm dv ax ab ag g
  obtain ⟨c1, c2, c3⟩ := L.bwd x gamma o stat dy dm dv false false false g'
  refine ⟨fun q hq => ?_, fun q hq => ?_, fun q hq => ?_⟩
  · obtain ⟨k, hk, rfl⟩ := exists_ravel _ _ hq
    show _ = ite _ _ _
    rw [b1 k hk, c1 k hk]; rfl
  · obtain ⟨k, hk, rfl⟩ := exists_ravel _ _ hq
    show _ = ite _ _ _
    rw [b2 k hk, c2 k hk]; rfl
  · obtain ⟨k, hk, rfl⟩ := exists_ravel _ _ hq
    show _ = ite _ _ _
    rw [b3 k hk, c3 k hk]; rfl

/-- Shape (2,3,2), axes 2 and 0: element (1,2,0) is normalised with the three elements (1,_,0). -/
example : (([2, 0] : List Nat).Nodup ∧ ∀ b ∈ [2, 0], b < [2, 3, 2].length) ∧ paramShape [2, 3, 2] [2, 0] = [2, 1, 2] ∧
    group [2, 3, 2] [2, 0] [1, 2, 0] = [[1, 0, 0], [1, 1, 0], [1, 2, 0]] ∧ mask [2, 0] [1, 2, 0] = [1, 0, 0] := by
  decide

end Verif.Norm
