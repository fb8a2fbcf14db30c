/-
C142: layer normalization (src/nbla/function/generic/layer_normalization.cpp, "cpp").
-/
import Verif.Norm.Affine

namespace Verif.Norm
open Verif.Fn Verif.Elem Verif.BatchNorm Verif.ND

/-! ### Model -/

/-- What layer normalization's setup fixes: the tensor normalization and the shape of gamma and beta. -/
structure LPlan where
  pl : Plan
  psh : Shape

/-- cpp:52-55: the shape of x with 1 on the batch axes. -/
def layerParamShape (sh : Shape) (axes : List Nat) : Shape := axes.foldl (fun s a => s.set a 1) sh

/-- cpp:42-113 setup_shapes and setup_functions; `bsh`, `gsh`: the shapes of beta and gamma, if they are inputs. -/
def layerSetup (sh : Shape) (batchAxis : List Int) (eps : ℝ) (bsh gsh : Option Shape) : Except String LPlan :=
  match refineAxes sh.length batchAxis with
  | .error e => .error e
  | .ok r =>
    let axes := r.map Int.toNat
    let psh := layerParamShape sh axes
    if bsh.getD psh ≠ psh then .error "Shape of beta(inputs[1]) does not match."
    else if gsh.getD psh ≠ psh then .error "Shape of gamma(inputs[1]) does not match."
    else match setup sh axes eps with
      | .error e => .error e
      | .ok pl => .ok ⟨pl, psh⟩

/-- cpp:117-137 forward_impl. -/
noncomputable def layerForward (lp : LPlan) (sh : Shape) (x : Mem ℝ) (beta gamma : Option (Mem ℝ)) (o : TN) : TN :=
  let r := forward lp.pl sh x none none o
  { r with y := affineForward sh lp.psh gamma beta r.y }

/-- cpp:139-206 backward_impl, all of propagate_down set. With a scale the tensor normalization is run again, into a new buffer
for y (cpp:171-178); otherwise the normalised values (restored with Sub2) are not read by any gradient. -/
noncomputable def layerBackward (lp : LPlan) (sh : Shape) (x : Mem ℝ) (beta gamma : Option (Mem ℝ)) (o : TN) (stat : Bool)
    (dy dm dv : Mem ℝ) (ax ab ag : Bool) (g : Grads) : Grads :=
  let r := match gamma with
    | some _ => forward lp.pl sh x none none { o with y := zeros }
    | none => o
  let d := affineBackward sh lp.psh gamma beta r.y dy ab ag g.db g.dg
  { dx := (backward lp.pl sh x none r stat d.1 dm dv ax false false ⟨g.dx, zeros, zeros⟩).dx, db := d.2.1, dg := d.2.2 }

/-! ### Proofs -/

theorem pos_of_prod {sh : Shape} (h : 0 < prod sh) : ∀ d ∈ sh, 0 < d := by
  induction sh with
  | nil => simp
  | cons d s ih =>
    simp only [prod] at h
    intro e he
    rcases List.mem_cons.1 he with rfl | he
    · exact Nat.pos_of_mul_pos_right h
    · exact ih (Nat.pos_of_mul_pos_left h) e he

theorem layerParamShape_spec (sh : Shape) (axes : List Nat) (ha : ∀ b ∈ axes, b < sh.length) :
    (layerParamShape sh axes).length = sh.length ∧ ∀ i, (layerParamShape sh axes).getD i 0 = if i ∈ axes then 1 else sh.getD i 0 := by
  unfold layerParamShape
  induction axes using List.reverseRecOn with
  | nil => simp
  | append_singleton l a ih =>
    rw [List.foldl_append]
    simp only [List.foldl_cons, List.foldl_nil]
    obtain ⟨h1, h2⟩ := ih fun b hb => ha b (by simp [hb])
    refine ⟨by rw [List.length_set, h1], fun i => ?_⟩
    rw [getD_set _ _ _ _ (by rw [h1]; exact ha a (by simp)), h2]
    by_cases e : i = a
    · simp [e]
    · simp [e]

theorem fits_of (sh psh : Shape) (hpos : 0 < prod sh) (hl : psh.length = sh.length) (h : ∀ i < sh.length, psh.getD i 0 = 1 ∨ psh.getD i 0 = sh.getD i 0) :
    Fits sh psh := by
  refine ql_binarySetup sh psh hl.symm ?_ (pos_of_prod hpos)
  rw [List.all_eq_true]
  intro p hp
  obtain ⟨i, hi, rfl⟩ := List.mem_iff_getElem.1 hp
  have hi' : i < sh.length := by rw [List.length_zip] at hi; omega
  have := h i hi'
  rw [List.getD_eq_getElem _ _ hi', List.getD_eq_getElem _ _ (by omega)] at this
  simp only [List.getElem_zip, Bool.or_eq_true, beq_iff_eq]
  exact this

theorem layer_fits (sh : Shape) (axes : List Nat) (ha : ∀ b ∈ axes, b < sh.length) (hpos : 0 < prod sh) : Fits sh (layerParamShape sh axes) := by
  obtain ⟨h1, h2⟩ := layerParamShape_spec sh axes ha
  refine fits_of sh _ hpos h1 fun i _ => ?_
  rw [h2]
  by_cases e : i ∈ axes <;> simp [e]

/-- Everything about tensor normalization without scale and bias that the derived functions need. -/
structure Core (sh : Shape) (axes : List Nat) (eps : ℝ) (pl : Plan) : Prop where
  setup : setup sh axes eps = .ok pl
  psh : pl.psh = paramShape sh axes
  fwd : ∀ (x : Mem ℝ) (o : TN) (i : List Nat), InBounds sh i →
    let r := forward pl sh x none none o
    let q := ravel (paramShape sh axes) (mask axes i)
    r.y (ravel sh i) = (x (ravel sh i) - meanOf sh x (group sh axes i)) / √(varOf sh x (group sh axes i) + eps) ∧
    r.m q = meanOf sh x (group sh axes i) ∧ r.v q = varOf sh x (group sh axes i)
  grad : ∀ (x dy dm dv : Mem ℝ) (stat ab ag : Bool) (o : TN) (g : Grads),
    IsGradX (prod sh) (fun x => let r := forward pl sh x none none o
      loss (prod sh) (prod pl.psh) dy (optOf stat dm) (optOf stat dv) r.y r.m r.v) x
      (backward pl sh x none (forward pl sh x none none o) stat dy dm dv false ab ag g).dx
  acc : ∀ (x dy dm dv : Mem ℝ) (stat ax ab ag : Bool) (o : TN) (g g' : Grads) (q : Nat), q < prod sh →
    (backward pl sh x none o stat dy dm dv ax ab ag g).dx q =
      if ax then g.dx q + (backward pl sh x none o stat dy dm dv false false false g').dx q
      else (backward pl sh x none o stat dy dm dv false false false g').dx q
  ok : pl.psh = paramShape sh axes

theorem core (sh : Shape) (axes : List Nat) (eps : ℝ) (hn : axes.Nodup) (ha : ∀ b ∈ axes, b < sh.length) (hpos : 0 < prod sh) (he : 0 < eps) :
    ∃ pl, Core sh axes eps pl := by
  obtain ⟨pl, e1, p1, f⟩ := C141_forward sh axes eps hn ha hpos he
  obtain ⟨pl', e2, -, gr⟩ := C141_gradX sh axes eps hn ha hpos he
  obtain ⟨pl'', e3, -, ac⟩ := C141_accum sh axes eps hn ha hpos he
  obtain rfl : pl' = pl := by rw [e1] at e2; exact (Except.ok.inj e2).symm
  obtain rfl : pl'' = pl' := by rw [e1] at e3; exact (Except.ok.inj e3).symm
  refine ⟨pl'', e1, p1, fun x o i hi => ?_, fun x dy dm dv stat ab ag o g => ?_, fun x dy dm dv stat ax ab ag o g g' q hq => ?_, p1⟩
  · have := f x none none o i hi
    simpa [scaleOf, biasOf] using this
  · exact gr x dy dm dv none none stat ab ag o g
  · exact (ac x dy dm dv none stat ax ab ag o g g').1 q hq

/-- Backward does not read the data of y. -/
theorem backward_y (pl : Plan) (sh : Shape) (x : Mem ℝ) (o : TN) (y : Mem ℝ) (stat : Bool) (dy dm dv : Mem ℝ) (ax ab ag : Bool) (g : Grads) :
    backward pl sh x none { o with y := y } stat dy dm dv ax ab ag g = backward pl sh x none o stat dy dm dv ax ab ag g := by
  unfold backward; cases pl.adapter <;> rfl

/-- The loss splits in the part of y and the part of the statistics. -/
noncomputable def statLoss (p : Nat) (dm dv : Option (Mem ℝ)) (m v : Mem ℝ) : ℝ := ∑ q ∈ Finset.range p, (biasOf dm q * m q + biasOf dv q * v q)

theorem loss_split (n p : Nat) (dy : Mem ℝ) (dm dv : Option (Mem ℝ)) (y m v : Mem ℝ) : loss n p dy dm dv y m v = dot n dy y + statLoss p dm dv m v := rfl

/-- Every element of the statistics belongs to an element of x. -/
theorem param_ex {sh : Shape} {axes : List Nat} (ha : ∀ b ∈ axes, b < sh.length) (hpos : 0 < prod sh) {q : Nat} (hq : q < prod (paramShape sh axes)) :
    ∃ i, InBounds sh i ∧ ravel (paramShape sh axes) (mask axes i) = q := by
  obtain ⟨k, hk, rfl⟩ := exists_ravel _ _ hq
  obtain ⟨l1, l2⟩ := paramShape_spec sh axes ha
  have hkl := hk.length
  have hb := (inBounds_iff _ _).1 hk
  refine ⟨k, (inBounds_iff _ _).2 ⟨by omega, fun i hi => ?_⟩, ?_⟩
  · have := hb.2 i (by omega)
    rw [l2 i hi] at this
    by_cases e : i ∈ axes
    · rwa [if_pos e] at this
    · rw [if_neg e] at this
      have h0 : 0 < sh.getD i 0 := by
        rw [List.getD_eq_getElem _ _ hi]; exact pos_of_prod hpos _ (List.getElem_mem _)
      omega
  · congr 1
    refine List.ext_getElem (by rw [mask_length]) fun i h1 h2 => ?_
    rw [← List.getD_eq_getElem _ 0 h1, ← List.getD_eq_getElem _ 0 h2, mask_getD _ _ _ h2]
    by_cases e : i ∈ axes
    · rw [if_pos e]
    · rw [if_neg e]
      have := hb.2 i (by omega)
      rw [l2 i (by omega), if_neg e] at this
      omega

/-- The outputs do not depend on what their buffers held. -/
theorem Core.indep {sh : Shape} {axes : List Nat} {eps : ℝ} {pl : Plan} (c : Core sh axes eps pl) (ha : ∀ b ∈ axes, b < sh.length) (hpos : 0 < prod sh)
    (x : Mem ℝ) (o o' : TN) :
    (∀ q < prod sh, (forward pl sh x none none o).y q = (forward pl sh x none none o').y q) ∧
    (∀ q < prod pl.psh, (forward pl sh x none none o).m q = (forward pl sh x none none o').m q) ∧
    ∀ q < prod pl.psh, (forward pl sh x none none o).v q = (forward pl sh x none none o').v q := by
  rw [c.psh]
  refine ⟨fun q hq => ?_, fun q hq => ?_, fun q hq => ?_⟩
  · obtain ⟨i, hi, rfl⟩ := exists_ravel _ _ hq
    exact (c.fwd x o i hi).1.trans (c.fwd x o' i hi).1.symm
  · obtain ⟨i, hi, rfl⟩ := param_ex ha hpos hq
    exact (c.fwd x o i hi).2.1.trans (c.fwd x o' i hi).2.1.symm
  · obtain ⟨i, hi, rfl⟩ := param_ex ha hpos hq
    exact (c.fwd x o i hi).2.2.trans (c.fwd x o' i hi).2.2.symm

/-- Normalization followed by the affine part: the gradient. `r` is the state backward works with. -/
theorem affine_norm_grad {sh : Shape} {axes : List Nat} {eps : ℝ} {pl : Plan} (c : Core sh axes eps pl) (ha : ∀ b ∈ axes, b < sh.length) (hpos : 0 < prod sh)
    {shx psh : Shape} (hsz : prod shx = prod sh) (hf : Fits shx psh) (hasScale hasBias : Bool) (x gamma beta dy dm dv : Mem ℝ) (stat ab ag : Bool) (o o' : TN) (g : Grads) (db dg : Mem ℝ) (u : Mem ℝ)
    (hu : hasScale = true → ∀ q < prod sh, u q = (forward pl sh x none none o).y q) :
    let d := affineBackward shx psh (given hasScale gamma) (given hasBias beta) u dy false false db dg
    IsGradO (prod sh) (prod psh) (prod psh) hasScale hasBias
      (fun x gamma beta => let r := forward pl sh x none none o
        loss (prod sh) (prod pl.psh) dy (optOf stat dm) (optOf stat dv) (affineForward shx psh gamma beta r.y) r.m r.v)
      x gamma beta (backward pl sh x none (forward pl sh x none none o') stat d.1 dm dv false ab ag g).dx d.2.2 d.2.1 := by
  intro d cx cg cb vx vg vb hx hg hb
  have hF : ∀ dy, IsGradX (prod sh) (fun x => dot (prod sh) dy (forward pl sh x none none o).y +
      statLoss (prod pl.psh) (optOf stat dm) (optOf stat dv) (forward pl sh x none none o).m (forward pl sh x none none o).v) x
      (backward pl sh x none (forward pl sh x none none o') stat dy dm dv false ab ag g).dx := by
    intro dy
    have h1 := c.grad x dy dm dv stat ab ag o' g
    simp only [loss_split] at h1
    have e : ∀ x, dot (prod sh) dy (forward pl sh x none none o).y + statLoss (prod pl.psh) (optOf stat dm) (optOf stat dv) (forward pl sh x none none o).m (forward pl sh x none none o).v =
        dot (prod sh) dy (forward pl sh x none none o').y + statLoss (prod pl.psh) (optOf stat dm) (optOf stat dv) (forward pl sh x none none o').m (forward pl sh x none none o').v := by
      intro x
      obtain ⟨i1, i2, i3⟩ := c.indep ha hpos x o o'
      congr 1
      · exact dot_congr fun i hi => by rw [i1 i hi]
      · exact Finset.sum_congr rfl fun q hq => by rw [i2 q (Finset.mem_range.1 hq), i3 q (Finset.mem_range.1 hq)]
    simp only [e]
    exact h1
  have key := compose_grad (prod sh) (fun x => (forward pl sh x none none o).y)
    (fun x => statLoss (prod pl.psh) (optOf stat dm) (optOf stat dv) (forward pl sh x none none o).m (forward pl sh x none none o).v) x
    (fun dy => (backward pl sh x none (forward pl sh x none none o') stat dy dm dv false ab ag g).dx) hF cx vx hx
    (fun t u => dot (prod sh) dy (affineForward shx psh (given hasScale (cg t)) (given hasBias (cb t)) u)) d.1
    ((if hasScale then dot (prod psh) vg d.2.2 else 0) + (if hasBias then dot (prod psh) vb d.2.1 else 0))
    (fun vu hvu => by
      have := affine_vjp hf hasScale hasBias u gamma beta dy db dg (fun t => if hasScale then (forward pl sh (cx t) none none o).y else
          fun q => (forward pl sh (cx t) none none o).y q - (forward pl sh (cx 0) none none o).y q + u q) cg cb vu vg vb
        (fun k hk => by
          cases hasScale
          · simp only [Bool.false_eq_true, if_false]
            refine ⟨by ring, ((hvu k (by omega)).sub_const _).add_const _⟩
          · simp only [if_true]
            refine ⟨?_, hvu k (by omega)⟩
            rw [hu rfl k (by omega)]
            have ex : ∀ i, InBounds sh i → cx 0 (ravel sh i) = x (ravel sh i) := fun i hi => (hx _ (ravel_lt hi)).1
            obtain ⟨i, hi, rfl⟩ := exists_ravel sh k (by omega)
            rw [(c.fwd (cx 0) o i hi).1, (c.fwd x o i hi).1]
            have gm : ∀ ks : List (List Nat), (∀ k ∈ ks, InBounds sh k) → (ks.map fun k => cx 0 (ravel sh k)) = ks.map fun k => x (ravel sh k) :=
              fun ks h => List.map_congr_left fun k hk => ex k (h k hk)
            have hin : ∀ k ∈ group sh axes i, InBounds sh k := fun k hk => (mem_indices _ _).1 (List.mem_of_mem_filter hk)
            have em : meanOf sh (cx 0) (group sh axes i) = meanOf sh x (group sh axes i) := by unfold meanOf; rw [gm _ hin]
            have ev : varOf sh (cx 0) (group sh axes i) = varOf sh x (group sh axes i) := by
              unfold varOf; rw [em]; congr 2
              exact List.map_congr_left fun k hk => by rw [ex k (hin k hk)]
            rw [em, ev, ex i hi]) hg hb
      simp only [hsz] at this
      rw [add_assoc] at this
      refine (this.sub_const (if hasScale then 0 else dot (prod sh) dy (fun q => u q - (forward pl sh (cx 0) none none o).y q))).congr_of_eventuallyEq
        (Filter.Eventually.of_forall fun t => ?_)
      cases hasScale
      · simp only [Bool.false_eq_true, if_false, given]
        have aff : ∀ (w : Mem ℝ) (k : Nat), k < prod sh → ∀ b : Option (Mem ℝ), affineForward shx psh none b w k = w k + biasOf b (binaryOff shx psh true k) := by
          intro w k hk b
          obtain ⟨i, hi, rfl⟩ := exists_ravel shx k (by omega)
          rw [affine_at hf none b w hi, (binaryOff_at hf hi).2.1]
          simp [scaleOf]
        unfold dot
        rw [← Finset.sum_sub_distrib]
        refine Finset.sum_congr rfl fun k hk => ?_
        rw [aff _ k (Finset.mem_range.1 hk), aff _ k (Finset.mem_range.1 hk)]
        ring
      · simp)
  refine (key.congr_deriv (by rw [add_assoc])).congr_of_eventuallyEq (Filter.Eventually.of_forall fun t => ?_)
  rfl

/-- `batchAxis`, with negative axes counted from the end, is `axes`. -/
def AxesAre (ndim : Nat) (batchAxis : List Int) (axes : List Nat) : Prop :=
  batchAxis.map (fun a => if a < 0 then (ndim : Int) + a else a) = axes.map (fun a : Nat => (a : Int))

theorem refine_axesAre {ndim : Nat} {b : List Int} {axes : List Nat} (h : AxesAre ndim b axes) (ha : ∀ a ∈ axes, a < ndim) :
    ∃ r, refineAxes ndim b = .ok r ∧ r.map Int.toNat = axes := by
  have hb : ∀ a ∈ b, -(ndim : Int) ≤ a ∧ a < ndim := by
    intro a hab
    have : (if a < 0 then (ndim : Int) + a else a) ∈ axes.map (fun a : Nat => (a : Int)) := by
      rw [← h]; exact List.mem_map_of_mem hab
    obtain ⟨c, hc, e⟩ := List.mem_map.1 this
    have := ha c hc
    split at e <;> omega
  refine ⟨_, refineAxes_ok b ndim hb, ?_⟩
  rw [show (b.map fun a => if a < 0 then (ndim : Int) + a else a) = axes.map (fun a : Nat => (a : Int)) from h, List.map_map]
  simp [Function.comp_def]

/-- Setup, and what it fixes. -/
theorem layer_setup (sh : Shape) (batchAxis : List Int) (axes : List Nat) (eps : ℝ) (hb : AxesAre sh.length batchAxis axes)
    (hn : axes.Nodup) (ha : ∀ b ∈ axes, b < sh.length) (hpos : 0 < prod sh) (he : 0 < eps) (bsh gsh : Option Shape)
    (h1 : bsh.getD (layerParamShape sh axes) = layerParamShape sh axes) (h2 : gsh.getD (layerParamShape sh axes) = layerParamShape sh axes) :
    ∃ lp, layerSetup sh batchAxis eps bsh gsh = .ok lp ∧ lp.psh = layerParamShape sh axes ∧ Core sh axes eps lp.pl := by
  obtain ⟨pl, c⟩ := core sh axes eps hn ha hpos he
  obtain ⟨r, e1, e2⟩ := refine_axesAre hb ha
  refine ⟨⟨pl, layerParamShape sh axes⟩, ?_, rfl, c⟩
  simp only [layerSetup, e1, e2]
  rw [if_neg (by rw [h1]; simp), if_neg (by rw [h2]; simp), c.setup]

/-- **C142, shapes.** For distinct valid batch axes (negative ones count from the end) of a non-empty array, layer normalization
accepts exactly the parameters whose shape is that of x with 1 on the batch axes. -/
theorem C142_setup (sh : Shape) (batchAxis : List Int) (axes : List Nat) (eps : ℝ) (hb : AxesAre sh.length batchAxis axes)
    (hn : axes.Nodup) (ha : ∀ b ∈ axes, b < sh.length) (hpos : 0 < prod sh) (he : 0 < eps) (bsh gsh : Option Shape) :
    (∃ lp, layerSetup sh batchAxis eps bsh gsh = .ok lp) ↔
      ∀ s, bsh = some s ∨ gsh = some s → s.length = sh.length ∧ ∀ i, s.getD i 0 = if i ∈ axes then 1 else sh.getD i 0 := by
  obtain ⟨l1, l2⟩ := layerParamShape_spec sh axes ha
  have key : ∀ s : Shape, (s.length = sh.length ∧ ∀ i, s.getD i 0 = if i ∈ axes then 1 else sh.getD i 0) ↔ s = layerParamShape sh axes := by
    intro s
    constructor
    · rintro ⟨h1, h2⟩
      refine List.ext_getElem (by omega) fun i h3 h4 => ?_
      rw [← List.getD_eq_getElem _ 0 h3, ← List.getD_eq_getElem _ 0 h4, h2, l2]
    · rintro rfl; exact ⟨l1, l2⟩
  simp only [key]
  constructor
  · rintro ⟨lp, h⟩ s hs
    obtain ⟨r, e1, e2⟩ := refine_axesAre hb ha
    simp only [layerSetup, e1, e2] at h
    by_cases c1 : bsh.getD (layerParamShape sh axes) ≠ layerParamShape sh axes
    · rw [if_pos c1] at h; cases h
    rw [if_neg c1] at h
    by_cases c2 : gsh.getD (layerParamShape sh axes) ≠ layerParamShape sh axes
    · rw [if_pos c2] at h; cases h
    rcases hs with rfl | rfl
    · simpa using c1
    · simpa using c2
  · intro h
    obtain ⟨lp, e, -⟩ := layer_setup sh batchAxis axes eps hb hn ha hpos he bsh gsh
      (by cases bsh with
        | none => rfl
        | some s => exact h s (Or.inl rfl))
      (by cases gsh with
        | none => rfl
        | some s => exact h s (Or.inr rfl))
    exact ⟨lp, e⟩

/-- **C142, values.** Every element is normalised with the mean and the variance of the elements of its sample (those with the
same coordinates on the batch axes), then scaled and shifted by the parameters at its other coordinates; the statistics outputs
hold that mean and variance. -/
theorem C142_forward (sh : Shape) (batchAxis : List Int) (axes : List Nat) (eps : ℝ) (hb : AxesAre sh.length batchAxis axes)
    (hn : axes.Nodup) (ha : ∀ b ∈ axes, b < sh.length) (hpos : 0 < prod sh) (he : 0 < eps) (bsh gsh : Option Shape) (lp : LPlan)
    (hs : layerSetup sh batchAxis eps bsh gsh = .ok lp) (x : Mem ℝ) (beta gamma : Option (Mem ℝ)) (o : TN) (i : List Nat) (hi : InBounds sh i) :
    let r := layerForward lp sh x beta gamma o
    let q := ravel lp.psh (bcast lp.psh i)
    r.y (ravel sh i) = scaleOf gamma q * ((x (ravel sh i) - meanOf sh x (group sh axes i)) / √(varOf sh x (group sh axes i) + eps)) + biasOf beta q ∧
    r.m (ravel (paramShape sh axes) (mask axes i)) = meanOf sh x (group sh axes i) ∧
    r.v (ravel (paramShape sh axes) (mask axes i)) = varOf sh x (group sh axes i) := by
  obtain ⟨lp', e, e2, c⟩ := layer_setup sh batchAxis axes eps hb hn ha hpos he none none rfl rfl
  have : lp = lp' := by
    obtain ⟨r, e1, e3⟩ := refine_axesAre hb ha
    simp only [layerSetup, e1, e3] at hs e
    by_cases c1 : bsh.getD (layerParamShape sh axes) ≠ layerParamShape sh axes
    · rw [if_pos c1] at hs; cases hs
    rw [if_neg c1] at hs
    by_cases c2 : gsh.getD (layerParamShape sh axes) ≠ layerParamShape sh axes
    · rw [if_pos c2] at hs; cases hs
    rw [if_neg c2] at hs
    simp only [Option.getD_none, ne_eq, not_true_eq_false, if_false] at e
    rw [hs] at e
    exact Except.ok.inj e
  subst this
  obtain ⟨f1, f2, f3⟩ := c.fwd x o i hi
  refine ⟨?_, f2, f3⟩
  have hf : Fits sh lp.psh := by rw [e2]; exact layer_fits sh axes ha hpos
  show affineForward sh lp.psh gamma beta _ (ravel sh i) = _
  rw [affine_at hf gamma beta _ hi, f1]

theorem layer_core {sh : Shape} {batchAxis : List Int} {axes : List Nat} {eps : ℝ} (hb : AxesAre sh.length batchAxis axes)
    (hn : axes.Nodup) (ha : ∀ b ∈ axes, b < sh.length) (hpos : 0 < prod sh) (he : 0 < eps) {bsh gsh : Option Shape} {lp : LPlan}
    (hs : layerSetup sh batchAxis eps bsh gsh = .ok lp) : Fits sh lp.psh ∧ Core sh axes eps lp.pl := by
  obtain ⟨pl, c⟩ := core sh axes eps hn ha hpos he
  obtain ⟨r, e1, e3⟩ := refine_axesAre hb ha
  simp only [layerSetup, e1, e3, c.setup] at hs
  by_cases c1 : bsh.getD (layerParamShape sh axes) ≠ layerParamShape sh axes
  · rw [if_pos c1] at hs; cases hs
  rw [if_neg c1] at hs
  by_cases c2 : gsh.getD (layerParamShape sh axes) ≠ layerParamShape sh axes
  · rw [if_pos c2] at hs; cases hs
  rw [if_neg c2] at hs
  cases hs
  exact ⟨layer_fits sh axes ha hpos, c⟩

/-- **C142, gradients.** Backward after forward computes the exact gradient with respect to x and to whichever of gamma and beta
are inputs, the statistics outputs included if there are three outputs. -/
theorem C142_grad (sh : Shape) (batchAxis : List Int) (axes : List Nat) (eps : ℝ) (hb : AxesAre sh.length batchAxis axes)
    (hn : axes.Nodup) (ha : ∀ b ∈ axes, b < sh.length) (hpos : 0 < prod sh) (he : 0 < eps) (bsh gsh : Option Shape) (lp : LPlan)
    (hs : layerSetup sh batchAxis eps bsh gsh = .ok lp) (hasScale hasBias stat : Bool) (x gamma beta dy dm dv : Mem ℝ) (o : TN) (g : Grads) :
    let G := layerBackward lp sh x (given hasBias beta) (given hasScale gamma) (layerForward lp sh x (given hasBias beta) (given hasScale gamma) o)
      stat dy dm dv false false false g
    IsGradO (prod sh) (prod lp.psh) (prod lp.psh) hasScale hasBias
      (fun x gamma beta => let r := layerForward lp sh x beta gamma o
        loss (prod sh) (prod lp.pl.psh) dy (optOf stat dm) (optOf stat dv) r.y r.m r.v) x gamma beta G.dx G.dg G.db := by
  obtain ⟨hf, c⟩ := layer_core hb hn ha hpos he hs
  intro G
  cases hasScale
  · have := affine_norm_grad c ha hpos rfl hf false hasBias x gamma beta dy dm dv stat false false o o ⟨g.dx, zeros, zeros⟩ g.db g.dg
      (layerForward lp sh x (given hasBias beta) none o).y (fun h => by cases h)
    exact this
  · exact affine_norm_grad c ha hpos rfl hf true hasBias x gamma beta dy dm dv stat false false o
      { layerForward lp sh x (given hasBias beta) (some gamma) o with y := zeros } ⟨g.dx, zeros, zeros⟩ g.db g.dg
      _ (fun _ q hq => (c.indep ha hpos x _ _).1 q hq)

theorem binary_buf (g : ℝ → ℝ → ℝ → ℝ → ℝ) {sh psh : Shape} (side accum : Bool) (x0 x1 y dy dx dx' : Mem ℝ) (k : Nat)
    (hk : k < prod (if side then psh else sh)) :
    binaryBackward g sh psh (prod sh) (prod (if side then psh else sh)) side x0 x1 y accum dy dx k =
      if accum then dx k + binaryBackward g sh psh (prod sh) (prod (if side then psh else sh)) side x0 x1 y false dy dx' k
      else binaryBackward g sh psh (prod sh) (prod (if side then psh else sh)) side x0 x1 y false dy dx' k := by
  rw [binaryBackward_at g side accum x0 x1 y dy dx k hk, binaryBackward_at g side false x0 x1 y dy dx' k hk]
  cases accum <;> simp

/-- The affine part accumulates. -/
theorem affine_acc {sh psh : Shape} (hf : Fits sh psh) (gamma beta : Option (Mem ℝ)) (u dy : Mem ℝ) (ab ag : Bool) (db dg db' dg' : Mem ℝ) :
    let d := affineBackward sh psh gamma beta u dy ab ag db dg
    let d' := affineBackward sh psh gamma beta u dy false false db' dg'
    d.1 = d'.1 ∧ (beta.isSome → ∀ q < prod psh, d.2.1 q = if ab then db q + d'.2.1 q else d'.2.1 q) ∧
      (gamma.isSome → ∀ q < prod psh, d.2.2 q = if ag then dg q + d'.2.2 q else d'.2.2 q) := by
  have hb : ∀ b : Mem ℝ, ∀ q < prod psh, add2Backward sh psh true ab u b u dy db q =
      if ab then db q + add2Backward sh psh true false u b u dy db' q else add2Backward sh psh true false u b u dy db' q := by
    intro b q hq
    rw [add2Backward_eq hf true ab u b u dy db q (by simpa using hq), add2Backward_eq hf true false u b u dy db' q (by simpa using hq)]
    exact binary_buf _ true ab u b u dy db db' q (by simpa using hq)
  have hm : ∀ gm w : Mem ℝ, ∀ q < prod psh,
      binaryBackward (fun dy x0 _ _ => dy * x0) sh psh (prod sh) (prod psh) true u gm u ag w dg q =
      if ag then dg q + binaryBackward (fun dy x0 _ _ => dy * x0) sh psh (prod sh) (prod psh) true u gm u false w dg' q
      else binaryBackward (fun dy x0 _ _ => dy * x0) sh psh (prod sh) (prod psh) true u gm u false w dg' q := by
    intro gm w q hq
    have := binary_buf (fun dy x0 _ _ => dy * x0) (sh := sh) (psh := psh) true ag u gm u w dg dg' q (by simpa using hq)
    simpa using this
  cases gamma with
  | none =>
    cases beta with
    | none => exact ⟨rfl, (nomatch ·), (nomatch ·)⟩
    | some b => exact ⟨rfl, fun _ => hb b, (nomatch ·)⟩
  | some gm =>
    cases beta with
    | none => exact ⟨rfl, (nomatch ·), fun _ => hm gm dy⟩
    | some b => exact ⟨rfl, fun _ => hb b, fun _ => hm gm _⟩

/-- **C142, accumulation.** With accum a gradient is added to what the buffer held. -/
theorem C142_accum (sh : Shape) (batchAxis : List Int) (axes : List Nat) (eps : ℝ) (hb : AxesAre sh.length batchAxis axes)
    (hn : axes.Nodup) (ha : ∀ b ∈ axes, b < sh.length) (hpos : 0 < prod sh) (he : 0 < eps) (bsh gsh : Option Shape) (lp : LPlan)
    (hs : layerSetup sh batchAxis eps bsh gsh = .ok lp) (stat ax ab ag : Bool) (gamma beta : Option (Mem ℝ)) (x dy dm dv : Mem ℝ) (o : TN) (g g' : Grads) :
    let G := layerBackward lp sh x beta gamma o stat dy dm dv ax ab ag g
    let G' := layerBackward lp sh x beta gamma o stat dy dm dv false false false g'
    (∀ q < prod sh, G.dx q = if ax then g.dx q + G'.dx q else G'.dx q) ∧
    (beta.isSome → ∀ q < prod lp.psh, G.db q = if ab then g.db q + G'.db q else G'.db q) ∧
    (gamma.isSome → ∀ q < prod lp.psh, G.dg q = if ag then g.dg q + G'.dg q else G'.dg q) := by
  obtain ⟨hf, c⟩ := layer_core hb hn ha hpos he hs
  intro G G'
  cases gamma with
  | none =>
    obtain ⟨a1, a2, a3⟩ := affine_acc hf none beta o.y dy ab ag g.db g.dg g'.db g'.dg
    refine ⟨fun q hq => ?_, a2, a3⟩
    have := c.acc x (affineBackward sh lp.psh none beta o.y dy ab ag g.db g.dg).1 dm dv stat ax false false o ⟨g.dx, zeros, zeros⟩ ⟨g'.dx, zeros, zeros⟩ q hq
    show (backward lp.pl sh x none o stat (affineBackward sh lp.psh none beta o.y dy ab ag g.db g.dg).1 dm dv ax false false ⟨g.dx, zeros, zeros⟩).dx q = _
    rw [this, a1]
    rfl
  | some gm =>
    let r := forward lp.pl sh x none none { o with y := zeros }
    obtain ⟨a1, a2, a3⟩ := affine_acc hf (some gm) beta r.y dy ab ag g.db g.dg g'.db g'.dg
    refine ⟨fun q hq => ?_, a2, a3⟩
    have := c.acc x (affineBackward sh lp.psh (some gm) beta r.y dy ab ag g.db g.dg).1 dm dv stat ax false false r ⟨g.dx, zeros, zeros⟩ ⟨g'.dx, zeros, zeros⟩ q hq
    show (backward lp.pl sh x none r stat (affineBackward sh lp.psh (some gm) beta r.y dy ab ag g.db g.dg).1 dm dv ax false false ⟨g.dx, zeros, zeros⟩).dx q = _
    rw [this, a1]
    rfl

/-- x of shape (2,3,4), batch axis -3: gamma and beta have shape (1,3,4). -/
example : AxesAre 3 [-3] [0] ∧ layerParamShape [2, 3, 4] [0] = [1, 3, 4] ∧ ([0] : List Nat).Nodup ∧
    group [2, 2, 2] [0] [1, 0, 1] = [[1, 0, 0], [1, 0, 1], [1, 1, 0], [1, 1, 1]] ∧ bcast [1, 3, 4] [1, 2, 3] = [0, 2, 3] := by
  refine ⟨?_, by decide, by decide, by decide, by decide⟩
  unfold AxesAre; decide

end Verif.Norm
