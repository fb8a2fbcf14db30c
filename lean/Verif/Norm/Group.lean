/-
C144: group normalization (src/nbla/function/generic/group_normalization.cpp, "cpp") and C145: weight standardization
(weight_standardization.cpp).
-/
import Verif.Norm.Layer

namespace Verif.Norm
open Verif.Fn Verif.Elem Verif.BatchNorm Verif.ND

/-! ### Model -/

/-- cpp:109-121: the channel axis is split in (groups, channels per group). -/
def groupShape (sh : Shape) (c G : Nat) : Shape := sh.take c ++ [G, sh.getD c 0 / G] ++ sh.drop (c + 1)

/-- cpp:86-88: the shape of gamma and beta. -/
def groupParamShape (sh : Shape) (c : Nat) : Shape := (List.replicate sh.length 1).set c (sh.getD c 0)

/-- What setup fixes: the tensor normalization inside the instance normalization, the split shape, the parameter shape. -/
structure GPlan where
  pl : Plan
  ish : Shape
  psh : Shape

/-- cpp:42-167 setup; the instance normalization without scale and bias (instance_normalization.cpp:113-153) is the tensor
normalization over the batch axes and the channel axis. The axes are those of the unsplit array. -/
def groupSetup (sh : Shape) (G : Nat) (channelAxis : Int) (batchAxis : List Int) (eps : ℝ) (bsh gsh : Option Shape) : Except String GPlan :=
  match refineAxis channelAxis sh.length with
  | .error e => .error e
  | .ok c => match refineAxes sh.length batchAxis with
    | .error e => .error e
    | .ok r =>
      let axes := r.map Int.toNat
      if G = 0 then .error "division by zero"
      else if sh.getD c 0 % G ≠ 0 then .error "Channel dim must be integer multiple of num_groups."
      else
        let psh := groupParamShape sh c
        if bsh.getD psh ≠ psh then .error "Shape of beta(inputs[1]) does not match."
        else if gsh.getD psh ≠ psh then .error "Shape of gamma(inputs[1]) does not match."
        else match setup (groupShape sh c G) (axes ++ [c]) eps with
          | .error e => .error e
          | .ok pl => .ok ⟨pl, groupShape sh c G, psh⟩

/-- cpp:169-196 forward_impl: reshaping x and y keeps their elements. -/
noncomputable def groupForward (gp : GPlan) (sh : Shape) (x : Mem ℝ) (beta gamma : Option (Mem ℝ)) (o : TN) : TN :=
  let r := forward gp.pl gp.ish x none none o
  { r with y := affineForward sh gp.psh gamma beta r.y }

/-- cpp:198-279 backward_impl, all of propagate_down set (see layerBackward). -/
noncomputable def groupBackward (gp : GPlan) (sh : Shape) (x : Mem ℝ) (beta gamma : Option (Mem ℝ)) (o : TN) (stat : Bool)
    (dy dm dv : Mem ℝ) (ax ab ag : Bool) (g : Grads) : Grads :=
  let r := match gamma with
    | some _ => forward gp.pl gp.ish x none none { o with y := zeros }
    | none => o
  let d := affineBackward sh gp.psh gamma beta r.y dy ab ag g.db g.dg
  { dx := (backward gp.pl gp.ish x none r stat d.1 dm dv ax false false ⟨g.dx, zeros, zeros⟩).dx, db := d.2.1, dg := d.2.2 }

/-- weight_standardization.cpp:28-42 setup_impl: tensor normalization over the channel axis, no scale, no bias. Forward and
backward (:44-62) are those of the tensor normalization. -/
def wsSetup (sh : Shape) (channelAxis : Int) (eps : ℝ) : Except String Plan :=
  match refineAxis channelAxis sh.length with
  | .error e => .error e
  | .ok c => setup sh [c] eps

/-! ### Specification -/

/-- The elements normalised together with `i`: same coordinates on the batch axes, same group of channels; `w` is the number of
channels of a group. -/
def channelGroup (sh : Shape) (axes : List Nat) (c w : Nat) (i : List Nat) : List (List Nat) :=
  (indices sh).filter fun k => (axes.all fun b => k.getD b 0 == i.getD b 0) && (k.getD c 0 / w == i.getD c 0 / w)

/-! ### Proofs -/

/-- Splitting the channel coordinate. -/
def splitAt (c w : Nat) (k : List Nat) : List Nat := k.take c ++ [k.getD c 0 / w, k.getD c 0 % w] ++ k.drop (c + 1)

section
variable {sh : Shape} {c G w : Nat}

theorem groupShape_prod (hc : c < sh.length) (hw : sh.getD c 0 = G * w) (hG : 0 < G) : prod (groupShape sh c G) = prod sh := by
  conv_rhs => rw [split_at hc]
  unfold groupShape
  have : sh.getD c 0 / G = w := by rw [hw, Nat.mul_div_cancel_left _ hG]
  rw [this, List.append_assoc, prod_append, prod_append, prod_append]
  simp only [prod]
  rw [hw]; ring

theorem splitAt_inb (hc : c < sh.length) (hw : sh.getD c 0 = G * w) (hG : 0 < G) (h0 : 0 < w) {k : List Nat} (hk : InBounds sh k) :
    InBounds (groupShape sh c G) (splitAt c w k) ∧ ravel (groupShape sh c G) (splitAt c w k) = ravel sh k := by
  obtain ⟨h1, h2, h3, h4⟩ := single_split hc hk
  have hG' : sh.getD c 0 / G = w := by rw [hw, Nat.mul_div_cancel_left _ hG]
  have hlt : k.getD c 0 / w < G := by rw [Nat.div_lt_iff_lt_mul h0]; rw [hw] at h2; exact h2
  have hl : (k.take c).length = (sh.take c).length := h1.length
  have hm : InBounds ([G, w] ++ sh.drop (c + 1)) ([k.getD c 0 / w, k.getD c 0 % w] ++ k.drop (c + 1)) :=
    (inBounds_append [G, w] _ [k.getD c 0 / w, k.getD c 0 % w] _ rfl).2 ⟨⟨hlt, Nat.mod_lt _ h0, trivial⟩, h3⟩
  unfold groupShape splitAt
  rw [hG', List.append_assoc, List.append_assoc]
  refine ⟨(inBounds_append _ _ _ _ hl).2 ⟨h1, hm⟩, ?_⟩
  rw [ravel_append _ _ _ _ hl, ravel_append [G, w] _ [k.getD c 0 / w, k.getD c 0 % w] _ rfl, h4, prod_append]
  simp only [off, prod, ravel, hw, Nat.mul_one]
  have := Nat.div_add_mod (k.getD c 0) w
  have e : k.getD c 0 / w * w + k.getD c 0 % w = k.getD c 0 := by rw [Nat.mul_comm]; exact this
  generalize k.getD c 0 / w = A at *
  generalize k.getD c 0 % w = B at *
  rw [← e]
  ring

theorem eq_of_map {α β} {f : α → β} : ∀ {l l' : List α}, l.map f = l'.map f → (∀ a ∈ l, ∀ b ∈ l', f a = f b → a = b) → l = l'
  | [], [], _, _ => rfl
  | [], _ :: _, h, _ => by simp at h
  | _ :: _, [], h, _ => by simp at h
  | a :: l, b :: l', h, hi => by
    simp only [List.map_cons, List.cons.injEq] at h
    rw [hi a (by simp) b (by simp) h.1, eq_of_map h.2 fun x hx y hy => hi x (by simp [hx]) y (by simp [hy])]

theorem indices_split (hc : c < sh.length) (hw : sh.getD c 0 = G * w) (hG : 0 < G) (h0 : 0 < w) :
    indices (groupShape sh c G) = (indices sh).map (splitAt c w) := by
  refine eq_of_map (f := ravel (groupShape sh c G)) ?_ fun a ha b hb e => ?_
  · rw [indices_ravel, groupShape_prod hc hw hG, List.map_map, ← indices_ravel]
    exact List.map_congr_left fun k hk => ((splitAt_inb hc hw hG h0 ((mem_indices _ _).1 hk)).2).symm
  · obtain ⟨k, hk, rfl⟩ := List.mem_map.1 hb
    exact ravel_inj _ _ _ ((mem_indices _ _).1 ha) (splitAt_inb hc hw hG h0 ((mem_indices _ _).1 hk)).1 e

theorem splitAt_getD (k : List Nat) (hc : c < k.length) (b : Nat) (hb : b < c) : (splitAt c w k).getD b 0 = k.getD b 0 := by
  unfold splitAt
  rw [List.append_assoc, List.getD_append _ _ _ _ (by simp; omega)]
  simp [List.getD_eq_getElem?_getD, List.getElem?_take, hb]

theorem splitAt_chan (k : List Nat) (hc : c < k.length) : (splitAt c w k).getD c 0 = k.getD c 0 / w := by
  unfold splitAt
  rw [List.append_assoc, List.getD_append_right _ _ _ _ (by simp)]
  have : (k.take c).length = c := by simp; omega
  rw [this, Nat.sub_self]
  rfl

theorem group_split (hc : c < sh.length) (hw : sh.getD c 0 = G * w) (hG : 0 < G) (h0 : 0 < w) {axes : List Nat} (hax : ∀ b ∈ axes, b < c)
    {i : List Nat} (hi : InBounds sh i) :
    group (groupShape sh c G) (axes ++ [c]) (splitAt c w i) = (channelGroup sh axes c w i).map (splitAt c w) := by
  unfold group channelGroup
  rw [indices_split hc hw hG h0, List.filter_map]
  congr 1
  refine List.filter_congr fun k hk => ?_
  have hk := (mem_indices _ _).1 hk
  have hkc : c < k.length := by rw [hk.length]; exact hc
  have hic : c < i.length := by rw [hi.length]; exact hc
  simp only [Function.comp, List.all_append, List.all_cons, List.all_nil, Bool.and_true, splitAt_chan k hkc, splitAt_chan i hic]
  congr 1
  rw [Bool.eq_iff_iff, List.all_eq_true, List.all_eq_true]
  refine forall₂_congr fun b hb => ?_
  rw [splitAt_getD k hkc b (hax b hb), splitAt_getD i hic b (hax b hb)]

theorem mean_split (hc : c < sh.length) (hw : sh.getD c 0 = G * w) (hG : 0 < G) (h0 : 0 < w) (x : Mem ℝ) (ks : List (List Nat)) (h : ∀ k ∈ ks, InBounds sh k) :
    meanOf (groupShape sh c G) x (ks.map (splitAt c w)) = meanOf sh x ks := by
  unfold meanOf
  rw [List.map_map, List.length_map]
  congr 2
  exact List.map_congr_left fun k hk => by simp only [Function.comp]; rw [(splitAt_inb hc hw hG h0 (h k hk)).2]

theorem var_split (hc : c < sh.length) (hw : sh.getD c 0 = G * w) (hG : 0 < G) (h0 : 0 < w) (x : Mem ℝ) (ks : List (List Nat)) (h : ∀ k ∈ ks, InBounds sh k) :
    varOf (groupShape sh c G) x (ks.map (splitAt c w)) = varOf sh x ks := by
  unfold varOf
  rw [mean_split hc hw hG h0 x ks h, List.map_map, List.length_map]
  congr 2
  exact List.map_congr_left fun k hk => by simp only [Function.comp]; rw [(splitAt_inb hc hw hG h0 (h k hk)).2]

theorem group_fits (hc : c < sh.length) (hpos : 0 < prod sh) : Fits sh (groupParamShape sh c) := by
  refine fits_of sh _ hpos (by simp [groupParamShape]) fun i hi => ?_
  unfold groupParamShape
  rw [getD_set _ _ _ _ (by simpa using hc)]
  by_cases e : i = c
  · right; rw [if_pos e, e]
  · left; rw [if_neg e]; simp [List.getD_eq_getElem?_getD, hi]
end

/-- The arguments of a valid call: channel axis `c`, batch axes `axes` (negative ones count from the end), all before the
channel axis, `G` groups of `w` channels. -/
structure GroupArgs (sh : Shape) (G : Nat) (channelAxis : Int) (batchAxis : List Int) (axes : List Nat) (c w : Nat) : Prop where
  chan : channelAxis = c ∨ channelAxis = (c : Int) - sh.length
  lt : c < sh.length
  batch : AxesAre sh.length batchAxis axes
  nodup : axes.Nodup
  before : ∀ b ∈ axes, b < c
  groups : sh.getD c 0 = G * w
  pos : 0 < prod sh

theorem GroupArgs.sizes {sh G ca ba axes c w} (h : GroupArgs sh G ca ba axes c w) : 0 < G ∧ 0 < w := by
  have h0 : 0 < sh.getD c 0 := by
    rw [List.getD_eq_getElem _ _ h.lt]; exact pos_of_prod h.pos _ (List.getElem_mem _)
  rw [h.groups] at h0
  exact ⟨Nat.pos_of_mul_pos_right h0, Nat.pos_of_mul_pos_left h0⟩

theorem group_core {sh G ca ba axes c w} {eps : ℝ} (h : GroupArgs sh G ca ba axes c w) (he : 0 < eps) :
    ∃ pl, Core (groupShape sh c G) (axes ++ [c]) eps pl ∧ (∀ b ∈ axes ++ [c], b < (groupShape sh c G).length) ∧ 0 < prod (groupShape sh c G) ∧
      ∀ bsh gsh, groupSetup sh G ca ba eps bsh gsh =
        if bsh.getD (groupParamShape sh c) ≠ groupParamShape sh c then .error "Shape of beta(inputs[1]) does not match."
        else if gsh.getD (groupParamShape sh c) ≠ groupParamShape sh c then .error "Shape of gamma(inputs[1]) does not match."
        else .ok ⟨pl, groupShape sh c G, groupParamShape sh c⟩ := by
  obtain ⟨hG, hw⟩ := h.sizes
  have hl : (groupShape sh c G).length = sh.length + 1 := by
    have := h.lt
    simp [groupShape]; omega
  have ha : ∀ b ∈ axes ++ [c], b < (groupShape sh c G).length := by
    intro b hb
    rw [hl]
    have := h.lt
    rcases List.mem_append.1 hb with hb | hb
    · have := h.before b hb; omega
    · rw [List.mem_singleton.1 hb]; omega
  have hn : (axes ++ [c]).Nodup := by
    rw [List.nodup_append]
    refine ⟨h.nodup, by simp, fun a ha b hb => ?_⟩
    have := h.before a ha
    rw [List.mem_singleton.1 hb]; omega
  have hp : 0 < prod (groupShape sh c G) := by rw [groupShape_prod h.lt h.groups hG]; exact h.pos
  obtain ⟨pl, cr⟩ := core (groupShape sh c G) (axes ++ [c]) eps hn ha hp he
  refine ⟨pl, cr, ha, hp, fun bsh gsh => ?_⟩
  obtain ⟨r, e1, e2⟩ := refine_axesAre h.batch (fun b hb => lt_trans (h.before b hb) h.lt)
  simp only [groupSetup, refineAxis_ok c sh.length h.lt ca h.chan, e1, e2]
  rw [if_neg (by omega), if_neg (by rw [h.groups]; simp)]
  simp only [cr.setup]

theorem group_ok {sh G ca ba axes c w} {eps : ℝ} (h : GroupArgs sh G ca ba axes c w) (he : 0 < eps) {bsh gsh : Option Shape} {gp : GPlan}
    (hs : groupSetup sh G ca ba eps bsh gsh = .ok gp) :
    Core (groupShape sh c G) (axes ++ [c]) eps gp.pl ∧ (∀ b ∈ axes ++ [c], b < (groupShape sh c G).length) ∧ 0 < prod (groupShape sh c G) ∧
      gp.ish = groupShape sh c G ∧ gp.psh = groupParamShape sh c ∧ Fits sh gp.psh := by
  obtain ⟨pl, cr, ha, hp, e⟩ := group_core h he
  rw [e] at hs
  by_cases c1 : bsh.getD (groupParamShape sh c) ≠ groupParamShape sh c
  · rw [if_pos c1] at hs; cases hs
  rw [if_neg c1] at hs
  by_cases c2 : gsh.getD (groupParamShape sh c) ≠ groupParamShape sh c
  · rw [if_pos c2] at hs; cases hs
  rw [if_neg c2] at hs
  cases hs
  exact ⟨cr, ha, hp, rfl, rfl, group_fits h.lt h.pos⟩

/-- **C144, shapes.** With the batch axes before the channel axis, group normalization accepts exactly the parameters of shape
(1, …, C, …, 1). -/
theorem C144_setup_partial {sh G ca ba axes c w} {eps : ℝ} (h : GroupArgs sh G ca ba axes c w) (he : 0 < eps) (bsh gsh : Option Shape) :
    (∃ gp, groupSetup sh G ca ba eps bsh gsh = .ok gp) ↔
      ∀ s, bsh = some s ∨ gsh = some s → s.length = sh.length ∧ ∀ i < sh.length, s.getD i 0 = if i = c then sh.getD c 0 else 1 := by
  obtain ⟨pl, cr, ha, hp, e⟩ := group_core h he
  have key : ∀ s : Shape, (s.length = sh.length ∧ ∀ i < sh.length, s.getD i 0 = if i = c then sh.getD c 0 else 1) ↔ s = groupParamShape sh c := by
    have l2 : ∀ i < sh.length, (groupParamShape sh c).getD i 0 = if i = c then sh.getD c 0 else 1 := by
      intro i hi
      unfold groupParamShape
      rw [getD_set _ _ _ _ (by simpa using h.lt)]
      congr 1
      simp [List.getD_eq_getElem?_getD, hi]
    have l1 : (groupParamShape sh c).length = sh.length := by simp [groupParamShape]
    intro s
    constructor
    · rintro ⟨h1, h2⟩
      refine List.ext_getElem (by omega) fun i h3 h4 => ?_
      rw [← List.getD_eq_getElem _ 0 h3, ← List.getD_eq_getElem _ 0 h4, h2 i (by omega), l2 i (by omega)]
    · rintro rfl; exact ⟨l1, l2⟩
  simp only [key, e]
  constructor
  · rintro ⟨gp, hs⟩ s hor
    by_cases c1 : bsh.getD (groupParamShape sh c) ≠ groupParamShape sh c
    · rw [if_pos c1] at hs; cases hs
    rw [if_neg c1] at hs
    by_cases c2 : gsh.getD (groupParamShape sh c) ≠ groupParamShape sh c
    · rw [if_pos c2] at hs; cases hs
    rcases hor with rfl | rfl
    · simpa using c1
    · simpa using c2
  · intro hall
    rw [if_neg, if_neg]
    · exact ⟨_, rfl⟩
    · rw [not_not]
      cases gsh with
      | none => rfl
      | some s => exact hall s (Or.inr rfl)
    · rw [not_not]
      cases bsh with
      | none => rfl
      | some s => exact hall s (Or.inl rfl)

/-- **C144, values.** With the batch axes before the channel axis: every element is normalised with the mean and the variance of
its group (same sample, same group of `w` consecutive channels), then scaled and shifted by the parameters of its channel; the
statistics outputs hold the mean and the variance at (sample, group). -/
theorem C144_forward_partial {sh G ca ba axes c w} {eps : ℝ} (h : GroupArgs sh G ca ba axes c w) (he : 0 < eps) (bsh gsh : Option Shape) (gp : GPlan)
    (hs : groupSetup sh G ca ba eps bsh gsh = .ok gp) (x : Mem ℝ) (beta gamma : Option (Mem ℝ)) (o : TN) (i : List Nat) (hi : InBounds sh i) :
    let r := groupForward gp sh x beta gamma o
    let q := ravel gp.psh (bcast gp.psh i)
    let ks := channelGroup sh axes c w i
    let p := ravel (paramShape (groupShape sh c G) (axes ++ [c])) (mask (axes ++ [c]) (splitAt c w i))
    r.y (ravel sh i) = scaleOf gamma q * ((x (ravel sh i) - meanOf sh x ks) / √(varOf sh x ks + eps)) + biasOf beta q ∧
    r.m p = meanOf sh x ks ∧ r.v p = varOf sh x ks := by
  obtain ⟨cr, ha, hp, e1, e2, hf⟩ := group_ok h he hs
  obtain ⟨hG, hw⟩ := h.sizes
  obtain ⟨b1, b2⟩ := splitAt_inb h.lt h.groups hG hw hi
  have hin : ∀ k ∈ channelGroup sh axes c w i, InBounds sh k := fun k hk => (mem_indices _ _).1 (List.mem_of_mem_filter hk)
  obtain ⟨f1, f2, f3⟩ := cr.fwd x o _ b1
  rw [group_split h.lt h.groups hG hw h.before hi, mean_split h.lt h.groups hG hw x _ hin, var_split h.lt h.groups hG hw x _ hin, b2] at f1
  rw [group_split h.lt h.groups hG hw h.before hi, mean_split h.lt h.groups hG hw x _ hin] at f2
  rw [group_split h.lt h.groups hG hw h.before hi, var_split h.lt h.groups hG hw x _ hin] at f3
  simp only [groupForward, e1]
  refine ⟨?_, f2, f3⟩
  rw [affine_at hf gamma beta _ hi, f1]

/-- **C144, gradients.** Backward after forward computes the exact gradient with respect to x and to whichever of gamma and beta
are inputs, the statistics outputs included if there are three outputs. -/
theorem C144_grad_partial {sh G ca ba axes c w} {eps : ℝ} (h : GroupArgs sh G ca ba axes c w) (he : 0 < eps) (bsh gsh : Option Shape) (gp : GPlan)
    (hs : groupSetup sh G ca ba eps bsh gsh = .ok gp) (hasScale hasBias stat : Bool) (x gamma beta dy dm dv : Mem ℝ) (o : TN) (g : Grads) :
    let D := groupBackward gp sh x (given hasBias beta) (given hasScale gamma) (groupForward gp sh x (given hasBias beta) (given hasScale gamma) o)
      stat dy dm dv false false false g
    IsGradO (prod sh) (prod gp.psh) (prod gp.psh) hasScale hasBias
      (fun x gamma beta => let r := groupForward gp sh x beta gamma o
        loss (prod sh) (prod gp.pl.psh) dy (optOf stat dm) (optOf stat dv) r.y r.m r.v) x gamma beta D.dx D.dg D.db := by
  obtain ⟨cr, ha, hp, e1, e2, hf⟩ := group_ok h he hs
  have hsz : prod sh = prod (groupShape sh c G) := (groupShape_prod h.lt h.groups h.sizes.1).symm
  intro D
  have e : prod sh = prod gp.ish := by rw [e1, hsz]
  rw [← e1] at cr ha hp
  cases hasScale
  · have := affine_norm_grad cr ha hp e hf false hasBias x gamma beta dy dm dv stat false false o o ⟨g.dx, zeros, zeros⟩ g.db g.dg
      (groupForward gp sh x (given hasBias beta) none o).y (fun h => by cases h)
    rw [← e] at this
    exact this
  · have := affine_norm_grad cr ha hp e hf true hasBias x gamma beta dy dm dv stat false false o
      { groupForward gp sh x (given hasBias beta) (some gamma) o with y := zeros } ⟨g.dx, zeros, zeros⟩ g.db g.dg
      (forward gp.pl gp.ish x none none { groupForward gp sh x (given hasBias beta) (some gamma) o with y := zeros }).y (fun _ q hq => (cr.indep ha hp x _ _).1 q hq)
    rw [← e] at this
    exact this

/-- **C144, accumulation.** -/
theorem C144_accum_partial {sh G ca ba axes c w} {eps : ℝ} (h : GroupArgs sh G ca ba axes c w) (he : 0 < eps) (bsh gsh : Option Shape) (gp : GPlan)
    (hs : groupSetup sh G ca ba eps bsh gsh = .ok gp) (stat ax ab ag : Bool) (gamma beta : Option (Mem ℝ)) (x dy dm dv : Mem ℝ) (o : TN) (g g' : Grads) :
    let D := groupBackward gp sh x beta gamma o stat dy dm dv ax ab ag g
    let D' := groupBackward gp sh x beta gamma o stat dy dm dv false false false g'
    (∀ q < prod sh, D.dx q = if ax then g.dx q + D'.dx q else D'.dx q) ∧
    (beta.isSome → ∀ q < prod gp.psh, D.db q = if ab then g.db q + D'.db q else D'.db q) ∧
    (gamma.isSome → ∀ q < prod gp.psh, D.dg q = if ag then g.dg q + D'.dg q else D'.dg q) := by
  obtain ⟨cr, ha, hp, e1, e2, hf⟩ := group_ok h he hs
  have hsz : prod sh = prod gp.ish := by rw [e1, groupShape_prod h.lt h.groups h.sizes.1]
  rw [← e1] at cr ha hp
  intro D D'
  cases gamma with
  | none =>
    obtain ⟨a1, a2, a3⟩ := affine_acc hf none beta o.y dy ab ag g.db g.dg g'.db g'.dg
    refine ⟨fun q hq => ?_, a2, a3⟩
    have := cr.acc x (affineBackward sh gp.psh none beta o.y dy ab ag g.db g.dg).1 dm dv stat ax false false o ⟨g.dx, zeros, zeros⟩ ⟨g'.dx, zeros, zeros⟩ q (by omega)
    show (backward gp.pl gp.ish x none o stat (affineBackward sh gp.psh none beta o.y dy ab ag g.db g.dg).1 dm dv ax false false ⟨g.dx, zeros, zeros⟩).dx q = _
    rw [this, a1]
    rfl
  | some gm =>
    let r := forward gp.pl gp.ish x none none { o with y := zeros }
    obtain ⟨a1, a2, a3⟩ := affine_acc hf (some gm) beta r.y dy ab ag g.db g.dg g'.db g'.dg
    refine ⟨fun q hq => ?_, a2, a3⟩
    have := cr.acc x (affineBackward sh gp.psh (some gm) beta r.y dy ab ag g.db g.dg).1 dm dv stat ax false false r ⟨g.dx, zeros, zeros⟩ ⟨g'.dx, zeros, zeros⟩ q (by omega)
    show (backward gp.pl gp.ish x none r stat (affineBackward sh gp.psh (some gm) beta r.y dy ab ag g.db g.dg).1 dm dv ax false false ⟨g.dx, zeros, zeros⟩).dx q = _
    rw [this, a1]
    rfl

/-- **C144 is false in general**: with the batch axis after the channel axis (x of shape (C, N), channel_axis = 0, batch_axis =
[1], one group) setup succeeds, but every channel is normalised across the samples: here element (0,0) becomes 0 although the
elements 0 and 1 of its sample have mean 1/2. -/
theorem C144_batch_after_channel_refuted :
    ∃ (gp : GPlan) (x : Mem ℝ), groupSetup [2, 2] 1 0 [1] 1 none none = .ok gp ∧
      channelGroup [2, 2] [1] 0 2 [0, 0] = [[0, 0], [1, 0]] ∧ x (ravel [2, 2] [0, 0]) = 0 ∧ x (ravel [2, 2] [1, 0]) = 1 ∧
      ∀ o, (groupForward gp [2, 2] x none none o).y (ravel [2, 2] [0, 0]) = 0 ∧
        (0 : ℝ) ≠ (x (ravel [2, 2] [0, 0]) - meanOf [2, 2] x [[0, 0], [1, 0]]) / √(varOf [2, 2] x [[0, 0], [1, 0]] + 1) := by
  obtain ⟨pl, cr⟩ := core [1, 2, 2] [1, 0] 1 (by decide) (by decide) (by decide) one_pos
  refine ⟨⟨pl, [1, 2, 2], [2, 1]⟩, fun q => if q < 2 then 0 else 1, ?_, by decide, ?_, ?_, fun o => ⟨?_, ?_⟩⟩
  · have e : groupShape [2, 2] 0 1 = [1, 2, 2] := by decide
    have e2 : groupParamShape [2, 2] 0 = [2, 1] := by decide
    have e3 : refineAxis 0 ([2, 2] : Shape).length = .ok 0 := by decide
    have e4 : refineAxes ([2, 2] : Shape).length [1] = .ok [1] := by decide
    have e5 : ([1] : List Int).map Int.toNat ++ [0] = [1, 0] := by decide
    simp only [groupSetup, e3, e4, e, e2, e5, cr.setup]
    simp
  · simp [ravel, prod]
  · simp [ravel, prod]
  · have f := (cr.fwd (fun q => if q < 2 then (0 : ℝ) else 1) o [0, 0, 0] (by decide)).1
    have g : group [1, 2, 2] [1, 0] [0, 0, 0] = [[0, 0, 0], [0, 0, 1]] := by decide
    rw [g] at f
    simp only [groupForward, affineForward]
    have e : ravel [2, 2] [0, 0] = ravel [1, 2, 2] [0, 0, 0] := by decide
    rw [e, f]
    simp [meanOf, ravel, prod]
  · have hm : meanOf [2, 2] (fun q => if q < 2 then (0 : ℝ) else 1) [[0, 0], [1, 0]] = 1 / 2 := by
      simp [meanOf, ravel, prod]
    have hv : 0 ≤ varOf [2, 2] (fun q => if q < 2 then (0 : ℝ) else 1) [[0, 0], [1, 0]] := by
      unfold varOf
      refine div_nonneg (List.sum_nonneg fun a ha => ?_) (by positivity)
      obtain ⟨k, -, rfl⟩ := List.mem_map.1 ha
      exact sq_nonneg _
    rw [hm]
    have : 0 < √(varOf [2, 2] (fun q => if q < 2 then (0 : ℝ) else 1) [[0, 0], [1, 0]] + 1) := Real.sqrt_pos.2 (by linarith)
    refine Ne.symm (div_ne_zero ?_ this.ne')
    simp [ravel, prod]

/-- (N, C, W) = (2, 4, 3), two groups: element (1,2,0) is normalised with the channels 2 and 3 of sample 1. -/
example : GroupArgs [2, 4, 3] 2 1 [0] [0] 1 2 ∧
    channelGroup [2, 4, 3] [0] 1 2 [1, 2, 0] = [[1, 2, 0], [1, 2, 1], [1, 2, 2], [1, 3, 0], [1, 3, 1], [1, 3, 2]] :=
  ⟨⟨by decide, by decide, by unfold AxesAre; decide, by decide, by decide, by decide, by decide⟩, by decide⟩

/-- **C145.** Weight standardization: for a valid channel axis of a non-empty array setup succeeds, every weight is normalised with
the mean and the variance of its output channel, and backward computes the exact gradient and accumulates iff asked to. -/
theorem C145_weight_standardization (sh : Shape) (channelAxis : Int) (c : Nat) (hc : c < sh.length)
    (hch : channelAxis = c ∨ channelAxis = (c : Int) - sh.length) (hpos : 0 < prod sh) (eps : ℝ) (he : 0 < eps) :
    ∃ pl, wsSetup sh channelAxis eps = .ok pl ∧
      (∀ (x : Mem ℝ) (o : TN) (i : List Nat), InBounds sh i →
        (forward pl sh x none none o).y (ravel sh i) = (x (ravel sh i) - meanOf sh x (group sh [c] i)) / √(varOf sh x (group sh [c] i) + eps)) ∧
      (∀ (x dy : Mem ℝ) (o : TN) (g : Grads),
        IsGradX (prod sh) (fun x => dot (prod sh) dy (forward pl sh x none none o).y) x
          (backward pl sh x none (forward pl sh x none none o) false dy zeros zeros false false false g).dx) ∧
      ∀ (x dy : Mem ℝ) (o : TN) (g g' : Grads) (q : Nat), q < prod sh →
        (backward pl sh x none o false dy zeros zeros true false false g).dx q =
          g.dx q + (backward pl sh x none o false dy zeros zeros false false false g').dx q := by
  obtain ⟨pl, cr⟩ := core sh [c] eps (by simp) (by simpa using hc) hpos he
  refine ⟨pl, ?_, fun x o i hi => (cr.fwd x o i hi).1, fun x dy o g => ?_, fun x dy o g g' q hq => ?_⟩
  · simp only [wsSetup, refineAxis_ok c sh.length hc channelAxis hch, cr.setup]
  · have := cr.grad x dy zeros zeros false false false o g
    have e : ∀ x, (let r := forward pl sh x none none o
      loss (prod sh) (prod pl.psh) dy (optOf false zeros) (optOf false zeros) r.y r.m r.v) = dot (prod sh) dy (forward pl sh x none none o).y := by
      intro x; simp [loss, optOf, biasOf]
    simp only at e
    simp only [e] at this
    exact this
  · have := cr.acc x dy zeros zeros false true false false o g g' q hq
    simpa using this

example : group [2, 1, 2, 1] [0] [1, 0, 0, 0] = [[1, 0, 0, 0], [1, 0, 1, 0]] ∧ (-4 : Int) = (0 : Nat) - ([2, 1, 2, 1] : List Nat).length := by decide

end Verif.Norm
