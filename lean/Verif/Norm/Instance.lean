/-
C143: instance normalization (src/nbla/function/generic/instance_normalization.cpp, "cpp"): tensor normalization over the batch
axes and the channel axis, with gamma and beta broadcast from, for example, (1, C, 1, 1) to (N, C, 1, 1).
-/
import Verif.Norm.Layer

namespace Verif.Norm
open Verif.Fn Verif.Elem Verif.BatchNorm Verif.ND

/-! ### Model -/

/-- cpp:66-72 `adapt_shape`. -/
def adaptShape (sh : Shape) (axes : List Nat) (c : Nat) : Shape := (paramShape sh axes).set c (sh.getD c 0)

/-- cpp:77-107 and 135-143: for a parameter of shape `s`, the strides of the broadcast that it needs, if any; then (or else) its
shape must be `adapt` (tensor_normalization.cpp:48-66). Simplification: `s` has at most the rank of x (otherwise the comparison
reads past the end), and at least `c` + 1 axes if it differs from `adapt`. -/
def paramPlan (s adapt : Shape) (c : Nat) : Except String (Option (List Nat)) :=
  if (s.zip adapt).any (fun p => p.1 != p.2) then
    if s.getD c 0 ≠ adapt.getD c 0 then .error "channel size of the parameter != channel size of x."
    else match bcSetup s adapt with
      | .error e => .error e
      | .ok st => .ok (some st)
  else if s ≠ adapt then .error "Shape of the parameter does not match." else .ok none

/-- What setup fixes; `stB`, `stG`: the broadcasts of beta and gamma. -/
structure IPlan where
  pl : Plan
  adapt : Shape
  stB : Option (List Nat)
  stG : Option (List Nat)

/-- cpp:30-153 setup; `bsh`, `gsh`: the shapes of beta and gamma if they are inputs. -/
def instSetup (sh : Shape) (channelAxis : Int) (batchAxis : List Int) (eps : ℝ) (bsh gsh : Option Shape) : Except String IPlan :=
  match refineAxis channelAxis sh.length with
  | .error e => .error e
  | .ok c => match refineAxes sh.length batchAxis with
    | .error e => .error e
    | .ok r =>
      let axes := r.map Int.toNat
      let adapt := adaptShape sh axes c
      match paramPlan (bsh.getD adapt) adapt c, paramPlan (gsh.getD adapt) adapt c, setup sh (axes ++ [c]) eps with
      | .ok stB, .ok stG, .ok pl => .ok ⟨pl, adapt, stB, stG⟩
      | .error e, _, _ => .error e
      | _, .error e, _ => .error e
      | _, _, .error e => .error e

/-- cpp:165-176: a parameter after its broadcast, into a new array. -/
def bcParam (st : Option (List Nat)) (adapt : Shape) (m : Mem ℝ) : Mem ℝ :=
  match st with
  | none => m
  | some st => fwd (bcPairs st adapt) m zeros

/-- cpp:155-187 forward_impl. -/
noncomputable def instForward (ip : IPlan) (sh : Shape) (x : Mem ℝ) (beta gamma : Option (Mem ℝ)) (o : TN) : TN :=
  forward ip.pl sh x (beta.map (bcParam ip.stB ip.adapt)) (gamma.map (bcParam ip.stG ip.adapt)) o

/-- cpp:232-252, one parameter: the gradient of the broadcast array, computed without accumulation into a new buffer, goes back
through Broadcast; without broadcast the tensor normalization has written the gradient itself. -/
def bcParamBackward (st : Option (List Nat)) (adapt : Shape) (accum : Bool) (d buf : Mem ℝ) : Mem ℝ :=
  match st with
  | none => d
  | some st => bwdAdd (bcPairs st adapt) d (if accum then buf else zeros)

/-- cpp:189-253 backward_impl, all of propagate_down set. -/
noncomputable def instBackward (ip : IPlan) (sh : Shape) (x : Mem ℝ) (gamma : Option (Mem ℝ)) (o : TN) (stat : Bool)
    (dy dm dv : Mem ℝ) (ax ab ag : Bool) (g : Grads) : Grads :=
  let d := backward ip.pl sh x (gamma.map (bcParam ip.stG ip.adapt)) o stat dy dm dv ax (ab && ip.stB.isNone) (ag && ip.stG.isNone)
    ⟨g.dx, if ip.stB.isNone then g.db else zeros, if ip.stG.isNone then g.dg else zeros⟩
  { dx := d.dx, db := bcParamBackward ip.stB ip.adapt ab d.db g.db, dg := bcParamBackward ip.stG ip.adapt ag d.dg g.dg }

/-! ### Specification -/

/-- The arguments of a valid call: channel axis `c` and distinct batch axes `axes`, none of them the channel axis (negative ones
count from the end). -/
structure InstArgs (sh : Shape) (channelAxis : Int) (batchAxis : List Int) (axes : List Nat) (c : Nat) : Prop where
  chan : channelAxis = c ∨ channelAxis = (c : Int) - sh.length
  lt : c < sh.length
  batch : AxesAre sh.length batchAxis axes
  nodup : (axes ++ [c]).Nodup
  inb : ∀ b ∈ axes, b < sh.length
  pos : 0 < prod sh

/-- The shapes of parameters: the channel size on the channel axis; on the batch axes 1 or the size of x; 1 elsewhere. -/
def ParamFits (sh : Shape) (axes : List Nat) (c : Nat) (s : Shape) : Prop :=
  s.length = sh.length ∧ ∀ i < sh.length, (i = c → s.getD i 0 = sh.getD i 0) ∧
    (i ≠ c → s.getD i 0 = 1 ∨ (i ∈ axes ∧ s.getD i 0 = sh.getD i 0))

/-! ### Proofs -/

theorem adapt_eq (sh : Shape) (axes : List Nat) (c : Nat) : adaptShape sh axes c = paramShape sh (axes ++ [c]) := by
  simp [adaptShape, paramShape, List.foldl_append]

theorem bcIndex_same {s t : Shape} (h : s.length = t.length) (j : List Nat) (hj : j.length = s.length) : bcIndex s t j = bcast s j := by
  have : ∀ (s : Shape) (j : List Nat), j.length = s.length → (s.zip j).map (fun p => if p.1 = 1 then 0 else p.2) = bcast s j := by
    intro s
    induction s with
    | nil => intro j _; cases j <;> rfl
    | cons d s ih =>
      intro j hj
      cases j with
      | nil => simp at hj
      | cons k j =>
        simp only [List.zip_cons_cons, List.map_cons, bcast]
        rw [ih j (by simpa using hj)]
  rw [bcIndex, h, Nat.sub_self, List.drop_zero]
  exact this s j hj

theorem bcast_getD (s : Shape) (j : List Nat) (h : j.length = s.length) (i : Nat) (hi : i < s.length) :
    (bcast s j).getD i 0 = if s.getD i 0 = 1 then 0 else j.getD i 0 := by
  induction s generalizing j i with
  | nil => simp at hi
  | cons d s ih => cases j with
    | nil => simp at h
    | cons k j => cases i with
      | zero => simp [bcast]
      | succ i =>
        have := ih j (by simpa using h) i (by simpa using hi)
        simpa [bcast] using this

theorem bcast_length (s : Shape) (j : List Nat) (h : j.length = s.length) : (bcast s j).length = s.length := by
  induction s generalizing j with
  | nil => cases j <;> rfl
  | cons d s ih => cases j with
    | nil => simp at h
    | cons k j => simp [bcast, ih j (by simpa using h)]

section
variable {sh : Shape} {axes : List Nat} {c : Nat} {s : Shape}

theorem adapt_spec (hc : c < sh.length) (ha : ∀ b ∈ axes, b < sh.length) :
    (paramShape sh (axes ++ [c])).length = sh.length ∧
      ∀ i < sh.length, (paramShape sh (axes ++ [c])).getD i 0 = if i ∈ axes ++ [c] then sh.getD i 0 else 1 :=
  paramShape_spec sh (axes ++ [c]) (by
    intro b hb
    rcases List.mem_append.1 hb with hb | hb
    · exact ha b hb
    · rw [List.mem_singleton.1 hb]; exact hc)

/-- A fitting parameter can be broadcast. -/
theorem ParamFits.can (h : ParamFits sh axes c s) (hc : c < sh.length) (ha : ∀ b ∈ axes, b < sh.length) :
    CanBroadcast s (paramShape sh (axes ++ [c])) := by
  obtain ⟨l1, l2⟩ := adapt_spec hc ha
  refine ⟨by rw [l1, h.1], fun a e t he ht => ?_⟩
  rw [l1, h.1, Nat.sub_self, Nat.zero_add] at ht
  have hal : a < sh.length := by rw [← h.1]; exact (List.getElem?_eq_some_iff.1 he).1
  have e1 : s.getD a 0 = e := by rw [List.getD_eq_getElem?_getD, he]; rfl
  have e2 : (paramShape sh (axes ++ [c])).getD a 0 = t := by rw [List.getD_eq_getElem?_getD, ht]; rfl
  rw [l2 a hal] at e2
  obtain ⟨p1, p2⟩ := h.2 a hal
  by_cases hac : a = c
  · left; rw [← e1, ← e2, p1 hac, if_pos (by simp [hac])]
  · rcases p2 hac with q | ⟨q1, q2⟩
    · right; rw [← e1, q]
    · left; rw [← e1, ← e2, q2, if_pos (by simp [q1])]

/-- The element of the parameter used for element `i` of x. -/
theorem param_index (h : ParamFits sh axes c s) {i : List Nat} (hi : InBounds sh i) :
    bcast s (mask (axes ++ [c]) i) = bcast s i := by
  have hl := hi.length
  refine List.ext_getElem ?_ fun j h1 h2 => ?_
  · rw [bcast_length _ _ (by rw [mask_length, hl, h.1]), bcast_length _ _ (by rw [hl, h.1])]
  · have hj : j < s.length := by rw [bcast_length _ _ (by rw [hl, h.1])] at h2; exact h2
    rw [← List.getD_eq_getElem _ 0 h1, ← List.getD_eq_getElem _ 0 h2, bcast_getD _ _ (by rw [mask_length, hl, h.1]) _ hj,
      bcast_getD _ _ (by rw [hl, h.1]) _ hj]
    by_cases e : s.getD j 0 = 1
    · rw [if_pos e, if_pos e]
    · rw [if_neg e, if_neg e, mask_getD _ _ _ (by rw [hl, ← h.1]; exact hj)]
      have : j ∈ axes ++ [c] := by
        by_cases hc : j = c
        · simp [hc]
        · rcases (h.2 j (by rw [← h.1]; exact hj)).2 hc with q | ⟨q, -⟩
          · exact absurd q e
          · simp [q]
      rw [if_pos this]

/-- The plan of a fitting parameter: the element of the broadcast array for element `i` of x, and the transpose. -/
theorem paramPlan_ok (h : ParamFits sh axes c s) (hc : c < sh.length) (ha : ∀ b ∈ axes, b < sh.length) :
    ∃ st, paramPlan s (paramShape sh (axes ++ [c])) c = .ok st ∧
      (∀ m i, InBounds sh i → bcParam st (paramShape sh (axes ++ [c])) m (ravel (paramShape sh (axes ++ [c])) (mask (axes ++ [c]) i)) = m (ravel s (bcast s i))) ∧
      (∀ m k, InBounds (paramShape sh (axes ++ [c])) k → bcParam st (paramShape sh (axes ++ [c])) m (ravel (paramShape sh (axes ++ [c])) k) = m (ravel s (bcast s k)) ∧ InBounds s (bcast s k)) ∧
      (∀ v d buf, dot (prod (paramShape sh (axes ++ [c]))) (bcParam st (paramShape sh (axes ++ [c])) v) d =
        dot (prod s) v (bcParamBackward st (paramShape sh (axes ++ [c])) false d buf)) ∧
      (st = none → s = paramShape sh (axes ++ [c])) := by
  obtain ⟨l1, l2⟩ := adapt_spec hc ha
  have hcan := h.can hc ha
  have hl : s.length = (paramShape sh (axes ++ [c])).length := by rw [l1, h.1]
  have key : ∀ st : Option (List Nat), (∀ m k, InBounds (paramShape sh (axes ++ [c])) k → bcParam st (paramShape sh (axes ++ [c])) m (ravel (paramShape sh (axes ++ [c])) k) = m (ravel s (bcast s k)) ∧ InBounds s (bcast s k)) →
      ∀ m i, InBounds sh i → bcParam st (paramShape sh (axes ++ [c])) m (ravel (paramShape sh (axes ++ [c])) (mask (axes ++ [c]) i)) = m (ravel s (bcast s i)) := by
    intro st hk m i hi
    have := (hk m (mask (axes ++ [c]) i) (mask_inb (by
      intro b hb
      rcases List.mem_append.1 hb with hb | hb
      · exact ha b hb
      · rw [List.mem_singleton.1 hb]; exact hc) hi)).1
    rw [this, param_index h hi]
  unfold paramPlan
  by_cases hd : (s.zip (paramShape sh (axes ++ [c]))).any (fun p => p.1 != p.2) = true
  · rw [if_pos hd]
    have hcc : s.getD c 0 = (paramShape sh (axes ++ [c])).getD c 0 := by
      rw [l2 c hc, if_pos (by simp), (h.2 c hc).1 rfl]
    rw [if_neg (by rw [hcc]; simp)]
    obtain ⟨st, e, g⟩ := bc_gathers s _ hcan
    rw [e]
    have k2 : ∀ m k, InBounds (paramShape sh (axes ++ [c])) k → bcParam (some st) (paramShape sh (axes ++ [c])) m (ravel (paramShape sh (axes ++ [c])) k) = m (ravel s (bcast s k)) ∧ InBounds s (bcast s k) := by
      intro m k hk
      have e1 := bcIndex_same hl k (by rw [hk.length, hl])
      have := g.bound k hk
      rw [e1] at this
      refine ⟨?_, this⟩
      rw [← e1]
      exact g.forward m zeros k hk
    refine ⟨some st, rfl, key _ k2, k2, fun v d buf => ?_, fun h => by cases h⟩
    have := g.adjoint zeros v d
    simp only [bcParam, bcParamBackward, Bool.false_eq_true, if_false]
    rw [show dot (prod (paramShape sh (axes ++ [c]))) (fwd (bcPairs st (paramShape sh (axes ++ [c]))) v zeros) d =
      dot (prod (paramShape sh (axes ++ [c]))) d (fwd (bcPairs st (paramShape sh (axes ++ [c]))) v zeros) from dot_congr fun i _ => mul_comm _ _, this]
    exact dot_congr fun i _ => mul_comm _ _
  · rw [if_neg hd]
    have e : s = paramShape sh (axes ++ [c]) := by
      refine List.ext_getElem hl fun i h1 h2 => ?_
      by_contra hne
      apply hd
      rw [List.any_eq_true]
      refine ⟨(s[i], (paramShape sh (axes ++ [c]))[i]), ?_, by simpa using hne⟩
      rw [← List.getElem_zip (h := by simp [List.length_zip]; omega)]
      exact List.getElem_mem _
    rw [if_neg (not_not.2 e)]
    refine ⟨none, rfl, ?_, ?_, ?_, fun _ => e⟩
    · refine key none fun m k hk => ?_
      rw [e, bcast_self _ k hk]
      exact ⟨rfl, hk⟩
    · intro m k hk
      rw [e, bcast_self _ k hk]
      exact ⟨rfl, hk⟩
    · intro v d buf
      rw [← e]
      rfl

end

theorem InstArgs.all {sh ca ba axes c} (h : InstArgs sh ca ba axes c) : ∀ b ∈ axes ++ [c], b < sh.length := by
  intro b hb
  rcases List.mem_append.1 hb with hb | hb
  · exact h.inb b hb
  · rw [List.mem_singleton.1 hb]; exact h.lt

theorem paramFits_adapt {sh ca ba axes c} (h : InstArgs sh ca ba axes c) : ParamFits sh axes c (paramShape sh (axes ++ [c])) := by
  obtain ⟨l1, l2⟩ := adapt_spec h.lt h.inb
  refine ⟨l1, fun i hi => ⟨fun e => ?_, fun hne => ?_⟩⟩
  · rw [l2 i hi, if_pos (by simp [e])]
  · rw [l2 i hi]
    by_cases e : i ∈ axes
    · right; rw [if_pos (by simp [e])]; exact ⟨e, rfl⟩
    · left; rw [if_neg (by simp [e, hne])]

/-- All that setup fixes. -/
theorem inst_setup {sh ca ba axes c} {eps : ℝ} (h : InstArgs sh ca ba axes c) (he : 0 < eps) (bsh gsh : Option Shape)
    (hb : ParamFits sh axes c (bsh.getD (paramShape sh (axes ++ [c])))) (hg : ParamFits sh axes c (gsh.getD (paramShape sh (axes ++ [c])))) :
    ∃ ip stB stG pl, instSetup sh ca ba eps bsh gsh = .ok ip ∧ ip = ⟨pl, paramShape sh (axes ++ [c]), stB, stG⟩ ∧
      paramPlan (bsh.getD (paramShape sh (axes ++ [c]))) (paramShape sh (axes ++ [c])) c = .ok stB ∧
      paramPlan (gsh.getD (paramShape sh (axes ++ [c]))) (paramShape sh (axes ++ [c])) c = .ok stG ∧ setup sh (axes ++ [c]) eps = .ok pl := by
  obtain ⟨stB, e1, -⟩ := paramPlan_ok hb h.lt h.inb
  obtain ⟨stG, e2, -⟩ := paramPlan_ok hg h.lt h.inb
  obtain ⟨pl, cr⟩ := core sh (axes ++ [c]) eps h.nodup h.all h.pos he
  obtain ⟨r, e3, e4⟩ := refine_axesAre h.batch h.inb
  refine ⟨_, stB, stG, pl, ?_, rfl, e1, e2, cr.setup⟩
  simp only [instSetup, refineAxis_ok c sh.length h.lt ca h.chan, e3, e4, adapt_eq, e1, e2, cr.setup]

/-- The shape of a parameter that may be absent. -/
def fitsOpt (sh : Shape) (axes : List Nat) (c : Nat) (s : Option Shape) : Prop := ∀ t, s = some t → ParamFits sh axes c t

theorem fitsOpt.getD {sh ca ba axes c} (h : InstArgs sh ca ba axes c) {s : Option Shape} (hs : fitsOpt sh axes c s) :
    ParamFits sh axes c (s.getD (paramShape sh (axes ++ [c]))) := by
  cases s with
  | none => exact paramFits_adapt h
  | some t => exact hs t rfl

/-- **C143, values.** For a valid call, with gamma and beta of any fitting shapes `gsh`, `bsh` (each broadcast on its own along the
batch axes), setup succeeds; every element is normalised with the mean and the variance of its instance (same sample, same
channel), then scaled and shifted with the elements of gamma and beta that broadcasting assigns to it; the statistics outputs hold
that mean and variance. -/
theorem C143_forward {sh ca ba axes c} {eps : ℝ} (h : InstArgs sh ca ba axes c) (he : 0 < eps) (bsh gsh : Option Shape)
    (hb : fitsOpt sh axes c bsh) (hg : fitsOpt sh axes c gsh) :
    ∃ ip, instSetup sh ca ba eps bsh gsh = .ok ip ∧
      ∀ (x : Mem ℝ) (beta gamma : Option (Mem ℝ)) (o : TN) (i : List Nat), InBounds sh i → (beta.isSome → bsh.isSome) → (gamma.isSome → gsh.isSome) →
        let r := instForward ip sh x beta gamma o
        let ks := group sh (axes ++ [c]) i
        let p := ravel (paramShape sh (axes ++ [c])) (mask (axes ++ [c]) i)
        r.y (ravel sh i) = scaleOf gamma (ravel (gsh.getD []) (bcast (gsh.getD []) i)) * (x (ravel sh i) - meanOf sh x ks) / √(varOf sh x ks + eps) +
          biasOf beta (ravel (bsh.getD []) (bcast (bsh.getD []) i)) ∧
        r.m p = meanOf sh x ks ∧ r.v p = varOf sh x ks := by
  obtain ⟨ip, stB, stG, pl, e1, rfl, p1, p2, p3⟩ := inst_setup h he bsh gsh (hb.getD h) (hg.getD h)
  obtain ⟨stB', q1, b1, -⟩ := paramPlan_ok (hb.getD h) h.lt h.inb
  obtain ⟨stG', q2, b2, -⟩ := paramPlan_ok (hg.getD h) h.lt h.inb
  obtain rfl : stB = stB' := by rw [p1] at q1; exact Except.ok.inj q1
  obtain rfl : stG = stG' := by rw [p2] at q2; exact Except.ok.inj q2
  obtain ⟨pl', e2, -, f⟩ := C141_forward sh (axes ++ [c]) eps h.nodup h.all h.pos he
  obtain rfl : pl' = pl := by rw [p3] at e2; exact (Except.ok.inj e2).symm
  refine ⟨_, e1, fun x beta gamma o i hi hbs hgs => ?_⟩
  have := f x (beta.map (bcParam stB (paramShape sh (axes ++ [c])))) (gamma.map (bcParam stG (paramShape sh (axes ++ [c])))) o i hi
  simp only at this
  obtain ⟨f1, f2, f3⟩ := this
  refine ⟨?_, f2, f3⟩
  show (forward pl' sh x (beta.map (bcParam stB (paramShape sh (axes ++ [c])))) (gamma.map (bcParam stG (paramShape sh (axes ++ [c])))) o).y _ = _
  rw [f1]
  congr 1
  · congr 2
    cases gamma with
    | none => rfl
    | some g =>
      obtain ⟨t, rfl⟩ := Option.isSome_iff_exists.1 (hgs rfl)
      exact b2 g i hi
  · cases beta with
    | none => rfl
    | some b =>
      obtain ⟨t, rfl⟩ := Option.isSome_iff_exists.1 (hbs rfl)
      exact b1 b i hi

/-- **C143, gradients.** Backward after forward computes the exact gradient with respect to x and to whichever of gamma and beta
are inputs, in the shapes they were given in. -/
theorem C143_grad {sh ca ba axes c} {eps : ℝ} (h : InstArgs sh ca ba axes c) (he : 0 < eps) (bsh gsh : Shape)
    (hb : ParamFits sh axes c bsh) (hg : ParamFits sh axes c gsh) :
    ∃ ip, instSetup sh ca ba eps (some bsh) (some gsh) = .ok ip ∧
      ∀ (hasScale hasBias stat : Bool) (x gamma beta dy dm dv : Mem ℝ) (o : TN) (g : Grads),
        let D := instBackward ip sh x (given hasScale gamma) (instForward ip sh x (given hasBias beta) (given hasScale gamma) o) stat dy dm dv false false false g
        IsGradO (prod sh) (prod gsh) (prod bsh) hasScale hasBias
          (fun x gamma beta => let r := instForward ip sh x beta gamma o
            loss (prod sh) (prod (paramShape sh (axes ++ [c]))) dy (optOf stat dm) (optOf stat dv) r.y r.m r.v) x gamma beta D.dx D.dg D.db := by
  obtain ⟨ip, stB, stG, pl, e1, rfl, p1, p2, p3⟩ := inst_setup h he (some bsh) (some gsh) hb hg
  obtain ⟨stB', q1, -, b1, d1, n1⟩ := paramPlan_ok hb h.lt h.inb
  obtain ⟨stG', q2, -, b2, d2, n2⟩ := paramPlan_ok hg h.lt h.inb
  obtain rfl : stB = stB' := by
    simp only [Option.getD_some] at p1; rw [p1] at q1; exact Except.ok.inj q1
  obtain rfl : stG = stG' := by
    simp only [Option.getD_some] at p2; rw [p2] at q2; exact Except.ok.inj q2
  obtain ⟨pl', e2, psh, gr⟩ := C141_grad sh (axes ++ [c]) eps h.nodup h.all h.pos he
  obtain rfl : pl' = pl := by rw [p3] at e2; exact (Except.ok.inj e2).symm
  refine ⟨_, e1, fun hs hbi stat x gamma beta dy dm dv o g => ?_⟩
  intro D cx cg cb vx vg vb hx hgc hbc
  have gm : ∀ (b : Bool) (st : Option (List Nat)) (A : Shape) (m : Mem ℝ), (given b m).map (bcParam st A) = given b (bcParam st A m) := by
    intro b st A m; cases b <;> rfl
  have key := gr hs hbi x (bcParam stB (paramShape sh (axes ++ [c])) beta) (bcParam stG (paramShape sh (axes ++ [c])) gamma) dy dm dv stat o
    ⟨g.dx, if stB.isNone then g.db else zeros, if stG.isNone then g.dg else zeros⟩
    cx (fun t => bcParam stG (paramShape sh (axes ++ [c])) (cg t)) (fun t => bcParam stB (paramShape sh (axes ++ [c])) (cb t)) vx
    (bcParam stG (paramShape sh (axes ++ [c])) vg) (bcParam stB (paramShape sh (axes ++ [c])) vb) hx
    (fun q hq => by
      rw [psh] at hq
      obtain ⟨k, hk, rfl⟩ := exists_ravel _ _ hq
      have e := fun m => (b2 m k hk).1
      have hin := (b2 gamma k hk).2
      simp only [e]
      exact hgc _ (ravel_lt hin))
    (fun q hq => by
      rw [psh] at hq
      obtain ⟨k, hk, rfl⟩ := exists_ravel _ _ hq
      have e := fun m => (b1 m k hk).1
      have hin := (b1 beta k hk).2
      simp only [e]
      exact hbc _ (ravel_lt hin))
  simp only [instForward, gm]
  rw [psh] at key
  refine HasDerivAt.congr_deriv key ?_
  rw [d1 vb _ g.db, d2 vg _ g.dg]
  simp only [D, instBackward, instForward, gm, Bool.false_and]

/-- **C143, accumulation.** -/
theorem C143_accum {sh ca ba axes c} {eps : ℝ} (h : InstArgs sh ca ba axes c) (he : 0 < eps) (bsh gsh : Shape)
    (hb : ParamFits sh axes c bsh) (hg : ParamFits sh axes c gsh) :
    ∃ ip, instSetup sh ca ba eps (some bsh) (some gsh) = .ok ip ∧
      ∀ (stat ax ab ag : Bool) (gamma : Option (Mem ℝ)) (x dy dm dv : Mem ℝ) (o : TN) (g g' : Grads),
        let D := instBackward ip sh x gamma o stat dy dm dv ax ab ag g
        let D' := instBackward ip sh x gamma o stat dy dm dv false false false g'
        (∀ q < prod sh, D.dx q = if ax then g.dx q + D'.dx q else D'.dx q) ∧
        (∀ q < prod bsh, D.db q = if ab then g.db q + D'.db q else D'.db q) ∧
        ∀ q < prod gsh, D.dg q = if ag then g.dg q + D'.dg q else D'.dg q := by
  obtain ⟨ip, stB, stG, pl, e1, rfl, p1, p2, p3⟩ := inst_setup h he (some bsh) (some gsh) hb hg
  obtain ⟨stB', q1, -, -, -, n1⟩ := paramPlan_ok hb h.lt h.inb
  obtain ⟨stG', q2, -, -, -, n2⟩ := paramPlan_ok hg h.lt h.inb
  obtain rfl : stB = stB' := by
    simp only [Option.getD_some] at p1; rw [p1] at q1; exact Except.ok.inj q1
  obtain rfl : stG = stG' := by
    simp only [Option.getD_some] at p2; rw [p2] at q2; exact Except.ok.inj q2
  obtain ⟨pl', e2, psh, ac⟩ := C141_accum sh (axes ++ [c]) eps h.nodup h.all h.pos he
  obtain rfl : pl' = pl := by rw [p3] at e2; exact (Except.ok.inj e2).symm
  refine ⟨_, e1, fun stat ax ab ag gamma x dy dm dv o g g' => ?_⟩
  have key := ac x dy dm dv (gamma.map (bcParam stG (paramShape sh (axes ++ [c])))) stat ax (ab && stB.isNone) (ag && stG.isNone) o
    ⟨g.dx, if stB.isNone then g.db else zeros, if stG.isNone then g.dg else zeros⟩
    ⟨g'.dx, if stB.isNone then g'.db else zeros, if stG.isNone then g'.dg else zeros⟩
  simp only [psh] at key
  obtain ⟨k1, k2, k3⟩ := key
  have key2 : ∀ (s : Shape) (st : Option (List Nat)), ParamFits sh axes c s → paramPlan s (paramShape sh (axes ++ [c])) c = .ok st →
      (st = none → s = paramShape sh (axes ++ [c])) → ∀ (acc : Bool) (d d' buf buf' : Mem ℝ),
      (∀ q < prod (paramShape sh (axes ++ [c])), d q = if (acc && st.isNone) = true then (if st.isNone then buf else zeros) q + d' q else d' q) →
      ∀ q < prod s, bcParamBackward st (paramShape sh (axes ++ [c])) acc d buf q =
        if acc then buf q + bcParamBackward st (paramShape sh (axes ++ [c])) false d' buf' q else bcParamBackward st (paramShape sh (axes ++ [c])) false d' buf' q := by
    intro s st hf hp hn acc d d' buf buf' hd q hq
    cases st with
    | none =>
      rw [hn rfl] at hq
      have := hd q hq
      simpa [bcParamBackward] using this
    | some st =>
      have hdd : ∀ q < prod (paramShape sh (axes ++ [c])), d q = d' q := fun q hq => by simpa using hd q hq
      obtain ⟨st', e, gt⟩ := bc_gathers s _ (hf.can h.lt h.inb)
      have est : st = st' := by
        unfold paramPlan at hp
        rw [e] at hp
        split at hp
        · split at hp
          · cases hp
          · simpa using hp.symm
        · split at hp <;> cases hp
      subst est
      obtain ⟨k, hk, rfl⟩ := exists_ravel _ _ hq
      simp only [bcParamBackward, Bool.false_eq_true, if_false]
      rw [gt.backward, gt.backward]
      have : ((indices (paramShape sh (axes ++ [c]))).map fun j => if ravel s (bcIndex s (paramShape sh (axes ++ [c])) j) = ravel s k then d (ravel (paramShape sh (axes ++ [c])) j) else 0) =
          (indices (paramShape sh (axes ++ [c]))).map fun j => if ravel s (bcIndex s (paramShape sh (axes ++ [c])) j) = ravel s k then d' (ravel (paramShape sh (axes ++ [c])) j) else 0 :=
        List.map_congr_left fun j hj => by rw [hdd _ (ravel_lt ((mem_indices _ _).1 hj))]
      rw [this]
      cases acc <;> simp [zeros]
  exact ⟨k1, key2 bsh stB hb (by simpa using p1) n1 ab _ _ g.db g'.db k2, key2 gsh stG hg (by simpa using p2) n2 ag _ _ g.dg g'.dg k3⟩

/-- **C143, rejection.** A parameter with a wrong channel size is rejected. -/
theorem C143_rejects {sh ca ba axes c} {eps : ℝ} (h : InstArgs sh ca ba axes c) (bsh : Shape) (gsh : Option Shape)
    (hl : bsh.length = sh.length) (hne : bsh.getD c 0 ≠ sh.getD c 0) : ∃ e, instSetup sh ca ba eps (some bsh) gsh = .error e := by
  obtain ⟨l1, l2⟩ := adapt_spec h.lt h.inb
  obtain ⟨r, e3, e4⟩ := refine_axesAre h.batch h.inb
  have hcc : (paramShape sh (axes ++ [c])).getD c 0 = sh.getD c 0 := by rw [l2 c h.lt, if_pos (by simp)]
  have hany : (bsh.zip (paramShape sh (axes ++ [c]))).any (fun p => p.1 != p.2) = true := by
    have hc := h.lt
    rw [List.any_eq_true]
    refine ⟨(bsh[c]'(by omega), (paramShape sh (axes ++ [c]))[c]'(by omega)), ?_, ?_⟩
    · rw [← List.getElem_zip (h := by simp [List.length_zip]; omega)]
      exact List.getElem_mem _
    · rw [← hcc] at hne
      rw [List.getD_eq_getElem _ _ (by omega), List.getD_eq_getElem _ _ (by omega)] at hne
      simpa using hne
  have : paramPlan bsh (paramShape sh (axes ++ [c])) c = .error "channel size of the parameter != channel size of x." := by
    unfold paramPlan
    rw [if_pos hany, if_pos (by rw [hcc]; exact hne)]
  refine ⟨"channel size of the parameter != channel size of x.", ?_⟩
  simp only [instSetup, refineAxis_ok c sh.length h.lt ca h.chan, e3, e4, adapt_eq, Option.getD_some, this]

/-- (N, C, H) = (2, 3, 2): gamma of shape (1, 3, 1) and beta of shape (2, 3, 1). -/
example : InstArgs [2, 3, 2] 1 [0] [0] 1 ∧ ParamFits [2, 3, 2] [0] 1 [1, 3, 1] ∧ ParamFits [2, 3, 2] [0] 1 [2, 3, 1] ∧
    group [2, 3, 2] [0, 1] [1, 2, 0] = [[1, 2, 0], [1, 2, 1]] ∧ bcast [1, 3, 1] [1, 2, 0] = [0, 2, 0] := by
  refine ⟨⟨by decide, by decide, by unfold AxesAre; decide, by decide, by decide, by decide⟩, ?_, ?_, by decide, by decide⟩ <;>
    (unfold ParamFits; decide)

end Verif.Norm
