import Verif.NNGrad.Examples
import Verif.Graph.GradExamples
/-
C71: `nn.grad` and `Variable.backward` agree.
-/
namespace Verif.NNGrad
open Verif.Graph
variable {α : Type} [AddCommMonoid α]

theorem accGrad_off {E : Env α} {N : Nat} (W : Wf E N) {wrt : List (Option VarId)} (h : WrtOk E wrt)
    {i : Nat} (hi : ∀ v, wrt[i]? = some (some v) → E.vng v = false) (grads : List (Option α))
    (x : VarId × Option α) : (accGrad E wrt grads x)[i]? = grads[i]? := by
  unfold accGrad
  split
  · rename_i j d hj hd
    split
    · rename_i hng
      rw [List.getElem?_set_ne]
      rintro rfl
      have := hi x.1 ((wrtIdx_spec W h x.1 j).mp hj)
      rw [hng] at this
      cases this
    · rfl
  · rfl

theorem accGrads_off {E : Env α} {N : Nat} (W : Wf E N) {wrt : List (Option VarId)} (h : WrtOk E wrt)
    {i : Nat} (hi : ∀ v, wrt[i]? = some (some v) → E.vng v = false) (gs : List (VarId × Option α)) :
    ∀ (grads : List (Option α)), (gs.foldl (accGrad E wrt) grads)[i]? = grads[i]? := by
  induction gs with
  | nil => intro grads; rfl
  | cons x gs ih => intro grads; rw [List.foldl_cons, ih, accGrad_off W h hi]

theorem pushDowns_grads {E : Env α} {ch : List Nat} (gs : List (VarId × Option α)) : ∀ (s : St α),
    (gs.foldl (pushDown E ch) s).grads = s.grads := by
  induction gs with
  | nil => intro s; rfl
  | cons x gs ih =>
    intro s
    rw [List.foldl_cons, ih]
    unfold pushDown
    split
    · split <;> rfl
    · rfl

theorem loop_off {E : Env α} {N : Nat} (W : Wf E N) {wrt : List (Option VarId)} {ch : List Nat}
    (h : WrtOk E wrt) {i : Nat} (hi : ∀ v, wrt[i]? = some (some v) → E.vng v = false) :
    ∀ n (s s' : St α), loop E wrt ch n s = some s' → s'.grads[i]? = s.grads[i]? := by
  intro n
  induction n with
  | zero => intro s s' hl; unfold loop at hl; cases hl; rfl
  | succ n ih =>
    intro s s' hl
    unfold loop at hl
    split at hl
    · cases hl; rfl
    · simp only at hl
      split at hl
      · rw [ih _ _ hl]
      · split at hl
        · cases hl
        · rw [ih _ _ hl, pushDowns_grads, accGrads_off W h hi]

/-- C71, first half. An input that does not require a gradient gets the constant 0 from `nn.grad`,
whatever the graph, the outputs and the other inputs are. -/
theorem nn_grad_need_grad_off (E : Env α) (N : Nat) (W : Wf E N) (outs : List (VarId × VarId))
    (inputs : List VarId) (hnd : inputs.Nodup) (fuel : Nat) (hf : N ≤ fuel) (res : List (Option α))
    (hres : grad E fuel outs inputs = some res) (i : Nat) (x : VarId) (hx : inputs[i]? = some x)
    (hng : E.vng x = false) : res[i]? = some none := by
  unfold grad at hres
  split at hres
  · cases hres
  · rename_i s _
    simp only at hres
    obtain ⟨hwl, hws⟩ := corrVars_spec W hnd (fuel := fuel) hf (outs.map Prod.fst)
    generalize corrVars E fuel inputs (outs.map Prod.fst) = wrt at *
    have hwi : ∀ (i : Nat) x, wrt[i]? = some (some x) → inputs[i]? = some x := by
      intro i x hx
      have hlt : i < inputs.length := by rw [← hwl]; exact (List.getElem?_eq_some_iff.mp hx).1
      have hg := List.getElem?_eq_getElem hlt
      rcases hws i _ hg with ⟨h, _⟩ | ⟨h, _⟩
      · rw [hx] at h; cases h; exact hg
      · rw [hx] at h; cases h
    have hwo : WrtOk E wrt := by
      intro i j x hi hj
      have h1 := hwi i x hi
      have h2 := hwi j x hj
      exact (List.getElem?_inj (List.getElem?_eq_some_iff.mp h1).1 hnd).mp (by rw [h1, h2])
    rw [Option.map_eq_some_iff] at hres
    obtain ⟨s', hl, rfl⟩ := hres
    rw [loop_off W hwo (i := i) ?_ _ _ _ hl]
    · rw [List.getElem?_map]
      have hlt : i < wrt.length := by rw [hwl]; exact (List.getElem?_eq_some_iff.mp hx).1
      rw [List.getElem?_eq_getElem hlt]
      rfl
    · intro v hv
      have := hwi i v hv
      rw [hx] at this
      cases this
      exact hng

example : grad { exE with vng := fun v => v != 1 } 9 [(4, 4), (5, 5)] [0, 1] = some [some 27, none] := by
  decide

/-- The hypotheses under which `y.backward()` is analysed (C25) together with those of `nn.grad`. -/
structure BothOk (E : Env α) (cfg : GCfg α) (N : Nat) (y : VarId) (p0 : FnId) (inputs : List VarId) :
    Prop where
  env : cfg.env = ⟨E.frank, E.fng, E.vng⟩
  vjp : cfg.vjp = E.vjp
  parent : E.G.parent y = some p0
  ok : GradOk E N [(y, y)] inputs
  nodup : ∀ f, (E.G.fn f).outputs.Nodup
  noStop : NoStop E.G cfg.env p0
  rootNg : cfg.env.fng p0 = true
  endFree : ∀ f, Up E [y] f → E.isEnd f = false
  keep : ∀ f, cfg.prohibitZero f = true → ∀ i outs, i < (E.G.fn f).inputs.length →
      cfg.vjp f i outs ≠ none

theorem greach_up {E : Env α} {cfg : GCfg α} {y p0} (hp : E.G.parent y = some p0) {f}
    (h : GReach E.G cfg.env p0 f) : Up E [y] f := by
  induction h with
  | root => exact .root (by simp) hp
  | step _ _ hf ih =>
    obtain ⟨v, hv, _, hp⟩ := hf
    exact .step ih (List.mem_map.mpr ⟨(v, true), hv, rfl⟩) hp

theorem up_rank {E : Env α} {N : Nat} (W : Wf E N) {y p0} (hp : E.G.parent y = some p0) {f}
    (h : Up E [y] f) : E.frank f ≤ E.frank p0 := by
  induction h with
  | root ho hpo =>
    simp only [List.mem_singleton] at ho
    subst ho
    rw [hp] at hpo
    cases hpo
    exact Nat.le_refl _
  | step _ hv hp' ih =>
    have := W.rank _ _ _ hv hp'
    omega

/-- C71, second half. For a variable `y` and a leaf input `x` whose gradient buffer holds zero,
`y.backward()` leaves in the buffer of `x` what `nn.grad([y], [..., x, ...])` returns for `x`. -/
theorem nn_grad_eq_backward_partial (E : Env α) (cfg : GCfg α) (N : Nat) (y : VarId) (p0 : FnId)
    (inputs : List VarId) (B : BothOk E cfg N y p0 inputs) (F : Finset FnId)
    (hF : ∀ f, f ∈ F ↔ Up E [y] f) (fuel : Nat) (hfN : N + 1 ≤ fuel) (hfF : F.card < fuel)
    (clearInit : Bool) (z : GArr α) (buffers : VarId → GArr α)
    (i : Nat) (x : VarId) (hx : inputs[i]? = some x) (hleaf : E.G.parent x = none)
    (hng : E.vng x = true) (hzero : (buffers x).read = 0) :
    ∃ res r order final, grad E fuel [(y, y)] inputs = some res ∧ res[i]? = some r ∧
      cgBackward E.G cfg fuel y (some ⟨false, E.one y⟩) clearInit z buffers = some (order, final) ∧
      (final x).read = r.getD 0 := by
  have W := B.ok.wf
  have hst : ([(y, y)] : List (VarId × VarId)).map Prod.snd = [y] := rfl
  obtain ⟨D, hD⟩ := sens_exists E N W [y] F hF
  obtain ⟨res, hr, _, hres⟩ := nn_grad_sum_partial E N [(y, y)] inputs B.ok F D hD fuel hfN hfF
  obtain ⟨r, hri, hrD⟩ := hres i x hx
  have hw : WfGraph E.G := ⟨fun f o h => (W.out_parent f o).mp h, fun v p h => (W.out_parent p v).mpr h,
    B.nodup⟩
  have hR : RanksOk E.G cfg.env p0 := by
    intro f p _ ⟨v, hv, _, hp⟩
    rw [B.env]
    exact W.rank f v p (List.mem_map.mpr ⟨(v, true), hv, rfl⟩) hp
  obtain ⟨order, final, Db, hb, hBack, hG, hfin, _⟩ := backward_gradient_partial E.G cfg y p0 B.parent hw hR
    B.noStop B.rootNg B.keep F.toList
    (fun f hf => Finset.mem_toList.mpr ((hF f).mpr (greach_up B.parent hf))) fuel
    (by rw [Finset.length_toList]; omega) (some ⟨false, E.one y⟩) clearInit z buffers
  refine ⟨res, r, order, final, hr, hri, hb, ?_⟩
  rw [hrD, hfin x hleaf (by rw [B.env]; exact hng)]
  have hxin := List.mem_of_getElem? hx
  -- functions consuming something computed from x are reached by backward
  have hreach : ∀ f, Up E [y] f → (∃ v, v ∈ E.ins f ∧ (v = x ∨ SuccPlus E x v)) → E.isEnd f = false →
      GReach E.G cfg.env p0 f := by
    intro f hf
    induction hf with
    | root ho hp =>
      intro _ _
      simp only [List.mem_singleton] at ho
      subst ho
      rw [B.parent] at hp
      cases hp
      exact .root
    | @step g v p hg hv hp ih =>
      rintro ⟨u, hu, hxu⟩ he
      have hpu : Up E [y] p := .step hg hv hp
      have hsu : Succ E u v := ⟨p, B.ok.refs p u hpu hu, he, (W.out_parent p v).mpr hp⟩
      have hxv : SuccPlus E x v := by
        rcases hxu with rfl | h
        · exact .one hsu
        · exact h.snoc hsu
      -- the consumer is not an end function: it is reached or contributes nothing
      have hvng := B.ok.vng x v hxin (.inr hxv) ⟨g, hg, hv⟩
      by_cases hge : E.isEnd g = true
      · exact absurd hge (by simpa using B.endFree g hg)
      · have hge : E.isEnd g = false := by simpa using hge
        have hgr := ih ⟨v, hv, .inr hxv⟩ hge
        have hgn := B.ok.fng x v g hxin (.inr hxv) hg hv hge
        have hva : (v, true) ∈ (E.G.fn g).inputs := by
          obtain ⟨⟨v', b⟩, hm, rfl⟩ := List.mem_map.mp hv
          have := B.noStop.active g hgr v' b hm
          subst this
          exact hm
        exact .step hgr (by rw [B.env]; exact hgn) ⟨v, hva, by rw [B.env]; exact hvng, hp⟩
  have hmem : ∀ f v, v ∈ E.ins f → (v = x ∨ SuccPlus E x v) → (f ∈ order ↔ f ∈ F) := by
    intro f v hv hxv
    rw [hBack.exact_ f, hF f]
    constructor
    · rintro ⟨h, _⟩
      exact greach_up B.parent h
    · intro h
      have he := B.endFree f h
      refine ⟨hreach f h ⟨v, hv, hxv⟩ he, ?_⟩
      rw [B.env]
      exact B.ok.fng x v f hxin hxv h hv he
  have hsum : ∀ v (D' : VarId → α), (v = x ∨ SuccPlus E x v) →
      (order.map (contrib E.G cfg.vjp D' v)).sum = ∑ f ∈ F, contrib E.G E.vjp D' v f := by
    intro v D' hxv
    rw [B.vjp, ← List.sum_toFinset _ hBack.once]
    have h1 : ∑ f ∈ F, contrib E.G E.vjp D' v f =
        ∑ f ∈ F.filter (fun f => v ∈ E.ins f), contrib E.G E.vjp D' v f := by
      symm
      apply Finset.sum_subset (Finset.filter_subset _ _)
      intro f hf hn
      apply contrib_not_mem
      intro hv
      exact hn (Finset.mem_filter.mpr ⟨hf, hv⟩)
    have h2 : ∑ f ∈ order.toFinset, contrib E.G E.vjp D' v f =
        ∑ f ∈ order.toFinset.filter (fun f => v ∈ E.ins f), contrib E.G E.vjp D' v f := by
      symm
      apply Finset.sum_subset (Finset.filter_subset _ _)
      intro f hf hn
      apply contrib_not_mem
      intro hv
      exact hn (Finset.mem_filter.mpr ⟨hf, hv⟩)
    rw [h1, h2]
    congr 1
    ext f
    simp only [Finset.mem_filter, List.mem_toFinset]
    constructor
    · rintro ⟨h, hv⟩
      exact ⟨(hmem f v hv hxv).mp h, hv⟩
    · rintro ⟨h, hv⟩
      exact ⟨(hmem f v hv hxv).mpr h, hv⟩
  have hnocons : ∀ o f, o ∈ E.outs p0 → f ∈ F → o ∉ E.ins f := by
    intro o f ho hf hof
    have h1 := W.rank f o p0 hof ((W.out_parent p0 o).mp ho)
    have h2 := up_rank W B.parent ((hF f).mp hf)
    omega
  have hyp : y ∈ E.outs p0 := (W.out_parent p0 y).mpr B.parent
  have heq : ∀ k v, N < k + lay E v → SuccPlus E x v → Used E [y] v ∨ v ∈ E.outs p0 → Db v = D v := by
    intro k
    induction k with
    | zero =>
      intro v h
      have := lay_le_bound W v
      omega
    | succ k ih =>
      intro v hk hxv hu
      by_cases hvo : v ∈ E.outs p0
      · have hDv : D v = (([y].filter (fun o => o == v)).map E.one).sum := by
          rw [hD.2 v, Finset.sum_eq_zero (fun f hf => contrib_not_mem (hnocons v f hvo hf)), add_zero]
        by_cases hvy : v = y
        · subst hvy
          rw [hG.at_root, hDv]
          simp [GArr.read]
        · rw [hG.at_sibling v hvo hvy, hDv, seed_zero (by simpa using hvy)]
      · obtain ⟨u, _, f, hf, he, hof⟩ := hxv.last
        have hpf := (W.out_parent f v).mp hof
        have hfp0 : f ≠ p0 := by
          rintro rfl
          exact hvo hof
        have hvy : v ≠ y := by
          rintro rfl
          exact hvo hyp
        rw [hG.inner v f hpf hfp0, hsum v Db (.inr hxv), hD.2 v, seed_zero (by simpa using hvy), zero_add]
        apply Finset.sum_congr rfl
        intro g hg
        apply contrib_congr_outs
        intro hvg o hog
        have hgu := (hF g).mp hg
        have hge := B.endFree g hgu
        have hxo : SuccPlus E x o := hxv.snoc ⟨g, B.ok.refs g v hgu hvg, hge, hog⟩
        have hlo := lay_out W hog
        have hlv := lay_le W hvg
        by_cases hou : Used E [y] o ∨ o ∈ E.outs p0
        · exact ih o (by omega) hxo hou
        · -- an unused output of g: zero on both sides
          have h1 : g ≠ p0 := by
            rintro rfl
            exact hou (.inr hog)
          have hoy : o ≠ y := by
            rintro rfl
            exact hou (.inr hyp)
          rw [hG.inner o g ((W.out_parent g o).mp hog) h1, hsum o Db (.inr hxo), hD.2 o,
            seed_zero (by simpa using hoy), zero_add]
          rw [Finset.sum_eq_zero, Finset.sum_eq_zero]
          · intro f' hf'
            exact contrib_not_mem (fun h => hou (.inl ⟨f', (hF f').mp hf', h⟩))
          · intro f' hf'
            exact contrib_not_mem (fun h => hou (.inl ⟨f', (hF f').mp hf', h⟩))
  have hxs : x ∉ ([y] : List VarId) := B.ok.notStart x hxin
  rw [hG.leaf x hleaf, hzero, zero_add, hsum x Db (.inl rfl), hD.2 x, seed_zero hxs, zero_add]
  apply Finset.sum_congr rfl
  intro f hf
  apply contrib_congr_outs
  intro hxf o hof
  have hfu := (hF f).mp hf
  have hfe := B.endFree f hfu
  have hxo : SuccPlus E x o := .one ⟨f, B.ok.refs f x hfu hxf, hfe, hof⟩
  by_cases hou : Used E [y] o ∨ o ∈ E.outs p0
  · exact heq (N + 1) o (by omega) hxo hou
  · have h1 : f ≠ p0 := by
      rintro rfl
      exact hou (.inr hof)
    have hoy : o ≠ y := by
      rintro rfl
      exact hou (.inr hyp)
    rw [hG.inner o f ((W.out_parent f o).mp hof) h1, hsum o Db (.inr hxo), hD.2 o,
      seed_zero (by simpa using hoy), zero_add]
    rw [Finset.sum_eq_zero, Finset.sum_eq_zero]
    · intro f' hf'
      exact contrib_not_mem (fun h => hou (.inl ⟨f', (hF f').mp hf', h⟩))
    · intro f' hf'
      exact contrib_not_mem (fun h => hou (.inl ⟨f', (hF f').mp hf', h⟩))

/-! ### A concrete case, and the refutation for switched-off inner variables -/

def chainCfg : GCfg Int :=
  { env := ⟨(chainE true).frank, (chainE true).fng, (chainE true).vng⟩, vjp := (chainE true).vjp
    junk := fun _ _ => ⟨false, 99⟩ }

theorem chainE_ins {f v} (h : v ∈ (chainE true).ins f) : (f = 0 ∧ v = 0) ∨ (f = 1 ∧ v = 1) := by
  match f with
  | 0 => left; simpa [chainE, Env.ins] using h
  | 1 => right; simpa [chainE, Env.ins] using h
  | n + 2 => cases h

theorem chainE_parent {v p} (h : (chainE true).G.parent v = some p) : (v = 1 ∧ p = 0) ∨ (v = 2 ∧ p = 1) := by
  match v with
  | 0 => cases h
  | 1 => cases h; exact .inl ⟨rfl, rfl⟩
  | 2 => cases h; exact .inr ⟨rfl, rfl⟩
  | n + 3 => cases h

/-- The hypotheses of `nn_grad_eq_backward_partial` hold of the chain x(0) → h(1) → y(2). -/
example : BothOk (chainE true) chainCfg 3 2 1 [0] := by
  refine ⟨rfl, rfl, rfl, ⟨⟨?_, ?_, ?_, ?_, fun _ _ h => h⟩, ?_, ?_, by decide, by decide, by decide, ?_,
    fun _ _ _ _ _ => rfl, fun _ _ _ _ _ _ _ _ => rfl, ?_, ?_, fun _ _ _ h => by cases h⟩, ?_, ⟨?_, ?_⟩,
    rfl, fun _ _ => rfl, fun _ h => by cases h⟩
  · intro f o
    constructor
    · intro h
      match f with
      | 0 | 1 =>
        have : o = _ := List.mem_singleton.mp h
        subst this
        rfl
      | n + 2 => cases h
    · intro h
      rcases chainE_parent h with ⟨rfl, rfl⟩ | ⟨rfl, rfl⟩ <;> decide
  · intro v f h
    match v with
    | 0 | 1 =>
      have : f = _ := List.mem_singleton.mp h
      subst this
      decide
    | n + 2 => cases h
  · intro f v p hv hp
    rcases chainE_ins hv with ⟨rfl, rfl⟩ | ⟨rfl, rfl⟩
    · cases hp
    · cases hp; decide
  · intro f
    match f with
    | 0 | 1 => decide
    | k + 2 => show 0 < 3; decide
  · intro f v _ hv
    rcases chainE_ins hv with ⟨rfl, rfl⟩ | ⟨rfl, rfl⟩ <;> decide
  · intro o ho
    have : o = 2 := by simpa using ho
    subst this
    exact ⟨1, rfl, rfl, .inl rfl⟩
  · intro x _ hu
    exact used_predPlus hu
  · intro f i l l'
    unfold chainE
    match f, i with
    | 0, 0 | 1, 0 => rfl
    | 0, n + 1 | 1, n + 1 => rfl
    | k + 2, _ => rfl
  · intro f i
    match f, i with
    | 0, 0 | 1, 0 => decide
    | 0, n + 1 | 1, n + 1 => rfl
    | k + 2, _ => rfl
  · intro f
    match f with
    | 0 | 1 => decide
    | k + 2 => exact List.nodup_nil
  · intro f _ v b hv
    match f with
    | 0 | 1 =>
      have : (v, b) = _ := List.mem_singleton.mp hv
      exact (Prod.mk.inj this).2
    | k + 2 => cases hv
  · intro _ _ _ _ _ _ _ _ _
    rfl

example : grad (chainE true) 9 [(2, 2)] [0] = some [some 6] ∧
    ((cgBackward (chainE true).G chainCfg 9 2 (some ⟨false, 1⟩) true ⟨false, 0⟩
      (fun v => ⟨v == 0, 55⟩)).map (fun r => (r.2 0).read)) = some 6 := by decide

/-- The graph `stopG` of C25: x(0) → f0 → (a(1), b(2)), (a, b) → f1 → c(3), `b.need_grad = False`. -/
def stopE : Env Int where
  G := stopG
  refs := fun | 0 => [0] | 1 => [1] | 2 => [1] | _ => []
  vrank := fun | 1 => 1 | 2 => 1 | 3 => 2 | _ => 0
  frank := stopEnv.rank
  vng := stopEnv.vg
  fng := stopEnv.fng
  vjp := stopVjp
  one := fun _ => 1

/-- C71 is false when an inner variable has been switched off: `nn.grad([c], [x])` lets the gradient pass
through `b` (2 = via a + via b) because `a` leads to the same producer, `c.backward()` does not (1). -/
theorem nn_grad_need_grad_refuted :
    grad stopE 9 [(3, 3)] [0] = some [some 2] ∧ stopRun 0 = some ([1, 0], 1) := by decide

end Verif.NNGrad
