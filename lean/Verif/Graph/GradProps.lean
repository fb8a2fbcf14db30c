import Mathlib.Algebra.BigOperators.Ring.Finset
import Mathlib.Algebra.BigOperators.Group.Finset.Basic
import Mathlib.Tactic.Ring
import Mathlib.Tactic.LinearCombination
import Verif.Graph.GradMain
/-
C25: backward computes the gradient; C48: it is the derivative.
-/
namespace Verif.Graph
variable {α : Type} [AddCommMonoid α]

theorem contrib_congr {G : Graph} {vjp : FnId → Nat → List α → Option α} {D D' : VarId → α}
    {v : VarId} {f : FnId} (h : ∀ o, o ∈ (G.fn f).outputs → D o = D' o) :
    contrib G vjp D v f = contrib G vjp D' v f := by
  unfold contrib
  rw [List.map_congr_left h]

/-- A gradient exists for every order of execution with consumers first. -/
theorem exists_gradient {G : Graph} {cfg : GCfg α} {p0 : FnId} {E : List FnId} {root : VarId}
    {g : α} {init : VarId → α} (hO : OutputsOk G) (hr : root ∈ (G.fn p0).outputs)
    (hE : GOrder G cfg p0 E) : ∃ D, IsGradient G cfg.vjp E root p0 g init D := by
  let D0 : VarId → α := fun v =>
    if v ∈ (G.fn p0).outputs then (if v = root then g else 0)
    else match G.parent v with
      | none => init v
      | some _ => 0
  have hcons : ∀ (Q : List FnId) f rest, E = Q ++ f :: rest → ∀ x, x ∈ Q ++ [f] →
      ∀ o, o ∈ (G.fn x).outputs → o ∉ (G.fn f).inputs.map Prod.fst := by
    intro Q f rest hQ x hx o ho hi
    have hxE : x ∈ E := by
      rw [hQ]
      rcases List.mem_append.mp hx with h | h
      · simp [h]
      · simp at h; simp [h]
    have hfE : f ∈ E := by rw [hQ]; simp
    have hn := hE.nodup
    rw [hQ, List.nodup_append] at hn
    rcases List.mem_append.mp hx with h | h
    · obtain ⟨a, b, hab⟩ := List.append_of_mem h
      have := hE.consumers x f o hxE hfE ho hi a (b ++ f :: rest) (by rw [hQ, hab]; simp)
      exact hn.2.2 f (by rw [hab]; simp [this]) f (by simp) rfl
    · simp at h; subst h
      have := hE.consumers x x o hxE hxE ho hi Q rest hQ
      exact hn.2.2 x this x (by simp) rfl
  have key : ∀ (R Q : List FnId) (D : VarId → α), E = Q ++ R →
      (∀ v, D v = D0 v + (Q.map (contrib G cfg.vjp D v)).sum) →
      ∃ D', ∀ v, D' v = D0 v + (E.map (contrib G cfg.vjp D' v)).sum := by
    intro R
    induction R with
    | nil => intro Q D hQ h; simp at hQ; exact ⟨D, by rw [hQ]; exact h⟩
    | cons f R ih =>
      intro Q D hQ h
      have hag : ∀ x, x ∈ Q ++ [f] → ∀ o, o ∈ (G.fn x).outputs →
          D o + contrib G cfg.vjp D o f = D o := by
        intro x hx o ho
        rw [contrib_zero (hcons Q f R hQ x hx o ho), add_zero]
      apply ih (Q ++ [f]) (fun v => D v + contrib G cfg.vjp D v f) (by rw [hQ]; simp)
      intro v
      have hmap : ((Q ++ [f]).map
          (contrib G cfg.vjp (fun v => D v + contrib G cfg.vjp D v f) v)) =
          (Q ++ [f]).map (contrib G cfg.vjp D v) := by
        apply List.map_congr_left
        intro x hx
        apply contrib_congr
        exact hag x hx
      rw [hmap, List.map_append, List.sum_append, ← add_assoc, ← h v]
      simp
  obtain ⟨D, hD⟩ := key E [] D0 rfl (by intro v; simp)
  have hrootout : ∀ o, o ∈ (G.fn p0).outputs → (E.map (contrib G cfg.vjp D o)).sum = 0 := by
    intro o ho
    apply sum_contrib_zero
    intro x hx hi
    obtain ⟨E', hE'⟩ := hE.root_first
    have := hE.consumers p0 x o (by rw [hE']; simp) hx ho hi [] E' hE'
    simp at this
  refine ⟨D, ?_, ?_, ?_, ?_⟩
  · rw [hD root, hrootout root hr]; simp [D0, hr]
  · intro o ho hne
    rw [hD o, hrootout o ho]; simp [D0, ho, hne]
  · intro v p hp hne
    conv => lhs; rw [hD v]
    have hno : v ∉ (G.fn p0).outputs := by
      intro ho; rw [hO p0 v ho] at hp; exact hne (Option.some.inj hp).symm
    simp [D0, hno, hp]
  · intro v hp
    conv => lhs; rw [hD v]
    have hno : v ∉ (G.fn p0).outputs := by
      intro ho; rw [hO p0 v ho] at hp; cases hp
    simp [D0, hno, hp]

/-- The equations have one solution (on all variables other than outputs of functions that do not
exist): two gradients agree. -/
theorem gradient_unique {G : Graph} {cfg : GCfg α} {p0 : FnId} {E : List FnId} {root : VarId}
    {g : α} {init : VarId → α} (hO : OutputsOk G) (hP : ∀ v p, G.parent v = some p → v ∈ (G.fn p).outputs)
    (hE : GOrder G cfg p0 E) {D D' : VarId → α}
    (h : IsGradient G cfg.vjp E root p0 g init D) (h' : IsGradient G cfg.vjp E root p0 g init D') :
    ∀ v, D v = D' v := by
  have key : ∀ (Q R : List FnId), E = Q ++ R → ∀ x, x ∈ Q → ∀ o, o ∈ (G.fn x).outputs → D o = D' o := by
    intro Q
    induction Q using List.reverseRecOn with
    | nil => intro R _ x hx; simp at hx
    | append_singleton Q f ih =>
      intro R hQ x hx o ho
      have ih := ih (f :: R) (by rw [hQ]; simp)
      rcases List.mem_append.mp hx with hx | hx
      · exact ih x hx o ho
      · simp at hx; subst hx
        by_cases hx0 : x = p0
        · subst hx0
          by_cases hor : o = root
          · rw [hor, h.at_root, h'.at_root]
          · rw [h.at_sibling o ho hor, h'.at_sibling o ho hor]
        · rw [h.inner o x (hO x o ho) hx0, h'.inner o x (hO x o ho) hx0]
          congr 1
          apply List.map_congr_left
          intro y hy
          by_cases hi : o ∈ (G.fn y).inputs.map Prod.fst
          · apply contrib_congr
            have hxE : x ∈ E := by rw [hQ]; simp
            have hyQ := hE.consumers x y o hxE hy ho hi Q R (by rw [hQ]; simp)
            exact ih y hyQ
          · rw [contrib_zero hi, contrib_zero hi]
  have hall := key E [] (by simp)
  intro v
  have hs : (E.map (contrib G cfg.vjp D v)).sum = (E.map (contrib G cfg.vjp D' v)).sum := by
    congr 1
    apply List.map_congr_left
    intro y hy
    exact contrib_congr (hall y hy)
  cases hp : G.parent v with
  | none => rw [h.leaf v hp, h'.leaf v hp, hs]
  | some p =>
    by_cases hp0 : p = p0
    · subst hp0
      by_cases hvr : v = root
      · rw [hvr, h.at_root, h'.at_root]
      · rw [h.at_sibling v (hP v p hp) hvr, h'.at_sibling v (hP v p hp) hvr]
    · rw [h.inner v p hp hp0, h'.inner v p hp hp0, hs]

/-- Well-formedness of a graph for the gradient theorems: outputs have their function as parent
and conversely, and are distinct. -/
structure WfGraph (G : Graph) : Prop where
  outputs : OutputsOk G
  parents : ∀ v p, G.parent v = some p → v ∈ (G.fn p).outputs
  nodup : ∀ f, (G.fn f).outputs.Nodup

/-- No input of a reached function is switched off, and no output of a reached function that is
consumed by another one has had its gradient switched off by the user. -/
structure NoStop (G : Graph) (env : BEnv) (p0 : FnId) : Prop where
  active : ∀ f, GReach G env p0 f → ∀ v b, (v, b) ∈ (G.fn f).inputs → b = true
  nostop : ∀ f h o, GReach G env p0 f → GReach G env p0 h → env.fng f = true → env.fng h = true →
    o ∈ (G.fn f).outputs → o ∈ (G.fn h).inputs.map Prod.fst → env.vg o = true

omit [AddCommMonoid α] in
theorem gorder_of_backOk {G : Graph} {cfg : GCfg α} {p0 : FnId} {E : List FnId}
    (hw : WfGraph G) (hR : RanksOk G cfg.env p0) (hS : NoStop G cfg.env p0)
    (hng : cfg.env.fng p0 = true)
    (hk : ∀ f, cfg.prohibitZero f = true → ∀ i outs, i < (G.fn f).inputs.length →
      cfg.vjp f i outs ≠ none)
    (hi : cfg.initial = (G.fn p0).outputs) (hB : BackOk G cfg.env p0 E) : GOrder G cfg p0 E where
  nodup := hB.once
  consumers := by
    intro f h o hf hh ho hoi
    have hfr := (hB.exact_ f).mp hf
    have hhr := (hB.exact_ h).mp hh
    obtain ⟨⟨u, b⟩, hub, rfl⟩ := List.mem_map.mp hoi
    have hb := hS.active h hhr.1 u b hub
    subst hb
    exact hB.after h f hh hf ⟨u, hub, hS.nostop f h u hfr.1 hhr.1 hfr.2 hhr.2 ho hoi,
      hw.outputs f u ho⟩
  nostop := by
    intro f h o hf hh ho hoi
    have hfr := (hB.exact_ f).mp hf
    have hhr := (hB.exact_ h).mp hh
    exact hS.nostop f h o hfr.1 hhr.1 hfr.2 hhr.2 ho hoi
  root_first := by
    have hp : p0 ∈ E := (hB.exact_ p0).mpr ⟨.root, hng⟩
    have hmax : ∀ f, GReach G cfg.env p0 f → f = p0 ∨ cfg.env.rank f < cfg.env.rank p0 := by
      intro f hf
      induction hf with
      | root => exact Or.inl rfl
      | @step f p hf hfg hfe ih =>
        right
        have := hR f p hf hfe
        rcases ih with rfl | ih
        · exact this
        · omega
    cases E with
    | nil => simp at hp
    | cons x E' =>
      refine ⟨E', ?_⟩
      rcases List.mem_cons.mp hp with rfl | hp'
      · rfl
      · have hx := ((hB.exact_ x).mp (by simp)).1
        rcases hmax x hx with rfl | hlt
        · rfl
        · have := (List.pairwise_cons.mp hB.by_rank).1 p0 hp'
          omega
  initial := hi
  kernels := fun f _ => hk f

omit [AddCommMonoid α] in
theorem queryInputs_flag {pr : Bool} {v : VarId} : ∀ (ins : List VarId) (seen : List (VarId × Bool)),
    v ∉ ins → (∀ b, (v, b) ∈ seen → b = false) →
    ∀ b, (v, b) ∈ (queryInputs pr seen ins).1 → b = false := by
  intro ins
  induction ins with
  | nil => intro seen _ h; simpa [queryInputs] using h
  | cons u vs ih =>
    intro seen hv h
    simp only [List.mem_cons, not_or] at hv
    simp only [queryInputs]
    apply ih _ hv.2
    intro b hb
    obtain ⟨x, hx, hxe⟩ := List.mem_map.mp hb
    have hx1 : x = (v, b) := by
      split at hxe
      · rename_i hu
        simp only [Prod.mk.injEq] at hxe
        exact absurd (hxe.1.symm.trans hu) hv.1
      · exact hxe
    subst hx1
    split at hx
    · rcases List.mem_cons.mp hx with hx | hx
      · simp only [Prod.mk.injEq] at hx; exact absurd hx.1 hv.1
      · exact h b hx
    · exact h b hx

omit [AddCommMonoid α] in
theorem queryOutputs_flag {G : Graph} {cfg : GCfg α} {v : VarId} (hc : cfg.clearInitial = false) :
    ∀ (os : List VarId) (seen : List (VarId × Bool)), (∀ b, (v, b) ∈ seen → b = false) →
    (∀ b, (v, b) ∈ (queryOutputs G cfg seen os).1 → b = false) ∧
    (∀ x, x ∈ (queryOutputs G cfg seen os).2 → x.1 = v → x.2.2 = false) := by
  intro os
  induction os with
  | nil => intro seen h; simpa [queryOutputs] using h
  | cons o os ih =>
    intro seen h
    simp only [queryOutputs]
    have h' : ∀ b, (v, b) ∈ (if decide (o ∉ seen.map Prod.fst) = true then
        (o, cfg.clearInitial) :: seen else seen) → b = false := by
      intro b hb
      split at hb
      · rcases List.mem_cons.mp hb with hb | hb
        · simp only [Prod.mk.injEq] at hb; rw [hb.2, hc]
        · exact h b hb
      · exact h b hb
    refine ⟨(ih _ h').1, ?_⟩
    intro x hx hxv
    rcases List.mem_cons.mp hx with rfl | hx
    · simp only at hxv
      subst hxv
      have hflag : (match seen.find? (fun x => x.1 == o) with
          | none => cfg.clearInitial
          | some x => x.2) = false := by
        cases hf : seen.find? (fun x => x.1 == o) with
        | none => exact hc
        | some y =>
          have h1 := List.mem_of_find?_eq_some hf
          have h2 := List.find?_some hf
          simp only [beq_iff_eq] at h2
          apply h y.2
          rw [← h2]; exact h1
      have hb : ∀ c p b : Bool, b = false → (c && if p then false else b) = false := by
        intro c p b h; subst h; cases c <;> cases p <;> rfl
      exact hb _ _ _ hflag
    · exact (ih _ h').2 x hx hxv

/-- The gradient array of an initial variable is not written when the first one is not to be
cleared. -/
theorem backCall_keep {G : Graph} {cfg : GCfg α} {f : FnId} {s : GSt α} {v : VarId}
    (hc : cfg.clearInitial = false) (hin : v ∈ cfg.initial)
    (hi : v ∉ (G.fn f).inputs.map Prod.fst) (hs : ∀ b, (v, b) ∈ s.seen → b = false) :
    (backCall G cfg f s).grad v = s.grad v ∧
      ∀ b, (v, b) ∈ (backCall G cfg f s).seen → b = false := by
  unfold backCall
  simp only
  generalize hins : (G.fn f).inputs.map Prod.fst = ins at *
  have hq := queryInputs_flag (pr := (G.fn f).prohibitClearInputs) ins s.seen hi hs
  have ho := queryOutputs_flag (G := G) (cfg := cfg) hc (G.fn f).outputs _ hq
  refine ⟨?_, ho.1⟩
  have hl : ∀ x, x ∈ (ins.zip (queryInputs (G.fn f).prohibitClearInputs s.seen ins).2).map
      (fun x => (x.1, accumOf G cfg.env.vg s.grad ins x.1 x.2)) → x.1 ≠ v := by
    rintro x hx rfl
    obtain ⟨y, hy, rfl⟩ := List.mem_map.mp hx
    exact hi (List.of_mem_zip hy).1
  rw [clearOutputs_other _ _ ho.2, implStep_other]
  · split
    · exact forceZero_other _ _ (fun _ _ _ => Or.inr hin)
    · rw [zeroStep_other _ _ (Or.inl hl)]
      exact forceZero_other _ _ (fun _ _ _ => Or.inr hin)
  · intro x hx hxv
    exact absurd hxv (hl _ (List.fst_mem_of_mem_zipIdx hx))

theorem backCall_keep_all {G : Graph} {cfg : GCfg α} {v : VarId}
    (hc : cfg.clearInitial = false) (hin : v ∈ cfg.initial) : ∀ (E : List FnId) (s : GSt α),
    (∀ f, f ∈ E → v ∉ (G.fn f).inputs.map Prod.fst) → (∀ b, (v, b) ∈ s.seen → b = false) →
    (E.foldl (fun s f => backCall G cfg f s) s).grad v = s.grad v := by
  intro E
  induction E with
  | nil => intro s _ _; rfl
  | cons f E ih =>
    intro s hi hs
    have h := backCall_keep (f := f) hc hin (hi f (by simp)) hs
    rw [List.foldl_cons, ih _ (fun g hg => hi g (by simp [hg])) h.2, h.1]

/-- C25. For every graph with consistent ranks, every kernel, every stale content of the gradient
buffers, with or without buffer clearing: `root.backward(g)` runs the functions `E` of C24 and leaves
in the buffers the gradient `D` determined by the chain-rule equations: added to the previous
content at leaves, and (without `clear_buffer`) at every computed variable. The gradients of `root`
and its siblings, and those of variables that do not require one, are as before. -/
theorem backward_gradient_partial (G : Graph) (cfg : GCfg α) (root : VarId) (p0 : FnId)
    (hp0 : G.parent root = some p0) (hw : WfGraph G) (hR : RanksOk G cfg.env p0)
    (hS : NoStop G cfg.env p0) (hng : cfg.env.fng p0 = true)
    (hk : ∀ f, cfg.prohibitZero f = true → ∀ i outs, i < (G.fn f).inputs.length →
      cfg.vjp f i outs ≠ none)
    (L : List FnId) (hL : ∀ f, GReach G cfg.env p0 f → f ∈ L) (fuel : Nat) (hf : L.length ≤ fuel)
    (g : Option (GArr α)) (clearInit : Bool) (z : GArr α) (grad : VarId → GArr α) :
    ∃ E final D, cgBackward G cfg fuel root g clearInit z grad = some (E, final) ∧
      BackOk G cfg.env p0 E ∧
      IsGradient G cfg.vjp E root p0 ((g.getD (grad root)).read) (fun v => (grad v).read) D ∧
      (∀ v, G.parent v = none → cfg.env.vg v = true → (final v).read = D v) ∧
      (cfg.clearBuffer = false → ∀ v p, G.parent v = some p → p ≠ p0 →
        (p ∈ E ∨ (cfg.env.vg v = true ∧ ∃ f, f ∈ E ∧ v ∈ (G.fn f).inputs.map Prod.fst)) →
        (final v).read = D v) ∧
      (∀ o, o ∈ (G.fn p0).outputs → (final o).read = (grad o).read) ∧
      (∀ v, cfg.env.vg v = false → (∀ f, f ∈ E → v ∉ (G.fn f).outputs) → final v = grad v) := by
  let cfg' : GCfg α :=
    { cfg with initial := (G.fn p0).outputs, clearInitial := g.isSome && clearInit }
  let s0 : VarId → GArr α := initGrads G root p0 g z grad
  obtain ⟨hop, hB, hx⟩ := visitBackward_ok G cfg'.env (backCall G cfg') p0 hR L hL fuel hf
    ({ seen := [], grad := s0 } : GSt α)
  have hE : GOrder G cfg' p0
      (visitBackward G cfg'.env (backCall G cfg') fuel p0 { seen := [], grad := s0 }).order :=
    gorder_of_backOk (cfg := cfg') hw hR hS hng hk rfl hB
  have hroot : root ∈ (G.fn p0).outputs := hw.parents root p0 hp0
  obtain ⟨D, hD⟩ := exists_gradient (g := (g.getD (grad root)).read)
    (init := fun v => (grad v).read) hw.outputs hroot hE
  have hs0 : ∀ o, o ∈ (G.fn p0).outputs → (s0 o).read = D o := by
    intro o ho
    by_cases hor : o = root
    · subst hor
      rw [hD.at_root]
      simp only [s0, initGrads, hroot, if_true]
      cases g <;> rfl
    · rw [hD.at_sibling o ho hor]
      simp [s0, initGrads, ho, hor, GArr.zeroed, GArr.read]
  have hs0' : ∀ v, v ∉ (G.fn p0).outputs → s0 v = grad v := by
    intro v hv; simp [s0, initGrads, hv]
  have hI := ginv_all (cfg := cfg') hw.outputs hw.nodup hE hD hs0
  rw [← hx] at hI
  generalize hr : visitBackward G cfg'.env (backCall G cfg') fuel p0 { seen := [], grad := s0 } = r
    at hI hD hE hB hx
  refine ⟨r.order, fun v => if v ∈ (G.fn p0).outputs then
      (if v = root ∧ g.isNone = true then r.ext.grad v else grad v) else r.ext.grad v, D,
    ?_, hB, hD, ?_, ?_, ?_, ?_⟩
  · simp only [cgBackward, hp0]
    rw [← hr]
  · intro v hv hvg
    have hvo : v ∉ (G.fn p0).outputs := by
      intro ho; rw [hw.outputs p0 v ho] at hv; cases hv
    simp only [hvo, if_false]
    rw [hI.leaf v hv hvg, hs0' v hvo, hD.leaf v hv]
  · intro hcb v p hvp hpn hor
    have hvo : v ∉ (G.fn p0).outputs := by
      intro ho; rw [hw.outputs p0 v ho] at hvp; exact hpn (Option.some.inj hvp).symm
    simp only [hvo, if_false]
    by_cases hpE : p ∈ r.order
    · exact hI.kept hcb p hpE v (hw.parents v p hvp)
    · rcases hor with h | ⟨hvg, hex⟩
      · exact absurd h hpE
      · rw [hI.inner v p hvp hpE hvg hex, hD.inner v p hvp hpn]
  · intro o ho
    simp only [ho, if_true]
    split
    · rename_i hc
      -- the array of the root is only read during the pass
      have hg : g = none := by simpa using hc.2
      have hroo : o = root := hc.1
      subst hroo
      have hxg : r.ext.grad o = s0 o := by
        rw [hx]
        apply backCall_keep_all (cfg := cfg') (by simp [cfg', hg]) ho
        · intro f hf hi
          obtain ⟨E', hE'⟩ := hE.root_first
          have := hE.consumers p0 f o (by rw [hE']; simp) hf ho hi [] E' hE'
          simp at this
        · simp
      rw [hxg]
      simp [s0, initGrads, ho, hg]
    · rfl
  · intro v hvg hno
    have hp0E : p0 ∈ r.order := (hB.exact_ p0).mpr ⟨.root, hng⟩
    have hvo : v ∉ (G.fn p0).outputs := hno p0 hp0E
    simp only [hvo, if_false]
    rw [hI.untouched v hno (Or.inr hvg), hs0' v hvo]

end Verif.Graph
