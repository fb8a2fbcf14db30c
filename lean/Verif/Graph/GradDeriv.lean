import Mathlib.Algebra.BigOperators.Group.Finset.Basic
import Mathlib.Algebra.BigOperators.Group.Finset.Piecewise
import Mathlib.Algebra.Group.Hom.Basic
import Mathlib.Algebra.Module.LinearMap.Defs
import Verif.Graph.GradProps
/-
C48: what `backward` leaves in the gradient buffers of the parameters is the derivative: the
transposed Jacobian of the whole graph applied to the given gradient.
-/
namespace Verif.Graph
variable {α R : Type} [AddCommGroup α] [AddCommGroup R]

/-- Each kernel is correct by itself: `vjp f` is the adjoint of the linearisation `jvp f` of the
function at the current inputs, for the pairing `P` (e.g. the dot product of arrays). -/
def KernelAdjoint (G : Graph) (P : α →+ α →+ R) (vjp : FnId → Nat → List α → Option α)
    (jvp : FnId → Nat → List α → α) (f : FnId) : Prop :=
  ∀ gs ts : List α, gs.length = (G.fn f).outputs.length → ts.length = (G.fn f).inputs.length →
    ((gs.zipIdx.map fun x => P x.1 (jvp f x.2 ts)).sum) =
      ((ts.zipIdx.map fun x => P ((vjp f x.2 gs).getD 0) x.1).sum)

/-- `t` is the tangent (directional derivative) of every variable when only the leaves that require
a gradient vary: the linearised functions map the tangents of inputs to those of the outputs, and
everything else is constant. -/
structure IsTangent (G : Graph) (env : BEnv) (E : List FnId) (jvp : FnId → Nat → List α → α)
    (t : VarId → α) : Prop where
  fn : ∀ f, f ∈ E → ∀ (k : Nat) o, (G.fn f).outputs[k]? = some o →
    t o = jvp f k ((G.fn f).inputs.map fun v => t v.1)
  const : ∀ v, (∀ f, f ∈ E → v ∉ (G.fn f).outputs) → ¬(G.parent v = none ∧ env.vg v = true) → t v = 0

/-- The leaves that require a gradient among the inputs of the functions of `E`. -/
def leafInputs (G : Graph) (env : BEnv) (E : List FnId) : Finset VarId :=
  ((E.flatMap fun f => (G.fn f).inputs.map Prod.fst).filter
    fun v => (G.parent v).isNone && env.vg v).toFinset

theorem sum_zipIdx_indicator (V : Finset VarId) (c : VarId → Nat → R) :
    ∀ (l : List VarId) (k : Nat), (∀ v, v ∈ l → v ∈ V) →
      ∑ v ∈ V, ((l.zipIdx k).map fun x => if x.1 = v then c v x.2 else 0).sum =
        ((l.zipIdx k).map fun x => c x.1 x.2).sum := by
  intro l
  induction l with
  | nil => intro k _; simp
  | cons a l ih =>
    intro k h
    simp only [List.zipIdx_cons, List.map_cons, List.sum_cons]
    rw [Finset.sum_add_distrib, ih (k + 1) (fun v hv => h v (by simp [hv]))]
    congr 1
    rw [Finset.sum_ite_eq V a (fun v => c v k)]
    rw [if_pos (h a (by simp))]

theorem map_list_sum' {A B : Type} [AddCommMonoid A] [AddCommMonoid B] (φ : A →+ B) (l : List A) :
    φ l.sum = (l.map φ).sum := by
  induction l with
  | nil => simp
  | cons a l ih => simp [ih]

/-- Chain rule for the whole graph, at the level of the specification of the gradient. -/
theorem gradient_adjoint {G : Graph} {cfg : GCfg α} {p0 : FnId} {E : List FnId} {root : VarId}
    {g : α} {init D t : VarId → α} (hw : WfGraph G) (hp : G.parent root = some p0)
    (hE : GOrder G cfg p0 E) (P : α →+ α →+ R) (jvp : FnId → Nat → List α → α)
    (hA : ∀ f, f ∈ E → KernelAdjoint G P cfg.vjp jvp f)
    (hD : IsGradient G cfg.vjp E root p0 g init D) (ht : IsTangent G cfg.env E jvp t) :
    P g (t root) = ∑ v ∈ leafInputs G cfg.env E, P (D v - init v) (t v) := by
  classical
  -- all variables touched
  let V : Finset VarId := (E.flatMap fun f =>
    (G.fn f).inputs.map Prod.fst ++ (G.fn f).outputs).toFinset
  have hVin : ∀ f, f ∈ E → ∀ v, v ∈ (G.fn f).inputs.map Prod.fst → v ∈ V := by
    intro f hf v hv
    simp only [V, List.mem_toFinset, List.mem_flatMap, List.mem_append]
    exact ⟨f, hf, Or.inl hv⟩
  have hVout : ∀ f, f ∈ E → ∀ v, v ∈ (G.fn f).outputs → v ∈ V := by
    intro f hf v hv
    simp only [V, List.mem_toFinset, List.mem_flatMap, List.mem_append]
    exact ⟨f, hf, Or.inr hv⟩
  have hp0E : p0 ∈ E := by obtain ⟨E', h⟩ := hE.root_first; rw [h]; simp
  have hrootout := hw.parents root p0 hp
  -- adjointness of one function
  have hone : ∀ f, f ∈ E →
      ((G.fn f).outputs.map fun o => P (D o) (t o)).sum =
      ∑ v ∈ V, P (contrib G cfg.vjp D v f) (t v) := by
    intro f hf
    have h := hA f hf ((G.fn f).outputs.map D) ((G.fn f).inputs.map fun v => t v.1) (by simp)
      (by simp)
    have hl : (((G.fn f).outputs.map D).zipIdx.map fun x =>
        P x.1 (jvp f x.2 ((G.fn f).inputs.map fun v => t v.1))) =
        (G.fn f).outputs.map fun o => P (D o) (t o) := by
      apply List.ext_getElem
      · simp
      · intro i h1 h2
        simp only [List.getElem_map, List.getElem_zipIdx, zero_add]
        have hi : i < (G.fn f).outputs.length := by simpa using h2
        rw [ht.fn f hf i _ (List.getElem?_eq_getElem hi)]
    rw [hl] at h
    rw [h]
    have hr : (((G.fn f).inputs.map fun v => t v.1).zipIdx.map fun x =>
        P ((cfg.vjp f x.2 ((G.fn f).outputs.map D)).getD 0) x.1) =
        (((G.fn f).inputs.map Prod.fst).zipIdx.map fun x =>
          P ((cfg.vjp f x.2 ((G.fn f).outputs.map D)).getD 0) (t x.1)) := by
      rw [List.zipIdx_map, List.zipIdx_map, List.map_map, List.map_map]
      rfl
    rw [hr, ← sum_zipIdx_indicator V
      (fun v i => P ((cfg.vjp f i ((G.fn f).outputs.map D)).getD 0) (t v)) _ 0 (hVin f hf)]
    apply Finset.sum_congr rfl
    intro v _
    unfold contrib
    have : ∀ a : α, P a (t v) = (P.flip (t v)) a := fun a => rfl
    rw [this, map_list_sum', List.map_map]
    congr 1
    apply List.map_congr_left
    intro x _
    simp only [Function.comp]
    split
    · rw [← this]
    · simp
  -- sum over the functions
  have hsum : (E.map fun f => ((G.fn f).outputs.map fun o => P (D o) (t o)).sum).sum =
      ∑ v ∈ V, P ((E.map (contrib G cfg.vjp D v)).sum) (t v) := by
    rw [List.map_congr_left hone]
    have : ∀ l : List FnId, (l.map fun f => ∑ v ∈ V, P (contrib G cfg.vjp D v f) (t v)).sum =
        ∑ v ∈ V, P ((l.map (contrib G cfg.vjp D v)).sum) (t v) := by
      intro l
      induction l with
      | nil => simp
      | cons a l ih =>
        simp only [List.map_cons, List.sum_cons, ih, map_add, AddMonoidHom.add_apply,
          Finset.sum_add_distrib]
    exact this E
  -- the produced variables
  have hleft : (E.map fun f => ((G.fn f).outputs.map fun o => P (D o) (t o)).sum).sum =
      ∑ v ∈ V, if (∃ f, f ∈ E ∧ v ∈ (G.fn f).outputs) then P (D v) (t v) else 0 := by
    have hout : ∀ f, f ∈ E → ((G.fn f).outputs.map fun o => P (D o) (t o)).sum =
        ∑ v ∈ V, if v ∈ (G.fn f).outputs then P (D v) (t v) else 0 := by
      intro f hf
      rw [← List.sum_toFinset _ (hw.nodup f), ← Finset.sum_filter]
      apply Finset.sum_congr _ (fun _ _ => rfl)
      ext v
      simp only [List.mem_toFinset, Finset.mem_filter]
      exact ⟨fun h => ⟨hVout f hf v h, h⟩, fun h => h.2⟩
    rw [List.map_congr_left hout]
    have : ∀ l : List FnId, l.Nodup →
        (l.map fun f => ∑ v ∈ V, if v ∈ (G.fn f).outputs then P (D v) (t v) else 0).sum =
        ∑ v ∈ V, if (∃ f, f ∈ l ∧ v ∈ (G.fn f).outputs) then P (D v) (t v) else 0 := by
      intro l
      induction l with
      | nil => intro _; simp
      | cons a l ih =>
        intro hn
        rw [List.nodup_cons] at hn
        rw [List.map_cons, List.sum_cons, ih hn.2, ← Finset.sum_add_distrib]
        apply Finset.sum_congr rfl
        intro v _
        by_cases ha : v ∈ (G.fn a).outputs
        · have hno : ¬∃ f, f ∈ l ∧ v ∈ (G.fn f).outputs := by
            rintro ⟨f, hf, hv⟩
            have h1 := hw.outputs a v ha
            rw [hw.outputs f v hv] at h1
            obtain rfl := Option.some.inj h1
            exact hn.1 hf
          rw [if_pos ha, if_neg hno, if_pos ⟨a, by simp, ha⟩, add_zero]
        · have : (∃ f, f ∈ a :: l ∧ v ∈ (G.fn f).outputs) ↔ ∃ f, f ∈ l ∧ v ∈ (G.fn f).outputs := by
            constructor
            · rintro ⟨f, hf, hv⟩
              rcases List.mem_cons.mp hf with rfl | hf
              · exact absurd hv ha
              · exact ⟨f, hf, hv⟩
            · rintro ⟨f, hf, hv⟩; exact ⟨f, by simp [hf], hv⟩
          rw [if_neg ha, zero_add]
          simp only [this]
    exact this E hE.nodup
  have hrootsum : ∀ o, o ∈ (G.fn p0).outputs → (E.map (contrib G cfg.vjp D o)).sum = 0 := by
    intro o ho
    apply sum_contrib_zero
    intro x hx hi
    obtain ⟨E', hE'⟩ := hE.root_first
    have := hE.consumers p0 x o hp0E hx ho hi [] E' hE'
    simp at this
  -- compare termwise
  have hterm : ∀ v, v ∈ V →
      (if (∃ f, f ∈ E ∧ v ∈ (G.fn f).outputs) then P (D v) (t v) else 0) -
        P ((E.map (contrib G cfg.vjp D v)).sum) (t v) =
      (if v = root then P g (t root) else 0) -
        (if v ∈ leafInputs G cfg.env E then P (D v - init v) (t v) else 0) := by
    intro v hv
    have hleafmem : v ∈ leafInputs G cfg.env E ↔
        (∃ f, f ∈ E ∧ v ∈ (G.fn f).inputs.map Prod.fst) ∧ G.parent v = none ∧
          cfg.env.vg v = true := by
      simp only [leafInputs, List.mem_toFinset, List.mem_filter, List.mem_flatMap,
        Bool.and_eq_true, Option.isNone_iff_eq_none]
    by_cases hprod : ∃ f, f ∈ E ∧ v ∈ (G.fn f).outputs
    · obtain ⟨f, hf, hvo⟩ := hprod
      have hpar := hw.outputs f v hvo
      have hnl : v ∉ leafInputs G cfg.env E := by
        rw [hleafmem, hpar]; rintro ⟨_, h, _⟩; cases h
      rw [if_pos ⟨f, hf, hvo⟩, if_neg hnl, sub_zero]
      by_cases hfp : f = p0
      · subst hfp
        rw [hrootsum v hvo]
        by_cases hvr : v = root
        · subst hvr; rw [if_pos rfl, hD.at_root]; simp
        · rw [if_neg hvr, hD.at_sibling v hvo hvr]; simp
      · have hvr : v ≠ root := by
          rintro rfl; rw [hp] at hpar; exact hfp (Option.some.inj hpar).symm
        rw [if_neg hvr, ← hD.inner v f hpar hfp, sub_self]
    · have hvr : v ≠ root := by rintro rfl; exact hprod ⟨p0, hp0E, hrootout⟩
      rw [if_neg hprod, if_neg hvr]
      by_cases hleaf : G.parent v = none ∧ cfg.env.vg v = true
      · have hin : ∃ f, f ∈ E ∧ v ∈ (G.fn f).inputs.map Prod.fst := by
          simp only [V, List.mem_toFinset, List.mem_flatMap, List.mem_append] at hv
          obtain ⟨f, hf, h | h⟩ := hv
          · exact ⟨f, hf, h⟩
          · exact absurd ⟨f, hf, h⟩ hprod
        rw [if_pos (hleafmem.mpr ⟨hin, hleaf⟩), hD.leaf v hleaf.1, add_sub_cancel_left]
      · have hnl : v ∉ leafInputs G cfg.env E := by
          rw [hleafmem]; rintro ⟨_, h⟩; exact hleaf h
        rw [if_neg hnl, ht.const v (fun f hf h => hprod ⟨f, hf, h⟩) hleaf]
        simp
  have hall := Finset.sum_congr rfl hterm
  rw [Finset.sum_sub_distrib, Finset.sum_sub_distrib, ← hleft, ← hsum, sub_self] at hall
  rw [Finset.sum_ite_eq' V root (fun _ => P g (t root)),
    if_pos (hVout p0 hp0E root hrootout), ← Finset.sum_filter] at hall
  have hfilter : V.filter (fun v => v ∈ leafInputs G cfg.env E) = leafInputs G cfg.env E := by
    ext v
    simp only [Finset.mem_filter, and_iff_right_iff_imp]
    intro h
    simp only [leafInputs, List.mem_toFinset, List.mem_filter, List.mem_flatMap] at h
    obtain ⟨⟨f, hf, hv⟩, _⟩ := h
    exact hVin f hf v hv
  rw [hfilter] at hall
  exact (sub_eq_zero.mp hall.symm)

/-- C48. If every kernel is the adjoint of the linearisation of its function, then what
`root.backward(g)` adds to the gradients of the leaves is the adjoint of the linearisation of the
whole graph: for every tangent `t`, `⟨g, t root⟩ = Σ_leaves ⟨added gradient, t leaf⟩`. -/
theorem backward_derivative (G : Graph) (cfg : GCfg α) (root : VarId) (p0 : FnId)
    (hp0 : G.parent root = some p0) (hw : WfGraph G) (hR : RanksOk G cfg.env p0)
    (hS : NoStop G cfg.env p0) (hng : cfg.env.fng p0 = true)
    (hk : ∀ f, cfg.prohibitZero f = true → ∀ i outs, i < (G.fn f).inputs.length →
      cfg.vjp f i outs ≠ none)
    (L : List FnId) (hL : ∀ f, GReach G cfg.env p0 f → f ∈ L) (fuel : Nat) (hf : L.length ≤ fuel)
    (g : Option (GArr α)) (clearInit : Bool) (z : GArr α) (grad : VarId → GArr α)
    (P : α →+ α →+ R) (jvp : FnId → Nat → List α → α)
    (hA : ∀ f, GReach G cfg.env p0 f → KernelAdjoint G P cfg.vjp jvp f) :
    ∃ E final, cgBackward G cfg fuel root g clearInit z grad = some (E, final) ∧
      (∀ f, f ∈ E ↔ GReach G cfg.env p0 f ∧ cfg.env.fng f = true) ∧
      ∀ t, IsTangent G cfg.env E jvp t →
        P ((g.getD (grad root)).read) (t root) =
          ∑ v ∈ leafInputs G cfg.env E, P ((final v).read - (grad v).read) (t v) := by
  obtain ⟨E, final, D, h1, hB, hD, hleaf, _⟩ :=
    backward_gradient_partial G cfg root p0 hp0 hw hR hS hng hk L hL fuel hf g clearInit z grad
  refine ⟨E, final, h1, hB.exact_, ?_⟩
  intro t ht
  have hE : GOrder G { cfg with initial := (G.fn p0).outputs } p0 E :=
    gorder_of_backOk (cfg := { cfg with initial := (G.fn p0).outputs }) hw hR hS hng hk rfl hB
  rw [gradient_adjoint (cfg := { cfg with initial := (G.fn p0).outputs }) hw hp0 hE P jvp
    (fun f hf => hA f ((hB.exact_ f).mp hf).1) hD ht]
  apply Finset.sum_congr rfl
  intro v hv
  simp only [leafInputs, List.mem_toFinset, List.mem_filter, Bool.and_eq_true,
    Option.isNone_iff_eq_none] at hv
  rw [hleaf v hv.2.1 hv.2.2]

end Verif.Graph
