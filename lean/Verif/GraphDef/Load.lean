import Verif.GraphDef.Spec
import Mathlib.Data.List.Nodup
import Mathlib.Data.List.Basic

/-!
# What `from_proto` builds
-/

namespace Verif.GraphDef

/-- The network built from the variables of `p` and the functions `fs`. -/
structure Built (vs : List PVar) (fs : List PFn) (N : Net) : Prop where
  varKeys : N.varKeys = (vs.filter fun v => !v.isParam).map PVar.name
  paramKeys : N.paramKeys = (vs.filter fun v => v.isParam).map PVar.name
  fnKeys : N.fnKeys = fs.map PFn.name
  fn : ∀ f ∈ fs, N.fn f.name = f
  parent : ∀ v n, (N.node v).parent = some n ↔ ∃ f ∈ fs, f.name = n ∧ v ∈ f.outputs
  required : ∀ v n, n ∈ (N.node v).required ↔ ∃ f ∈ fs, f.name = n ∧ v ∈ f.inputs
  stop : ∀ v, (N.node v).stop = false

theorem upd_same {α : Type} (f : String → α) (k : String) (a : α) : upd f k a k = a := by
  simp [upd]

theorem upd_other {α : Type} (f : String → α) {k x : String} (a : α) (h : x ≠ k) :
    upd f k a x = f x := by
  simp [upd, h]

theorem declare_built (vs : List PVar) : ∀ (N : Net) (pre : List PVar),
    ((pre ++ vs).map PVar.name).Nodup → Built pre [] N → Built (pre ++ vs) [] (vs.foldl declareVar N) := by
  induction vs with
  | nil => intro N pre _ h; simpa using h
  | cons v vs ih =>
    intro N pre hnd h
    have hnd' : (((pre ++ [v]) ++ vs).map PVar.name).Nodup := by simpa using hnd
    have hv : v.name ∉ pre.map PVar.name := by
      intro hm
      rw [List.map_append, List.nodup_append] at hnd
      exact hnd.2.2 v.name hm v.name (by simp) rfl
    have hstep : Built (pre ++ [v]) [] (declareVar N v) := by
      have hp : v.name ∉ N.paramKeys := by
        rw [h.paramKeys]; intro hm
        obtain ⟨w, hw, he⟩ := List.mem_map.mp hm
        exact hv (he ▸ List.mem_map.mpr ⟨w, (List.mem_filter.mp hw).1, rfl⟩)
      have hq : v.name ∉ N.varKeys := by
        rw [h.varKeys]; intro hm
        obtain ⟨w, hw, he⟩ := List.mem_map.mp hm
        exact hv (he ▸ List.mem_map.mpr ⟨w, (List.mem_filter.mp hw).1, rfl⟩)
      have hnode : ∀ (w : String) , (upd N.node v.name ({} : Node) w).parent = none ∧
          (upd N.node v.name ({} : Node) w).required = [] ∧
          (upd N.node v.name ({} : Node) w).stop = false := by
        intro w
        by_cases hw : w = v.name
        · subst hw; rw [upd_same]; simp
        · rw [upd_other _ _ hw]
          refine ⟨?_, ?_, h.stop w⟩
          · cases hpa : (N.node w).parent with
            | none => rfl
            | some n => have := (h.parent w n).mp hpa; simp at this
          · rw [List.eq_nil_iff_forall_not_mem]
            intro n hn; have := (h.required w n).mp hn; simp at this
      unfold declareVar
      cases hb : v.isParam with
      | true =>
        rw [if_pos rfl]
        refine ⟨?_, ?_, h.fnKeys, by simp, ?_, ?_, fun w => (hnode w).2.2⟩
        · simpa [List.filter_append, hb] using h.varKeys
        · show addKey N.paramKeys v.name = _
          rw [addKey, if_neg hp, h.paramKeys]; simp [List.filter_append, hb]
        · intro w n; simp only [(hnode w).1]; simp
        · intro w n; simp only [(hnode w).2.1]; simp
      | false =>
        rw [if_neg (by simp)]
        refine ⟨?_, ?_, h.fnKeys, by simp, ?_, ?_, fun w => (hnode w).2.2⟩
        · show addKey N.varKeys v.name = _
          rw [addKey, if_neg hq, h.varKeys]; simp [List.filter_append, hb]
        · simpa [List.filter_append, hb] using h.paramKeys
        · intro w n; simp only [(hnode w).1]; simp
        · intro w n; simp only [(hnode w).2.1]; simp
    have := ih (declareVar N v) (pre ++ [v]) hnd' hstep
    simpa using this

theorem empty_built : Built [] [] emptyNet := by
  refine ⟨rfl, rfl, rfl, by simp, ?_, ?_, fun _ => rfl⟩ <;> intro v n <;> simp [emptyNet]

/-- wiring inputs never touches anything but `required` -/
theorem wireInputs (f : String) (ins : List String) : ∀ N : Net,
    (∀ v ∈ ins, N.declares v = true) →
    ∃ N', ins.foldlM (wireInput f) N = some N' ∧ N'.varKeys = N.varKeys ∧
      N'.paramKeys = N.paramKeys ∧ N'.fnKeys = N.fnKeys ∧ N'.fn = N.fn ∧
      (∀ v, (N'.node v).parent = (N.node v).parent ∧ (N'.node v).stop = (N.node v).stop ∧
        ∀ n, n ∈ (N'.node v).required ↔ (n ∈ (N.node v).required ∨ (n = f ∧ v ∈ ins))) := by
  induction ins with
  | nil => intro N _; exact ⟨N, rfl, rfl, rfl, rfl, rfl, fun v => ⟨rfl, rfl, fun n => by simp⟩⟩
  | cons i ins ih =>
    intro N hd
    let N1 : Net := { N with
      node := upd N.node i { N.node i with required := (N.node i).required ++ [f] } }
    have h1 : wireInput f N i = some N1 := by
      unfold wireInput; rw [if_pos (hd i (by simp))]
    obtain ⟨N', hN', hk1, hk2, hk3, hk4, hn⟩ := ih N1 (fun v hv => hd v (by simp [hv]))
    refine ⟨N', ?_, hk1, hk2, hk3, hk4, ?_⟩
    · rw [List.foldlM_cons, h1]; exact hN'
    · intro v
      obtain ⟨ha, hb, hc⟩ := hn v
      by_cases hv : v = i
      · subst hv
        have he : N1.node v = { N.node v with required := (N.node v).required ++ [f] } :=
          upd_same _ _ _
        rw [he] at ha hb hc
        refine ⟨ha, hb, fun n => ?_⟩
        rw [hc]; simp only [List.mem_append, List.mem_singleton, List.mem_cons, true_or, and_true]
        tauto
      · have he : N1.node v = N.node v := upd_other _ _ hv
        rw [he] at ha hb hc
        refine ⟨ha, hb, fun n => ?_⟩
        rw [hc]; simp [hv]

/-- wiring outputs never touches anything but `parent` -/
theorem wireOutputs (f : String) (outs : List String) : ∀ N : Net,
    (∀ v ∈ outs, N.declares v = true) →
    ∃ N', outs.foldlM (wireOutput f) N = some N' ∧ N'.varKeys = N.varKeys ∧
      N'.paramKeys = N.paramKeys ∧ N'.fnKeys = N.fnKeys ∧ N'.fn = N.fn ∧
      (∀ v, (N'.node v).required = (N.node v).required ∧ (N'.node v).stop = (N.node v).stop ∧
        (N'.node v).parent = if v ∈ outs then some f else (N.node v).parent) := by
  induction outs with
  | nil => intro N _; exact ⟨N, rfl, rfl, rfl, rfl, rfl, fun v => ⟨rfl, rfl, by simp⟩⟩
  | cons i outs ih =>
    intro N hd
    let N1 : Net := { N with node := upd N.node i { N.node i with parent := some f } }
    have h1 : wireOutput f N i = some N1 := by
      unfold wireOutput; rw [if_pos (hd i (by simp))]
    obtain ⟨N', hN', hk1, hk2, hk3, hk4, hn⟩ := ih N1 (fun v hv => hd v (by simp [hv]))
    refine ⟨N', ?_, hk1, hk2, hk3, hk4, ?_⟩
    · rw [List.foldlM_cons, h1]; exact hN'
    · intro v
      obtain ⟨ha, hb, hc⟩ := hn v
      by_cases hv : v = i
      · subst hv
        have he : N1.node v = { N.node v with parent := some f } := upd_same _ _ _
        rw [he] at ha hb hc
        refine ⟨ha, hb, ?_⟩
        rw [hc]; simp
      · have he : N1.node v = N.node v := upd_other _ _ hv
        rw [he] at ha hb hc
        refine ⟨ha, hb, ?_⟩
        rw [hc]; simp [hv]

theorem built_declares {vs : List PVar} {fs : List PFn} {N : Net} (h : Built vs fs N) {v : String}
    (hv : v ∈ vs.map PVar.name) : N.declares v = true := by
  obtain ⟨w, hw, rfl⟩ := List.mem_map.mp hv
  unfold Net.declares
  rw [h.varKeys, h.paramKeys]
  cases hb : w.isParam with
  | true =>
    have : ((vs.filter fun v => v.isParam).map PVar.name).contains w.name = true := by
      rw [List.contains_iff_mem]
      exact List.mem_map.mpr ⟨w, List.mem_filter.mpr ⟨hw, by simp [hb]⟩, rfl⟩
    rw [this]; simp
  | false =>
    have : ((vs.filter fun v => !v.isParam).map PVar.name).contains w.name = true := by
      rw [List.contains_iff_mem]
      exact List.mem_map.mpr ⟨w, List.mem_filter.mpr ⟨hw, by simp [hb]⟩, rfl⟩
    rw [this]; simp

theorem wire_built {vs : List PVar} (fs : List PFn) : ∀ (N : Net) (pre : List PFn),
    ((pre ++ fs).map PFn.name).Nodup → ((pre ++ fs).flatMap PFn.outputs).Nodup →
    (∀ f ∈ fs, ∀ v ∈ f.inputs, v ∈ vs.map PVar.name) →
    (∀ f ∈ fs, ∀ v ∈ f.outputs, v ∈ vs.map PVar.name) →
    Built vs pre N → ∃ N', fs.foldlM wireFn N = some N' ∧ Built vs (pre ++ fs) N' := by
  induction fs with
  | nil => intro N pre _ _ _ _ h; exact ⟨N, rfl, by simpa using h⟩
  | cons f fs ih =>
    intro N pre hnd hod hin hout h
    have hfresh : f.name ∉ pre.map PFn.name := by
      intro hm
      rw [List.map_append, List.nodup_append] at hnd
      exact hnd.2.2 f.name hm f.name (by simp) rfl
    have hofresh : ∀ g ∈ pre, ∀ v ∈ g.outputs, v ∉ f.outputs := by
      intro g hg v hv hvf
      rw [List.flatMap_append, List.nodup_append] at hod
      exact hod.2.2 v (List.mem_flatMap.mpr ⟨g, hg, hv⟩) v
        (List.mem_flatMap.mpr ⟨f, by simp, hvf⟩) rfl
    let N1 : Net := { N with fnKeys := addKey N.fnKeys f.name, fn := upd N.fn f.name f }
    have hd1 : ∀ v, v ∈ vs.map PVar.name → N1.declares v = true := fun v hv =>
      built_declares h hv
    obtain ⟨N2, hN2, a1, a2, a3, a4, a5⟩ := wireInputs f.name f.inputs N1
      (fun v hv => hd1 v (hin f (by simp) v hv))
    have hd2 : ∀ v, v ∈ vs.map PVar.name → N2.declares v = true := by
      intro v hv; have := hd1 v hv; unfold Net.declares at this ⊢; rw [a1, a2]; exact this
    obtain ⟨N3, hN3, b1, b2, b3, b4, b5⟩ := wireOutputs f.name f.outputs N2
      (fun v hv => hd2 v (hout f (by simp) v hv))
    have hw : wireFn N f = some N3 := by
      unfold wireFn; show ((f.inputs.foldlM (wireInput f.name) N1).bind _) = _
      rw [hN2]; exact hN3
    have hb : Built vs (pre ++ [f]) N3 := by
      refine ⟨?_, ?_, ?_, ?_, ?_, ?_, ?_⟩
      · rw [b1, a1]; exact h.varKeys
      · rw [b2, a2]; exact h.paramKeys
      · rw [b3, a3]
        show addKey N.fnKeys f.name = _
        rw [addKey, h.fnKeys, if_neg hfresh]; simp
      · intro g hg
        rw [b4, a4]
        show upd N.fn f.name f g.name = g
        rw [List.mem_append, List.mem_singleton] at hg
        rcases hg with hg | rfl
        · have : g.name ≠ f.name := fun he => hfresh (he ▸ List.mem_map.mpr ⟨g, hg, rfl⟩)
          rw [upd_other _ _ this]; exact h.fn g hg
        · exact upd_same _ _ _
      · intro v n
        rw [(b5 v).2.2, (a5 v).1]
        show (if v ∈ f.outputs then some f.name else (N.node v).parent) = some n ↔ _
        by_cases hv : v ∈ f.outputs
        · rw [if_pos hv]
          constructor
          · intro he; cases he; exact ⟨f, by simp, rfl, hv⟩
          · rintro ⟨g, hg, rfl, hgv⟩
            rw [List.mem_append, List.mem_singleton] at hg
            rcases hg with hg | rfl
            · exact absurd hv (hofresh g hg v hgv)
            · rfl
        · rw [if_neg hv, h.parent]
          constructor
          · rintro ⟨g, hg, r⟩; exact ⟨g, by simp [hg], r⟩
          · rintro ⟨g, hg, he, hgv⟩
            rw [List.mem_append, List.mem_singleton] at hg
            rcases hg with hg | rfl
            · exact ⟨g, hg, he, hgv⟩
            · exact absurd hgv hv
      · intro v n
        rw [(b5 v).1, (a5 v).2.2 n]
        show n ∈ (N.node v).required ∨ _ ↔ _
        rw [h.required]
        constructor
        · rintro (⟨g, hg, r⟩ | ⟨rfl, hv⟩)
          · exact ⟨g, by simp [hg], r⟩
          · exact ⟨f, by simp, rfl, hv⟩
        · rintro ⟨g, hg, he, hgv⟩
          rw [List.mem_append, List.mem_singleton] at hg
          rcases hg with hg | rfl
          · exact Or.inl ⟨g, hg, he, hgv⟩
          · exact Or.inr ⟨he.symm, hgv⟩
      · intro v; rw [(b5 v).2.1, (a5 v).2.1]; exact h.stop v
    obtain ⟨N', hN', hB⟩ := ih N3 (pre ++ [f]) (by simpa using hnd) (by simpa using hod)
      (fun g hg => hin g (by simp [hg])) (fun g hg => hout g (by simp [hg])) hb
    refine ⟨N', ?_, by simpa using hB⟩
    rw [List.foldlM_cons, hw]; exact hN'

/-- A well-formed network loads, and the loaded network has exactly the declared wiring. -/
theorem fromProto_built (p : Proto) (h : WF p) :
    ∃ N, fromProto p = some N ∧ Built p.variables p.functions N := by
  have h0 : Built p.variables [] (p.variables.foldl declareVar emptyNet) := by
    have := declare_built p.variables emptyNet [] (by simpa using h.varNodup) empty_built
    simpa using this
  have := wire_built (vs := p.variables) p.functions _ [] (by simpa using h.fnNodup)
    (by simpa using h.outNodup) h.inDecl
    (fun f hf v hv => List.mem_map.mpr ⟨_, h.outDecl f hf v hv, rfl⟩) h0
  simpa [fromProto] using this

end Verif.GraphDef
