import Verif.GraphDef.Optim
import Verif.GraphDef.Props
import Mathlib.Data.List.Count

/-!
# C115, C116: removing identity functions, renaming variables
-/

namespace Verif.GraphDef

/-! ## exact contents of `required` -/

/-- one entry per occurrence of `v` in the inputs of `f` -/
def uses (v : String) (f : PFn) : List String := (f.inputs.filter (· = v)).map fun _ => f.name

theorem wireInputs_required (f : String) (ins : List String) : ∀ {N N' : Net},
    ins.foldlM (wireInput f) N = some N' → ∀ v, (N'.node v).required =
      (N.node v).required ++ (ins.filter (· = v)).map fun _ => f := by
  induction ins with
  | nil => intro N N' h v; simp at h; subst h; simp
  | cons i ins ih =>
    intro N N' h v
    rw [List.foldlM_cons] at h
    unfold wireInput at h
    by_cases hd : N.declares i = true
    · rw [if_pos hd] at h
      have := ih h v
      rw [this]
      by_cases hv : i = v
      · subst hv
        simp only [upd_same, decide_true, List.filter_cons_of_pos, List.map_cons]
        simp
      · rw [show (i :: ins).filter (· = v) = ins.filter (· = v) by simp [hv]]
        show (upd N.node i _ v).required ++ _ = _
        rw [upd_other _ _ (fun e => hv e.symm)]
    · rw [if_neg hd] at h; cases h

theorem wireOutputs_required (f : String) (outs : List String) : ∀ {N N' : Net},
    outs.foldlM (wireOutput f) N = some N' → ∀ v, (N'.node v).required = (N.node v).required := by
  induction outs with
  | nil => intro N N' h v; simp at h; subst h; rfl
  | cons i outs ih =>
    intro N N' h v
    rw [List.foldlM_cons] at h
    unfold wireOutput at h
    by_cases hd : N.declares i = true
    · rw [if_pos hd] at h
      rw [ih h v]
      show (upd N.node i _ v).required = _
      by_cases hv : v = i
      · subst hv; rw [upd_same]
      · rw [upd_other _ _ hv]
    · rw [if_neg hd] at h; cases h

theorem wireFns_required (fs : List PFn) : ∀ {N N' : Net}, fs.foldlM wireFn N = some N' →
    ∀ v, (N'.node v).required = (N.node v).required ++ fs.flatMap (uses v) := by
  induction fs with
  | nil => intro N N' h v; simp at h; subst h; simp
  | cons f fs ih =>
    intro N N' h v
    rw [List.foldlM_cons] at h
    cases h1 : wireFn N f with
    | none => rw [h1] at h; cases h
    | some N1 =>
      rw [h1] at h
      have h2 := ih h v
      rw [h2]
      unfold wireFn at h1
      simp only [Option.bind_eq_some_iff] at h1
      obtain ⟨N2, h3, h4⟩ := h1
      rw [wireOutputs_required _ _ h4, wireInputs_required _ _ h3]
      simp [uses]

theorem fromProto_required {p : Proto} (hp : WF p) {N : Net} (h : fromProto p = some N)
    (v : String) : (N.node v).required = p.functions.flatMap (uses v) := by
  have h0 : Built p.variables [] (p.variables.foldl declareVar emptyNet) := by
    have := declare_built p.variables emptyNet [] (by simpa using hp.varNodup) empty_built
    simpa using this
  unfold fromProto at h
  rw [wireFns_required _ h v]
  have : ((p.variables.foldl declareVar emptyNet).node v).required = [] := by
    rw [List.eq_nil_iff_forall_not_mem]
    intro n hn; have := (h0.required v n).mp hn; simp at this
  rw [this]; rfl

theorem count_uses : ∀ {fs : List PFn}, (fs.map PFn.name).Nodup → ∀ {f : PFn}, f ∈ fs → ∀ v,
    (fs.flatMap (uses v)).count f.name = f.inputs.count v := by
  have hz : ∀ (fs : List PFn) (n : String), n ∉ fs.map PFn.name → ∀ v,
      (fs.flatMap (uses v)).count n = 0 := by
    intro fs n hn v
    rw [List.count_eq_zero]
    intro hm
    obtain ⟨g, hg, hu⟩ := List.mem_flatMap.mp hm
    obtain ⟨_, _, rfl⟩ := List.mem_map.mp hu
    exact hn (List.mem_map.mpr ⟨g, hg, rfl⟩)
  have hown : ∀ (f : PFn) v, (uses v f).count f.name = f.inputs.count v := by
    intro f v
    unfold uses
    have : ((f.inputs.filter (· = v)).map fun _ => f.name) =
        List.replicate (f.inputs.filter (· = v)).length f.name := by
      rw [List.map_const']
    rw [this, List.count_replicate_self, List.count_eq_length_filter]
    congr 1
  intro fs
  induction fs with
  | nil => intro _ f hf; simp at hf
  | cons a fs ih =>
    intro hnd f hf v
    rw [List.map_cons, List.nodup_cons] at hnd
    rw [List.flatMap_cons, List.count_append]
    rw [List.mem_cons] at hf
    rcases hf with rfl | hf
    · rw [hown, hz fs f.name hnd.1 v]; rfl
    · have hne : (uses v a).count f.name = 0 := by
        rw [List.count_eq_zero]
        intro hm
        obtain ⟨_, _, he⟩ := List.mem_map.mp hm
        exact hnd.1 (he ▸ List.mem_map.mpr ⟨f, hf, rfl⟩)
      rw [hne, ih hnd.2 hf v]; omega

/-! ## replacing occurrences one by one -/

/-- `old` becomes `new` everywhere -/
def subst (old new : String) (l : List String) : List String :=
  l.map fun x => if x = old then new else x

/-- replace the first occurrence `k` times -/
def replaceTimes (old new : String) : Nat → List String → Option (List String)
  | 0, l => some l
  | k + 1, l => (replaceFirst old new l).bind (replaceTimes old new k)

theorem replaceTimes_cons {old new x : String} (hx : x ≠ old) : ∀ k l,
    replaceTimes old new k (x :: l) = (replaceTimes old new k l).map (x :: ·) := by
  intro k
  induction k with
  | zero => intro l; rfl
  | succ k ih =>
    intro l
    simp only [replaceTimes, replaceFirst, if_neg hx]
    cases h : replaceFirst old new l with
    | none => simp
    | some l' => simp [ih]

theorem replaceTimes_count {old new : String} (h : new ≠ old) : ∀ l,
    replaceTimes old new (l.count old) l = some (subst old new l) := by
  intro l
  induction l with
  | nil => rfl
  | cons x l ih =>
    by_cases hx : x = old
    · subst hx
      rw [List.count_cons_self]
      show (replaceFirst x new (x :: l)).bind _ = _
      simp only [replaceFirst, if_true, Option.bind_some]
      rw [replaceTimes_cons h, ih]
      simp [subst]
    · rw [List.count_cons_of_ne hx, replaceTimes_cons hx, ih]
      simp [subst, hx]

theorem reInputs_fold {old new : String} : ∀ (rs : List String) (N : Net)
    (target : String → List String),
    (∀ r ∈ rs, r ∈ N.fnKeys) →
    (∀ r, replaceTimes old new (rs.count r) (N.fn r).inputs = some (target r)) →
    ∃ N', rs.foldlM (reInput old new) N = some N' ∧ N'.varKeys = N.varKeys ∧
      N'.paramKeys = N.paramKeys ∧ N'.fnKeys = N.fnKeys ∧ N'.node = N.node ∧
      ∀ r, N'.fn r = { N.fn r with inputs := target r } := by
  intro rs
  induction rs with
  | nil =>
    intro N target _ ht
    refine ⟨N, rfl, rfl, rfl, rfl, rfl, fun r => ?_⟩
    have := ht r
    simp only [List.count_nil, replaceTimes, Option.some.injEq] at this
    rw [← this]
  | cons a rs ih =>
    intro N target hk ht
    have ha := ht a
    rw [List.count_cons_self] at ha
    simp only [replaceTimes, Option.bind_eq_some_iff] at ha
    obtain ⟨l1, h1, h2⟩ := ha
    let N1 : Net := { N with fn := upd N.fn a { N.fn a with inputs := l1 } }
    have hstep : reInput old new N a = some N1 := by
      unfold reInput
      rw [if_pos (hk a (by simp)), h1]; rfl
    obtain ⟨N', hN', k1, k2, k3, k4, k5⟩ := ih N1 target (fun r hr => hk r (by simp [hr])) (by
      intro r
      by_cases hra : r = a
      · subst hra
        show replaceTimes old new _ (upd N.fn r _ r).inputs = _
        rw [upd_same]; exact h2
      · show replaceTimes old new _ (upd N.fn a _ r).inputs = _
        rw [upd_other _ _ hra]
        have := ht r
        rwa [List.count_cons_of_ne (fun e => hra e.symm)] at this)
    refine ⟨N', ?_, k1, k2, k3, k4, ?_⟩
    · rw [List.foldlM_cons, hstep]; exact hN'
    · intro r
      rw [k5 r]
      by_cases hra : r = a
      · subst hra
        show ({ (upd N.fn r _ r) with inputs := target r } : PFn) = _
        rw [upd_same]
      · show ({ (upd N.fn a _ r) with inputs := target r } : PFn) = _
        rw [upd_other _ _ hra]

/-! ## semantics -/

/-- Every function of the list obeys `val` (the first half of `IsSolution`). -/
def Obeys {V : Type} (sem : String → List V → List V) (val : String → V) (fs : List PFn) : Prop :=
  ∀ f ∈ fs, f.outputs.map val = sem f.name (f.inputs.map val)

/-- the functions of a network, in order -/
def PNet.functions (P : PNet) : List PFn := P.net.fnKeys.map P.net.fn

theorem subst_not_mem {old new : String} {l : List String} (h : old ∉ l) : subst old new l = l := by
  unfold subst
  conv_rhs => rw [← List.map_id l]
  refine List.map_congr_left fun x hx => ?_
  have hne : x ≠ old := fun e => h (e ▸ hx)
  show (if x = old then new else x) = x
  rw [if_neg hne]

theorem map_subst {V : Type} {old new : String} {val : String → V} (h : val old = val new)
    (l : List String) : (subst old new l).map val = l.map val := by
  unfold subst
  rw [List.map_map]
  refine List.map_congr_left fun x _ => ?_
  show val (if x = old then new else x) = val x
  by_cases hx : x = old
  · rw [if_pos hx, hx, h]
  · rw [if_neg hx]

theorem erase_name {fs : List PFn} (hnd : (fs.map PFn.name).Nodup) {f : PFn} (hf : f ∈ fs) :
    (fs.map PFn.name).erase f.name = (fs.erase f).map PFn.name := by
  induction fs with
  | nil => simp at hf
  | cons a fs ih =>
    rw [List.map_cons, List.nodup_cons] at hnd
    by_cases ha : a = f
    · subst ha; simp
    · have hm : f ∈ fs := by
        rw [List.mem_cons] at hf
        rcases hf with rfl | hf
        · exact absurd rfl ha
        · exact hf
      have hn : a.name ≠ f.name := fun e => hnd.1 (e ▸ List.mem_map.mpr ⟨f, hm, rfl⟩)
      rw [List.map_cons, List.erase_cons_tail (by simpa using hn), ih hnd.2 hm,
        List.erase_cons_tail (by simpa using ha)]
      simp

theorem mem_of_erase {fs : List PFn} {f g : PFn} (h : g ∈ fs.erase f) : g ∈ fs :=
  List.mem_of_mem_erase h

theorem ne_of_mem_erase {fs : List PFn} (hnd : (fs.map PFn.name).Nodup) {f g : PFn}
    (h : g ∈ fs.erase f) : g ≠ f := by
  intro e
  subst e
  have : fs.Nodup := List.Nodup.of_map _ hnd
  rw [this.mem_erase_iff] at h
  exact h.1 rfl

theorem varKeys_mem {p : Proto} {N : Net} (hB : Built p.variables p.functions N) {v : String} :
    v ∈ N.varKeys ↔ (⟨v, false⟩ : PVar) ∈ p.variables := by
  rw [hB.varKeys, List.mem_map]
  constructor
  · rintro ⟨w, hw, rfl⟩
    obtain ⟨h1, h2⟩ := List.mem_filter.mp hw
    have he : w = ⟨w.name, false⟩ := by cases w; simp_all
    rw [← he]; exact h1
  · intro h; exact ⟨_, List.mem_filter.mpr ⟨h, rfl⟩, rfl⟩

theorem addKey_mem {ks : List String} {k : String} (h : k ∈ ks) : addKey ks k = ks := by
  rw [addKey, if_pos h]

/-- The variables and functions of `P` fit together: parents and readers are what the function
lists say (for every name which is still declared). -/
def Consistent (P : PNet) : Prop :=
  ∀ v, P.net.declares v = true →
    (∀ n, (P.net.node v).parent = some n ↔ ∃ f ∈ P.functions, f.name = n ∧ v ∈ f.outputs) ∧
    (∀ n, n ∈ (P.net.node v).required ↔ ∃ f ∈ P.functions, f.name = n ∧ v ∈ f.inputs)

/-- every name in a function's inputs and outputs is declared -/
def NoDangling (P : PNet) : Prop :=
  ∀ f ∈ P.functions, ∀ v, v ∈ f.inputs ∨ v ∈ f.outputs → P.net.declares v = true

theorem replaceFirst_nodup {old new : String} : ∀ {l : List String}, l.Nodup → old ∈ l →
    replaceFirst old new l = some (subst old new l) := by
  intro l
  induction l with
  | nil => intro _ h; simp at h
  | cons x l ih =>
    intro hnd h
    rw [List.nodup_cons] at hnd
    by_cases hx : x = old
    · subst hx
      have := subst_not_mem (new := new) hnd.1
      simp only [replaceFirst, if_true, subst, List.map_cons]
      simp only [subst] at this
      rw [this]
    · have hm : old ∈ l := by
        rw [List.mem_cons] at h
        rcases h with rfl | h
        · exact absurd rfl hx
        · exact h
      simp only [replaceFirst, if_neg hx]
      rw [ih hnd.2 hm]
      simp [subst, hx]

theorem mem_subst {old new x : String} {l : List String} :
    x ∈ subst old new l ↔ (x ∈ l ∧ x ≠ old) ∨ (x = new ∧ old ∈ l) := by
  unfold subst
  rw [List.mem_map]
  constructor
  · rintro ⟨y, hy, rfl⟩
    by_cases h : y = old
    · subst h; rw [if_pos rfl]; exact Or.inr ⟨rfl, hy⟩
    · rw [if_neg h]; exact Or.inl ⟨hy, h⟩
  · rintro (⟨h1, h2⟩ | ⟨rfl, h⟩)
    · exact ⟨x, h1, by rw [if_neg h2]⟩
    · exact ⟨old, h, by rw [if_pos rfl]⟩

theorem declares_iff {N : Net} {v : String} :
    N.declares v = true ↔ v ∈ N.varKeys ∨ v ∈ N.paramKeys := by
  simp [Net.declares]

theorem built_decl_iff {p : Proto} {N : Net} (hB : Built p.variables p.functions N) {v : String} :
    N.declares v = true ↔ v ∈ p.variables.map PVar.name := by
  refine ⟨fun h => ?_, built_declares hB⟩
  rw [declares_iff, hB.varKeys, hB.paramKeys] at h
  rcases h with h | h <;>
  · obtain ⟨w, hw, rfl⟩ := List.mem_map.mp h
    exact List.mem_map.mpr ⟨w, (List.mem_filter.mp hw).1, rfl⟩

/-- **C115 (partial), first case.** Removing an identity function whose output is read by other
functions, and whose input is an ordinary variable of the network: the removal succeeds, the readers
of its output read its input instead and nothing else changes in the list of functions; no name is
left dangling and the wiring stays consistent; the network keeps its outputs and inputs, all of them
still declared; and every assignment of values which obeyed the old network obeys the new one.
Missing from the full claim: `c115_remove_parameter_refuted`. -/
theorem c115_remove_identity_read_partial (p : Proto) (hp : WF p) (f : PFn) (i o : String)
    (hf : f ∈ p.functions) (hfi : f.inputs = [i]) (hfo : f.outputs = [o]) (hio : i ≠ o)
    (hvar : (⟨i, false⟩ : PVar) ∈ p.variables) (hread : ∃ g ∈ p.functions, o ∈ g.inputs) :
    ∃ N P, fromProto p = some N ∧ removeFunction N.withPorts f.name = some P ∧
      P.functions = (p.functions.erase f).map (fun g => { g with inputs := subst o i g.inputs }) ∧
      P.ins = N.inputs ∧ P.outs = N.outputs ∧ P.portsOK = true ∧ NoDangling P ∧ Consistent P ∧
      ∀ (V : Type) (sem : String → List V → List V) (val : String → V),
        sem f.name = id → Obeys sem val p.functions → Obeys sem val P.functions := by
  obtain ⟨N, hN, hB⟩ := fromProto_built p hp
  have hreq := fromProto_required hp hN
  have hfn : N.fn f.name = f := hB.fn f hf
  have ho_decl : (⟨o, false⟩ : PVar) ∈ p.variables := hp.outDecl f hf o (by simp [hfo])
  have hrne : (N.node o).required.isEmpty = false := by
    obtain ⟨g, hg, hgo⟩ := hread
    have := (hB.required o g.name).mpr ⟨g, hg, rfl, hgo⟩
    cases h : (N.node o).required with
    | nil => rw [h] at this; simp at this
    | cons a l => rfl
  obtain ⟨N1, hN1, k1, k2, k3, k4, k5⟩ := reInputs_fold (old := o) (new := i)
    (N.node o).required N
    (fun r => if r ∈ p.functions.map PFn.name then subst o i (N.fn r).inputs else (N.fn r).inputs)
    (by
      intro r hr
      obtain ⟨g, hg, rfl, _⟩ := (hB.required o r).mp hr
      rw [hB.fnKeys]; exact List.mem_map.mpr ⟨g, hg, rfl⟩)
    (by
      intro r
      by_cases hr : r ∈ p.functions.map PFn.name
      · rw [if_pos hr]
        obtain ⟨g, hg, rfl⟩ := List.mem_map.mp hr
        rw [hreq o, count_uses hp.fnNodup hg, hB.fn g hg]
        exact replaceTimes_count hio _
      · rw [if_neg hr]
        have : (N.node o).required.count r = 0 := by
          rw [List.count_eq_zero]
          intro hm
          obtain ⟨g, hg, rfl, _⟩ := (hB.required o r).mp hm
          exact hr (List.mem_map.mpr ⟨g, hg, rfl⟩)
        rw [this]; rfl)
  have hik : i ∈ N1.varKeys := by rw [k1]; exact (varKeys_mem hB).mpr hvar
  let others := (N.node i).required.filter (· ≠ f.name)
  let P : PNet :=
    { net := { N1 with
        node := upd N1.node i { N.node o with parent := (N.node i).parent
                                              required := (N.node o).required ++ others }
        varKeys := (addKey N1.varKeys i).erase o
        fnKeys := N1.fnKeys.erase f.name }
      ins := N.inputs
      outs := reOuts o i N.outputs }
  have hrem : removeFunction N.withPorts f.name = some P := by
    unfold removeFunction
    show (match (N.fn f.name).inputs, (N.fn f.name).outputs with
      | i :: _, o :: _ => if !(N.node o).required.isEmpty then removeUpper N.withPorts f.name i o
          else removeLower N.withPorts f.name i o
      | _, _ => none) = _
    rw [hfn, hfi, hfo]
    simp only [hrne]
    show ((N.node o).required.foldlM (reInput o i) N).map _ = _
    rw [hN1]; rfl
  have hfun : P.functions =
      (p.functions.erase f).map (fun g => { g with inputs := subst o i g.inputs }) := by
    show (N1.fnKeys.erase f.name).map N1.fn = _
    rw [k3, hB.fnKeys, erase_name hp.fnNodup hf, List.map_map]
    refine List.map_congr_left fun g hg => ?_
    have hg' := mem_of_erase hg
    show N1.fn g.name = _
    rw [k5, if_pos (List.mem_map.mpr ⟨g, hg', rfl⟩), hB.fn g hg']
  have hono : o ∉ N.outputs := by
    intro h
    have := (List.mem_filter.mp h).2
    rw [hrne] at this; simp at this
  have houts : P.outs = N.outputs := by
    show reOuts o i N.outputs = _
    have : ∀ l : List String, o ∉ l → replaceFirst o i l = none := by
      intro l
      induction l with
      | nil => intro _; rfl
      | cons x l ih =>
        intro h
        rw [List.mem_cons, not_or] at h
        simp [replaceFirst, Ne.symm h.1, ih h.2]
    unfold reOuts; rw [this _ hono]; rfl
  have hnd : N.varKeys.Nodup := by
    rw [hB.varKeys]
    exact (List.filter_sublist.map PVar.name).nodup hp.varNodup
  have hvk : ∀ v, v ∈ P.net.varKeys ↔ v ∈ N.varKeys ∧ v ≠ o := by
    intro v
    show v ∈ (addKey N1.varKeys i).erase o ↔ _
    rw [addKey_mem hik, k1, hnd.mem_erase_iff]; tauto
  have hpk : P.net.paramKeys = N.paramKeys := k2
  have hopar : o ∉ N.paramKeys := by
    rw [hB.paramKeys]
    intro h
    obtain ⟨w, hw, he⟩ := List.mem_map.mp h
    obtain ⟨h1, h2⟩ := List.mem_filter.mp hw
    have := List.inj_on_of_nodup_map hp.varNodup h1 ho_decl he
    rw [this] at h2; simp at h2
  have hdecl : ∀ v, P.net.declares v = true ↔ N.declares v = true ∧ v ≠ o := by
    intro v
    rw [declares_iff, declares_iff, hvk, hpk]
    constructor
    · rintro (h | h)
      · exact ⟨Or.inl h.1, h.2⟩
      · exact ⟨Or.inr h, fun e => hopar (e ▸ h)⟩
    · rintro ⟨h | h, hne⟩
      · exact Or.inl ⟨h, hne⟩
      · exact Or.inr h
  have hnosame : ∀ g ∈ p.functions, o ∈ g.outputs → g = f := fun g hg hgo =>
    producer_unique hp ⟨hg, hgo⟩ ⟨hf, by simp [hfo]⟩
  refine ⟨N, P, hN, hrem, hfun, rfl, houts, ?_, ?_, ?_, ?_⟩
  · unfold PNet.portsOK
    rw [Bool.and_eq_true, List.all_eq_true, List.all_eq_true]
    constructor
    · intro v hv
      rw [hdecl]
      have hv' : v ∈ N.inputs := hv
      obtain ⟨h1, h2⟩ := List.mem_filter.mp hv'
      refine ⟨declares_iff.mpr (Or.inl h1), ?_⟩
      rintro rfl
      rw [parent_of_produces hB.wired ⟨hf, by simp [hfo]⟩] at h2
      simp at h2
    · intro v hv
      rw [houts] at hv
      have := (List.mem_filter.mp hv).1
      exact List.contains_iff_mem.mpr ((hvk v).mpr ⟨this, fun e => hono (e ▸ hv)⟩)
  · intro g hg v hv
    rw [hfun] at hg
    obtain ⟨g0, hg0, rfl⟩ := List.mem_map.mp hg
    have hg0' := mem_of_erase hg0
    rw [hdecl, built_decl_iff hB]
    rcases hv with hv | hv
    · rcases mem_subst.mp hv with ⟨h1, h2⟩ | ⟨rfl, h2⟩
      · exact ⟨hp.inDecl g0 hg0' v h1, h2⟩
      · exact ⟨List.mem_map.mpr ⟨_, hvar, rfl⟩, hio⟩
    · refine ⟨List.mem_map.mpr ⟨_, hp.outDecl g0 hg0' v hv, rfl⟩, ?_⟩
      rintro rfl
      exact ne_of_mem_erase hp.fnNodup hg0 (hnosame g0 hg0' hv)
  · intro v hv
    rw [hdecl] at hv
    have hvo := hv.2
    have hpar : (P.net.node v).parent = (N.node v).parent := by
      show (upd N1.node i _ v).parent = _
      by_cases hvi : v = i
      · subst hvi; rw [upd_same]
      · rw [upd_other _ _ hvi, k4]
    constructor
    · intro n
      rw [hpar, hB.parent, hfun]
      constructor
      · rintro ⟨g, hg, rfl, hgv⟩
        have hgf : g ≠ f := by rintro rfl; rw [hfo] at hgv; simp at hgv; exact hvo hgv
        exact ⟨_, List.mem_map.mpr ⟨g, (List.mem_erase_of_ne hgf).mpr hg, rfl⟩, rfl, hgv⟩
      · rintro ⟨g, hg, rfl, hgv⟩
        obtain ⟨g0, hg0, rfl⟩ := List.mem_map.mp hg
        exact ⟨g0, mem_of_erase hg0, rfl, hgv⟩
    · intro n
      rw [hfun]
      have hR : (∃ g ∈ (p.functions.erase f).map (fun g => { g with inputs := subst o i g.inputs }),
          g.name = n ∧ v ∈ g.inputs) ↔
          ∃ g ∈ p.functions, g ≠ f ∧ g.name = n ∧ (v ∈ g.inputs ∨ (v = i ∧ o ∈ g.inputs)) := by
        constructor
        · rintro ⟨g, hg, rfl, hgv⟩
          obtain ⟨g0, hg0, rfl⟩ := List.mem_map.mp hg
          refine ⟨g0, mem_of_erase hg0, ne_of_mem_erase hp.fnNodup hg0, rfl, ?_⟩
          rcases mem_subst.mp hgv with h | h
          · exact Or.inl h.1
          · exact Or.inr h
        · rintro ⟨g, hg, hgf, rfl, hgv⟩
          refine ⟨_, List.mem_map.mpr ⟨g, (List.mem_erase_of_ne hgf).mpr hg, rfl⟩, rfl, ?_⟩
          exact mem_subst.mpr (hgv.imp (fun h => ⟨h, hvo⟩) id)
      rw [hR]
      show n ∈ (upd N1.node i _ v).required ↔ _
      by_cases hvi : v = i
      · subst hvi
        rw [upd_same]
        show n ∈ (N.node o).required ++ others ↔ _
        rw [List.mem_append, hB.required]
        have ho : n ∈ others ↔ (∃ g ∈ p.functions, g.name = n ∧ v ∈ g.inputs) ∧ n ≠ f.name := by
          rw [List.mem_filter, hB.required]; simp
        rw [ho]
        constructor
        · rintro (⟨g, hg, rfl, hgo⟩ | ⟨⟨g, hg, rfl, hgv⟩, hne⟩)
          · refine ⟨g, hg, ?_, rfl, Or.inr ⟨rfl, hgo⟩⟩
            rintro rfl; rw [hfi] at hgo; simp at hgo; exact hio hgo.symm
          · exact ⟨g, hg, fun e => hne (by rw [e]), rfl, Or.inl hgv⟩
        · rintro ⟨g, hg, hgf, rfl, hgv | ⟨_, hgo⟩⟩
          · exact Or.inr ⟨⟨g, hg, rfl, hgv⟩, fun e => hgf (fn_name_inj hp hg hf e)⟩
          · exact Or.inl ⟨g, hg, rfl, hgo⟩
      · rw [upd_other _ _ hvi, k4, hB.required]
        constructor
        · rintro ⟨g, hg, rfl, hgv⟩
          refine ⟨g, hg, ?_, rfl, Or.inl hgv⟩
          rintro rfl; rw [hfi] at hgv; simp at hgv; exact hvi hgv
        · rintro ⟨g, hg, _, rfl, hgv | ⟨h, _⟩⟩
          · exact ⟨g, hg, rfl, hgv⟩
          · exact absurd h hvi
  · intro V sem val hid hob
    have hval : val o = val i := by
      have := hob f hf
      rw [hid, hfi, hfo] at this
      simpa using this
    rw [hfun]
    intro g hg
    obtain ⟨g0, hg0, rfl⟩ := List.mem_map.mp hg
    show g0.outputs.map val = sem g0.name ((subst o i g0.inputs).map val)
    rw [map_subst hval]
    exact hob g0 (mem_of_erase hg0)

/-- **C115 (partial), second case.** Removing an identity function whose output is an output of the
network, and whose input is produced by some function and read by nobody else: the removal
succeeds, the producer writes the output instead and nothing else changes; no name is left dangling,
the wiring stays consistent, inputs and outputs are kept and declared; every assignment which
obeyed the old network obeys the new one.  Missing from the full claim:
`c115_remove_two_identities_refuted`, `c115_remove_identity_of_input_refuted`. -/
theorem c115_remove_identity_output_partial (p : Proto) (hp : WF p) (f h : PFn) (i o : String)
    (hf : f ∈ p.functions) (hfi : f.inputs = [i]) (hfo : f.outputs = [o]) (hio : i ≠ o)
    (hprod : Produces p h i) (hhf : h ≠ f) (honly : ∀ g ∈ p.functions, i ∈ g.inputs → g = f)
    (hnread : ∀ g ∈ p.functions, o ∉ g.inputs) :
    ∃ N P, fromProto p = some N ∧ removeFunction N.withPorts f.name = some P ∧
      P.functions = (p.functions.erase f).map (fun g => { g with outputs := subst i o g.outputs }) ∧
      P.ins = N.inputs ∧ P.outs = N.outputs ∧ P.portsOK = true ∧ NoDangling P ∧ Consistent P ∧
      ∀ (V : Type) (sem : String → List V → List V) (val : String → V),
        sem f.name = id → Obeys sem val p.functions → Obeys sem val P.functions := by
  obtain ⟨N, hN, hB⟩ := fromProto_built p hp
  have hfn : N.fn f.name = f := hB.fn f hf
  have hi_decl : (⟨i, false⟩ : PVar) ∈ p.variables := hp.outDecl h hprod.1 i hprod.2
  have ho_decl : (⟨o, false⟩ : PVar) ∈ p.variables := hp.outDecl f hf o (by simp [hfo])
  have hro : (N.node o).required = [] := by
    rw [List.eq_nil_iff_forall_not_mem]
    intro n hn
    obtain ⟨g, hg, _, hgo⟩ := (hB.required o n).mp hn
    exact hnread g hg hgo
  have hpar : (N.node i).parent = some h.name := parent_of_produces hB.wired hprod
  have hoth : (N.node i).required.filter (· ≠ f.name) = [] := by
    rw [List.filter_eq_nil_iff]
    intro n hn
    obtain ⟨g, hg, rfl, hgi⟩ := (hB.required i n).mp hn
    rw [honly g hg hgi]; simp
  have hhk : h.name ∈ N.fnKeys := by rw [hB.fnKeys]; exact List.mem_map.mpr ⟨h, hprod.1, rfl⟩
  have hhn : h.name ≠ f.name := fun e => hhf (fn_name_inj hp hprod.1 hf e)
  let N1 : Net := { N with fn := upd N.fn h.name { h with outputs := subst i o h.outputs } }
  have hre : reOutput i o N h.name = some N1 := by
    unfold reOutput
    rw [if_pos hhk, hB.fn h hprod.1, replaceFirst_nodup (outputs_nodup hp hprod.1) hprod.2]; rfl
  have hik : i ∈ N.varKeys := (varKeys_mem hB).mpr hi_decl
  let P : PNet :=
    { net := { N1 with
        node := upd N1.node o { N.node o with parent := some h.name }
        varKeys := N1.varKeys.erase i
        fnKeys := N1.fnKeys.erase f.name }
      ins := N.inputs
      outs := N.outputs }
  have hrem : removeFunction N.withPorts f.name = some P := by
    unfold removeFunction
    show (match (N.fn f.name).inputs, (N.fn f.name).outputs with
      | i :: _, o :: _ => if !(N.node o).required.isEmpty then removeUpper N.withPorts f.name i o
          else removeLower N.withPorts f.name i o
      | _, _ => none) = _
    rw [hfn, hfi, hfo]
    simp only [hro, List.isEmpty_nil, Bool.not_true, Bool.false_eq_true, if_false]
    unfold removeLower
    show ((match (N.node i).parent with | some g => reOutput i o N g | none => some N).bind _) = _
    rw [hpar]
    show ((reOutput i o N h.name).bind _) = _
    rw [hre]
    show ((((N.node i).required.filter (· ≠ f.name)).foldlM (reInput i o) N1).bind _) = _
    rw [hoth]
    show (if i ∈ N1.varKeys then _ else none) = _
    rw [if_pos hik]
    show some _ = some P
    have : (N.withPorts.net.node i).parent = some h.name := hpar
    simp only [this]
    rfl
  have hfun : P.functions =
      (p.functions.erase f).map (fun g => { g with outputs := subst i o g.outputs }) := by
    show (N.fnKeys.erase f.name).map N1.fn = _
    rw [hB.fnKeys, erase_name hp.fnNodup hf, List.map_map]
    refine List.map_congr_left fun g hg => ?_
    have hg' := mem_of_erase hg
    show upd N.fn h.name _ g.name = _
    by_cases hgh : g = h
    · subst hgh; rw [upd_same]
    · rw [upd_other _ _ (fun e => hgh (fn_name_inj hp hg' hprod.1 e)), hB.fn g hg']
      rw [subst_not_mem fun hc => hgh (producer_unique hp ⟨hg', hc⟩ hprod)]
  have hnd : N.varKeys.Nodup := by
    rw [hB.varKeys]
    exact (List.filter_sublist.map PVar.name).nodup hp.varNodup
  have hvk : ∀ v, v ∈ P.net.varKeys ↔ v ∈ N.varKeys ∧ v ≠ i := by
    intro v
    show v ∈ N.varKeys.erase i ↔ _
    rw [hnd.mem_erase_iff]; tauto
  have hipar : i ∉ N.paramKeys := by
    rw [hB.paramKeys]
    intro hm
    obtain ⟨w, hw, he⟩ := List.mem_map.mp hm
    obtain ⟨h1, h2⟩ := List.mem_filter.mp hw
    have := List.inj_on_of_nodup_map hp.varNodup h1 hi_decl he
    rw [this] at h2; simp at h2
  have hdecl : ∀ v, P.net.declares v = true ↔ N.declares v = true ∧ v ≠ i := by
    intro v
    rw [declares_iff, declares_iff, hvk]
    show _ ∨ v ∈ N.paramKeys ↔ _
    constructor
    · rintro (h | h)
      · exact ⟨Or.inl h.1, h.2⟩
      · exact ⟨Or.inr h, fun e => hipar (e ▸ h)⟩
    · rintro ⟨h | h, hne⟩
      · exact Or.inl ⟨h, hne⟩
      · exact Or.inr h
  refine ⟨N, P, hN, hrem, hfun, rfl, rfl, ?_, ?_, ?_, ?_⟩
  · unfold PNet.portsOK
    rw [Bool.and_eq_true, List.all_eq_true, List.all_eq_true]
    constructor
    · intro v hv
      rw [hdecl]
      have hv' : v ∈ N.inputs := hv
      obtain ⟨h1, h2⟩ := List.mem_filter.mp hv'
      refine ⟨declares_iff.mpr (Or.inl h1), ?_⟩
      rintro rfl
      rw [hpar] at h2
      simp at h2
    · intro v hv
      have hv' : v ∈ N.outputs := hv
      obtain ⟨h1, h2⟩ := List.mem_filter.mp hv'
      refine List.contains_iff_mem.mpr ((hvk v).mpr ⟨h1, ?_⟩)
      rintro rfl
      have := (hB.required v f.name).mpr ⟨f, hf, rfl, by simp [hfi]⟩
      rw [Bool.and_eq_true, List.isEmpty_iff] at h2
      rw [h2.1] at this; simp at this
  · intro g hg v hv
    rw [hfun] at hg
    obtain ⟨g0, hg0, rfl⟩ := List.mem_map.mp hg
    have hg0' := mem_of_erase hg0
    rw [hdecl, built_decl_iff hB]
    rcases hv with hv | hv
    · refine ⟨hp.inDecl g0 hg0' v hv, ?_⟩
      rintro rfl
      exact ne_of_mem_erase hp.fnNodup hg0 (honly g0 hg0' hv)
    · rcases mem_subst.mp hv with ⟨h1, h2⟩ | ⟨rfl, h2⟩
      · exact ⟨List.mem_map.mpr ⟨_, hp.outDecl g0 hg0' v h1, rfl⟩, h2⟩
      · exact ⟨List.mem_map.mpr ⟨_, ho_decl, rfl⟩, hio.symm⟩
  · intro v hv
    rw [hdecl] at hv
    have hvi := hv.2
    constructor
    · intro n
      rw [hfun]
      have hR : (∃ g ∈ (p.functions.erase f).map
          (fun g => { g with outputs := subst i o g.outputs }), g.name = n ∧ v ∈ g.outputs) ↔
          ∃ g ∈ p.functions, g ≠ f ∧ g.name = n ∧ (v ∈ g.outputs ∨ (v = o ∧ i ∈ g.outputs)) := by
        constructor
        · rintro ⟨g, hg, rfl, hgv⟩
          obtain ⟨g0, hg0, rfl⟩ := List.mem_map.mp hg
          refine ⟨g0, mem_of_erase hg0, ne_of_mem_erase hp.fnNodup hg0, rfl, ?_⟩
          rcases mem_subst.mp hgv with h | h
          · exact Or.inl h.1
          · exact Or.inr h
        · rintro ⟨g, hg, hgf, rfl, hgv⟩
          refine ⟨_, List.mem_map.mpr ⟨g, (List.mem_erase_of_ne hgf).mpr hg, rfl⟩, rfl, ?_⟩
          exact mem_subst.mpr (hgv.imp (fun h => ⟨h, hvi⟩) id)
      rw [hR]
      show (upd N.node o _ v).parent = some n ↔ _
      by_cases hvo : v = o
      · subst hvo
        rw [upd_same]
        show some h.name = some n ↔ _
        constructor
        · intro e; cases e
          exact ⟨h, hprod.1, hhf, rfl, Or.inr ⟨rfl, hprod.2⟩⟩
        · rintro ⟨g, hg, hgf, rfl, hgv | ⟨_, hgi⟩⟩
          · exact absurd (producer_unique hp ⟨hg, hgv⟩ ⟨hf, by simp [hfo]⟩) hgf
          · rw [producer_unique hp ⟨hg, hgi⟩ hprod]
      · rw [upd_other _ _ hvo, hB.parent]
        constructor
        · rintro ⟨g, hg, rfl, hgv⟩
          refine ⟨g, hg, ?_, rfl, Or.inl hgv⟩
          rintro rfl; rw [hfo] at hgv; simp at hgv; exact hvo hgv
        · rintro ⟨g, hg, _, rfl, hgv | ⟨h, _⟩⟩
          · exact ⟨g, hg, rfl, hgv⟩
          · exact absurd h hvo
    · intro n
      rw [hfun]
      have hsame : (P.net.node v).required = (N.node v).required := by
        show (upd N.node o _ v).required = _
        by_cases hvo : v = o
        · subst hvo; rw [upd_same]
        · rw [upd_other _ _ hvo]
      rw [hsame, hB.required]
      constructor
      · rintro ⟨g, hg, rfl, hgv⟩
        have hgf : g ≠ f := by rintro rfl; rw [hfi] at hgv; simp at hgv; exact hvi hgv
        exact ⟨_, List.mem_map.mpr ⟨g, (List.mem_erase_of_ne hgf).mpr hg, rfl⟩, rfl, hgv⟩
      · rintro ⟨g, hg, rfl, hgv⟩
        obtain ⟨g0, hg0, rfl⟩ := List.mem_map.mp hg
        exact ⟨g0, mem_of_erase hg0, rfl, hgv⟩
  · intro V sem val hid hob
    have hval : val i = val o := by
      have := hob f hf
      rw [hid, hfi, hfo] at this
      simpa using this.symm
    rw [hfun]
    intro g hg
    obtain ⟨g0, hg0, rfl⟩ := List.mem_map.mp hg
    show (subst i o g0.outputs).map val = sem g0.name (g0.inputs.map val)
    rw [map_subst hval]
    exact hob g0 (mem_of_erase hg0)

/-- both cases apply: an identity in the middle and an identity at the end -/
def exId : Proto :=
  ⟨[⟨"x", false⟩, ⟨"w", true⟩, ⟨"h", false⟩, ⟨"h2", false⟩, ⟨"y", false⟩, ⟨"z", false⟩],
    [⟨"Affine", ["x", "w"], ["h"]⟩, ⟨"Id1", ["h"], ["h2"]⟩, ⟨"Mul2", ["h2", "h2"], ["y"]⟩,
      ⟨"Id2", ["y"], ["z"]⟩]⟩

theorem exId_wf : WF exId := ⟨by decide, by decide, by decide, by decide, by decide, by decide⟩

example : ((fromProto exId).bind fun N => removeFunction N.withPorts "Id1").map
    (fun P => (P.functions, P.portsOK)) =
    some ([⟨"Affine", ["x", "w"], ["h"]⟩, ⟨"Mul2", ["h", "h"], ["y"]⟩, ⟨"Id2", ["y"], ["z"]⟩],
      true) := by decide

example := c115_remove_identity_read_partial exId exId_wf ⟨"Id1", ["h"], ["h2"]⟩ "h" "h2"
  (by decide) rfl rfl (by decide) (by decide) ⟨⟨"Mul2", ["h2", "h2"], ["y"]⟩, by decide, by decide⟩

example := c115_remove_identity_output_partial exId exId_wf ⟨"Id2", ["y"], ["z"]⟩
  ⟨"Mul2", ["h2", "h2"], ["y"]⟩ "y" "z" (by decide) rfl rfl (by decide) ⟨by decide, by decide⟩
  (by decide) (by decide) (by decide)

/-- The full claim fails when two outputs of the network are copies of the same variable: removing
both identities leaves an output of the network which is no variable any more - calling the network
raises `KeyError`. -/
theorem c115_remove_two_identities_refuted :
    ∃ p : Proto, WF p ∧ ((fromProto p).bind fun N => (removeFunction N.withPorts "Id1").bind
      fun P => removeFunction P "Id2").map (fun P => (P.outs, P.net.varKeys, P.portsOK)) =
      some (["y1", "y2"], ["x", "y2"], false) := by
  refine ⟨⟨[⟨"x", false⟩, ⟨"h", false⟩, ⟨"y1", false⟩, ⟨"y2", false⟩],
    [⟨"ReLU", ["x"], ["h"]⟩, ⟨"Id1", ["h"], ["y1"]⟩, ⟨"Id2", ["h"], ["y2"]⟩]⟩, ?_, by decide⟩
  exact ⟨by decide, by decide, by decide, by decide, by decide, by decide⟩

/-- ... already after the first removal the remaining reader of the variable is forgotten: `required`
of `y1` is empty although `Id2` reads it (the exhausted `filter` object). -/
theorem c115_reader_forgotten_refuted :
    ∃ p : Proto, WF p ∧ ((fromProto p).bind fun N => removeFunction N.withPorts "Id1").map
      (fun P => ((P.net.node "y1").required, (P.net.fn "Id2").inputs)) = some ([], ["y1"]) := by
  refine ⟨⟨[⟨"x", false⟩, ⟨"h", false⟩, ⟨"y1", false⟩, ⟨"y2", false⟩],
    [⟨"ReLU", ["x"], ["h"]⟩, ⟨"Id1", ["h"], ["y1"]⟩, ⟨"Id2", ["h"], ["y2"]⟩]⟩, ?_, by decide⟩
  exact ⟨by decide, by decide, by decide, by decide, by decide, by decide⟩

/-- The full claim fails when a network output is a copy of a network input: the stored input list
still names the deleted variable. -/
theorem c115_remove_identity_of_input_refuted :
    ∃ p : Proto, WF p ∧ ((fromProto p).bind fun N => removeFunction N.withPorts "Id1").map
      (fun P => (P.ins, P.net.varKeys, P.portsOK)) = some (["x"], ["y"], false) := by
  refine ⟨⟨[⟨"x", false⟩, ⟨"y", false⟩], [⟨"Id1", ["x"], ["y"]⟩]⟩, ?_, by decide⟩
  exact ⟨by decide, by decide, by decide, by decide, by decide, by decide⟩

/-- The full claim fails when the identity copies a parameter: either the removal itself raises
(`KeyError`), or the parameter's name is declared a second time, as an ordinary variable, which hides
the parameter. -/
theorem c115_remove_parameter_refuted :
    (∃ p : Proto, WF p ∧
      ((fromProto p).bind fun N => removeFunction N.withPorts "Id1").isNone = true) ∧
    (∃ p : Proto, WF p ∧ ((fromProto p).bind fun N => removeFunction N.withPorts "Id1").map
      (fun P => (P.net.varKeys, P.net.paramKeys)) = some (["z", "w"], ["w"])) := by
  refine ⟨⟨⟨[⟨"w", true⟩, ⟨"y", false⟩], [⟨"Id1", ["w"], ["y"]⟩]⟩, ?_, by decide⟩,
    ⟨⟨[⟨"w", true⟩, ⟨"y", false⟩, ⟨"z", false⟩],
      [⟨"Id1", ["w"], ["y"]⟩, ⟨"ReLU", ["y"], ["z"]⟩]⟩, ?_, by decide⟩⟩ <;>
  exact ⟨by decide, by decide, by decide, by decide, by decide, by decide⟩

/-! ## Renaming -/

/-- **C116 (partial).** Renaming an output variable of the network to a name which is not in use:
succeeds, renames it in its producer and in the list of outputs, leaves everything else as it was
and no name dangling; values which obeyed the old network obey the new one, the new name having the
value of the old.  Missing from the full claim: variables which some function reads
(`c116_rename_inner_refuted`). -/
theorem c116_rename_output_partial (p : Proto) (hp : WF p) (h : PFn) (old new : String)
    (hprod : Produces p h old) (hnread : ∀ g ∈ p.functions, old ∉ g.inputs)
    (hnew : new ∉ p.variables.map PVar.name) :
    ∃ N P, fromProto p = some N ∧ renameVariable N.withPorts [(old, new)] = some P ∧
      P.functions = p.functions.map (fun g => { g with outputs := subst old new g.outputs }) ∧
      P.ins = N.inputs ∧ P.outs = subst old new N.outputs ∧ P.portsOK = true ∧ NoDangling P ∧
      ∀ (V : Type) (sem : String → List V → List V) (val : String → V),
        Obeys sem val p.functions →
        Obeys sem (fun v => if v = new then val old else val v) P.functions := by
  obtain ⟨N, hN, hB⟩ := fromProto_built p hp
  have ho_decl : (⟨old, false⟩ : PVar) ∈ p.variables := hp.outDecl h hprod.1 old hprod.2
  have hon : old ≠ new := by rintro rfl; exact hnew (List.mem_map.mpr ⟨_, ho_decl, rfl⟩)
  have hpar : (N.node old).parent = some h.name := parent_of_produces hB.wired hprod
  have hhk : h.name ∈ N.fnKeys := by rw [hB.fnKeys]; exact List.mem_map.mpr ⟨h, hprod.1, rfl⟩
  have hok : old ∈ N.varKeys := (varKeys_mem hB).mpr ho_decl
  have hnk : new ∉ N.varKeys := fun hc =>
    hnew (List.mem_map.mpr ⟨_, (varKeys_mem hB).mp hc, rfl⟩)
  let N1 : Net := { N with
    varKeys := (addKey N.varKeys new).erase old
    node := upd N.node new (N.node old)
    fn := upd N.fn h.name { h with outputs := subst old new h.outputs } }
  have hone : renameOne N old new = some N1 := by
    unfold renameOne
    rw [if_pos ⟨hok, hon⟩, hpar]
    show reOutput old new _ h.name = _
    unfold reOutput
    rw [if_pos hhk]
    show (replaceFirst old new (N.fn h.name).outputs).map _ = _
    rw [hB.fn h hprod.1, replaceFirst_nodup (outputs_nodup hp hprod.1) hprod.2]
    rfl
  have houts : (N.outputs.map fun n => (([(old, new)] : List (String × String)).lookup n).getD n) =
      subst old new N.outputs := by
    unfold subst
    refine List.map_congr_left fun x _ => ?_
    by_cases hx : x = old
    · subst hx; simp [List.lookup]
    · have hb : (x == old) = false := by simpa using hx
      simp [List.lookup, hb, hx]
  let P : PNet := { net := N1, ins := N.inputs, outs := subst old new N.outputs }
  have hren : renameVariable N.withPorts [(old, new)] = some P := by
    unfold renameVariable
    show ((renameOne N old new).bind fun N' => some N').map _ = _
    rw [hone]
    show some (⟨N1, N.inputs, N.outputs.map fun n =>
      (([(old, new)] : List (String × String)).lookup n).getD n⟩ : PNet) = some P
    rw [houts]
  have hfun : P.functions =
      p.functions.map (fun g => { g with outputs := subst old new g.outputs }) := by
    show N.fnKeys.map N1.fn = _
    rw [hB.fnKeys, List.map_map]
    refine List.map_congr_left fun g hg => ?_
    show upd N.fn h.name _ g.name = _
    by_cases hgh : g = h
    · subst hgh; rw [upd_same]
    · rw [upd_other _ _ (fun e => hgh (fn_name_inj hp hg hprod.1 e)), hB.fn g hg]
      rw [subst_not_mem fun hc => hgh (producer_unique hp ⟨hg, hc⟩ hprod)]
  have hnd : N.varKeys.Nodup := by
    rw [hB.varKeys]
    exact (List.filter_sublist.map PVar.name).nodup hp.varNodup
  have hvk : ∀ v, v ∈ N1.varKeys ↔ (v ∈ N.varKeys ∨ v = new) ∧ v ≠ old := by
    intro v
    show v ∈ (addKey N.varKeys new).erase old ↔ _
    rw [addKey, if_neg hnk]
    have hnd' : (N.varKeys ++ [new]).Nodup := by
      rw [List.nodup_append]
      refine ⟨hnd, by simp, ?_⟩
      intro a ha b hb hab
      simp only [List.mem_singleton] at hb
      subst hb; subst hab; exact hnk ha
    rw [hnd'.mem_erase_iff]; simp [and_comm]
  have hdecl : ∀ v, N.declares v = true → v ≠ old → N1.declares v = true := by
    intro v hv hne
    rw [declares_iff] at hv ⊢
    rcases hv with hv | hv
    · exact Or.inl ((hvk v).mpr ⟨Or.inl hv, hne⟩)
    · exact Or.inr hv
  have hdnew : N1.declares new = true := declares_iff.mpr (Or.inl ((hvk new).mpr ⟨Or.inr rfl, hon.symm⟩))
  refine ⟨N, P, hN, hren, hfun, rfl, rfl, ?_, ?_, ?_⟩
  · unfold PNet.portsOK
    rw [Bool.and_eq_true, List.all_eq_true, List.all_eq_true]
    constructor
    · intro v hv
      have hv' : v ∈ N.inputs := hv
      obtain ⟨h1, h2⟩ := List.mem_filter.mp hv'
      refine hdecl v (declares_iff.mpr (Or.inl h1)) ?_
      rintro rfl
      rw [hpar] at h2; simp at h2
    · intro v hv
      have hv' : v ∈ subst old new N.outputs := hv
      refine List.contains_iff_mem.mpr ((hvk v).mpr ?_)
      rcases mem_subst.mp hv' with ⟨h1, h2⟩ | ⟨rfl, _⟩
      · exact ⟨Or.inl (List.mem_filter.mp h1).1, h2⟩
      · exact ⟨Or.inr rfl, hon.symm⟩
  · intro g hg v hv
    rw [hfun] at hg
    obtain ⟨g0, hg0, rfl⟩ := List.mem_map.mp hg
    rcases hv with hv | hv
    · exact hdecl v (built_declares hB (hp.inDecl g0 hg0 v hv)) fun e => hnread g0 hg0 (e ▸ hv)
    · rcases mem_subst.mp hv with ⟨h1, h2⟩ | ⟨rfl, _⟩
      · exact hdecl v (built_declares hB (List.mem_map.mpr ⟨_, hp.outDecl g0 hg0 v h1, rfl⟩)) h2
      · exact hdnew
  · intro V sem val hob
    rw [hfun]
    intro g hg
    obtain ⟨g0, hg0, rfl⟩ := List.mem_map.mp hg
    show (subst old new g0.outputs).map _ = sem g0.name (g0.inputs.map _)
    have h1 : g0.inputs.map (fun v => if v = new then val old else val v) = g0.inputs.map val := by
      refine List.map_congr_left fun v hv => ?_
      show (if v = new then val old else val v) = val v
      have hne : v ≠ new := by rintro rfl; exact hnew (hp.inDecl g0 hg0 v hv)
      rw [if_neg hne]
    have h2 : (subst old new g0.outputs).map (fun v => if v = new then val old else val v) =
        g0.outputs.map val := by
      rw [subst, List.map_map]
      refine List.map_congr_left fun v hv => ?_
      show (if (if v = old then new else v) = new then val old else
        val (if v = old then new else v)) = val v
      by_cases hv' : v = old
      · rw [if_pos hv', if_pos rfl, hv']
      · rw [if_neg hv', if_neg]
        rintro rfl
        exact hnew (List.mem_map.mpr ⟨_, hp.outDecl g0 hg0 v hv, rfl⟩)
    rw [h1, h2]
    exact hob g0 hg0

example := c116_rename_output_partial exId exId_wf ⟨"Id2", ["y"], ["z"]⟩ "z" "prediction"
  ⟨by decide, by decide⟩ (by decide) (by decide)

/-- The full claim fails for a variable which some function reads: the readers keep the old name,
which is no longer declared, and the traversal raises `KeyError`. -/
theorem c116_rename_inner_refuted :
    WF exId ∧ ((fromProto exId).bind fun N => renameVariable N.withPorts [("y", "score")]).map
      (fun P => ((P.net.fn "Mul2").outputs, (P.net.fn "Id2").inputs, P.net.declares "y")) =
      some (["score"], ["y"], false) := ⟨exId_wf, by decide⟩

/-- Swapping two output names loses one of the variables. -/
theorem c116_rename_swap_refuted :
    ∃ p : Proto, WF p ∧
      (fromProto p).map (fun N => N.outputs) = some ["a", "b"] ∧
      ((fromProto p).bind fun N => renameVariable N.withPorts [("a", "b"), ("b", "a")]).map
        (fun P => (P.outs, P.net.varKeys, P.portsOK)) = some (["b", "a"], ["x", "a"], false) := by
  refine ⟨⟨[⟨"x", false⟩, ⟨"a", false⟩, ⟨"b", false⟩],
    [⟨"F", ["x"], ["a"]⟩, ⟨"G", ["x"], ["b"]⟩]⟩, ?_, by decide, by decide⟩
  exact ⟨by decide, by decide, by decide, by decide, by decide, by decide⟩

end Verif.GraphDef
