import Verif.Recompute.Model
/-
C86: invariant proof for recomputation during backward.
-/
namespace Verif.Recompute
open Verif.Graph
variable {α : Type}

/-- `g` reads `v`. -/
def Consumes (G : Graph) (g : FnId) (v : VarId) : Prop := v ∈ (G.fn g).inputs.map Prod.fst

/-- Some output of `g` was cleared before backward, or may be because it has the recompute flag. -/
def Recomputable (G : Graph) (d0 : VarId → Option α) (g : FnId) : Prop :=
  ∃ w ∈ (G.fn g).outputs, d0 w = none ∨ G.recompute w = true

/-- What is assumed about the graph and the data `d0` at the beginning of backward. `E v` is the
value of `v`; `X` the functions of the graph below the differentiated variable. -/
structure Hyp (G : Graph) (c : RCfg α) (depth : FnId → Nat) (E : VarId → α)
    (d0 : VarId → Option α) (X : FnId → Prop) : Prop where
  lay : Layered G depth
  out : OutputsOk G
  conv : ∀ v p, G.parent v = some p → v ∈ (G.fn p).outputs
  act : ∀ f u b, (u, b) ∈ (G.fn f).inputs → b = true
  noinpl : ∀ f i, (G.fn f).inplace i = none
  refs : RefsOk G
  below : ∀ f p, X f → Feeds G p f → X p
  value : ∀ f, X f → c.run f ((G.fn f).inputs.map (fun v => E v.1)) = (G.fn f).outputs.map E
  leaf : ∀ f v, X f → Consumes G f v → G.parent v = none → c.rank v = 0
  d0_val : ∀ v x, d0 v = some x → x = E v
  d0_none : ∀ v, d0 v = none → G.parent v ≠ none ∧
    (G.recompute v = true ∨ ∀ g, X g → c.ng g = true → ¬NeededBy G g v)
  own : ∀ p (o : Nat) v, X p → c.ng p = true → (G.fn p).outputs[o]? = some v →
    gradDependsOut (G.fn p) o = true →
    G.recompute v = true ∨ G.persistent v = true ∨ G.prohibitClear v = true ∨
      ((∃ g, Consumes G g v) → ∃ g, Consumes G g v ∧ ¬Recomputable G d0 g)
  setup : ∀ f o, X f → o < (G.fn f).outputs.length → c.needSetup f o = true →
    Recomputable G d0 f → readyAfter G c f = true

structure CbInv (G : Graph) (ng : FnId → Bool) (V : List FnId) (s : FSt Unit) : Prop where
  seen : ∀ v, s.seen v = seenAfter G v (uses G V v)
  need : ∀ f v, f ∈ V → ng f = true → NeededBy G f v → v ∈ s.needG ∨ v ∈ s.over

theorem cb_step {G : Graph} {rank : VarId → Nat} {ng : FnId → Bool} {V : List FnId} {f : FnId}
    {s : FSt Unit} (hni : ∀ f i, (G.fn f).inplace i = none) (hI : CbInv (noRec G) ng V s)
    (hb : ∀ v, uses (noRec G) V v + (((noRec G).fn f).inputs.map Prod.fst).count v ≤
      (noRec G).refCount v) :
    CbInv (noRec G) ng (V ++ [f]) (getClearFlags (noRec G) recCfg rank (ng f) f s).1 ∧
    ∀ (i : Nat), (getClearFlags (noRec G) recCfg rank (ng f) f s).2[i]? = some true →
      ∃ v, Clearable (noRec G) recCfg rank ng V f i v := by
  have hni' : ∀ f i, ((noRec G).fn f).inplace i = none := hni
  generalize noRec G = G' at *
  have hC0 : CInv G' V ng f [] { s with needG :=
      (((G'.fn f).outputs.zipIdx.filter (fun x => ng f && gradDependsOut (G'.fn f) x.2)).map
        Prod.fst) ++ s.needG } := by
    constructor
    · intro v; simpa using hI.seen v
    · intro g i o u _ hio
      rw [hni'] at hio; cases hio
    · intro g v hg hng hnd
      rcases hI.need g v hg hng hnd with h | h
      · left; simp [h]
      · exact Or.inr h
    · intro o v hng ho hd
      simp only [List.mem_append]
      left
      refine List.mem_map.mpr ⟨(v, o), ?_, rfl⟩
      rw [List.mem_filter]
      refine ⟨?_, by simp [hng, hd]⟩
      rw [List.mem_iff_getElem?]
      exact ⟨o, by simp [ho]⟩
    · intro k v hk; simp at hk
  have hff := flags_fold (cfg := recCfg) (rank := rank) (ng := ng) (Q := V) (f := f) hb
    ((G'.fn f).inputs.map Prod.fst) [] _ [] rfl hC0 rfl (by simp)
  simp only [List.length_nil, List.nil_append] at hff
  unfold getClearFlags
  simp only
  generalize List.foldl (clearStep G' recCfg rank (ng f) f)
    ({ s with needG :=
      (((G'.fn f).outputs.zipIdx.filter (fun x => ng f && gradDependsOut (G'.fn f) x.2)).map
        Prod.fst) ++ s.needG }, ([] : List Bool))
    ((G'.fn f).inputs.map Prod.fst).zipIdx = r at hff
  obtain ⟨hC, _, _, _, hlen, hfl⟩ := hff
  refine ⟨⟨?_, ?_⟩, hfl⟩
  · intro v
    rw [hC.seen v, uses_append]
    simp [uses]
  · intro g v hg hng hnd
    rw [List.mem_append, List.mem_singleton] at hg
    rcases hg with hg | rfl
    · exact hC.need g v hg hng hnd
    · rcases hnd with ⟨k, hk, hd⟩ | ⟨o, ho, hd⟩
      · obtain ⟨h, _⟩ := List.getElem?_eq_some_iff.mp hk
        exact hC.needi k v h hng hk hd
      · exact Or.inl (hC.needo o v hng ho hd)

theorem writeOut_spec {E : VarId → α} : ∀ (l : List VarId) (d : VarId → Option α) (v : VarId),
    writeOut d (l.zip (l.map E)) v = if v ∈ l then some (E v) else d v := by
  intro l
  induction l with
  | nil => intro d v; simp [writeOut]
  | cons w l ih =>
    intro d v
    have := ih (upd d w (some (E w))) v
    simp only [writeOut, List.map_cons, List.zip_cons_cons, List.foldl_cons] at this ⊢
    rw [this]
    by_cases h1 : v ∈ l
    · simp [h1]
    · by_cases h2 : v = w
      · subst h2; simp [upd]
      · simp [h1, h2, upd]

theorem clearIn_some : ∀ (l : List (VarId × Bool)) (d : VarId → Option α) (v : VarId) (x : α),
    clearIn d l v = some x → d v = some x := by
  intro l
  induction l with
  | nil => intro d v x h; exact h
  | cons y l ih =>
    intro d v x h
    simp only [clearIn, List.foldl_cons] at h
    have := ih _ v x h
    split at this
    · simp only [upd] at this
      split at this
      · cases this
      · exact this
    · exact this

theorem clearIn_none : ∀ (l : List (VarId × Bool)) (d : VarId → Option α) (v : VarId),
    clearIn d l v = none → d v = none ∨ (v, true) ∈ l := by
  intro l
  induction l with
  | nil => intro d v h; exact Or.inl h
  | cons y l ih =>
    intro d v h
    simp only [clearIn, List.foldl_cons] at h
    rcases ih _ v h with h | h
    · split at h
      · rename_i hy
        simp only [upd] at h
        split at h
        · rename_i hv
          right; rw [hv, ← hy]; simp
        · exact Or.inl h
      · exact Or.inl h
    · right; simp [h]

/-- Cleared before backward and not recomputed. -/
def CaseA (G : Graph) (d0 : VarId → Option α) (V : List FnId) (v : VarId) : Prop :=
  d0 v = none ∧ ∀ p, G.parent v = some p → p ∉ V

structure Inv (G : Graph) (c : RCfg α) (E : VarId → α) (d0 : VarId → Option α) (X : FnId → Prop)
    (B : List FnId) (s : RSt α) : Prop where
  nodup : s.visits.Nodup
  vis : ∀ g, g ∈ s.visits → X g ∧ Recomputable G d0 g
  val : ∀ v x, s.data v = some x → x = E v
  none_ : ∀ v, s.data v = none → CaseA G d0 s.visits v ∨
    ((∃ g, Consumes G g v) ∧ (∀ g, Consumes G g v → g ∈ s.visits) ∧
      (∀ g, g ∈ s.visits → c.ng g = true → ¬NeededBy G g v) ∧
      G.persistent v = false ∧ G.prohibitClear v = false) ∨
    (∃ p, p ∈ B ∧ G.parent v = some p)
  some_ : ∀ v, s.data v ≠ none → d0 v ≠ none ∨ ∃ p, G.parent v = some p ∧ p ∈ s.visits
  bad : s.bad = []
  raised : s.raised = false
  cb : CbInv (noRec G) c.ng s.visits s.cb
  ready : ∀ f, f ∉ s.visits → s.ready f = readyAfter G c f

structure Ext (G : Graph) (depth : FnId → Nat) (k : Nat) (s s' : RSt α) : Prop where
  sub : ∀ h, h ∈ s.visits → h ∈ s'.visits
  new : ∀ h, h ∈ s'.visits → h ∈ s.visits ∨ depth h < k
  closed : ∀ h, h ∈ s'.closed → h ∈ s.closed ∨ h ∈ s'.visits
  clr : ∀ v, s.data v ≠ none → s'.data v = none → ∃ h, depth h < k ∧ Consumes G h v
  reads : s'.reads = s.reads

theorem Ext.refl {G : Graph} {depth : FnId → Nat} {k : Nat} (s : RSt α) : Ext G depth k s s :=
  ⟨fun _ h => h, fun _ h => Or.inl h, fun _ h => Or.inl h, fun _ h h' => absurd h' h, rfl⟩

theorem Ext.trans {G : Graph} {depth : FnId → Nat} {k : Nat} {s s' s'' : RSt α}
    (h : Ext G depth k s s') (h' : Ext G depth k s' s'') : Ext G depth k s s'' := by
  refine ⟨fun _ a => h'.sub _ (h.sub _ a), ?_, ?_, ?_, h'.reads.trans h.reads⟩
  · intro g hg
    rcases h'.new g hg with a | a
    · exact h.new g a
    · exact Or.inr a
  · intro g hg
    rcases h'.closed g hg with a | a
    · rcases h.closed g a with b | b
      · exact Or.inl b
      · exact Or.inr (h'.sub _ b)
    · exact Or.inr a
  · intro v hv hv'
    cases hd : s'.data v with
    | none => exact h.clr v hv hd
    | some x => exact h'.clr v (by rw [hd]; simp) hv'

theorem Ext.mono {G : Graph} {depth : FnId → Nat} {k k' : Nat} {s s' : RSt α}
    (h : Ext G depth k s s') (hk : k ≤ k') : Ext G depth k' s s' := by
  refine ⟨h.sub, ?_, h.closed, ?_, h.reads⟩
  · intro g hg
    rcases h.new g hg with a | a
    · exact Or.inl a
    · exact Or.inr (by omega)
  · intro v hv hv'
    obtain ⟨g, h1, h2⟩ := h.clr v hv hv'
    exact ⟨g, by omega, h2⟩

variable {G : Graph} {c : RCfg α} {depth : FnId → Nat} {E : VarId → α} {d0 : VarId → Option α}
  {X : FnId → Prop} {B : List FnId}

theorem Hyp.mem_true (H : Hyp G c depth E d0 X) {g : FnId} {v : VarId} (h : Consumes G g v) :
    (v, true) ∈ (G.fn g).inputs := by
  obtain ⟨⟨u, b⟩, hu, rfl⟩ := List.mem_map.mp h
  obtain rfl := H.act g u b hu
  exact hu

theorem Hyp.out_not_in (H : Hyp G c depth E d0 X) {f g : FnId} {v : VarId}
    (ho : v ∈ (G.fn f).outputs) (hc : Consumes G g v) : depth f < depth g :=
  H.lay f g ⟨v, H.mem_true hc, H.out f v ho⟩

/-- Recomputing a function all of whose inputs are present. -/
theorem recCall_spec (H : Hyp G c depth E d0 X) {g : FnId} {s : RSt α}
    (hI : Inv G c E d0 X B s) (hX : X g) (hg : g ∉ s.visits) (hrec : Recomputable G d0 g)
    (hin : ∀ v, Consumes G g v → s.data v ≠ none) :
    Inv G c E d0 X B (recCall G c g s) ∧ Ext G depth (depth g + 1) s (recCall G c g s) ∧
      g ∈ (recCall G c g s).visits := by
  have hnr : notReady G c g s = false := by
    unfold notReady
    cases ha : (List.range (G.fn g).outputs.length).any (c.needSetup g) with
    | false => rfl
    | true =>
      rw [List.any_eq_true] at ha
      obtain ⟨o, ho, hs⟩ := ha
      rw [hI.ready g hg, H.setup g o hX (List.mem_range.mp ho) hs hrec]
      rfl
  have hins : (G.fn g).inputs.map (fun v => s.data v.1) =
      (G.fn g).inputs.map (fun v => some (E v.1)) := by
    apply List.map_congr_left
    intro v hv
    cases hd : s.data v.1 with
    | none => exact absurd hd (hin v.1 (List.mem_map.mpr ⟨v, hv, rfl⟩))
    | some x => rw [hI.val _ _ hd]
  have hrun : c.run g (((G.fn g).inputs.map (fun v => s.data v.1)).map (fun x => x.getD c.junk)) =
      (G.fn g).outputs.map E := by
    rw [hins, List.map_map, ← H.value g hX]
    rfl
  have hbad : ((G.fn g).inputs.map (fun v => s.data v.1)).any (fun x => x.isNone) = false := by
    rw [hins]
    rw [List.any_eq_false]
    intro x hx
    obtain ⟨v, _, rfl⟩ := List.mem_map.mp hx
    simp
  have hnd : (s.visits ++ [g]).Nodup := by
    rw [List.nodup_append]
    refine ⟨hI.nodup, by simp, ?_⟩
    intro a ha b hb
    simp at hb
    rintro rfl
    exact hg (hb ▸ ha)
  have hrefs := H.refs
  have hb : ∀ v, uses (noRec G) s.visits v + (((noRec G).fn g).inputs.map Prod.fst).count v ≤
      (noRec G).refCount v := by
    intro v
    have := hrefs _ v hnd
    rw [uses_append] at this
    simpa [uses, noRec] using this
  obtain ⟨hcb, hfl⟩ := cb_step (rank := c.rank) H.noinpl hI.cb hb
  unfold recCall
  rw [hI.raised, hnr]
  simp only [Bool.false_eq_true, if_false]
  rw [hrun, hbad]
  simp only [Bool.false_eq_true, if_false]
  generalize hr : getClearFlags (noRec G) recCfg c.rank (c.ng g) g s.cb = r at hcb hfl
  -- what is cleared
  have hclr : ∀ v, (v, true) ∈ ((G.fn g).inputs.map Prod.fst).zip r.2 →
      Consumes G g v ∧ (∀ h, Consumes G h v → h ∈ s.visits ++ [g]) ∧
      (∀ h, h ∈ s.visits ++ [g] → c.ng h = true → ¬NeededBy G h v) ∧
      G.persistent v = false ∧ G.prohibitClear v = false := by
    intro v hv
    obtain ⟨i, hi⟩ := List.mem_iff_getElem?.mp hv
    rw [List.getElem?_zip_eq_some] at hi
    obtain ⟨u, hcl⟩ := hfl i hi.2
    have huv : u = v := by
      have := hcl.here
      have h2 : ((G.fn g).inputs.map Prod.fst)[i]? = some u := this
      rw [hi.1] at h2
      exact (Option.some.inj h2).symm
    subst huv
    have hlast : uses G s.visits u + (((G.fn g).inputs.map Prod.fst).take (i + 1)).count u =
        G.refCount u := hcl.last
    have hcount : ((G.fn g).inputs.map Prod.fst).count u =
        (((G.fn g).inputs.map Prod.fst).take (i + 1)).count u +
        (((G.fn g).inputs.map Prod.fst).drop (i + 1)).count u := by
      rw [← List.count_append, List.take_append_drop]
    have hle := hb u
    have hle' : uses G s.visits u + ((G.fn g).inputs.map Prod.fst).count u ≤ G.refCount u := hle
    have hcons : Consumes G g u := List.mem_of_getElem? hi.1
    have hall : ∀ h, Consumes G h u → h ∈ s.visits ++ [g] := by
      intro h hh
      by_contra hn
      have := hrefs (h :: (s.visits ++ [g])) u (List.nodup_cons.mpr ⟨hn, hnd⟩)
      rw [uses_cons, uses_append] at this
      have hpos := List.count_pos_iff.mpr hh
      simp only [uses, List.map_cons, List.map_nil, List.sum_cons, List.sum_nil] at this hlast hle'
      omega
    have hk : ∀ k, ((G.fn g).inputs.map Prod.fst)[k]? = some u → k ≤ i := by
      intro k hk
      by_contra hki
      have hmem : u ∈ ((G.fn g).inputs.map Prod.fst).drop (i + 1) := by
        rw [List.mem_iff_getElem?]
        refine ⟨k - (i + 1), ?_⟩
        rw [List.getElem?_drop]
        have : i + 1 + (k - (i + 1)) = k := by omega
        rw [this]; exact hk
      have := List.count_pos_iff.mpr hmem
      omega
    refine ⟨hcons, hall, ?_, hcl.persistent, hcl.prohibit⟩
    obtain ⟨hn1, hn2⟩ := hcl.need rfl rfl
    intro h hh hng hnb
    rw [List.mem_append, List.mem_singleton] at hh
    rcases hh with hh | rfl
    · exact hn1 h hh hng hnb
    · obtain ⟨ho, hki⟩ := hn2 hng
      rcases hnb with ⟨k, hk1, hd⟩ | ⟨o, ho', hd⟩
      · have := hki k (hk k hk1) hk1
        rcases hd with hd | hd
        · have h3 := this.1
          change gradDependsIn (G.fn h) k = false at h3
          rw [h3] at hd; cases hd
        · have h3 := this.2
          change (G.fn h).overwriteIn k = false at h3
          rw [h3] at hd; cases hd
      · have h3 := ho o ho'
        change gradDependsOut (G.fn h) o = false at h3
        rw [h3] at hd; cases hd
  have hout : ∀ v, clearIn (writeOut s.data ((G.fn g).outputs.zip ((G.fn g).outputs.map E)))
      (((G.fn g).inputs.map Prod.fst).zip r.2) v = none →
      (s.data v = none ∧ v ∉ (G.fn g).outputs) ∨
        (v, true) ∈ ((G.fn g).inputs.map Prod.fst).zip r.2 := by
    intro v hv
    rcases clearIn_none _ _ _ hv with h | h
    · rw [writeOut_spec] at h
      split at h
      · cases h
      · rename_i hno; exact Or.inl ⟨h, hno⟩
    · exact Or.inr h
  refine ⟨⟨hnd, ?_, ?_, ?_, ?_, hI.bad, rfl, hcb, ?_⟩, ⟨?_, ?_, ?_, ?_, rfl⟩, by simp⟩
  · intro h hh
    rw [List.mem_append, List.mem_singleton] at hh
    rcases hh with hh | rfl
    · exact hI.vis h hh
    · exact ⟨hX, hrec⟩
  · intro v x hv
    have := clearIn_some _ _ _ _ hv
    rw [writeOut_spec] at this
    split at this
    · exact (Option.some.inj this).symm
    · exact hI.val v x this
  · intro v hv
    rcases hout v hv with ⟨h1, h2⟩ | h
    · have hpar : ∀ p, G.parent v = some p → p ≠ g := by
        rintro p hp rfl
        exact h2 (H.conv v p hp)
      rcases hI.none_ v h1 with hA | ⟨b0, b1, b2, b3, b4⟩ | hC
      · left
        refine ⟨hA.1, fun p hp => ?_⟩
        rw [List.mem_append, List.mem_singleton]
        rintro (h | h)
        · exact hA.2 p hp h
        · exact hpar p hp h
      · right; left
        refine ⟨b0, fun h hh => by simp [b1 h hh], ?_, b3, b4⟩
        intro h hh hng hnb
        rw [List.mem_append, List.mem_singleton] at hh
        rcases hh with hh | rfl
        · exact b2 h hh hng hnb
        · rcases hnb with ⟨k, hk, _⟩ | ⟨o, ho, _⟩
          · exact hg (b1 h (List.mem_of_getElem? hk))
          · exact h2 (List.mem_of_getElem? ho)
      · exact Or.inr (Or.inr hC)
    · obtain ⟨a0, a1, a2, a3, a4⟩ := hclr v h
      exact Or.inr (Or.inl ⟨⟨g, a0⟩, a1, a2, a3, a4⟩)
  · intro v hv
    cases hd : clearIn (writeOut s.data ((G.fn g).outputs.zip ((G.fn g).outputs.map E)))
      (((G.fn g).inputs.map Prod.fst).zip r.2) v with
    | none => exact absurd hd hv
    | some x =>
      have := clearIn_some _ _ _ _ hd
      rw [writeOut_spec] at this
      split at this
      · rename_i ho
        exact Or.inr ⟨g, H.out g v ho, by simp⟩
      · rcases hI.some_ v (by rw [this]; simp) with h | ⟨p, h1, h2⟩
        · exact Or.inl h
        · exact Or.inr ⟨p, h1, by simp [h2]⟩
  · intro f hf
    simp only [List.mem_append, List.mem_singleton, not_or] at hf
    simp only [upd]
    rw [if_neg hf.2]
    exact hI.ready f hf.1
  · intro h hh; simp [hh]
  · intro h hh
    simp only [List.mem_append, List.mem_singleton] at hh
    rcases hh with hh | rfl
    · exact Or.inl hh
    · exact Or.inr (by omega)
  · intro h hh; exact Or.inl hh
  · intro v hv hv'
    rcases hout v hv' with ⟨h, _⟩ | h
    · exact absurd h hv
    · exact ⟨g, by omega, (hclr v h).1⟩

end Verif.Recompute
