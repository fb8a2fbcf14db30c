import Mathlib.Tactic.ByContra
import Verif.Graph.Clear
/-
C26: theorems about clearing during forward.
-/
namespace Verif.Graph
variable {α : Type}

theorem flags_fold {G : Graph} {cfg : FCfg α} {rank : VarId → Nat} {ng : FnId → Bool}
    {Q : List FnId} {f : FnId}
    (hb : ∀ v, uses G Q v + ((G.fn f).inputs.map Prod.fst).count v ≤ G.refCount v) :
    ∀ (rest P : List VarId) (s : FSt α) (fl : List Bool),
      (G.fn f).inputs.map Prod.fst = P ++ rest → CInv G Q ng f P s → fl.length = P.length →
      (∀ (i : Nat), fl[i]? = some true → ∃ v, Clearable G cfg rank ng Q f i v) →
      let r := (rest.zipIdx P.length).foldl (clearStep G cfg rank (ng f) f) (s, fl)
      CInv G Q ng f (P ++ rest) r.1 ∧ r.1.mem = s.mem ∧ r.1.log = s.log ∧ r.1.reads = s.reads ∧
        r.2.length = (P ++ rest).length ∧
        ∀ (i : Nat), r.2[i]? = some true → ∃ v, Clearable G cfg rank ng Q f i v := by
  intro rest
  induction rest with
  | nil => intro P s fl hins hI hl hfl; simpa using ⟨hI, hl, hfl⟩
  | cons v rest ih =>
    intro P s fl hins hI hl hfl
    have hlt : uses G Q v + P.count v < G.refCount v := by
      have := hb v
      rw [hins, List.count_append, List.count_cons_self] at this
      omega
    obtain ⟨h1, h2, h3, h4, b, h5, h6⟩ := clearStep_spec (cfg := cfg) (rank := rank) (fl := fl) hins hI hlt
    have := ih (P ++ [v]) (clearStep G cfg rank (ng f) f (s, fl) (v, P.length)).1
      (clearStep G cfg rank (ng f) f (s, fl) (v, P.length)).2 (by rw [hins]; simp) h1
      (by rw [h5]; simp [hl]) (by
        intro i hi
        rw [h5] at hi
        by_cases hi' : i < fl.length
        · rw [List.getElem?_append_left hi'] at hi
          exact hfl i hi
        · rw [List.getElem?_append_right (by omega)] at hi
          have h0 : i - fl.length = 0 := by
            by_contra hne
            rw [List.getElem?_eq_none (by simp; omega)] at hi
            cases hi
          rw [h0] at hi
          simp at hi
          have : i = P.length := by omega
          rw [this]; exact ⟨v, h6 hi⟩)
    simp only [List.length_append, List.length_cons, List.length_nil, List.append_assoc,
      List.cons_append, List.nil_append] at this
    rw [h2, h3, h4] at this
    simpa [List.zipIdx_cons] using this

theorem clearInputs_spec {cfg : FCfg α} {f : FnId} : ∀ (l : List (VarId × Bool)) (s : FSt α),
    (clearInputs cfg f s l).seen = s.seen ∧ (clearInputs cfg f s l).needG = s.needG ∧
    (clearInputs cfg f s l).inpl = s.inpl ∧ (clearInputs cfg f s l).over = s.over ∧
    (clearInputs cfg f s l).reads = s.reads ∧
    (∀ x, x ∈ (clearInputs cfg f s l).log ↔ x ∈ s.log ∨ (x.1 = f ∧ (x.2, true) ∈ l)) ∧
    ∀ a, (∀ x, x ∈ (clearInputs cfg f s l).log → cfg.arr x.2 ≠ a) →
      (clearInputs cfg f s l).mem a = s.mem a := by
  intro l
  induction l with
  | nil => intro s; simp [clearInputs]
  | cons x l ih =>
    intro s
    unfold clearInputs
    rw [List.foldl_cons]
    obtain ⟨i1, i2, i3, i4, i5, i6, i7⟩ := ih (if x.2 = true then
      { s with mem := upd s.mem (cfg.arr x.1) (cfg.junk f x.1), log := s.log ++ [(f, x.1)] } else s)
    unfold clearInputs at i1 i2 i3 i4 i5 i6 i7
    refine ⟨?_, ?_, ?_, ?_, ?_, ?_, ?_⟩
    · rw [i1]; split <;> rfl
    · rw [i2]; split <;> rfl
    · rw [i3]; split <;> rfl
    · rw [i4]; split <;> rfl
    · rw [i5]; split <;> rfl
    · intro y
      rw [i6]
      split
      · rename_i hx
        simp only [List.mem_append, List.mem_cons, List.not_mem_nil, or_false]
        constructor
        · rintro ((h | h) | h)
          · exact Or.inl h
          · right; rw [h]; exact ⟨rfl, Or.inl (by rw [← hx])⟩
          · exact Or.inr ⟨h.1, Or.inr h.2⟩
        · rintro (h | ⟨h1, h2 | h2⟩)
          · exact Or.inl (Or.inl h)
          · left; right; rw [← h2, ← h1]
          · exact Or.inr ⟨h1, h2⟩
      · rename_i hx
        simp only [List.mem_cons]
        constructor
        · rintro (h | h)
          · exact Or.inl h
          · exact Or.inr ⟨h.1, Or.inr h.2⟩
        · rintro (h | ⟨h1, h2 | h2⟩)
          · exact Or.inl h
          · rw [← h2] at hx; exact absurd rfl hx
          · exact Or.inr ⟨h1, h2⟩
    · intro a ha
      rw [i7 a ha]
      split
      · rename_i hx
        have := ha (f, x.1) (by rw [i6]; left; rw [if_pos hx]; simp)
        simp only [upd]
        rw [if_neg (fun h => this h.symm)]
      · rfl

theorem writeAll_congr {cfg : FCfg α} {a : ArrId} : ∀ (l : List (VarId × α)) (m m' : ArrId → α),
    m a = m' a → writeAll cfg m l a = writeAll cfg m' l a := by
  intro l
  induction l with
  | nil => intro m m' h; exact h
  | cons x l ih =>
    intro m m' h
    unfold writeAll
    rw [List.foldl_cons, List.foldl_cons]
    apply ih
    simp only [upd]
    split
    · rfl
    · exact h

theorem plain_append {G : Graph} {cfg : FCfg α} {mem : ArrId → α} {Q : List FnId} {f : FnId} :
    plain G cfg mem (Q ++ [f]) = (runFn G cfg f (plain G cfg mem Q).1,
      (plain G cfg mem Q).2 ++
        [(f, (G.fn f).inputs.map (fun v => (plain G cfg mem Q).1 (cfg.arr v.1)))]) := by
  simp [plain, List.foldl_append]

/-- After the functions `Q`. -/
structure ClearInv (G : Graph) (cfg : FCfg α) (rank : VarId → Nat) (ng : FnId → Bool)
    (mem0 : ArrId → α) (Q : List FnId) (s : FSt α) : Prop where
  seen : ∀ v, s.seen v = seenAfter G v (uses G Q v)
  inpl : ∀ f i o u, f ∈ Q → (G.fn f).inplace i = some o →
    ((G.fn f).inputs.map Prod.fst)[i]? = some u → u ∈ s.inpl ∧
      ∀ w, (G.fn f).outputs[o]? = some w → w ∈ s.inpl
  need : ∀ f v, f ∈ Q → ng f = true → NeededBy G f v → v ∈ s.needG ∨ v ∈ s.over
  log : ∀ x, x ∈ s.log → ∃ Q' R' i, Q = Q' ++ x.1 :: R' ∧ Clearable G cfg rank ng Q' x.1 i x.2
  reads : s.reads = (plain G cfg mem0 Q).2
  mem : ∀ a, (∀ x, x ∈ s.log → cfg.arr x.2 ≠ a) → s.mem a = (plain G cfg mem0 Q).1 a

theorem clearInv_step {G : Graph} {cfg : FCfg α} {st : VSt (FSt α)} {mem0 : ArrId → α} {Q : List FnId}
    {f : FnId} {s : FSt α} (hI : ClearInv G cfg st.vrank st.fng mem0 Q s)
    (hb : ∀ v, uses G Q v + ((G.fn f).inputs.map Prod.fst).count v ≤ G.refCount v)
    (hread : ∀ x, x ∈ s.log → ∀ v, v ∈ (G.fn f).inputs → cfg.arr x.2 ≠ cfg.arr v.1) :
    ClearInv G cfg st.vrank st.fng mem0 (Q ++ [f]) (forwardCall G cfg st f s) := by
  have hins : (G.fn f).inputs.map (fun v => s.mem (cfg.arr v.1)) =
      (G.fn f).inputs.map (fun v => (plain G cfg mem0 Q).1 (cfg.arr v.1)) := by
    apply List.map_congr_left
    intro v hv
    exact hI.mem _ (fun x hx => hread x hx v hv)
  unfold forwardCall
  simp only
  generalize hs1 : ({ s with mem := runFn G cfg f s.mem
                             reads := s.reads ++ [(f, (G.fn f).inputs.map
                               (fun v => s.mem (cfg.arr v.1)))] } : FSt α) = s1
  have hC0 : CInv G Q st.fng f [] { s1 with needG :=
      (((G.fn f).outputs.zipIdx.filter (fun x => st.fng f && gradDependsOut (G.fn f) x.2)).map
        Prod.fst) ++ s1.needG } := by
    rw [← hs1]
    constructor
    · intro v; simpa using hI.seen v
    · intro g i o u hg
      rcases hg with hg | ⟨_, hg⟩
      · exact hI.inpl g i o u hg
      · simp at hg
    · intro g v hg hng hnd
      rcases hI.need g v hg hng hnd with h | h
      · left; simp [h]
      · exact Or.inr h
    · intro o v hng ho hd
      simp only [List.mem_append]
      left
      refine List.mem_map.mpr ⟨(v, o), ?_, rfl⟩
      rw [List.mem_filter]
      refine ⟨?_, by simp [hng, hd]⟩
      rw [List.mem_iff_getElem?]
      exact ⟨o, by simp [ho]⟩
    · intro k v hk; simp at hk
  have hff := flags_fold (cfg := cfg) (rank := st.vrank) (ng := st.fng) (Q := Q) (f := f) hb
    ((G.fn f).inputs.map Prod.fst) [] _ [] rfl hC0 rfl (by simp)
  simp only [List.length_nil, List.nil_append] at hff
  unfold getClearFlags
  simp only
  generalize hr : List.foldl (clearStep G cfg st.vrank (st.fng f) f)
    ({ s1 with needG :=
      (((G.fn f).outputs.zipIdx.filter (fun x => st.fng f && gradDependsOut (G.fn f) x.2)).map
        Prod.fst) ++ s1.needG }, ([] : List Bool))
    ((G.fn f).inputs.map Prod.fst).zipIdx = r at hff
  obtain ⟨hC, hm, hlg, hrd, hlen, hfl⟩ := hff
  obtain ⟨c1, c2, c3, c4, c5, c6, c7⟩ := clearInputs_spec (cfg := cfg) (f := f)
    (((G.fn f).inputs.map Prod.fst).zip r.2) r.1
  have hm' : r.1.mem = runFn G cfg f s.mem := by rw [hm, ← hs1]
  have hlg' : r.1.log = s.log := by rw [hlg, ← hs1]
  have hrd' : r.1.reads = s.reads ++ [(f, (G.fn f).inputs.map
      (fun v => s.mem (cfg.arr v.1)))] := by rw [hrd, ← hs1]
  constructor
  · intro v
    rw [c1, hC.seen v, uses_append]
    simp [uses]
  · intro g i o u hg hio hu
    rw [c3]
    rw [List.mem_append, List.mem_singleton] at hg
    rcases hg with hg | rfl
    · exact hC.inpl g i o u (Or.inl hg) hio hu
    · refine hC.inpl g i o u (Or.inr ⟨rfl, ?_⟩) hio hu
      obtain ⟨h, _⟩ := List.getElem?_eq_some_iff.mp hu
      exact h
  · intro g v hg hng hnd
    rw [c2, c4]
    rw [List.mem_append, List.mem_singleton] at hg
    rcases hg with hg | rfl
    · exact hC.need g v hg hng hnd
    · rcases hnd with ⟨k, hk, hd⟩ | ⟨o, ho, hd⟩
      · obtain ⟨h, _⟩ := List.getElem?_eq_some_iff.mp hk
        exact hC.needi k v h hng hk hd
      · exact Or.inl (hC.needo o v hng ho hd)
  · intro x hx
    rw [c6, hlg'] at hx
    rcases hx with hx | ⟨hx1, hx2⟩
    · obtain ⟨Q', R', i, hQ, hcl⟩ := hI.log x hx
      exact ⟨Q', R' ++ [f], i, by rw [hQ]; simp, hcl⟩
    · obtain ⟨i, hi⟩ := List.mem_iff_getElem?.mp hx2
      rw [List.getElem?_zip_eq_some] at hi
      obtain ⟨v, hcl⟩ := hfl i hi.2
      have hv : v = x.2 := by
        have := hcl.here
        rw [hi.1] at this
        exact (Option.some.inj this).symm
      rw [hx1, ← hv]
      exact ⟨Q, [], i, by simp, hcl⟩
  · rw [c5, hrd', plain_append, hI.reads, hins]
  · intro a ha
    rw [c7 a ha, hm', plain_append]
    unfold runFn
    rw [hins]
    apply writeAll_congr
    apply hI.mem
    intro x hx
    exact ha x (by rw [c6, hlg']; exact Or.inl hx)

/-- What a clear operation implies for the whole pass. -/
theorem cleared_facts {G : Graph} {cfg : FCfg α} {rank : VarId → Nat} {ng : FnId → Bool}
    {E Q R : List FnId} {f : FnId} {i : Nat} {v : VarId}
    (hRef : RefsOk G) (hO : OutputsOk G) (hE : E = Q ++ f :: R) (hn : E.Nodup)
    (hact : ∀ u b, (u, b) ∈ (G.fn f).inputs → b = true)
    (hbef : ∀ p, Feeds G p f → Before E p f)
    (hc : Clearable G cfg rank ng Q f i v) :
    (∀ g, v ∈ (G.fn g).inputs.map Prod.fst → g ∈ Q ++ [f]) ∧
    (∀ k, ((G.fn f).inputs.map Prod.fst)[k]? = some v → k ≤ i) ∧
    (∀ g, v ∈ (G.fn g).outputs → g ∈ Q) ∧
    (∀ u, ¬InplaceLink G u v ∧ ¬InplaceLink G v u) ∧
    (∀ u, SameData G u v → u = v) := by
  have hlast := hc.last
  have htd := List.take_append_drop (i + 1) ((G.fn f).inputs.map Prod.fst)
  have hcount : ((G.fn f).inputs.map Prod.fst).count v =
      (((G.fn f).inputs.map Prod.fst).take (i + 1)).count v +
      (((G.fn f).inputs.map Prod.fst).drop (i + 1)).count v := by
    rw [← List.count_append, htd]
  have hall := hRef E v hn
  rw [hE, uses_append, uses_cons] at hall
  have h1 : ∀ g, v ∈ (G.fn g).inputs.map Prod.fst → g ∈ Q ++ [f] := by
    intro g hg
    have hpos := List.count_pos_iff.mpr hg
    by_cases hgE : g ∈ E
    · rw [hE] at hgE
      simp only [List.mem_append, List.mem_cons] at hgE
      rcases hgE with h | h | h
      · simp [h]
      · simp [h]
      · exfalso
        have : ((G.fn g).inputs.map Prod.fst).count v ≤ uses G R v := by
          obtain ⟨a, b, hab⟩ := List.append_of_mem h
          rw [hab, uses_append, uses_cons]; omega
        omega
    · exfalso
      have := hRef (g :: E) v (List.nodup_cons.mpr ⟨hgE, hn⟩)
      rw [hE, uses_cons, uses_append, uses_cons] at this
      omega
  have h2 : ∀ k, ((G.fn f).inputs.map Prod.fst)[k]? = some v → k ≤ i := by
    intro k hk
    by_contra hki
    have hmem : v ∈ ((G.fn f).inputs.map Prod.fst).drop (i + 1) := by
      rw [List.mem_iff_getElem?]
      refine ⟨k - (i + 1), ?_⟩
      rw [List.getElem?_drop]
      have : i + 1 + (k - (i + 1)) = k := by omega
      rw [this]; exact hk
    have := List.count_pos_iff.mpr hmem
    omega
  have h3 : ∀ g, v ∈ (G.fn g).outputs → g ∈ Q := by
    intro g hg
    have hm := List.mem_of_getElem? hc.here
    obtain ⟨⟨u, b⟩, hub, rfl⟩ := List.mem_map.mp hm
    obtain rfl := hact u b hub
    exact hbef g ⟨u, hub, hO g u hg⟩ Q R hE
  have h4 : ∀ u, ¬InplaceLink G u v ∧ ¬InplaceLink G v u := by
    intro u
    constructor
    · rintro ⟨g, j, o, hio, hu, hv⟩
      have hg := h3 g (List.mem_of_getElem? hv)
      exact (hc.inpl g j o u (Or.inl hg) hio hu).2 v hv rfl
    · rintro ⟨g, j, o, hio, hu, _⟩
      have hg := h1 g (List.mem_of_getElem? hu)
      rw [List.mem_append, List.mem_singleton] at hg
      rcases hg with hg | rfl
      · exact (hc.inpl g j o v (Or.inl hg) hio hu).1 rfl
      · exact (hc.inpl g j o v (Or.inr ⟨rfl, h2 j hu⟩) hio hu).1 rfl
  refine ⟨h1, h2, h3, h4, ?_⟩
  intro u hs
  cases hs with
  | refl => rfl
  | fwd _ h => exact absurd h (h4 _).1
  | bwd _ h => exact absurd h (h4 _).2

theorem clear_pass {G : Graph} {cfg : FCfg α} {st : VSt (FSt α)} {mem0 : ArrId → α}
    {E : List FnId} (hRef : RefsOk G) (hO : OutputsOk G)
    (harr : ∀ u v, cfg.arr u = cfg.arr v → SameData G u v) (hn : E.Nodup)
    (hact : ∀ f, f ∈ E → ∀ u b, (u, b) ∈ (G.fn f).inputs → b = true)
    (hbef : ∀ f, f ∈ E → ∀ p, Feeds G p f → Before E p f) :
    ∀ (R Q : List FnId) (s : FSt α), E = Q ++ R → ClearInv G cfg st.vrank st.fng mem0 Q s →
      ClearInv G cfg st.vrank st.fng mem0 E (R.foldl (fun e g => forwardCall G cfg st g e) s) := by
  intro R
  induction R with
  | nil => intro Q s hE hI; simp at hE; rw [hE]; exact hI
  | cons f R ih =>
    intro Q s hE hI
    rw [List.foldl_cons]
    apply ih (Q ++ [f]) _ (by rw [hE]; simp)
    apply clearInv_step hI
    · intro v
      have := hRef E v hn
      rw [hE, uses_append, uses_cons] at this
      omega
    · intro x hx v hv he
      obtain ⟨Q', R', i, hQ, hcl⟩ := hI.log x hx
      have hE' : E = Q' ++ x.1 :: (R' ++ f :: R) := by rw [hE, hQ]; simp
      have hxE : x.1 ∈ E := by rw [hE']; simp
      obtain ⟨h1, _, _, _, h5⟩ := cleared_facts hRef hO hE' hn (hact _ hxE) (hbef _ hxE) hcl
      have hvx : v.1 = x.2 := h5 v.1 (harr _ _ he.symm)
      have hf := h1 f (by rw [← hvx]; exact List.mem_map.mpr ⟨v, hv, rfl⟩)
      rw [hE', List.nodup_append] at hn
      rw [List.mem_append, List.mem_singleton] at hf
      rcases hf with h | h
      · exact hn.2.2 f h f (by simp) rfl
      · have := (List.nodup_cons.mp hn.2.1).1
        apply this; rw [← h]; simp

theorem clearStep_congr {G : Graph} {cfg : FCfg α} {r r' : VarId → Nat} {ng : Bool} {f : FnId}
    {a : FSt α × List Bool} {x : VarId × Nat} (h : r x.1 = r' x.1) :
    clearStep G cfg r ng f a x = clearStep G cfg r' ng f a x := by
  simp only [clearStep, h]

theorem forwardCall_local {G : Graph} {cfg : FCfg α}
    (hact : ∀ f u b, (u, b) ∈ (G.fn f).inputs → b = true) : CbLocal G (forwardCall G cfg) := by
  intro f s s' e hr hng
  have : ∀ s1, getClearFlags G cfg s.vrank (s.fng f) f s1 =
      getClearFlags G cfg s'.vrank (s'.fng f) f s1 := by
    intro s1
    unfold getClearFlags
    rw [hng]
    apply foldl_congr'
    intro b x hx
    apply clearStep_congr
    have := List.fst_mem_of_mem_zipIdx hx
    obtain ⟨⟨u, c⟩, hu, he⟩ := List.mem_map.mp this
    obtain rfl := hact f u c hu
    rw [← he]
    exact hr u hu
  unfold forwardCall
  simp only [this]

/-- C26. For every acyclic graph (all inputs active), every combination of `clear_buffer`,
`clear_no_need_grad` and recompute flags, every in-place structure and every kernel, `v.forward()`
executes the functions `E` of C23, each of them reading exactly the data it would read if nothing
were ever cleared.  A cleared variable is not persistent, is not a graph input, is not (and shares
its data with nothing that is) `v` itself, and if neither `clear_buffer` nor its recompute flag is
set, its data is not needed by the backward of any executed function that requires gradient.
Every variable that shares no data with a cleared one holds the data it would hold without
clearing. -/
theorem forward_clear_safe_partial (G : Graph) (cfg : FCfg α) (depth : FnId → Nat)
    (hLay : Layered G depth) (hO : OutputsOk G) (hRef : RefsOk G)
    (hact : ∀ f u b, (u, b) ∈ (G.fn f).inputs → b = true)
    (harr : ∀ u v, cfg.arr u = cfg.arr v → SameData G u v)
    (v : VarId) (p : FnId) (hv : G.parent v = some p) (fuel : Nat) (hfuel : depth p < fuel)
    (s : VSt (FSt α)) (hc : s.closed = []) (ho : s.order = []) (hs : s.setups = [])
    (mem0 : ArrId → α) (he : s.ext = { mem := mem0 }) :
    ∃ s', forward G (forwardCall G cfg) fuel v s = some s' ∧ PassOk G s.mark (Depends G p) s' ∧
      s'.ext.reads = (plain G cfg mem0 s'.order).2 ∧
      (∀ u, (∀ x, x ∈ s'.ext.log → cfg.arr x.2 ≠ cfg.arr u) →
        s'.ext.mem (cfg.arr u) = (plain G cfg mem0 s'.order).1 (cfg.arr u)) ∧
      ∀ x, x ∈ s'.ext.log →
        (cfg.clearBuffer = true ∨ G.recompute x.2 = true ∨ cfg.clearNoNeedGrad = true) ∧
        ∀ u, cfg.arr u = cfg.arr x.2 →
          G.persistent u = false ∧ G.prohibitClear u = false ∧ G.parent u ≠ none ∧ u ≠ v ∧
          (cfg.clearBuffer = false → G.recompute u = false →
            ∀ g, g ∈ s'.order → s'.fng g = true → ¬NeededBy G g u) := by
  obtain ⟨s', hs', hext⟩ := forward_callback G (forwardCall G cfg) depth hLay hO
    (forwardCall_local hact) v p hv fuel hfuel s hc ho hs
  obtain ⟨s'', hs'', hpass⟩ := forward_ok G (forwardCall G cfg) depth hLay hO v p hv fuel hfuel s
    hc ho hs
  rw [hs'] at hs''
  obtain rfl := Option.some.inj hs''
  have hbef : ∀ f, f ∈ s'.order → ∀ q, Feeds G q f → Before s'.order q f :=
    fun f hf q hq => hpass.after f ((hpass.exact_ f).mp hf) q hq
  have hI : ClearInv G cfg s'.vrank s'.fng mem0 s'.order s'.ext := by
    rw [hext, he]
    apply clear_pass hRef hO harr hpass.once (fun f _ => hact f) hbef s'.order [] _ rfl
    constructor
    · intro u; simp only [seenAfter, uses]; simp
    · intro f i o u hf; simp at hf
    · intro f u hf; simp at hf
    · intro x hx; simp at hx
    · simp [plain]
    · intro a _; simp [plain]
  refine ⟨s', hs', hpass, hI.reads, fun u hu => hI.mem _ hu, ?_⟩
  intro x hx
  obtain ⟨Q, R, i, hE, hcl⟩ := hI.log x hx
  have hxE : x.1 ∈ s'.order := by rw [hE]; simp
  obtain ⟨h1, h2, h3, h4, h5⟩ := cleared_facts hRef hO hE hpass.once (hact x.1) (hbef _ hxE) hcl
  have hxin := List.mem_of_getElem? hcl.here
  obtain ⟨⟨w, b⟩, hwb, hwx⟩ := List.mem_map.mp hxin
  obtain rfl := hact x.1 w b hwb
  simp only at hwx
  subst hwx
  refine ⟨hcl.option, ?_⟩
  intro u hu
  obtain rfl := h5 u (harr _ _ hu)
  have hneed := (hpass.exact_ x.1).mp hxE
  refine ⟨hcl.persistent, hcl.prohibit, ?_, ?_, ?_⟩
  · intro hnone
    have := hpass.var_rank x.1 hneed x.2 hwb
    rw [hnone] at this
    exact hcl.rank this
  · -- the variable itself is the output of the last function
    intro hxv
    rw [hxv] at h1 hwb
    have hd : depth p < depth x.1 := hLay p x.1 ⟨v, hwb, hv⟩
    have hle : ∀ a b, Depends G a b → depth b ≤ depth a := by
      intro a b hab
      induction hab with
      | refl => exact Nat.le_refl _
      | step hf _ ih => have := hLay _ _ hf; omega
    have := hle _ _ hneed
    omega
  · intro hcb hrc g hg hng hnb
    obtain ⟨hn1, hn2⟩ := hcl.need hcb hrc
    rcases hnb with ⟨k, hk, hd⟩ | ⟨o, ho', hd⟩
    · have hg' := h1 g (List.mem_of_getElem? hk)
      rw [List.mem_append, List.mem_singleton] at hg'
      rcases hg' with hg' | rfl
      · exact hn1 g hg' hng (Or.inl ⟨k, hk, hd⟩)
      · have := (hn2 hng).2 k (h2 k hk) hk
        rcases hd with hd | hd
        · rw [this.1] at hd; cases hd
        · rw [this.2] at hd; cases hd
    · have hg' := h3 g (List.mem_of_getElem? ho')
      exact hn1 g hg' hng (Or.inr ⟨o, ho', hd⟩)

end Verif.Graph
