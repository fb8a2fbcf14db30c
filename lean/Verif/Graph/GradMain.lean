import Verif.Graph.GradLemmas
/-
Invariant of the backward pass (C25).
-/
namespace Verif.Graph
variable {α : Type} [AddCommMonoid α]

omit [AddCommMonoid α] in
theorem queryOutputs_spec (G : Graph) (cfg : GCfg α) :
    ∀ (os : List VarId) (seen : List (VarId × Bool)), os.Nodup →
      (queryOutputs G cfg seen os).2.map Prod.fst = os ∧
      (∀ x, x ∈ (queryOutputs G cfg seen os).2 →
        (x.2.1 = true ↔ x.1 ∉ seen.map Prod.fst) ∧ (x.2.2 = true → cfg.clearBuffer = true)) ∧
      (∀ u, u ∈ (queryOutputs G cfg seen os).1.map Prod.fst ↔ u ∈ seen.map Prod.fst ∨ u ∈ os) := by
  intro os
  induction os with
  | nil => intro seen _; simp [queryOutputs]
  | cons o os ih =>
    intro seen hn
    rw [List.nodup_cons] at hn
    simp only [queryOutputs]
    generalize hs1 : (if decide (o ∉ seen.map Prod.fst) = true then (o, cfg.clearInitial) :: seen
      else seen) = seen1
    have hk : ∀ u, u ∈ seen1.map Prod.fst ↔ u ∈ seen.map Prod.fst ∨ u = o := by
      intro u
      rw [← hs1]
      by_cases ho : o ∈ seen.map Prod.fst
      · rw [if_neg (by rw [decide_eq_true_eq]; exact not_not.mpr ho)]
        constructor
        · exact Or.inl
        · rintro (h | rfl)
          · exact h
          · exact ho
      · rw [if_pos (by rw [decide_eq_true_eq]; exact ho)]
        simp only [List.map_cons, List.mem_cons]
        exact or_comm
    obtain ⟨h1, h2, h3⟩ := ih seen1 hn.2
    refine ⟨by simp [h1], ?_, ?_⟩
    · intro x hx
      rcases List.mem_cons.mp hx with rfl | hx
      · constructor
        · simp only [decide_eq_true_eq]
        · intro h
          simp only [Bool.and_eq_true] at h
          exact h.1
      · refine ⟨?_, (h2 x hx).2⟩
        rw [(h2 x hx).1]
        have hxo : x.1 ≠ o := by
          rintro he
          apply hn.1
          rw [← h1, ← he]
          exact List.mem_map.mpr ⟨x, hx, rfl⟩
        rw [hk]
        simp [hxo]
    · intro u
      rw [h3, hk]
      simp only [List.mem_cons]
      constructor
      · rintro ((h | h) | h) <;> simp [h]
      · rintro (h | h | h) <;> simp [h]

omit [AddCommMonoid α] in
theorem forceZero_other {cfg : GCfg α} {v : VarId} :
    ∀ (os : List (VarId × Bool × Bool)) (g : VarId → GArr α),
      (∀ x, x ∈ os → x.1 = v → x.2.1 = false ∨ v ∈ cfg.initial) → forceZero cfg g os v = g v := by
  intro os
  induction os with
  | nil => intro g _; rfl
  | cons o os ih =>
    intro g h
    unfold forceZero
    rw [List.foldl_cons]
    have := ih (if o.1 ∈ cfg.initial then g
      else if o.2.1 then upd g o.1 (g o.1).zeroed else g) (fun x hx => h x (by simp [hx]))
    unfold forceZero at this
    rw [this]
    split
    · rfl
    · rename_i hi
      split
      · rename_i hf
        simp only [upd]
        split
        · rename_i he
          rcases h o (by simp) he.symm with h' | h'
          · rw [h'] at hf; cases hf
          · rw [he] at h'; exact absurd h' hi
        · rfl
      · rfl

theorem forceZero_zero {cfg : GCfg α} {v : VarId} (hi : v ∉ cfg.initial) :
    ∀ (os : List (VarId × Bool × Bool)) (g : VarId → GArr α),
      (∃ x, x ∈ os ∧ x.1 = v ∧ x.2.1 = true) ∨ (g v).read = 0 → (forceZero cfg g os v).read = 0 := by
  intro os
  induction os with
  | nil => intro g h; simpa [forceZero] using h
  | cons o os ih =>
    intro g h
    unfold forceZero
    rw [List.foldl_cons]
    have := ih (if o.1 ∈ cfg.initial then g
      else if o.2.1 then upd g o.1 (g o.1).zeroed else g) ?_
    · exact this
    · rcases h with ⟨x, hx, hxv, hxf⟩ | h
      · rcases List.mem_cons.mp hx with rfl | hx
        · right
          rw [hxv, if_neg hi, hxf]
          simp [upd, GArr.zeroed, GArr.read]
        · exact Or.inl ⟨x, hx, hxv, hxf⟩
      · right
        split
        · exact h
        · split
          · simp only [upd]
            split
            · simp [GArr.zeroed, GArr.read]
            · exact h
          · exact h

omit [AddCommMonoid α] in
theorem clearOutputs_other {cfg : GCfg α} {f : FnId} {v : VarId} :
    ∀ (os : List (VarId × Bool × Bool)) (g : VarId → GArr α),
      (∀ x, x ∈ os → x.1 = v → x.2.2 = false) → clearOutputs cfg f g os v = g v := by
  intro os
  induction os with
  | nil => intro g _; rfl
  | cons o os ih =>
    intro g h
    unfold clearOutputs
    rw [List.foldl_cons]
    have := ih (if o.2.2 then upd g o.1 (cfg.junk f o.1) else g) (fun x hx => h x (by simp [hx]))
    unfold clearOutputs at this
    rw [this]
    split
    · rename_i hf
      simp only [upd]
      split
      · rename_i he
        have := h o (by simp) he.symm
        rw [this] at hf; cases hf
      · rfl
    · rfl

omit [AddCommMonoid α] in
theorem zeroStep_other {vg : VarId → Bool} {v : VarId} (l : List (VarId × Bool))
    (g : VarId → GArr α) (h : (∀ x, x ∈ l → x.1 ≠ v) ∨ vg v = false) :
    zeroStep vg g l v = g v := by
  apply zeroStep_true
  intro b hb
  rcases h with h | h
  · exact absurd rfl (h _ hb)
  · exact Or.inr h

/-- How one call of the callback changes a buffer. `K` collects what follows from the definition. -/
theorem backCall_spec {G : Graph} {cfg : GCfg α} {f : FnId} {s : GSt α}
    (hon : (G.fn f).outputs.Nodup)
    (hio : ∀ v, v ∈ (G.fn f).inputs.map Prod.fst → v ∉ (G.fn f).outputs)
    {D : VarId → α}
    -- the gradients read are those of `D`
    (hD1 : ∀ o, o ∈ (G.fn f).outputs → o ∉ cfg.initial → o ∉ s.seen.map Prod.fst → D o = 0)
    (hD2 : ∀ o, o ∈ (G.fn f).outputs → (o ∈ cfg.initial ∨ o ∈ s.seen.map Prod.fst) →
      (s.grad o).read = D o)
    (hpz : cfg.prohibitZero f = true → ∀ i outs, i < (G.fn f).inputs.length →
      cfg.vjp f i outs ≠ none) :
    (∀ u, u ∈ (backCall G cfg f s).seen.map Prod.fst ↔
      u ∈ s.seen.map Prod.fst ∨ u ∈ (G.fn f).inputs.map Prod.fst ∨ u ∈ (G.fn f).outputs) ∧
    (∀ v, v ∉ (G.fn f).outputs → cfg.env.vg v = true →
      ((backCall G cfg f s).grad v).read =
        (if v ∈ (G.fn f).inputs.map Prod.fst ∧ (G.parent v).isSome = true ∧
            v ∉ s.seen.map Prod.fst then 0 else (s.grad v).read) + contrib G cfg.vjp D v f) ∧
    (∀ v, v ∉ (G.fn f).outputs →
      (v ∉ (G.fn f).inputs.map Prod.fst ∨ cfg.env.vg v = false) →
      (backCall G cfg f s).grad v = s.grad v) ∧
    (cfg.clearBuffer = false → ∀ o, o ∈ (G.fn f).outputs →
      ((backCall G cfg f s).grad o).read = D o) := by
  unfold backCall
  simp only
  generalize hins : (G.fn f).inputs.map Prod.fst = ins at *
  generalize hq : queryInputs (G.fn f).prohibitClearInputs s.seen ins = q
  generalize hl : (ins.zip q.2).map (fun x => (x.1, accumOf G cfg.env.vg s.grad ins x.1 x.2)) = l
  generalize ho : queryOutputs G cfg q.1 (G.fn f).outputs = o
  obtain ⟨ho1, ho2, ho3⟩ := queryOutputs_spec G cfg (G.fn f).outputs q.1 hon
  rw [ho] at ho1 ho2 ho3
  have hkeys : ∀ u, u ∈ q.1.map Prod.fst ↔ u ∈ s.seen.map Prod.fst ∨ u ∈ ins := by
    intro u; rw [← hq]; exact queryInputs_keys _ _ _ _
  have hlf : l.map Prod.fst = ins := by
    rw [← hl, List.map_map]
    have : (Prod.fst ∘ fun x : VarId × Bool => (x.1, accumOf G cfg.env.vg s.grad ins x.1 x.2)) =
      Prod.fst := rfl
    rw [this, List.map_fst_zip]
    rw [← hq, queryInputs_length]
    exact Nat.le_refl _
  have hmemo : ∀ x, x ∈ o.2 → x.1 ∈ (G.fn f).outputs := by
    intro x hx; rw [← ho1]; exact List.mem_map.mpr ⟨x, hx, rfl⟩
  generalize hg1 : forceZero cfg s.grad o.2 = g1
  have hg1o : ∀ v, v ∉ (G.fn f).outputs → g1 v = s.grad v := by
    intro v hv
    rw [← hg1]
    apply forceZero_other
    intro x hx he
    exact absurd (he ▸ hmemo x hx) hv
  have houts : ∀ u, u ∈ (G.fn f).outputs → (g1 u).read = D u := by
    intro u hu
    have hui : u ∉ ins := fun h => hio u h hu
    rw [← hg1]
    by_cases hc : u ∈ cfg.initial ∨ u ∈ s.seen.map Prod.fst
    · rw [forceZero_other]
      · exact hD2 u hu hc
      · intro x hx he
        rcases hc with h | h
        · exact Or.inr h
        · left
          cases hb : x.2.1 with
          | false => rfl
          | true =>
            exfalso
            have := (ho2 x hx).1.mp hb
            rw [he, hkeys] at this
            exact this (Or.inl h)
    · rw [not_or] at hc
      rw [hD1 u hu hc.1 hc.2]
      apply forceZero_zero hc.1
      left
      have : u ∈ o.2.map Prod.fst := by rw [ho1]; exact hu
      obtain ⟨x, hx, hxu⟩ := List.mem_map.mp this
      refine ⟨x, hx, hxu, ?_⟩
      rw [(ho2 x hx).1, hxu, hkeys]
      rintro (h | h)
      · exact hc.2 h
      · exact hui h
  have houtsD : (G.fn f).outputs.map (fun o => (g1 o).read) = (G.fn f).outputs.map D :=
    List.map_congr_left houts
  rw [houtsD]
  generalize hg3 : l.zipIdx.foldl
    (implStep cfg.env.vg (fun i => cfg.vjp f i ((G.fn f).outputs.map D)))
    (if cfg.prohibitZero f = true then g1 else zeroStep cfg.env.vg g1 l) = g3
  have hclear : ∀ v, v ∉ (G.fn f).outputs → clearOutputs cfg f g3 o.2 v = g3 v := by
    intro v hv
    apply clearOutputs_other
    intro x hx he
    exact absurd (he ▸ hmemo x hx) hv
  have hnotin : ∀ v, (v ∉ ins ∨ cfg.env.vg v = false) → g3 v = g1 v := by
    intro v hv
    have hnl : (∀ x, x ∈ l → x.1 ≠ v) ∨ cfg.env.vg v = false := by
      rcases hv with h | h
      · left
        rintro x hx rfl
        apply h; rw [← hlf]; exact List.mem_map.mpr ⟨x, hx, rfl⟩
      · exact Or.inr h
    rw [← hg3]
    rw [implStep_other]
    · split
      · rfl
      · exact zeroStep_other l g1 hnl
    · intro x hx hxv
      rcases hnl with h | h
      · exact absurd hxv (h x.1 (List.fst_mem_of_mem_zipIdx hx))
      · exact h
  refine ⟨?_, ?_, ?_, ?_⟩
  · intro u
    rw [ho3, hkeys]
    tauto
  · intro v hv hvg
    rw [hclear v hv, ← hg3]
    have hk := kernel_read (G := G) (vg := cfg.env.vg) (ins := ins) (seen := s.seen)
      (pr := (G.fn f).prohibitClearInputs) (pz := cfg.prohibitZero f) (g0 := s.grad) (g1 := g1)
      (c := fun i => cfg.vjp f i ((G.fn f).outputs.map D)) (v := v) hvg (fun _ => hg1o v hv)
      (by
        intro h i hi
        apply hpz h i
        rw [← hins] at hi; simpa using hi)
      (l := l) (by rw [hq]; exact hl.symm)
    rw [hk, hg1o v hv, contrib_eq (by rw [hlf, hins])]
  · intro v hv h
    rw [hclear v hv, hnotin v h, hg1o v hv]
  · intro hcb u hu
    have hui : u ∉ ins := fun h => hio u h hu
    rw [clearOutputs_other]
    · rw [hnotin u (Or.inl hui)]; exact houts u hu
    · intro x hx _
      cases hb : x.2.2 with
      | false => rfl
      | true => have := (ho2 x hx).2 hb; rw [hcb] at this; cases this

/-- Invariant after the functions `Q` have been processed. `s0` are the buffers at the start. -/
structure GInv (G : Graph) (cfg : GCfg α) (p0 : FnId) (D : VarId → α) (s0 : VarId → GArr α)
    (Q : List FnId) (s : GSt α) : Prop where
  seen : ∀ u, u ∈ s.seen.map Prod.fst ↔
    ∃ f, f ∈ Q ∧ (u ∈ (G.fn f).inputs.map Prod.fst ∨ u ∈ (G.fn f).outputs)
  leaf : ∀ v, G.parent v = none → cfg.env.vg v = true →
    (s.grad v).read = (s0 v).read + (Q.map (contrib G cfg.vjp D v)).sum
  inner : ∀ v p, G.parent v = some p → p ∉ Q → cfg.env.vg v = true →
    (∃ f, f ∈ Q ∧ v ∈ (G.fn f).inputs.map Prod.fst) →
    (s.grad v).read = (Q.map (contrib G cfg.vjp D v)).sum
  root : p0 ∉ Q → ∀ o, o ∈ (G.fn p0).outputs → (s.grad o).read = D o
  untouched : ∀ v, (∀ f, f ∈ Q → v ∉ (G.fn f).outputs) →
    ((∀ f, f ∈ Q → v ∉ (G.fn f).inputs.map Prod.fst) ∨ cfg.env.vg v = false) → s.grad v = s0 v
  kept : cfg.clearBuffer = false → ∀ f, f ∈ Q → ∀ o, o ∈ (G.fn f).outputs → (s.grad o).read = D o

/-- Conditions on the executed functions `E` (in order of execution). -/
structure GOrder (G : Graph) (cfg : GCfg α) (p0 : FnId) (E : List FnId) : Prop where
  nodup : E.Nodup
  /-- every function that consumes an output of `f` is executed before `f` -/
  consumers : ∀ f h o, f ∈ E → h ∈ E → o ∈ (G.fn f).outputs →
    o ∈ (G.fn h).inputs.map Prod.fst → Before E h f
  /-- consumed outputs of executed functions require gradients -/
  nostop : ∀ f h o, f ∈ E → h ∈ E → o ∈ (G.fn f).outputs →
    o ∈ (G.fn h).inputs.map Prod.fst → cfg.env.vg o = true
  /-- the root function comes first -/
  root_first : ∃ E', E = p0 :: E'
  initial : cfg.initial = (G.fn p0).outputs
  kernels : ∀ f, f ∈ E → cfg.prohibitZero f = true → ∀ i outs, i < (G.fn f).inputs.length →
    cfg.vjp f i outs ≠ none

theorem sum_contrib_zero {G : Graph} {vjp : FnId → Nat → List α → Option α} {D : VarId → α}
    {v : VarId} {L : List FnId} (h : ∀ f, f ∈ L → v ∉ (G.fn f).inputs.map Prod.fst) :
    (L.map (contrib G vjp D v)).sum = 0 := by
  apply List.sum_eq_zero
  intro x hx
  obtain ⟨f, hf, rfl⟩ := List.mem_map.mp hx
  exact contrib_zero (h f hf)

theorem ginv_step {G : Graph} {cfg : GCfg α} {p0 : FnId} {D : VarId → α} {s0 : VarId → GArr α}
    {root : VarId} {g : α} {init : VarId → α} {Q : List FnId} {f : FnId} {rest : List FnId}
    {s : GSt α}
    (hO : OutputsOk G) (hon : ∀ f, (G.fn f).outputs.Nodup)
    (hE : GOrder G cfg p0 (Q ++ f :: rest))
    (hD : IsGradient G cfg.vjp (Q ++ f :: rest) root p0 g init D)
    (h : GInv G cfg p0 D s0 Q s) :
    GInv G cfg p0 D s0 (Q ++ [f]) (backCall G cfg f s) := by
  have hfE : f ∈ Q ++ f :: rest := by simp
  have hfQ : f ∉ Q := by
    have := hE.nodup
    rw [List.nodup_append] at this
    intro hq
    exact this.2.2 f hq f (by simp) rfl
  -- consumers of the outputs of `f` are in `Q`
  have hcons : ∀ x o, x ∈ Q ++ f :: rest → o ∈ (G.fn f).outputs →
      o ∈ (G.fn x).inputs.map Prod.fst → x ∈ Q := by
    intro x o hx ho hi
    exact hE.consumers f x o hfE hx ho hi Q rest rfl
  have hio : ∀ v, v ∈ (G.fn f).inputs.map Prod.fst → v ∉ (G.fn f).outputs := by
    intro v hv ho
    exact hfQ (hcons f v hfE ho hv)
  -- inputs of `f` are not outputs of `Q`
  have hinQ : ∀ v q, v ∈ (G.fn f).inputs.map Prod.fst → q ∈ Q → v ∉ (G.fn q).outputs := by
    intro v q hv hq ho
    obtain ⟨a, b, hab⟩ := List.append_of_mem hq
    have hb := hE.consumers q f v (by simp [hq]) hfE ho hv a (b ++ f :: rest) (by rw [hab]; simp)
    apply hfQ; rw [hab]; simp [hb]
  have hinit : ∀ o, o ∈ cfg.initial ↔ o ∈ (G.fn p0).outputs := by intro o; rw [hE.initial]
  have hpar : ∀ o, o ∈ (G.fn f).outputs → G.parent o = some f := fun o ho => hO f o ho
  have hp0Q : f ≠ p0 → p0 ∈ Q := by
    intro hne
    obtain ⟨E', hE'⟩ := hE.root_first
    cases Q with
    | nil => simp at hE'; exact absurd hE'.1 hne
    | cons a Q => simp at hE'; simp [hE'.1]
  have hp0f : f = p0 → Q = [] := by
    intro he
    obtain ⟨E', hE'⟩ := hE.root_first
    cases Q with
    | nil => rfl
    | cons a Q =>
      exfalso
      simp at hE'
      apply hfQ
      rw [he, ← hE'.1]; simp
  have hDo : ∀ o, o ∈ (G.fn f).outputs → f ≠ p0 →
      D o = (Q.map (contrib G cfg.vjp D o)).sum := by
    intro o ho hne
    rw [hD.inner o f (hpar o ho) hne, List.map_append, List.sum_append]
    rw [sum_contrib_zero (L := f :: rest), add_zero]
    intro x hx hi
    have hxQ := hcons x o (by simp at hx ⊢; tauto) ho hi
    have := hE.nodup
    rw [List.nodup_append] at this
    exact this.2.2 x hxQ x hx rfl
  have hseenQ : ∀ o, o ∈ (G.fn f).outputs → (o ∈ s.seen.map Prod.fst ↔
      ∃ x, x ∈ Q ∧ o ∈ (G.fn x).inputs.map Prod.fst) := by
    intro o ho
    rw [h.seen]
    constructor
    · rintro ⟨x, hx, hi | ho'⟩
      · exact ⟨x, hx, hi⟩
      · have := hO x o ho'
        rw [hpar o ho] at this
        obtain rfl := Option.some.inj this
        exact absurd hx hfQ
    · rintro ⟨x, hx, hi⟩; exact ⟨x, hx, Or.inl hi⟩
  obtain ⟨b1, b2, b3, b4⟩ := backCall_spec (G := G) (cfg := cfg) (f := f) (s := s) (hon f) hio
    (D := D)
    (by
      intro o ho hni hns
      have hne : f ≠ p0 := by
        rintro rfl; exact hni ((hinit o).mpr ho)
      rw [hDo o ho hne]
      apply sum_contrib_zero
      intro x hx hi
      exact hns ((hseenQ o ho).mpr ⟨x, hx, hi⟩))
    (by
      intro o ho hc
      by_cases hne : f = p0
      · have hq := hp0f hne
        exact h.root (by rw [hq]; simp) o (hne ▸ ho)
      · have hs : o ∈ s.seen.map Prod.fst := by
          rcases hc with hc | hc
          · exfalso
            have := hO p0 o ((hinit o).mp hc)
            rw [hpar o ho] at this
            exact hne (Option.some.inj this)
          · exact hc
        obtain ⟨x, hx, hi⟩ := (hseenQ o ho).mp hs
        rw [hDo o ho hne]
        exact h.inner o f (hpar o ho) hfQ
          (hE.nostop f x o hfE (by simp [hx]) ho hi) ⟨x, hx, hi⟩)
    (hE.kernels f hfE)
  have hsum : ∀ v, ((Q ++ [f]).map (contrib G cfg.vjp D v)).sum =
      (Q.map (contrib G cfg.vjp D v)).sum + contrib G cfg.vjp D v f := by
    intro v; rw [List.map_append, List.sum_append]; simp
  constructor
  · intro u
    rw [b1, h.seen]
    constructor
    · rintro (⟨x, hx, hh⟩ | hh)
      · exact ⟨x, by simp [hx], hh⟩
      · exact ⟨f, by simp, hh⟩
    · rintro ⟨x, hx, hh⟩
      rcases List.mem_append.mp hx with hx | hx
      · exact Or.inl ⟨x, hx, hh⟩
      · simp at hx; subst hx; exact Or.inr hh
  · intro v hv hvg
    have hvo : v ∉ (G.fn f).outputs := by
      intro ho; rw [hpar v ho] at hv; cases hv
    rw [b2 v hvo hvg, hsum, if_neg (by rw [hv]; simp), h.leaf v hv hvg, add_assoc]
  · intro v p hvp hpn hvg hex
    have hvo : v ∉ (G.fn f).outputs := by
      intro ho
      have := hpar v ho
      rw [hvp] at this
      obtain rfl := Option.some.inj this
      exact hpn (by simp)
    have hpQ : p ∉ Q := fun hh => hpn (by simp [hh])
    rw [b2 v hvo hvg, hsum]
    congr 1
    by_cases hc : ∃ x, x ∈ Q ∧ v ∈ (G.fn x).inputs.map Prod.fst
    · have hs : v ∈ s.seen.map Prod.fst := by
        obtain ⟨x, hx, hi⟩ := hc
        exact (h.seen v).mpr ⟨x, hx, Or.inl hi⟩
      rw [if_neg (by rintro ⟨_, _, hns⟩; exact hns hs)]
      exact h.inner v p hvp hpQ hvg hc
    · have hi : v ∈ (G.fn f).inputs.map Prod.fst := by
        obtain ⟨x, hx, hi⟩ := hex
        rcases List.mem_append.mp hx with hx | hx
        · exact absurd ⟨x, hx, hi⟩ hc
        · simp at hx; subst hx; exact hi
      have hns : v ∉ s.seen.map Prod.fst := by
        rw [h.seen]
        rintro ⟨x, hx, hi' | ho'⟩
        · exact hc ⟨x, hx, hi'⟩
        · exact hinQ v x hi hx ho'
      rw [if_pos ⟨hi, by rw [hvp]; rfl, hns⟩]
      symm
      apply sum_contrib_zero
      intro x hx hi'
      exact hc ⟨x, hx, hi'⟩
  · intro hp0 o ho
    exfalso
    simp at hp0
    exact hp0.1 (hp0Q (fun hh => hp0.2 hh.symm))
  · intro v hvo hvi
    have h1 : v ∉ (G.fn f).outputs := hvo f (by simp)
    have h2 : v ∉ (G.fn f).inputs.map Prod.fst ∨ cfg.env.vg v = false := by
      rcases hvi with h | h
      · exact Or.inl (h f (by simp))
      · exact Or.inr h
    rw [b3 v h1 h2]
    apply h.untouched v (fun x hx => hvo x (by simp [hx]))
    rcases hvi with h | h
    · exact Or.inl (fun x hx => h x (by simp [hx]))
    · exact Or.inr h
  · intro hcb x hx o ho
    rcases List.mem_append.mp hx with hx | hx
    · have hof : o ∉ (G.fn f).outputs := by
        intro ho'
        have h1 := hO x o ho
        rw [hpar o ho'] at h1
        obtain rfl := Option.some.inj h1
        exact hfQ hx
      have hoi : o ∉ (G.fn f).inputs.map Prod.fst := fun hi => hinQ o x hi hx ho
      rw [b3 o hof (Or.inl hoi)]
      exact h.kept hcb x hx o ho
    · simp at hx; subst hx; exact b4 hcb o ho

theorem ginv_all {G : Graph} {cfg : GCfg α} {p0 : FnId} {D : VarId → α} {s0 : VarId → GArr α}
    {root : VarId} {g : α} {init : VarId → α} {E : List FnId}
    (hO : OutputsOk G) (hon : ∀ f, (G.fn f).outputs.Nodup)
    (hE : GOrder G cfg p0 E) (hD : IsGradient G cfg.vjp E root p0 g init D)
    (hroot : ∀ o, o ∈ (G.fn p0).outputs → (s0 o).read = D o) :
    GInv G cfg p0 D s0 E (E.foldl (fun e f => backCall G cfg f e) { seen := [], grad := s0 }) := by
  have key : ∀ (R Q : List FnId) (s : GSt α), E = Q ++ R → GInv G cfg p0 D s0 Q s →
      GInv G cfg p0 D s0 E (R.foldl (fun e f => backCall G cfg f e) s) := by
    intro R
    induction R with
    | nil => intro Q s hQ h; simp at hQ; rw [hQ]; exact h
    | cons f R ih =>
      intro Q s hQ h
      rw [List.foldl_cons]
      apply ih (Q ++ [f]) _ (by rw [hQ]; simp)
      exact ginv_step hO hon (hQ ▸ hE) (hQ ▸ hD) h
  apply key E [] _ rfl
  constructor
  · intro u; simp
  · intro v _ _; simp
  · intro v p _ _ _ hex; simp at hex
  · intro _ o ho; exact hroot o ho
  · intro v _ _; rfl
  · intro _ f hf; simp at hf

end Verif.Graph
