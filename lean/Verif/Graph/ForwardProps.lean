import Verif.Graph.Visit2
/-
C23 (order, rank and need_grad of a forward pass) and C43 (re-setup) and C44 (forward_all).
-/
namespace Verif.Graph
variable {σ : Type}

theorem inv_init (G : Graph) (s : VSt σ) (ho : s.order = [])
    (hs : s.setups = []) : Inv G s.mark s where
  nodup := by simp [ho]
  sub := by simp [ho]
  before := by simp [ho]
  done := by simp [ho]
  setups_nodup := by simp [hs]
  setups_sub := by simp [hs]
  setups_iff := by simp [ho]
  marks := by simp [hs]

theorem Inv.closure {G : Graph} {m0} {s : VSt σ} (h : Inv G m0 s) {f g} (hd : Depends G f g) :
    f ∈ s.order → g ∈ s.order := by
  induction hd with
  | refl => exact id
  | step hf _ ih =>
    intro hfo
    apply ih
    obtain ⟨a, b, hab⟩ := List.append_of_mem hfo
    have := h.before _ hfo _ hf a b hab
    rw [hab]; simp [this]

theorem Inv.chain {G : Graph} {m0 depth} {s : VSt σ} (h : Inv G m0 s) (hLay : Layered G depth) :
    ∀ n f, depth f < n → f ∈ s.order →
      Chain G f (s.frank f) ∧ ∀ k, Chain G f k → k ≤ s.frank f := by
  intro n
  induction n with
  | zero => intro f hf; omega
  | succ n ih =>
    intro f hf hfo
    have hD := h.done f hfo
    have hpo : ∀ p, Feeds G p f → p ∈ s.order := fun p hp =>
      h.closure (.step hp (.refl p)) hfo
    have hpos : 1 ≤ s.frank f := by
      rcases hD.rank_at with h | ⟨v, _, h⟩ <;> omega
    constructor
    · rcases hD.rank_at with h1 | ⟨v, hv, h1⟩
      · rw [h1]; exact .one f
      · cases hp : G.parent v with
        | none =>
          simp [inRank, hp] at h1
          rw [h1]; exact .one f
        | some p =>
          have hfe : Feeds G p f := ⟨v, hv, hp⟩
          simp [inRank, hp] at h1
          rw [h1]
          exact .cons hfe (ih p (by have := hLay p f hfe; omega) (hpo p hfe)).1
    · intro k hk
      cases hk with
      | one => exact hpos
      | @cons p _ k hfe hk =>
        have := (ih p (by have := hLay p f hfe; omega) (hpo p hfe)).2 k hk
        obtain ⟨v, hv, hp⟩ := hfe
        have hub := hD.rank_ub v hv
        simp [inRank, hp] at hub
        omega

theorem Inv.needsGrad {G : Graph} {m0 depth} {s : VSt σ} (h : Inv G m0 s)
    (hLay : Layered G depth) :
    ∀ n f, depth f < n → f ∈ s.order →
      ∀ v, (v, true) ∈ (G.fn f).inputs → (vGrad G s.fng v = true ↔ NeedsGrad G v) := by
  intro n
  induction n with
  | zero => intro f hf; omega
  | succ n ih =>
    intro f hf hfo v hv
    have hpar : ∀ p, G.parent v = some p →
        (s.fng p = true ↔ ∃ u, (u, true) ∈ (G.fn p).inputs ∧ NeedsGrad G u) := by
      intro p hp
      have hfe : Feeds G p f := ⟨v, hv, hp⟩
      have hpo : p ∈ s.order := h.closure (.step hfe (.refl p)) hfo
      have hdp : depth p < n := by have := hLay p f hfe; omega
      rw [(h.done p hpo).ng]
      constructor
      · rintro ⟨u, hu, h1⟩; exact ⟨u, hu, (ih p hdp hpo u hu).mp h1⟩
      · rintro ⟨u, hu, h1⟩; exact ⟨u, hu, (ih p hdp hpo u hu).mpr h1⟩
    unfold vGrad needGradState
    cases hfl : G.flag v with
    | some b =>
      simp only
      constructor
      · rintro rfl; exact .flag hfl
      · intro hn
        cases hn with
        | flag h' => rw [hfl] at h'; exact Option.some.inj h'
        | prop h' => rw [hfl] at h'; cases h'
    | none =>
      simp only
      constructor
      · intro h1
        cases hp : G.parent v with
        | none => rw [hp] at h1; simp at h1
        | some p =>
          rw [hp] at h1
          have h1 : s.fng p = true := by simpa using h1
          obtain ⟨u, hu, hn⟩ := (hpar p hp).mp h1
          exact .prop hfl hp hu hn
      · intro hn
        cases hn with
        | flag h' => rw [hfl] at h'; cases h'
        | @prop _ p u _ hp hu hn =>
          rw [hp]
          have := (hpar p hp).mpr ⟨u, hu, hn⟩
          simpa using this

/-- The state after a pass, in the words of the property. -/
structure PassOk (G : Graph) (m0 : FnId → VarId → Bool) (need : FnId → Prop) (s : VSt σ) : Prop where
  /-- no function is executed twice -/
  once : s.order.Nodup
  /-- exactly the functions that are needed are executed -/
  exact_ : ∀ g, g ∈ s.order ↔ need g
  /-- a function is executed after those producing its inputs -/
  after : ∀ g, need g → ∀ p, Feeds G p g → Before s.order p g
  /-- ranks are longest-chain lengths, hence one more than the largest rank of the inputs -/
  rank : ∀ g, need g → Chain G g (s.frank g) ∧ ∀ k, Chain G g k → k ≤ s.frank g
  /-- need_grad is the disjunction over the inputs -/
  need_grad : ∀ g, need g → (s.fng g = true ↔ ∃ v, (v, true) ∈ (G.fn g).inputs ∧ NeedsGrad G v)
  /-- the input variables have the rank and the need_grad state of what produces them -/
  var_rank : ∀ g, need g → ∀ v, (v, true) ∈ (G.fn g).inputs →
    s.vrank v = (match G.parent v with | none => 0 | some p => s.frank p)
  var_grad : ∀ g, need g → ∀ v, (v, true) ∈ (G.fn g).inputs →
    (needGradState (G.flag v) (s.vng v) = true ↔ NeedsGrad G v)
  /-- functions are set up again iff an input was marked directly or through a producer -/
  setup_once : s.setups.Nodup
  setup : ∀ g, g ∈ s.setups ↔ need g ∧ NeedsSetup G m0 g

theorem passOk_of_inv {G : Graph} {m0 depth} {need : FnId → Prop} {s : VSt σ} (h : Inv G m0 s)
    (hLay : Layered G depth) (hex : ∀ g, g ∈ s.order ↔ need g) : PassOk G m0 need s where
  once := h.nodup
  exact_ := hex
  after := fun g hg p hp => h.before g ((hex g).mpr hg) p hp
  rank := fun g hg => h.chain hLay (depth g + 1) g (by omega) ((hex g).mpr hg)
  need_grad := by
    intro g hg
    have hgo := (hex g).mpr hg
    rw [(h.done g hgo).ng]
    constructor
    · rintro ⟨v, hv, h1⟩
      exact ⟨v, hv, (h.needsGrad hLay (depth g + 1) g (by omega) hgo v hv).mp h1⟩
    · rintro ⟨v, hv, h1⟩
      exact ⟨v, hv, (h.needsGrad hLay (depth g + 1) g (by omega) hgo v hv).mpr h1⟩
  var_rank := fun g hg v hv => ((h.done g ((hex g).mpr hg)).vok v hv).1
  var_grad := by
    intro g hg v hv
    have hgo := (hex g).mpr hg
    rw [((h.done g hgo).vok v hv).2.1]
    exact h.needsGrad hLay (depth g + 1) g (by omega) hgo v hv
  setup_once := h.setups_nodup
  setup := by
    intro g
    constructor
    · intro hg
      have := h.setups_sub g hg
      exact ⟨(hex g).mp this, (h.setups_iff g this).mp hg⟩
    · rintro ⟨hn, hs⟩
      exact (h.setups_iff g ((hex g).mpr hn)).mpr hs

/-- C23/C43. `v.forward()` on any acyclic graph, from any stale ranks, need_grad states and
need_setup marks. -/
theorem forward_ok (G : Graph) (cb : VSt σ → FnId → σ → σ) (depth : FnId → Nat)
    (hLay : Layered G depth) (hO : OutputsOk G) (v : VarId) (p : FnId) (hv : G.parent v = some p)
    (fuel : Nat) (hfuel : depth p < fuel)
    (s : VSt σ) (hc : s.closed = []) (ho : s.order = []) (hs : s.setups = []) :
    ∃ s', forward G cb fuel v s = some s' ∧ PassOk G s.mark (Depends G p) s' := by
  obtain ⟨new, hI, hE, hd⟩ := visit_spec (cb := cb) (m0 := s.mark) hO hLay fuel p s hfuel
    (inv_init G s ho hs) (by simp [hc]) (by simp [hc])
  refine ⟨visit G cb fuel p s, by simp [forward, hv], passOk_of_inv hI hLay ?_⟩
  intro g
  have hpo : p ∈ (visit G cb fuel p s).order := by rw [hE.order]; simp
  constructor
  · intro hg
    rw [hE.order, ho] at hg
    simp at hg
    rcases hg with h | h
    · exact (hd g h).1
    · rw [h]; exact .refl p
  · intro hg; exact hI.closure hg hpo

/-- without a parent, `forward` is an error -/
theorem forward_no_parent (G : Graph) (cb : VSt σ → FnId → σ → σ) (v : VarId) (fuel : Nat)
    (s : VSt σ) : forward G cb fuel v s = none ↔ G.parent v = none := by
  unfold forward
  cases G.parent v <;> simp

/-- the callback is called on the executed functions in the order of execution and, when it only
looks at the ranks of the inputs and the need_grad flag of the function, it sees their final
values. -/
theorem forward_callback (G : Graph) (cb : VSt σ → FnId → σ → σ) (depth : FnId → Nat)
    (hLay : Layered G depth) (hO : OutputsOk G) (hcb : CbLocal G cb)
    (v : VarId) (p : FnId) (hv : G.parent v = some p)
    (fuel : Nat) (hfuel : depth p < fuel)
    (s : VSt σ) (hc : s.closed = []) (ho : s.order = []) (hs : s.setups = []) :
    ∃ s', forward G cb fuel v s = some s' ∧
      s'.ext = s'.order.foldl (fun e g => cb s' g e) s.ext := by
  obtain ⟨new, hI, hE, hd⟩ := visit_spec (cb := cb) (m0 := s.mark) hO hLay fuel p s hfuel
    (inv_init G s ho hs) (by simp [hc]) (by simp [hc])
  refine ⟨visit G cb fuel p s, by simp [forward, hv], ?_⟩
  rw [hE.order, ho]
  simpa using hE.ext hcb

/-- C44. `forward_all` on any list of variables: over the whole call, every function needed by one
of the variables is executed once, and nothing else. -/
theorem forwardAll_ok (G : Graph) (cb : VSt σ → FnId → σ → σ) (fresh : σ → σ) (depth : FnId → Nat)
    (hLay : Layered G depth) (hO : OutputsOk G) (fuel : Nat) :
    ∀ (vs : List VarId), (∀ v p, v ∈ vs → G.parent v = some p → depth p < fuel) →
    ∀ (s : VSt σ), s.closed = [] → s.order = [] → s.setups = [] →
    PassOk G s.mark (fun g => ∃ v p, v ∈ vs ∧ G.parent v = some p ∧ Depends G p g)
      (forwardAll G cb fresh fuel vs s) := by
  -- generalised over what has been executed already
  have key : ∀ (vs : List VarId), (∀ v p, v ∈ vs → G.parent v = some p → depth p < fuel) →
      ∀ (m0 : FnId → VarId → Bool) (s : VSt σ) (need : FnId → Prop), Inv G m0 s →
      (∀ g, g ∈ s.closed ↔ g ∈ s.order) → (∀ g, g ∈ s.order ↔ need g) →
      PassOk G m0 (fun g => need g ∨ ∃ v p, v ∈ vs ∧ G.parent v = some p ∧ Depends G p g)
        (forwardAll G cb fresh fuel vs s) := by
    intro vs
    induction vs with
    | nil =>
      intro _ m0 s need hI _ hn
      simpa [forwardAll] using passOk_of_inv hI hLay hn
    | cons v vs ih =>
      intro hfu m0 s need hI hco hn
      have hfu' : ∀ u p, u ∈ vs → G.parent u = some p → depth p < fuel :=
        fun u p hu hp => hfu u p (by simp [hu]) hp
      simp only [forwardAll]
      cases hp : G.parent v with
      | none =>
        have := ih hfu' m0 s need hI hco hn
        simp only
        have heq : (fun g => need g ∨ ∃ u p, u ∈ v :: vs ∧ G.parent u = some p ∧ Depends G p g) =
            (fun g => need g ∨ ∃ u p, u ∈ vs ∧ G.parent u = some p ∧ Depends G p g) := by
          funext g
          apply propext
          constructor
          · rintro (h | ⟨u, p, hu, hup, hd⟩)
            · exact Or.inl h
            · simp at hu
              rcases hu with rfl | hu
              · rw [hp] at hup; cases hup
              · exact Or.inr ⟨u, p, hu, hup, hd⟩
          · rintro (h | ⟨u, p, hu, hup, hd⟩)
            · exact Or.inl h
            · exact Or.inr ⟨u, p, by simp [hu], hup, hd⟩
        rw [heq]; exact this
      | some p =>
        simp only
        by_cases hc : p ∈ s.closed
        · simp only [hc, if_true]
          have hpo := (hco p).mp hc
          have := ih hfu' m0 s need hI hco hn
          have heq : (fun g => need g ∨ ∃ u q, u ∈ v :: vs ∧ G.parent u = some q ∧ Depends G q g) =
              (fun g => need g ∨ ∃ u q, u ∈ vs ∧ G.parent u = some q ∧ Depends G q g) := by
            funext g
            apply propext
            constructor
            · rintro (h | ⟨u, q, hu, hup, hd⟩)
              · exact Or.inl h
              · simp at hu
                rcases hu with rfl | hu
                · rw [hp] at hup
                  obtain rfl := Option.some.inj hup
                  exact Or.inl ((hn g).mp (hI.closure hd hpo))
                · exact Or.inr ⟨u, q, hu, hup, hd⟩
            · rintro (h | ⟨u, q, hu, hup, hd⟩)
              · exact Or.inl h
              · exact Or.inr ⟨u, q, by simp [hu], hup, hd⟩
          rw [heq]; exact this
        · simp only [hc, if_false]
          let s1 : VSt σ := { s with ext := fresh s.ext }
          have hI1 : Inv G m0 s1 :=
            ⟨hI.nodup, hI.sub, hI.before,
              fun g hg => (hI.done g hg).mono hg (fun _ _ => rfl) (fun _ _ => rfl) (fun _ h => h),
              hI.setups_nodup, hI.setups_sub, hI.setups_iff, hI.marks⟩
          obtain ⟨new, hI2, hE, hd⟩ := visit_spec (cb := cb) (m0 := m0) hO hLay fuel p s1
            (hfu v p (by simp) hp) hI1 hc (fun g hg hgo => absurd ((hco g).mp hg) hgo)
          have hpo : p ∈ (visit G cb fuel p s1).order := by rw [hE.order]; simp
          have := ih hfu' m0 (visit G cb fuel p s1) (fun g => need g ∨ Depends G p g) hI2
            (by
              intro g
              rw [hE.closed, hE.order]
              have := hco g
              simp only [List.mem_append]
              constructor
              · rintro (h | h | h)
                · exact Or.inl (this.mp h)
                · exact Or.inr (Or.inl h)
                · exact Or.inr (Or.inr h)
              · rintro (h | h | h)
                · exact Or.inl (this.mpr h)
                · exact Or.inr (Or.inl h)
                · exact Or.inr (Or.inr h))
            (by
              intro g
              constructor
              · intro hg
                rw [hE.order] at hg
                simp only [List.mem_append, List.mem_singleton] at hg
                rcases hg with h | h | h
                · exact Or.inl ((hn g).mp h)
                · exact Or.inr (hd g h).1
                · rw [h]; exact Or.inr (.refl p)
              · rintro (h | h)
                · rw [hE.order]
                  have : g ∈ s.order := (hn g).mpr h
                  simp only [List.mem_append]; exact Or.inl this
                · exact hI2.closure h hpo)
          have heq : (fun g => need g ∨ ∃ u q, u ∈ v :: vs ∧ G.parent u = some q ∧ Depends G q g) =
              (fun g => (need g ∨ Depends G p g) ∨
                ∃ u q, u ∈ vs ∧ G.parent u = some q ∧ Depends G q g) := by
            funext g
            apply propext
            constructor
            · rintro (h | ⟨u, q, hu, hup, hd⟩)
              · exact Or.inl (Or.inl h)
              · simp at hu
                rcases hu with rfl | hu
                · rw [hp] at hup
                  obtain rfl := Option.some.inj hup
                  exact Or.inl (Or.inr hd)
                · exact Or.inr ⟨u, q, hu, hup, hd⟩
            · rintro ((h | h) | ⟨u, q, hu, hup, hd⟩)
              · exact Or.inl h
              · exact Or.inr ⟨v, p, by simp, hp, h⟩
              · exact Or.inr ⟨u, q, by simp [hu], hup, hd⟩
          rw [heq]; exact this
  intro vs hfu s hc ho hs
  have := key vs hfu s.mark s (fun _ => False) (inv_init G s ho hs) (by simp [hc, ho])
    (by simp [ho])
  simpa using this

/-! Non-vacuity: a diamond with a marked input.
`x(0) → f0 → y(1)`, `y → f1 → a(2)`, `(a, y) → f2 → z(3)`; parameter w(4) of f1. -/
def diamond : Graph where
  parent := fun v => match v with | 1 => some 0 | 2 => some 1 | 3 => some 2 | _ => none
  fn := fun f => match f with
    | 0 => { inputs := [(0, true)], outputs := [1] }
    | 1 => { inputs := [(1, true), (4, true)], outputs := [2] }
    | 2 => { inputs := [(1, true), (2, true)], outputs := [3] }
    | _ => {}
  flag := fun v => if v = 4 then some true else none

theorem diamond_layered : Layered diamond id := by
  rintro p f ⟨v, hv, hp⟩
  match f, hv with
  | 0, hv => simp [diamond] at hv; subst hv; simp [diamond] at hp
  | 1, hv =>
    simp [diamond] at hv
    rcases hv with rfl | rfl
    · simp [diamond] at hp; subst hp; decide
    · simp [diamond] at hp
  | 2, hv =>
    simp [diamond] at hv
    rcases hv with rfl | rfl
    · simp [diamond] at hp; subst hp; decide
    · simp [diamond] at hp; subst hp; decide
  | n + 3, hv => simp [diamond] at hv

theorem diamond_outputs : OutputsOk diamond := by
  intro f v hv
  match f, hv with
  | 0, hv => simp [diamond] at hv; subst hv; rfl
  | 1, hv => simp [diamond] at hv; subst hv; rfl
  | 2, hv => simp [diamond] at hv; subst hv; rfl
  | n + 3, hv => simp [diamond] at hv

example : ∃ s', forward diamond (fun _ _ e => e) 5 3
      ({ ext := (), frank := fun _ => 7, mark := fun f v => f == 1 && v == 4 } : VSt Unit) = some s' ∧
    PassOk diamond (fun f v => f == 1 && v == 4) (Depends diamond 2) s' :=
  forward_ok diamond _ id diamond_layered diamond_outputs 3 2 rfl 5 (by decide) _ rfl rfl rfl

example : ((forward diamond (fun _ _ e => e) 5 3
      ({ ext := (), frank := fun _ => 7, mark := fun f v => f == 1 && v == 4 } : VSt Unit)).map
    (fun s => (s.order, s.setups, [0, 1, 2].map s.frank, [0, 1, 2].map s.fng))) =
    some ([0, 1, 2], [1, 2], [1, 2, 3], [false, true, true]) := by decide

example : PassOk diamond (fun _ _ => false)
    (fun g => ∃ v p, v ∈ [2, 3, 1] ∧ diamond.parent v = some p ∧ Depends diamond p g)
    (forwardAll diamond (fun _ _ e => e) id 5 [2, 3, 1] ({ ext := () } : VSt Unit)) :=
  forwardAll_ok diamond _ id id diamond_layered diamond_outputs 5 [2, 3, 1]
    (by
      intro v p hv hp
      simp at hv
      rcases hv with rfl | rfl | rfl <;> simp [diamond] at hp <;> subst hp <;> decide)
    { ext := () } rfl rfl rfl

end Verif.Graph
