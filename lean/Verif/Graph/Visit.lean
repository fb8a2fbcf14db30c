import Verif.Graph.Spec
/-
Invariant proof for the recursive forward traversal.
-/
namespace Verif.Graph
variable {σ : Type}

/-- outputs know their parent -/
def OutputsOk (G : Graph) : Prop := ∀ f v, v ∈ (G.fn f).outputs → G.parent v = some f

def inRank (G : Graph) (fr : FnId → Nat) (v : VarId) : Nat :=
  match G.parent v with
  | none => 0
  | some p => fr p

def vGrad (G : Graph) (fng : FnId → Bool) (v : VarId) : Bool :=
  needGradState (G.flag v) ((G.parent v).map fng)

def SetupVia (G : Graph) (m0 : FnId → VarId → Bool) (f : FnId) (v : VarId) : Prop :=
  m0 f v = true ∨ ∃ p, G.parent v = some p ∧ v ∈ (G.fn p).outputs ∧ NeedsSetup G m0 p

theorem needsSetup_iff (G : Graph) (m0) (f : FnId) :
    NeedsSetup G m0 f ↔ ∃ v, (v, true) ∈ (G.fn f).inputs ∧ SetupVia G m0 f v := by
  constructor
  · intro h
    cases h with
    | marked hv hm => exact ⟨_, hv, Or.inl hm⟩
    | prop hv hp ho hn => exact ⟨_, hv, Or.inr ⟨_, hp, ho, hn⟩⟩
  · rintro ⟨v, hv, h | ⟨p, hp, ho, hn⟩⟩
    · exact .marked hv h
    · exact .prop hv hp ho hn

def VOk (G : Graph) (s : VSt σ) (v : VarId) : Prop :=
  s.vrank v = inRank G s.frank v ∧ s.vng v = (G.parent v).map s.fng ∧
    ∀ p, G.parent v = some p → p ∈ s.order

structure Done (G : Graph) (s : VSt σ) (f : FnId) : Prop where
  rank_ub : ∀ v, (v, true) ∈ (G.fn f).inputs → inRank G s.frank v < s.frank f
  rank_at : s.frank f = 1 ∨
    ∃ v, (v, true) ∈ (G.fn f).inputs ∧ s.frank f = inRank G s.frank v + 1
  ng : s.fng f = true ↔ ∃ v, (v, true) ∈ (G.fn f).inputs ∧ vGrad G s.fng v = true
  vok : ∀ v, (v, true) ∈ (G.fn f).inputs → VOk G s v

structure Inv (G : Graph) (m0 : FnId → VarId → Bool) (s : VSt σ) : Prop where
  nodup : s.order.Nodup
  sub : ∀ f, f ∈ s.order → f ∈ s.closed
  before : ∀ f, f ∈ s.order → ∀ p, Feeds G p f → Before s.order p f
  done : ∀ f, f ∈ s.order → Done G s f
  setups_nodup : s.setups.Nodup
  setups_sub : ∀ f, f ∈ s.setups → f ∈ s.order
  setups_iff : ∀ f, f ∈ s.order → (f ∈ s.setups ↔ NeedsSetup G m0 f)
  marks : ∀ g, g ∉ s.closed → ∀ v,
    (s.mark g v = true ↔ m0 g v = true ∨ ∃ q, q ∈ s.setups ∧ v ∈ (G.fn q).outputs)

def CbLocal (G : Graph) (cb : VSt σ → FnId → σ → σ) : Prop :=
  ∀ f s s' e, (∀ v, (v, true) ∈ (G.fn f).inputs → s.vrank v = s'.vrank v) →
    s.fng f = s'.fng f → cb s f e = cb s' f e

/-- how a traversal extends the state; the marks of `ex` are not tracked -/
structure Ext (G : Graph) (cb : VSt σ → FnId → σ → σ) (ex : Option FnId) (s s' : VSt σ)
    (new : List FnId) : Prop where
  order : s'.order = s.order ++ new
  closed : ∀ g, g ∈ s'.closed ↔ g ∈ s.closed ∨ g ∈ new
  fresh : ∀ g, g ∈ new → g ∉ s.closed
  frank : ∀ g, g ∉ new → s'.frank g = s.frank g
  fng : ∀ g, g ∉ new → s'.fng g = s.fng g
  setups : ∀ g, g ∉ new → (g ∈ s'.setups ↔ g ∈ s.setups)
  marks : ∀ g, g ∉ new → some g ≠ ex → ∀ v,
    (s'.mark g v = true ↔ s.mark g v = true ∨ ∃ q, q ∈ new ∧ q ∈ s'.setups ∧ v ∈ (G.fn q).outputs)
  vok : ∀ v, VOk G s v → VOk G s' v
  ext : CbLocal G cb → s'.ext = new.foldl (fun e g => cb s' g e) s.ext

theorem before_append {α : Type} {l new : List α} {x y : α} (h : Before l x y)
    (hy : y ∉ new) : Before (l ++ new) x y := by
  intro a b hab
  rcases List.append_eq_append_iff.mp hab with ⟨c, h1, h2⟩ | ⟨c, h1, h2⟩
  · -- a = l ++ c, new = c ++ y :: b
    exact absurd (by rw [h2]; simp) hy
  · -- l = a ++ c, y :: b = c ++ new
    cases c with
    | nil => simp at h2; exact absurd (by rw [← h2]; simp) hy
    | cons z c =>
      simp at h2
      obtain ⟨rfl, rfl⟩ := h2
      exact h a c h1

theorem before_last {α : Type} {l : List α} {x y : α} (hx : x ∈ l) (hy : y ∉ l) :
    Before (l ++ [y]) x y := by
  intro a b hab
  rcases List.append_eq_append_iff.mp hab with ⟨c, h1, h2⟩ | ⟨c, h1, h2⟩
  · cases c with
    | nil => simpa [h1] using hx
    | cons z c =>
      simp at h2
  · cases c with
    | nil => simp at h1; simpa [h1] using hx
    | cons z c =>
      simp at h2
      obtain ⟨rfl, rfl⟩ := h2
      exact absurd (by rw [h1]; simp) hy

theorem foldl_congr' {α β : Type} {f g : β → α → β} {l : List α}
    (h : ∀ e x, x ∈ l → f e x = g e x) : ∀ e, l.foldl f e = l.foldl g e := by
  induction l with
  | nil => intro e; rfl
  | cons x l ih =>
    intro e
    simp only [List.foldl_cons]
    rw [h e x (by simp)]
    exact ih (fun e y hy => h e y (by simp [hy])) _

theorem VOk.vrank_eq {G : Graph} {s s' : VSt σ} {v} (h : VOk G s v) (h' : VOk G s' v)
    (hf : ∀ g, g ∈ s.order → s'.frank g = s.frank g) : s'.vrank v = s.vrank v := by
  rw [h.1, h'.1]
  unfold inRank
  cases hp : G.parent v with
  | none => rfl
  | some p => exact hf p (h.2.2 p hp)

/-- transitivity -/
theorem Ext.trans {G : Graph} {cb : VSt σ → FnId → σ → σ} {m0} {ex s t u n1 n2}
    (hs : Inv G m0 t)
    (h1 : Ext G cb ex s t n1) (h2 : Ext G cb ex t u n2) : Ext G cb ex s u (n1 ++ n2) where
  order := by rw [h2.order, h1.order, List.append_assoc]
  closed := by intro g; rw [h2.closed, h1.closed, List.mem_append, or_assoc]
  fresh := by
    intro g hg hc
    rcases List.mem_append.mp hg with h | h
    · exact h1.fresh g h hc
    · exact h2.fresh g h ((h1.closed g).mpr (Or.inl hc))
  frank := by
    intro g hg; simp at hg
    rw [h2.frank g hg.2, h1.frank g hg.1]
  fng := by
    intro g hg; simp at hg
    rw [h2.fng g hg.2, h1.fng g hg.1]
  setups := by
    intro g hg; simp at hg
    rw [h2.setups g hg.2, h1.setups g hg.1]
  marks := by
    intro g hg hex v
    simp at hg
    rw [h2.marks g hg.2 hex v, h1.marks g hg.1 hex v]
    constructor
    · rintro ((h | ⟨q, hq, hs', ho⟩) | ⟨q, hq, hs', ho⟩)
      · exact Or.inl h
      · refine Or.inr ⟨q, by simp [hq], ?_, ho⟩
        have : q ∉ n2 := fun hq2 => h2.fresh q hq2 ((h1.closed q).mpr (Or.inr hq))
        exact (h2.setups q this).mpr hs'
      · exact Or.inr ⟨q, by simp [hq], hs', ho⟩
    · rintro (h | ⟨q, hq, hs', ho⟩)
      · exact Or.inl (Or.inl h)
      · rcases List.mem_append.mp hq with hq | hq
        · have : q ∉ n2 := fun hq2 => h2.fresh q hq2 ((h1.closed q).mpr (Or.inr hq))
          exact Or.inl (Or.inr ⟨q, hq, (h2.setups q this).mp hs', ho⟩)
        · exact Or.inr ⟨q, hq, hs', ho⟩
  vok := fun v h => h2.vok v (h1.vok v h)
  ext := by
    intro hl
    rw [List.foldl_append, h2.ext hl, h1.ext hl]
    congr 1
    apply foldl_congr'
    intro e g hg
    have hgo : g ∈ t.order := by rw [h1.order]; simp [hg]
    have hgn : g ∉ n2 := fun h => h2.fresh g h ((h1.closed g).mpr (Or.inr hg))
    have hd := (hs.done g hgo).vok
    symm
    apply hl
    · intro v hv
      apply VOk.vrank_eq (hd v hv) (h2.vok v (hd v hv))
      intro p hp
      exact h2.frank p (fun h => h2.fresh p h (hs.sub p hp))
    · exact h2.fng g hgn

theorem inRank_congr {G : Graph} {fr fr' : FnId → Nat} {v}
    (h : ∀ p, G.parent v = some p → fr' p = fr p) : inRank G fr' v = inRank G fr v := by
  unfold inRank
  cases hp : G.parent v with
  | none => rfl
  | some p => exact h p hp

theorem vGrad_congr {G : Graph} {fr fr' : FnId → Bool} {v}
    (h : ∀ p, G.parent v = some p → fr' p = fr p) : vGrad G fr' v = vGrad G fr v := by
  unfold vGrad
  cases hp : G.parent v with
  | none => rfl
  | some p => simp [h p hp]

/-- Done is preserved when executed functions keep their rank / need_grad. -/
theorem Done.mono {G : Graph} {s s' : VSt σ} {f} (h : Done G s f)
    (hf : f ∈ s.order)
    (hr : ∀ g, g ∈ s.order → s'.frank g = s.frank g)
    (hg : ∀ g, g ∈ s.order → s'.fng g = s.fng g)
    (hv : ∀ v, VOk G s v → VOk G s' v) : Done G s' f where
  rank_ub := by
    intro v hvv
    rw [hr f hf, inRank_congr (fun p hp => hr p ((h.vok v hvv).2.2 p hp))]
    exact h.rank_ub v hvv
  rank_at := by
    rcases h.rank_at with h1 | ⟨v, hvv, h1⟩
    · left; rw [hr f hf, h1]
    · right
      refine ⟨v, hvv, ?_⟩
      rw [hr f hf, inRank_congr (fun p hp => hr p ((h.vok v hvv).2.2 p hp))]
      exact h1
  ng := by
    rw [hg f hf, h.ng]
    constructor
    · rintro ⟨v, hvv, h1⟩
      refine ⟨v, hvv, ?_⟩
      rw [vGrad_congr (fun p hp => hg p ((h.vok v hvv).2.2 p hp))]; exact h1
    · rintro ⟨v, hvv, h1⟩
      refine ⟨v, hvv, ?_⟩
      rw [vGrad_congr (fun p hp => hg p ((h.vok v hvv).2.2 p hp))] at h1; exact h1
  vok := fun v hvv => hv v (h.vok v hvv)

/-- what is known in the middle of the loop over the inputs of `f`; `P` are the inputs done -/
structure Loop (G : Graph) (cb : VSt σ → FnId → σ → σ) (m0 : FnId → VarId → Bool) (f : FnId)
    (s : VSt σ) (a : Acc σ) (P : List (VarId × Bool)) (new : List FnId) : Prop where
  inv : Inv G m0 a.st
  ext : Ext G cb (some f) s a.st new
  dep : ∀ g, g ∈ new → Depends G f g ∧ g ≠ f
  rank_ub : ∀ v, (v, true) ∈ P → inRank G a.st.frank v ≤ a.maxRank
  rank_at : a.maxRank = 0 ∨ ∃ v, (v, true) ∈ P ∧ a.maxRank = inRank G a.st.frank v
  ng : a.ng = true ↔ ∃ v, (v, true) ∈ P ∧ vGrad G a.st.fng v = true
  su : a.su = true ↔ ∃ v, (v, true) ∈ P ∧ SetupVia G m0 f v
  vok : ∀ v, (v, true) ∈ P → VOk G a.st v
  msound : ∀ v, a.st.mark f v = true → m0 f v = true ∨ ∃ q, q ∈ a.st.setups ∧ v ∈ (G.fn q).outputs
  mcompl : ∀ v, (v, true) ∉ P →
    (m0 f v = true ∨ ∃ q, q ∈ a.st.setups ∧ v ∈ (G.fn q).outputs) → a.st.mark f v = true

/-- what a (recursive) call guarantees -/
def RecSpec (G : Graph) (cb : VSt σ → FnId → σ → σ) (m0 : FnId → VarId → Bool)
    (depth : FnId → Nat) (rec : FnId → VSt σ → VSt σ) (n : Nat) : Prop :=
  ∀ f s, depth f < n → Inv G m0 s → f ∉ s.closed →
    (∀ g, g ∈ s.closed → g ∉ s.order → depth f < depth g) →
    ∃ new, Inv G m0 (rec f s) ∧ Ext G cb none s (rec f s) (new ++ [f]) ∧
      ∀ g, g ∈ new → Depends G f g ∧ g ≠ f

end Verif.Graph
