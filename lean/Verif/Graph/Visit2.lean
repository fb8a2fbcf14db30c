import Verif.Graph.Visit
/-
Invariant proof for the recursive forward traversal, continued.
-/
namespace Verif.Graph
variable {σ : Type}

/-- the state in which the input `v` is examined -/
def opened (G : Graph) (rec : FnId → VSt σ → VSt σ) (s : VSt σ) (v : VarId) : VSt σ :=
  match G.parent v with
  | none => s
  | some p => if p ∈ s.closed then s else rec p s

def setV (G : Graph) (f : FnId) (v : VarId) (t : VSt σ) : VSt σ :=
  { t with vrank := upd t.vrank v (inRank G t.frank v)
           vng := upd t.vng v ((G.parent v).map t.fng)
           mark := unmark t.mark f v }

theorem stepInput_active (G : Graph) (rec : FnId → VSt σ → VSt σ) (f : FnId) (a : Acc σ) (v) :
    stepInput G rec f a (v, true) =
      { st := setV G f v (opened G rec a.st v)
        maxRank := max (inRank G (opened G rec a.st v).frank v) a.maxRank
        ng := a.ng || vGrad G (opened G rec a.st v).fng v
        su := a.su || (opened G rec a.st v).mark f v } := by
  unfold stepInput opened setV vGrad inRank
  cases hp : G.parent v with
  | none => simp [upd]
  | some p => simp [upd]

theorem setV_vok {G : Graph} {f v} {t : VSt σ}
    (hp : ∀ p, G.parent v = some p → p ∈ t.order) : VOk G (setV G f v t) v := by
  refine ⟨?_, ?_, hp⟩ <;> simp [setV, upd]

theorem setV_mono {G : Graph} {f v} {t : VSt σ} {u} (h : VOk G t u) : VOk G (setV G f v t) u := by
  refine ⟨?_, ?_, h.2.2⟩
  · simp only [setV, upd]
    split
    · rename_i e; rw [e]
    · exact h.1
  · simp only [setV, upd]
    split
    · rename_i e; rw [e]
    · exact h.2.1

theorem setV_inv {G : Graph} {m0 f v} {t : VSt σ} (hI : Inv G m0 t) (hf : f ∈ t.closed) :
    Inv G m0 (setV G f v t) where
  nodup := hI.nodup
  sub := hI.sub
  before := hI.before
  done := fun g hg => (hI.done g hg).mono hg (fun _ _ => rfl) (fun _ _ => rfl)
    (fun u hu => setV_mono hu)
  setups_nodup := hI.setups_nodup
  setups_sub := hI.setups_sub
  setups_iff := hI.setups_iff
  marks := by
    intro g hg u
    have hgf : g ≠ f := by rintro rfl; exact hg hf
    have := hI.marks g hg u
    simp only [setV, unmark, hgf, false_and, if_false]
    exact this

theorem setV_ext {G : Graph} {cb : VSt σ → FnId → σ → σ} {f v} {t : VSt σ} :
    Ext G cb (some f) t (setV G f v t) [] where
  order := by simp [setV]
  closed := by intro g; simp [setV]
  fresh := by simp
  frank := by intro g _; rfl
  fng := by intro g _; rfl
  setups := by intro g _; rfl
  marks := by
    intro g _ hgf u
    have hgf' : g ≠ f := by rintro rfl; exact hgf rfl
    simp [setV, unmark, hgf']
  vok := fun u hu => setV_mono hu
  ext := fun _ => rfl

theorem Ext.weaken {G : Graph} {cb : VSt σ → FnId → σ → σ} {ex s s' new}
    (h : Ext G cb none s s' new) : Ext G cb ex s s' new :=
  { h with marks := fun g hg _ v => h.marks g hg (by simp) v }

theorem Ext.refl {G : Graph} {cb : VSt σ → FnId → σ → σ} {ex} {s : VSt σ} :
    Ext G cb ex s s [] where
  order := by simp
  closed := by simp
  fresh := by simp
  frank := fun _ _ => rfl
  fng := fun _ _ => rfl
  setups := fun _ _ => Iff.rfl
  marks := by simp
  vok := fun _ h => h
  ext := fun _ => rfl

/-- the loop facts survive a recursive call -/
theorem Loop.advance {G : Graph} {cb : VSt σ → FnId → σ → σ} {m0 f s a P new n2} {t : VSt σ}
    (hL : Loop G cb m0 f s a P new) (hI : Inv G m0 t) (hE : Ext G cb none a.st t n2)
    (hd : ∀ g, g ∈ n2 → Depends G f g ∧ g ≠ f) (hfc : f ∈ a.st.closed) :
    Loop G cb m0 f s { a with st := t } P (new ++ n2) := by
  have hr : ∀ v, (v, true) ∈ P → inRank G t.frank v = inRank G a.st.frank v := by
    intro v hv
    apply inRank_congr
    intro p hp
    exact hE.frank p (fun h => hE.fresh p h (hL.inv.sub p ((hL.vok v hv).2.2 p hp)))
  have hg : ∀ v, (v, true) ∈ P → vGrad G t.fng v = vGrad G a.st.fng v := by
    intro v hv
    apply vGrad_congr
    intro p hp
    exact hE.fng p (fun h => hE.fresh p h (hL.inv.sub p ((hL.vok v hv).2.2 p hp)))
  have hfn : f ∉ n2 := fun h => hE.fresh f h hfc
  constructor
  · exact hI
  · exact hL.ext.trans hL.inv hE.weaken
  · intro g hgm
    rcases List.mem_append.mp hgm with h | h
    · exact hL.dep g h
    · exact hd g h
  · intro v hv
    show inRank G t.frank v ≤ a.maxRank
    rw [hr v hv]; exact hL.rank_ub v hv
  · show a.maxRank = 0 ∨ ∃ v, (v, true) ∈ P ∧ a.maxRank = inRank G t.frank v
    rcases hL.rank_at with h | ⟨v, hv, h⟩
    · exact Or.inl h
    · exact Or.inr ⟨v, hv, by rw [hr v hv]; exact h⟩
  · show a.ng = true ↔ ∃ v, (v, true) ∈ P ∧ vGrad G t.fng v = true
    rw [hL.ng]
    constructor
    · rintro ⟨v, hv, h⟩; exact ⟨v, hv, by rw [hg v hv]; exact h⟩
    · rintro ⟨v, hv, h⟩; exact ⟨v, hv, by rw [← hg v hv]; exact h⟩
  · exact hL.su
  · intro v hv; exact hE.vok v (hL.vok v hv)
  · intro v hm
    rcases (hE.marks f hfn (by simp) v).mp hm with h | ⟨q, hq, hqs, ho⟩
    · rcases hL.msound v h with h | ⟨q, hq, ho⟩
      · exact Or.inl h
      · refine Or.inr ⟨q, ?_, ho⟩
        have : q ∉ n2 := fun h => hE.fresh q h (hL.inv.sub q (hL.inv.setups_sub q hq))
        exact (hE.setups q this).mpr hq
    · exact Or.inr ⟨q, hqs, ho⟩
  · intro v hv h
    apply (hE.marks f hfn (by simp) v).mpr
    rcases h with h | ⟨q, hq, ho⟩
    · exact Or.inl (hL.mcompl v hv (Or.inl h))
    · by_cases hqn : q ∈ n2
      · exact Or.inr ⟨q, hqn, hq, ho⟩
      · exact Or.inl (hL.mcompl v hv (Or.inr ⟨q, (hE.setups q hqn).mp hq, ho⟩))

theorem loop_step {G : Graph} {cb : VSt σ → FnId → σ → σ} {m0 depth rec n}
    (hO : OutputsOk G)
    (hLay : Layered G depth) (hrec : RecSpec G cb m0 depth rec n)
    {f s a P new vi} (hfn : depth f ≤ n) (hfs : f ∈ s.closed) (hfo : f ∉ s.order)
    (hprog : ∀ g, g ∈ s.closed → g ∉ s.order → depth f ≤ depth g)
    (hvi : vi ∈ (G.fn f).inputs)
    (hL : Loop G cb m0 f s a P new) :
    ∃ new', Loop G cb m0 f s (stepInput G rec f a vi) (P ++ [vi]) new' := by
  obtain ⟨v, b⟩ := vi
  have hfc : f ∈ a.st.closed := (hL.ext.closed f).mpr (Or.inl hfs)
  cases b with
  | false =>
    refine ⟨new, ?_⟩
    have he : stepInput G rec f a (v, false) = a := by simp [stepInput]
    rw [he]
    have hm : ∀ u, (u, true) ∈ P ++ [(v, false)] ↔ (u, true) ∈ P := by
      intro u; simp
    constructor
    · exact hL.inv
    · exact hL.ext
    · exact hL.dep
    · intro u hu; exact hL.rank_ub u ((hm u).mp hu)
    · rcases hL.rank_at with h | ⟨u, hu, h⟩
      · exact Or.inl h
      · exact Or.inr ⟨u, (hm u).mpr hu, h⟩
    · rw [hL.ng]; simp only [hm]
    · rw [hL.su]; simp only [hm]
    · intro u hu; exact hL.vok u ((hm u).mp hu)
    · exact hL.msound
    · intro u hu h; exact hL.mcompl u (fun h' => hu ((hm u).mpr h')) h
  | true =>
    -- open the parent
    have hopen : ∃ n2, Inv G m0 (opened G rec a.st v) ∧
        Ext G cb none a.st (opened G rec a.st v) n2 ∧
        (∀ g, g ∈ n2 → Depends G f g ∧ g ≠ f) ∧
        (∀ p, G.parent v = some p → p ∈ (opened G rec a.st v).order) := by
      unfold opened
      cases hp : G.parent v with
      | none => exact ⟨[], hL.inv, Ext.refl, by simp, by simp⟩
      | some p =>
        have hfeed : Feeds G p f := ⟨v, hvi, hp⟩
        have hdp : depth p < depth f := hLay p f hfeed
        have hprog' : ∀ g, g ∈ a.st.closed → g ∉ a.st.order → depth f ≤ depth g := by
          intro g hg hgo
          rw [hL.ext.order] at hgo
          simp at hgo
          rcases (hL.ext.closed g).mp hg with h | h
          · exact hprog g h hgo.1
          · exact absurd h hgo.2
        by_cases hc : p ∈ a.st.closed
        · simp only [hc, if_true]
          refine ⟨[], hL.inv, Ext.refl, by simp, ?_⟩
          intro p' hp'
          obtain rfl := Option.some.inj hp'
          exact Classical.byContradiction (fun hno => by
            have := hprog' p hc hno
            omega)
        · simp only [hc, if_false]
          obtain ⟨nn, hI, hE, hdd⟩ := hrec p a.st (by omega) hL.inv hc
            (fun g hg hgo => Nat.lt_of_lt_of_le hdp (hprog' g hg hgo))
          refine ⟨nn ++ [p], hI, hE, ?_, ?_⟩
          · intro g hg
            have hpf : p ≠ f := by rintro rfl; omega
            rcases List.mem_append.mp hg with h | h
            · refine ⟨.step hfeed (hdd g h).1, ?_⟩
              rintro rfl
              exact hE.fresh g (by simp [h]) hfc
            · simp at h; subst h
              exact ⟨.step hfeed (.refl _), hpf⟩
          · intro p' hp'
            obtain rfl := Option.some.inj hp'
            rw [hE.order]; simp
    obtain ⟨n2, hI, hE, hd, hpo⟩ := hopen
    rw [stepInput_active]
    generalize hteq : opened G rec a.st v = t at hI hE hpo
    have hA := hL.advance hI hE hd hfc
    have hft : f ∈ t.closed := (hE.closed f).mpr (Or.inl hfc)
    refine ⟨new ++ n2, ?_⟩
    have hm : ∀ u, (u, true) ∈ P ++ [(v, true)] ↔ (u, true) ∈ P ∨ u = v := by
      intro u; simp
    have hsv : (t.mark f v = true → SetupVia G m0 f v) ∧
        ((v, true) ∉ P → SetupVia G m0 f v → t.mark f v = true) := by
      constructor
      · intro h
        rcases hA.msound v h with h | ⟨q, hq, ho⟩
        · exact Or.inl h
        · exact Or.inr ⟨q, hO q v ho, ho,
            (hI.setups_iff q (hI.setups_sub q hq)).mp hq⟩
      · rintro hv (h | ⟨p, hp, ho, hns⟩)
        · exact hA.mcompl v hv (Or.inl h)
        · exact hA.mcompl v hv (Or.inr ⟨p, (hI.setups_iff p (hpo p hp)).mpr hns, ho⟩)
    constructor
    · exact setV_inv hI hft
    · have := hA.ext.trans hI (setV_ext (f := f) (v := v))
      simpa using this
    · exact hA.dep
    · intro u hu
      show inRank G t.frank u ≤ max (inRank G t.frank v) a.maxRank
      rcases (hm u).mp hu with h | rfl
      · exact Nat.le_trans (hA.rank_ub u h) (Nat.le_max_right _ _)
      · exact Nat.le_max_left _ _
    · show max (inRank G t.frank v) a.maxRank = 0 ∨ ∃ u, (u, true) ∈ P ++ [(v, true)] ∧
        max (inRank G t.frank v) a.maxRank = inRank G t.frank u
      by_cases hle : a.maxRank ≤ inRank G t.frank v
      · right; exact ⟨v, (hm v).mpr (Or.inr rfl), Nat.max_eq_left hle⟩
      · have hmax : max (inRank G t.frank v) a.maxRank = a.maxRank :=
          Nat.max_eq_right (by omega)
        rw [hmax]
        rcases hA.rank_at with h | ⟨u, hu, h⟩
        · exact Or.inl h
        · exact Or.inr ⟨u, (hm u).mpr (Or.inl hu), h⟩
    · show (a.ng || vGrad G t.fng v) = true ↔
        ∃ u, (u, true) ∈ P ++ [(v, true)] ∧ vGrad G t.fng u = true
      rw [Bool.or_eq_true, show (a.ng = true ↔ _) from hA.ng]
      constructor
      · rintro (⟨u, hu, h⟩ | h)
        · exact ⟨u, (hm u).mpr (Or.inl hu), h⟩
        · exact ⟨v, (hm v).mpr (Or.inr rfl), h⟩
      · rintro ⟨u, hu, h⟩
        rcases (hm u).mp hu with h' | rfl
        · exact Or.inl ⟨u, h', h⟩
        · exact Or.inr h
    · show (a.su || t.mark f v) = true ↔ ∃ u, (u, true) ∈ P ++ [(v, true)] ∧ SetupVia G m0 f u
      rw [Bool.or_eq_true, show (a.su = true ↔ _) from hA.su]
      constructor
      · rintro (⟨u, hu, h⟩ | h)
        · exact ⟨u, (hm u).mpr (Or.inl hu), h⟩
        · exact ⟨v, (hm v).mpr (Or.inr rfl), hsv.1 h⟩
      · rintro ⟨u, hu, h⟩
        rcases (hm u).mp hu with h' | rfl
        · exact Or.inl ⟨u, h', h⟩
        · by_cases huP : (u, true) ∈ P
          · exact Or.inl ⟨u, huP, h⟩
          · exact Or.inr (hsv.2 huP h)
    · intro u hu
      rcases (hm u).mp hu with h | rfl
      · exact setV_mono (hA.vok u h)
      · exact setV_vok hpo
    · intro u hu
      have : t.mark f u = true := by
        simp only [setV, unmark] at hu
        split at hu
        · cases hu
        · exact hu
      exact hA.msound u this
    · intro u hu h
      have hu' : (u, true) ∉ P ∧ u ≠ v := by
        constructor
        · intro h'; exact hu ((hm u).mpr (Or.inl h'))
        · intro h'; exact hu ((hm u).mpr (Or.inr h'))
      have := hA.mcompl u hu'.1 h
      simp only [setV, unmark, hu'.2, and_false, if_false]
      exact this

theorem loop_all {G : Graph} {cb : VSt σ → FnId → σ → σ} {m0 depth rec n}
    (hO : OutputsOk G)
    (hLay : Layered G depth) (hrec : RecSpec G cb m0 depth rec n)
    {f s} (hfn : depth f ≤ n) (hfs : f ∈ s.closed) (hfo : f ∉ s.order)
    (hprog : ∀ g, g ∈ s.closed → g ∉ s.order → depth f ≤ depth g) :
    ∀ (l P : List (VarId × Bool)) (a : Acc σ) (new : List FnId),
      (∀ x, x ∈ l → x ∈ (G.fn f).inputs) →
      Loop G cb m0 f s a P new →
      ∃ new', Loop G cb m0 f s (l.foldl (stepInput G rec f) a) (P ++ l) new' := by
  intro l
  induction l with
  | nil => intro P a new _ hL; exact ⟨new, by simpa using hL⟩
  | cons x l ih =>
    intro P a new hl hL
    obtain ⟨new1, h1⟩ := loop_step hO hLay hrec hfn hfs hfo hprog (hl x (by simp)) hL
    obtain ⟨new2, h2⟩ := ih (P ++ [x]) _ new1 (fun y hy => hl y (by simp [hy])) h1
    exact ⟨new2, by simpa using h2⟩

theorem visit_spec {G : Graph} {cb : VSt σ → FnId → σ → σ} {m0 depth}
    (hO : OutputsOk G) (hLay : Layered G depth) :
    ∀ n, RecSpec G cb m0 depth (visit G cb n) n := by
  intro n
  induction n with
  | zero => intro f s h; omega
  | succ n ih =>
    intro f s hfn hI hfc hprog
    have hfo : f ∉ s.order := fun h => hfc (hI.sub f h)
    let s1 : VSt σ := { s with closed := f :: s.closed }
    have hI1 : Inv G m0 s1 :=
      { nodup := hI.nodup
        sub := fun g hg => by simp [s1, hI.sub g hg]
        before := hI.before
        done := fun g hg => (hI.done g hg).mono hg (fun _ _ => rfl) (fun _ _ => rfl) (fun _ h => h)
        setups_nodup := hI.setups_nodup
        setups_sub := hI.setups_sub
        setups_iff := hI.setups_iff
        marks := fun g hg v => hI.marks g (by simp [s1] at hg; exact hg.2) v }
    have hL0 : Loop G cb m0 f s1 { st := s1, maxRank := 0, ng := false, su := false } [] [] := by
      constructor
      · exact hI1
      · exact Ext.refl
      · simp
      · simp
      · simp
      · simp
      · simp
      · simp
      · intro v h; exact (hI.marks f hfc v).mp h
      · intro v _ h; exact (hI.marks f hfc v).mpr h
    obtain ⟨new, hL⟩ := loop_all hO hLay ih (s := s1) (by omega) (by simp [s1])
      (show f ∉ s.order from hfo)
      (by
        intro g hg hgo
        simp [s1] at hg
        rcases hg with rfl | hg
        · omega
        · exact Nat.le_of_lt (hprog g hg hgo))
      (G.fn f).inputs [] _ [] (fun _ h => h) hL0
    simp only [List.nil_append] at hL
    refine ⟨new, ?_⟩
    show Inv G m0 (visit G cb (n + 1) f s) ∧ _
    simp only [visit]
    change Loop G cb m0 f s1
      ((G.fn f).inputs.foldl (stepInput G (visit G cb n) f) ⟨s1, 0, false, false⟩)
      (G.fn f).inputs new at hL
    generalize (G.fn f).inputs.foldl (stepInput G (visit G cb n) f) ⟨s1, 0, false, false⟩ = a at hL ⊢
    have hfa : f ∈ a.st.closed := (hL.ext.closed f).mpr (Or.inl (by simp [s1]))
    have hfna : f ∉ a.st.order := by
      rw [hL.ext.order]
      intro h
      rcases List.mem_append.mp h with h | h
      · exact hfo h
      · exact (hL.dep f h).2 rfl
    have hparfn : ∀ v p, (v, true) ∈ (G.fn f).inputs → G.parent v = some p → p ≠ f := by
      intro v p hv hp h
      subst h
      exact hfna ((hL.vok v hv).2.2 p hp)
    -- the final state up to the callback
    generalize hs3 : (if a.su = true then _ else _ : VSt σ) = s3
    have e_order : s3.order = a.st.order := by rw [← hs3]; split <;> rfl
    have e_closed : s3.closed = a.st.closed := by rw [← hs3]; split <;> rfl
    have e_frank : s3.frank = upd a.st.frank f (a.maxRank + 1) := by rw [← hs3]; split <;> rfl
    have e_fng : s3.fng = upd a.st.fng f a.ng := by rw [← hs3]; split <;> rfl
    have e_vrank : s3.vrank = a.st.vrank := by rw [← hs3]; split <;> rfl
    have e_vng : s3.vng = a.st.vng := by rw [← hs3]; split <;> rfl
    have e_ext : s3.ext = a.st.ext := by rw [← hs3]; split <;> rfl
    have e_setups : s3.setups = if a.su = true then a.st.setups ++ [f] else a.st.setups := by
      rw [← hs3]; split <;> rfl
    have e_mark : s3.mark =
        if a.su = true then markAll a.st.mark (G.fn f).outputs else a.st.mark := by
      rw [← hs3]; split <;> rfl
    have hsu : a.su = true ↔ NeedsSetup G m0 f := by rw [needsSetup_iff]; exact hL.su
    have hfr : ∀ g, g ≠ f → s3.frank g = a.st.frank g := by intro g hg; simp [e_frank, upd, hg]
    have hfg : ∀ g, g ≠ f → s3.fng g = a.st.fng g := by intro g hg; simp [e_fng, upd, hg]
    have hne : ∀ g, g ∈ a.st.order → g ≠ f := by rintro g hg rfl; exact hfna hg
    have hvok : ∀ (x : σ) v, VOk G a.st v →
        VOk G { s3 with ext := x, order := s3.order ++ [f] } v := by
      intro x v hv
      refine ⟨?_, ?_, ?_⟩
      · show s3.vrank v = inRank G s3.frank v
        rw [e_vrank, hv.1]
        symm; apply inRank_congr
        intro p hp; exact hfr p (hne p (hv.2.2 p hp))
      · show s3.vng v = (G.parent v).map s3.fng
        rw [e_vng, hv.2.1]
        cases hp : G.parent v with
        | none => rfl
        | some p => simp [hfg p (hne p (hv.2.2 p hp))]
      · intro p hp
        show p ∈ s3.order ++ [f]
        rw [e_order]; simp [hv.2.2 p hp]
    have hdone : ∀ (x : σ), Done G { s3 with ext := x, order := s3.order ++ [f] } f := by
      intro x
      have hir : ∀ v, (v, true) ∈ (G.fn f).inputs → inRank G s3.frank v = inRank G a.st.frank v := by
        intro v hv; apply inRank_congr; intro p hp; exact hfr p (hparfn v p hv hp)
      have hig : ∀ v, (v, true) ∈ (G.fn f).inputs → vGrad G s3.fng v = vGrad G a.st.fng v := by
        intro v hv; apply vGrad_congr; intro p hp; exact hfg p (hparfn v p hv hp)
      have hff : s3.frank f = a.maxRank + 1 := by simp [e_frank, upd]
      constructor
      · intro v hv
        show inRank G s3.frank v < s3.frank f
        rw [hir v hv, hff]
        have := hL.rank_ub v hv
        omega
      · show s3.frank f = 1 ∨ ∃ v, (v, true) ∈ (G.fn f).inputs ∧ s3.frank f = inRank G s3.frank v + 1
        rcases hL.rank_at with h | ⟨v, hv, h⟩
        · left; rw [hff, h]
        · right; exact ⟨v, hv, by rw [hff, hir v hv, h]⟩
      · show s3.fng f = true ↔ ∃ v, (v, true) ∈ (G.fn f).inputs ∧ vGrad G s3.fng v = true
        have : s3.fng f = a.ng := by simp [e_fng, upd]
        rw [this, hL.ng]
        constructor
        · rintro ⟨v, hv, h⟩; exact ⟨v, hv, by rw [hig v hv]; exact h⟩
        · rintro ⟨v, hv, h⟩; exact ⟨v, hv, by rw [← hig v hv]; exact h⟩
      · intro v hv; exact hvok x v (hL.vok v hv)
    have hIfin : ∀ x : σ, Inv G m0 { s3 with ext := x, order := s3.order ++ [f] } := by
      intro x
      constructor
      · show (s3.order ++ [f]).Nodup
        rw [e_order]
        rw [List.nodup_append]
        refine ⟨hL.inv.nodup, by simp, ?_⟩
        intro g hg h hh
        simp at hh; subst hh
        exact hne g hg
      · intro g hg
        show g ∈ s3.closed
        rw [e_closed]
        change g ∈ s3.order ++ [f] at hg
        rw [e_order] at hg
        rcases List.mem_append.mp hg with h | h
        · exact hL.inv.sub g h
        · simp at h; subst h; exact hfa
      · intro g hg p hp
        change g ∈ s3.order ++ [f] at hg
        show Before (s3.order ++ [f]) p g
        rw [e_order] at hg ⊢
        rcases List.mem_append.mp hg with h | h
        · exact before_append (hL.inv.before g h p hp) (by simp [hne g h])
        · simp at h; subst h
          obtain ⟨v, hv, hvp⟩ := hp
          exact before_last ((hL.vok v hv).2.2 p hvp) hfna
      · intro g hg
        change g ∈ s3.order ++ [f] at hg
        rw [e_order] at hg
        rcases List.mem_append.mp hg with h | h
        · exact (hL.inv.done g h).mono h (fun q hq => hfr q (hne q hq))
            (fun q hq => hfg q (hne q hq)) (hvok x)
        · simp at h; subst h; exact hdone x
      · show s3.setups.Nodup
        rw [e_setups]
        split
        · rw [List.nodup_append]
          refine ⟨hL.inv.setups_nodup, by simp, ?_⟩
          intro g hg h hh
          simp at hh; subst hh
          exact hne g (hL.inv.setups_sub g hg)
        · exact hL.inv.setups_nodup
      · intro g hg
        change g ∈ s3.setups at hg
        show g ∈ s3.order ++ [f]
        rw [e_setups] at hg
        rw [e_order]
        split at hg
        · rcases List.mem_append.mp hg with h | h
          · simp [hL.inv.setups_sub g h]
          · simp at h; simp [h]
        · simp [hL.inv.setups_sub g hg]
      · intro g hg
        change g ∈ s3.order ++ [f] at hg
        show g ∈ s3.setups ↔ NeedsSetup G m0 g
        rw [e_order] at hg
        rw [e_setups]
        rcases List.mem_append.mp hg with h | h
        · rw [← hL.inv.setups_iff g h]
          split
          · simp [hne g h]
          · rfl
        · simp at h; subst h
          rw [← hsu]
          have hnot : g ∉ a.st.setups := fun h => hfna (hL.inv.setups_sub g h)
          split
          · rename_i h; simp [h]
          · rename_i h; simp [h, hnot]
      · intro g hg v
        change g ∉ s3.closed at hg
        show s3.mark g v = true ↔ m0 g v = true ∨ ∃ q, q ∈ s3.setups ∧ v ∈ (G.fn q).outputs
        rw [e_closed] at hg
        have hb := hL.inv.marks g hg v
        rw [e_mark, e_setups]
        split
        · simp only [markAll]
          split
          · rename_i hv
            constructor
            · intro _; exact Or.inr ⟨f, by simp, hv⟩
            · intro _; rfl
          · rename_i hv
            rw [hb]
            constructor
            · rintro (h | ⟨q, hq, ho⟩)
              · exact Or.inl h
              · exact Or.inr ⟨q, by simp [hq], ho⟩
            · rintro (h | ⟨q, hq, ho⟩)
              · exact Or.inl h
              · rcases List.mem_append.mp hq with h | h
                · exact Or.inr ⟨q, h, ho⟩
                · simp at h; subst h; exact absurd ho hv
        · exact hb
    refine ⟨hIfin _, ?_, hL.dep⟩
    have hEc := hL.ext
    constructor
    · show s3.order ++ [f] = s.order ++ (new ++ [f])
      rw [e_order, hEc.order]; simp [s1]
    · intro g
      show g ∈ s3.closed ↔ _
      rw [e_closed, hEc.closed]
      simp [s1]
      constructor
      · rintro ((h | h) | h) <;> simp [h]
      · rintro (h | h | h) <;> simp [h]
    · intro g hg
      rcases List.mem_append.mp hg with h | h
      · intro hc; exact hEc.fresh g h (by simp [s1, hc])
      · simp at h; subst h; exact hfc
    · intro g hg
      simp at hg
      show s3.frank g = s.frank g
      rw [hfr g hg.2, hEc.frank g hg.1]
    · intro g hg
      simp at hg
      show s3.fng g = s.fng g
      rw [hfg g hg.2, hEc.fng g hg.1]
    · intro g hg
      simp at hg
      show g ∈ s3.setups ↔ g ∈ s.setups
      have := hEc.setups g hg.1
      rw [e_setups]
      split
      · simp [hg.2]; exact this
      · exact this
    · intro g hg _ v
      simp at hg
      show s3.mark g v = true ↔ s.mark g v = true ∨
        ∃ q, q ∈ new ++ [f] ∧ q ∈ s3.setups ∧ v ∈ (G.fn q).outputs
      have hb := hEc.marks g hg.1 (by simp [hg.2]) v
      rw [e_mark, e_setups]
      split
      · simp only [markAll]
        split
        · rename_i hv
          constructor
          · intro _; exact Or.inr ⟨f, by simp, by simp, hv⟩
          · intro _; rfl
        · rename_i hv
          rw [hb]
          constructor
          · rintro (h | ⟨q, hq, hs, ho⟩)
            · exact Or.inl h
            · exact Or.inr ⟨q, by simp [hq], by simp [hs], ho⟩
          · rintro (h | ⟨q, hq, hs, ho⟩)
            · exact Or.inl h
            · have hqf : q ≠ f := by rintro rfl; exact hv ho
              simp [hqf] at hq hs
              exact Or.inr ⟨q, hq, hs, ho⟩
      · rw [hb]
        constructor
        · rintro (h | ⟨q, hq, hs, ho⟩)
          · exact Or.inl h
          · exact Or.inr ⟨q, by simp [hq], hs, ho⟩
        · rintro (h | ⟨q, hq, hs, ho⟩)
          · exact Or.inl h
          · have hqf : q ≠ f := by
              rintro rfl; exact hfna (hL.inv.setups_sub q hs)
            simp [hqf] at hq
            exact Or.inr ⟨q, hq, hs, ho⟩
    · intro v hv
      exact hvok _ v (hEc.vok v hv)
    · intro hl
      show cb s3 f s3.ext = (new ++ [f]).foldl (fun e g => cb { s3 with ext := cb s3 f s3.ext, order := s3.order ++ [f] } g e) s.ext
      rw [List.foldl_append]
      simp only [List.foldl_cons, List.foldl_nil]
      have e1 : s3.ext = new.foldl (fun e g => cb { s3 with ext := cb s3 f s3.ext, order := s3.order ++ [f] } g e) s.ext := by
        rw [e_ext, hEc.ext hl]
        show new.foldl _ s.ext = _
        apply foldl_congr'
        intro e g hg
        have hgo : g ∈ a.st.order := by rw [hEc.order]; simp [hg]
        apply hl
        · intro v _; show a.st.vrank v = s3.vrank v; rw [e_vrank]
        · show a.st.fng g = s3.fng g; rw [hfg g (hne g hgo)]
      rw [← e1]
      apply hl
      · intro v _; rfl
      · rfl

end Verif.Graph
