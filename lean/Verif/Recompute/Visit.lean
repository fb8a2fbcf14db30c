import Verif.Recompute.Proof
/-
C86: the recursive recomputation and the backward loop.
-/
namespace Verif.Recompute
open Verif.Graph
variable {α : Type} {G : Graph} {c : RCfg α} {depth : FnId → Nat} {E : VarId → α}
  {d0 : VarId → Option α} {X : FnId → Prop} {B : List FnId}

theorem CaseA.mono {V V' : List FnId} {v : VarId} (h : CaseA G d0 V' v) (hs : ∀ g, g ∈ V → g ∈ V') :
    CaseA G d0 V v := ⟨h.1, fun p hp hm => h.2 p hp (hs p hm)⟩

/-- Data cleared before backward and not recomputed is still missing. -/
theorem Inv.caseA_none {s : RSt α} (hI : Inv G c E d0 X B s) {v : VarId}
    (h : CaseA G d0 s.visits v) : s.data v = none := by
  by_contra hne
  rcases hI.some_ v hne with h1 | ⟨p, hp, hm⟩
  · exact h1 h.1
  · exact h.2 p hp hm

/-- Data missing for a function that has not been recomputed was cleared before backward. -/
theorem Inv.missing {s : RSt α} (hI : Inv G c E d0 X B s) {g : FnId} {v : VarId}
    (hg : g ∉ s.visits) (hc : Consumes G g v) (hB : ∀ p, G.parent v = some p → p ∉ B)
    (hd : s.data v = none) : CaseA G d0 s.visits v := by
  rcases hI.none_ v hd with h | ⟨_, b, _⟩ | ⟨p, hp, hpv⟩
  · exact h
  · exact absurd (b g hc) hg
  · exact absurd hp (hB p hpv)

/-- What a recursive call of `visit_function_recursive` does. -/
def VisitSpec (G : Graph) (c : RCfg α) (depth : FnId → Nat) (E : VarId → α)
    (d0 : VarId → Option α) (X : FnId → Prop) (B : List FnId) (n : Nat)
    (rec : FnId → RSt α → RSt α) : Prop :=
  ∀ g s, Inv G c E d0 X B s → X g → g ∉ s.visits → Recomputable G d0 g →
    (∀ b, b ∈ B → ¬Depends G g b) → (∀ h, h ∈ s.closed → h ∈ s.visits ∨ depth g < depth h) →
    depth g < n →
    Inv G c E d0 X B (rec g s) ∧ Ext G depth (depth g + 1) s (rec g s) ∧ g ∈ (rec g s).visits

theorem inputs_spec (H : Hyp G c depth E d0 X) {n : Nat} {rec : FnId → RSt α → RSt α}
    (hrec : VisitSpec G c depth E d0 X B n rec) {g : FnId} (hX : X g)
    (hB : ∀ b, b ∈ B → ¬Depends G g b) (hn : depth g ≤ n) :
    ∀ (l : List (VarId × Bool)) (s : RSt α), (∀ x, x ∈ l → x ∈ (G.fn g).inputs) →
      Inv G c E d0 X B s → g ∉ s.visits →
      (∀ h, h ∈ s.closed → h ∈ s.visits ∨ depth g ≤ depth h) →
      Inv G c E d0 X B (l.foldl (recInput G rec) s) ∧
      Ext G depth (depth g) s (l.foldl (recInput G rec) s) ∧
      ∀ x, x ∈ l → ¬CaseA G d0 (l.foldl (recInput G rec) s).visits x.1 := by
  intro l
  induction l with
  | nil => intro s _ hI _ _; exact ⟨hI, Ext.refl s, by simp⟩
  | cons x l ih =>
    intro s hl hI hg hcl
    rw [List.foldl_cons]
    have hx := hl x (by simp)
    have hcons : Consumes G g x.1 := List.mem_map.mpr ⟨x, hx, rfl⟩
    have hxt : x.2 = true := H.act g x.1 x.2 hx
    -- the step
    have hstep : Inv G c E d0 X B (recInput G rec s x) ∧
        Ext G depth (depth g) s (recInput G rec s x) ∧
        ¬CaseA G d0 (recInput G rec s x).visits x.1 := by
      unfold recInput
      rw [hI.raised, hxt]
      simp only [Bool.false_eq_true, if_false, Bool.true_eq_false]
      cases hp : G.parent x.1 with
      | none =>
        refine ⟨hI, Ext.refl s, ?_⟩
        intro h
        exact (H.d0_none x.1 h.1).1 hp
      | some p =>
        have hf : Feeds G p g := ⟨x.1, by rw [← hxt]; exact hx, hp⟩
        have hlt := H.lay p g hf
        have hpB : ∀ q, G.parent x.1 = some q → q ∉ B := by
          intro q hq hqB
          rw [hp] at hq
          obtain rfl := Option.some.inj hq
          exact hB p hqB (.step hf (.refl p))
        simp only
        by_cases hpc : p ∈ s.closed
        · rw [if_pos hpc]
          refine ⟨hI, Ext.refl s, ?_⟩
          intro h
          rcases hcl p hpc with h1 | h1
          · exact h.2 p hp h1
          · omega
        · rw [if_neg hpc]
          cases hd : s.data x.1 with
          | some y =>
            simp only [Option.isNone_some, Bool.false_eq_true, if_false]
            refine ⟨hI, Ext.refl s, ?_⟩
            intro h
            rw [hI.caseA_none h] at hd; cases hd
          | none =>
            simp only [Option.isNone_none, if_true]
            have hA := hI.missing hg hcons hpB hd
            have hrcm : Recomputable G d0 p := ⟨x.1, H.conv _ _ hp, Or.inl hA.1⟩
            obtain ⟨a1, a2, a3⟩ := hrec p s hI (H.below g p hX hf) (hA.2 p hp) hrcm
              (fun b hb hd => hB b hb (.step hf hd))
              (fun h hh => by
                rcases hcl h hh with h1 | h1
                · exact Or.inl h1
                · exact Or.inr (by omega))
              (by omega)
            exact ⟨a1, a2.mono (by omega), fun h => h.2 p hp a3⟩
    obtain ⟨s1, s2, s3⟩ := hstep
    obtain ⟨i1, i2, i3⟩ := ih (recInput G rec s x) (fun y hy => hl y (by simp [hy])) s1
      (by
        intro h
        rcases s2.new g h with h1 | h1
        · exact hg h1
        · omega)
      (by
        intro h hh
        rcases s2.closed h hh with h1 | h1
        · rcases hcl h h1 with h2 | h2
          · exact Or.inl (s2.sub _ h2)
          · exact Or.inr h2
        · exact Or.inl h1)
    refine ⟨i1, s2.trans i2, ?_⟩
    intro y hy
    rcases List.mem_cons.mp hy with rfl | hy
    · exact fun h => s3 (h.mono i2.sub)
    · exact i3 y hy

theorem visitR_spec (H : Hyp G c depth E d0 X) : ∀ n, VisitSpec G c depth E d0 X B n (visitR G c n) := by
  intro n
  induction n with
  | zero => intro g s _ _ _ _ _ _ h; omega
  | succ n ih =>
    intro g s hI hX hg hrec hB hcl hn
    unfold visitR
    have hI' : Inv G c E d0 X B { s with closed := g :: s.closed } :=
      ⟨hI.nodup, hI.vis, hI.val, hI.none_, hI.some_, hI.bad, hI.raised, hI.cb, hI.ready⟩
    obtain ⟨i1, i2, i3⟩ := inputs_spec H ih hX hB (by omega) (G.fn g).inputs
      { s with closed := g :: s.closed } (fun _ h => h) hI' hg (by
        intro h hh
        simp only [List.mem_cons] at hh
        rcases hh with rfl | hh
        · exact Or.inr (Nat.le_refl _)
        · rcases hcl h hh with h1 | h1
          · exact Or.inl h1
          · exact Or.inr (by omega))
    generalize (G.fn g).inputs.foldl (recInput G (visitR G c n))
      { s with closed := g :: s.closed } = s' at i1 i2 i3
    have hg' : g ∉ s'.visits := by
      intro h
      rcases i2.new g h with h1 | h1
      · exact hg h1
      · omega
    obtain ⟨a1, a2, a3⟩ := recCall_spec H i1 hX hg' hrec (by
      intro v hv hd
      obtain ⟨x, hx, rfl⟩ := List.mem_map.mp hv
      refine i3 x hx (i1.missing hg' hv ?_ hd)
      intro p hp hpB
      have hxt : x.2 = true := H.act g x.1 x.2 hx
      exact hB p hpB (.step ⟨x.1, by rw [← hxt]; exact hx, hp⟩ (.refl p)))
    refine ⟨a1, ?_, a3⟩
    have ht := (i2.mono (by omega : depth g ≤ depth g + 1)).trans a2
    refine ⟨ht.sub, ht.new, ?_, ht.clr, ht.reads⟩
    intro h hh
    rcases ht.closed h hh with h1 | h1
    · simp only [List.mem_cons] at h1
      rcases h1 with rfl | h1
      · exact Or.inr a3
      · exact Or.inl h1
    · exact Or.inr h1

theorem wantsIn_iff {f : FnId} {i : Nat} : wantsIn G c f i = true ↔
    ∃ (j : Nat) (u : VarId), ((G.fn f).inputs.map Prod.fst)[j]? = some u ∧ c.vg u = true ∧ (G.fn f).gradDepIn j i = true := by
  unfold wantsIn
  rw [List.any_eq_true]
  constructor
  · rintro ⟨x, hx, h⟩
    rw [List.mem_zipIdx_iff_getElem?] at hx
    simp only [Bool.and_eq_true] at h
    exact ⟨x.2, x.1, hx, h.1, h.2⟩
  · rintro ⟨j, u, h1, h2, h3⟩
    exact ⟨(u, j), by rw [List.mem_zipIdx_iff_getElem?]; exact h1, by simp [h2, h3]⟩

theorem wantsOut_iff {f : FnId} {o : Nat} : wantsOut G c f o = true ↔
    ∃ (j : Nat) (u : VarId), ((G.fn f).inputs.map Prod.fst)[j]? = some u ∧ c.vg u = true ∧ (G.fn f).gradDepOut j o = true := by
  unfold wantsOut
  rw [List.any_eq_true]
  constructor
  · rintro ⟨x, hx, h⟩
    rw [List.mem_zipIdx_iff_getElem?] at hx
    simp only [Bool.and_eq_true] at h
    exact ⟨x.2, x.1, hx, h.1, h.2⟩
  · rintro ⟨j, u, h1, h2, h3⟩
    exact ⟨(u, j), by rw [List.mem_zipIdx_iff_getElem?]; exact h1, by simp [h2, h3]⟩

theorem needed_in {f : FnId} {i : Nat} {v : VarId} (h : wantsIn G c f i = true)
    (hv : ((G.fn f).inputs.map Prod.fst)[i]? = some v) : NeededBy G f v := by
  obtain ⟨j, u, h1, _, h3⟩ := wantsIn_iff.mp h
  left
  refine ⟨i, hv, Or.inl ?_⟩
  unfold gradDependsIn
  rw [List.any_eq_true]
  refine ⟨j, ?_, h3⟩
  obtain ⟨hlt, _⟩ := List.getElem?_eq_some_iff.mp h1
  rw [List.mem_range]
  simpa using hlt

theorem depends_out {f : FnId} {o : Nat} (h : wantsOut G c f o = true) :
    gradDependsOut (G.fn f) o = true := by
  obtain ⟨j, u, h1, _, h3⟩ := wantsOut_iff.mp h
  unfold gradDependsOut
  rw [List.any_eq_true]
  refine ⟨j, ?_, h3⟩
  obtain ⟨hlt, _⟩ := List.getElem?_eq_some_iff.mp h1
  rw [List.mem_range]
  simpa using hlt

/-- The loops before the backward callback of `f`; `done` says what the loop has achieved. -/
structure LoopInv (G : Graph) (c : RCfg α) (depth : FnId → Nat) (E : VarId → α)
    (d0 : VarId → Option α) (X : FnId → Prop) (B : List FnId) (f : FnId) (s0 s : RSt α) : Prop where
  inv : Inv G c E d0 X B s
  ext : Ext G depth (depth f + 1) s0 s
  closed : ∀ h, h ∈ s.closed → h ∈ s.visits

theorem visit_loop (H : Hyp G c depth E d0 X) {fuel : Nat} {f g : FnId} {s0 s : RSt α}
    (hL : LoopInv G c depth E d0 X B f s0 s) (hX : X g) (hg : g ∉ s.visits)
    (hrec : Recomputable G d0 g) (hB : ∀ b, b ∈ B → ¬Depends G g b) (hgf : depth g ≤ depth f)
    (hfuel : depth f < fuel) :
    LoopInv G c depth E d0 X B f s0 (visitR G c fuel g s) ∧ g ∈ (visitR G c fuel g s).visits := by
  obtain ⟨a1, a2, a3⟩ := visitR_spec H fuel g s hL.inv hX hg hrec hB
    (fun h hh => Or.inl (hL.closed h hh)) (by omega)
  refine ⟨⟨a1, hL.ext.trans (a2.mono (by omega)), ?_⟩, a3⟩
  intro h hh
  rcases a2.closed h hh with h1 | h1
  · exact a2.sub _ (hL.closed h h1)
  · exact h1

theorem outs_spec (H : Hyp G c depth E d0 X) {fuel : Nat} {f : FnId} {s0 : RSt α}
    (hX : X f) (hng : c.ng f = true) (hB : ∀ b, b ∈ B → ¬Depends G f b) (hfuel : depth f < fuel) :
    ∀ (l : List (VarId × Nat)) (s : RSt α),
      (∀ x, x ∈ l → (G.fn f).outputs[x.2]? = some x.1) → LoopInv G c depth E d0 X B f s0 s →
      LoopInv G c depth E d0 X B f s0 (l.foldl (recOut G c fuel f) s) ∧
      (∀ v, v ∈ (G.fn f).outputs → s.data v ≠ none → (l.foldl (recOut G c fuel f) s).data v ≠ none) ∧
      ∀ x, x ∈ l → wantsOut G c f x.2 = true →
        (l.foldl (recOut G c fuel f) s).data x.1 ≠ none := by
  intro l
  induction l with
  | nil => intro s _ hL; exact ⟨hL, fun _ _ h => h, by simp⟩
  | cons x l ih =>
    intro s hl hL
    rw [List.foldl_cons]
    have hx := hl x (by simp)
    have hxo : x.1 ∈ (G.fn f).outputs := List.mem_of_getElem? hx
    have hpar := H.out f x.1 hxo
    have hfB : f ∉ B := fun h => hB f h (.refl f)
    have hstep : LoopInv G c depth E d0 X B f s0 (recOut G c fuel f s x) ∧
        (∀ v, v ∈ (G.fn f).outputs → s.data v ≠ none → (recOut G c fuel f s x).data v ≠ none) ∧
        (wantsOut G c f x.2 = true → (recOut G c fuel f s x).data x.1 ≠ none) := by
      unfold recOut
      rw [hL.inv.raised]
      simp only [Bool.false_eq_true, if_false]
      cases hw : wantsOut G c f x.2 with
      | false => simp only [Bool.and_false, Bool.false_eq_true, if_false]
                 exact ⟨hL, fun _ _ h => h, fun h => h.elim⟩
      | true =>
        cases hd : s.data x.1 with
        | some y =>
          simp only [Option.isNone_some, Bool.and_false, Bool.false_and, Bool.false_eq_true, if_false]
          exact ⟨hL, fun _ _ h => h, fun _ => by rw [hd]; simp⟩
        | none =>
          -- f has not been recomputed
          have hdep := depends_out hw
          have hnb : NeededBy G f x.1 := Or.inr ⟨x.2, hx, hdep⟩
          have hrecf : G.recompute x.1 = true ∧ f ∉ s.visits := by
            rcases hL.inv.none_ x.1 hd with hA | ⟨b0, b1, b2, b3, b4⟩ | ⟨p, hp, hpv⟩
            · refine ⟨?_, hA.2 f hpar⟩
              rcases (H.d0_none x.1 hA.1).2 with h | h
              · exact h
              · exact absurd hnb (h f hX hng)
            · refine ⟨?_, fun hm => b2 f hm hng hnb⟩
              rcases H.own f x.2 x.1 hX hng hx hdep with h | h | h | h
              · exact h
              · rw [b3] at h; cases h
              · rw [b4] at h; cases h
              · obtain ⟨g, hg1, hg2⟩ := h b0
                exact absurd (hL.inv.vis g (b1 g hg1)).2 hg2
            · rw [hpar] at hpv
              obtain rfl := Option.some.inj hpv
              exact absurd hp hfB
          rw [hrecf.1]
          simp only [Option.isNone_none, Bool.and_true, if_true]
          obtain ⟨v1, v2⟩ := visit_loop H hL hX hrecf.2 ⟨x.1, hxo, Or.inr hrecf.1⟩ hB
            (Nat.le_refl _) hfuel
          have a2 := (visitR_spec H fuel f s hL.inv hX hrecf.2 ⟨x.1, hxo, Or.inr hrecf.1⟩ hB
            (fun h hh => Or.inl (hL.closed h hh)) hfuel).2.1
          refine ⟨v1, ?_, ?_⟩
          · intro v hv hvd hvn
            obtain ⟨h, hh, hc⟩ := a2.clr v hvd hvn
            have := H.out_not_in hv hc
            omega
          · intro _ hn
            rcases v1.inv.none_ x.1 hn with hA | ⟨_, _, b2, _⟩ | ⟨p, hp, hpv⟩
            · exact hA.2 f hpar v2
            · exact b2 f v2 hng hnb
            · rw [hpar] at hpv
              obtain rfl := Option.some.inj hpv
              exact hfB hp
    obtain ⟨s1, s2, s3⟩ := hstep
    obtain ⟨i1, i2, i3⟩ := ih _ (fun y hy => hl y (by simp [hy])) s1
    refine ⟨i1, fun v hv h => i2 v hv (s2 v hv h), ?_⟩
    intro y hy hw
    rcases List.mem_cons.mp hy with rfl | hy
    · exact i2 _ hxo (s3 hw)
    · exact i3 y hy hw

theorem ins_spec (H : Hyp G c depth E d0 X) {fuel : Nat} {f : FnId} {s0 : RSt α}
    (hX : X f) (hng : c.ng f = true) (hB : ∀ b, b ∈ B → ¬Depends G f b) (hfuel : depth f < fuel) :
    ∀ (l : List (VarId × Nat)) (s : RSt α),
      (∀ x, x ∈ l → ((G.fn f).inputs.map Prod.fst)[x.2]? = some x.1) →
      LoopInv G c depth E d0 X B f s0 s →
      LoopInv G c depth E d0 X B f s0 (l.foldl (recIn G c fuel f) s) ∧
      (∀ v, v ∈ (G.fn f).outputs → s.data v ≠ none → (l.foldl (recIn G c fuel f) s).data v ≠ none) ∧
      (∀ g, g ∈ s.visits → g ∈ (l.foldl (recIn G c fuel f) s).visits) ∧
      ∀ x, x ∈ l → wantsIn G c f x.2 = true →
        ¬CaseA G d0 (l.foldl (recIn G c fuel f) s).visits x.1 := by
  intro l
  induction l with
  | nil => intro s _ hL; exact ⟨hL, fun _ _ h => h, fun _ h => h, by simp⟩
  | cons x l ih =>
    intro s hl hL
    rw [List.foldl_cons]
    have hx := hl x (by simp)
    have hcons : Consumes G f x.1 := List.mem_of_getElem? hx
    have hstep : LoopInv G c depth E d0 X B f s0 (recIn G c fuel f s x) ∧
        (∀ v, v ∈ (G.fn f).outputs → s.data v ≠ none → (recIn G c fuel f s x).data v ≠ none) ∧
        (∀ g, g ∈ s.visits → g ∈ (recIn G c fuel f s x).visits) ∧
        (wantsIn G c f x.2 = true → ¬CaseA G d0 (recIn G c fuel f s x).visits x.1) := by
      unfold recIn
      rw [hL.inv.raised]
      simp only [Bool.false_eq_true, if_false]
      cases hp : G.parent x.1 with
      | none =>
        refine ⟨hL, fun _ _ h => h, fun _ h => h, ?_⟩
        intro _ h
        exact (H.d0_none x.1 h.1).1 hp
      | some p =>
        simp only
        have hf : Feeds G p f := ⟨x.1, H.mem_true hcons, hp⟩
        have hlt := H.lay p f hf
        have hpB : p ∉ B := fun h => hB p h (.step hf (.refl p))
        cases hw : wantsIn G c f x.2 with
        | false => simp only [Bool.and_false, Bool.false_eq_true, if_false]
                   exact ⟨hL, fun _ _ h => h, fun _ h => h, fun h => h.elim⟩
        | true =>
          cases hd : s.data x.1 with
          | some y =>
            simp only [Option.isNone_some, Bool.and_false, Bool.false_and, Bool.false_eq_true, if_false]
            refine ⟨hL, fun _ _ h => h, fun _ h => h, ?_⟩
            intro _ h
            rw [hL.inv.caseA_none h] at hd; cases hd
          | none =>
            have hnb := needed_in hw hx
            have hA : CaseA G d0 s.visits x.1 := by
              rcases hL.inv.none_ x.1 hd with hA | ⟨_, b1, b2, _⟩ | ⟨q, hq, hqv⟩
              · exact hA
              · exact absurd hnb (b2 f (b1 f hcons) hng)
              · rw [hp] at hqv
                obtain rfl := Option.some.inj hqv
                exact absurd hq hpB
            have hrc : G.recompute x.1 = true := by
              rcases (H.d0_none x.1 hA.1).2 with h | h
              · exact h
              · exact absurd hnb (h f hX hng)
            rw [hrc]
            simp only [Option.isNone_none, Bool.and_true, if_true]
            have hrcm : Recomputable G d0 p := ⟨x.1, H.conv _ _ hp, Or.inl hA.1⟩
            have hB' : ∀ b, b ∈ B → ¬Depends G p b := fun b hb hdp => hB b hb (.step hf hdp)
            obtain ⟨v1, v2⟩ := visit_loop H hL (H.below f p hX hf) (hA.2 p hp) hrcm hB'
              (by omega) hfuel
            have a2 := (visitR_spec H fuel p s hL.inv (H.below f p hX hf) (hA.2 p hp) hrcm hB'
              (fun h hh => Or.inl (hL.closed h hh)) (by omega)).2.1
            refine ⟨v1, ?_, a2.sub, fun _ h => h.2 p hp v2⟩
            intro v hv hvd hvn
            obtain ⟨h, hh, hc⟩ := a2.clr v hvd hvn
            have := H.out_not_in hv hc
            omega
    obtain ⟨s1, s2, s3, s4⟩ := hstep
    obtain ⟨i1, i2, i3, i4⟩ := ih _ (fun y hy => hl y (by simp [hy])) s1
    refine ⟨i1, fun v hv h => i2 v hv (s2 v hv h), fun g h => i3 g (s3 g h), ?_⟩
    intro y hy hw
    rcases List.mem_cons.mp hy with rfl | hy
    · exact fun h => s4 hw (h.mono i3)
    · exact i4 y hy hw

/-- The data the backward of `f` is entitled to, for the gradients it has to compute. -/
def HasNeeded (G : Graph) (c : RCfg α) (E : VarId → α) (f : FnId) (d : VarId → Option α) : Prop :=
  ∀ (j : Nat) u, ((G.fn f).inputs.map Prod.fst)[j]? = some u → c.vg u = true →
    (∀ (i : Nat) v, ((G.fn f).inputs.map Prod.fst)[i]? = some v → (G.fn f).gradDepIn j i = true →
      d v = some (E v)) ∧
    (∀ (o : Nat) v, (G.fn f).outputs[o]? = some v → (G.fn f).gradDepOut j o = true →
      d v = some (E v))

theorem backStep_spec (H : Hyp G c depth E d0 X) {fuel : Nat} {f : FnId} {s : RSt α}
    (hI : Inv G c E d0 X B s) (hX : X f) (hng : c.ng f = true)
    (hB : ∀ b, b ∈ B → ¬Depends G f b) (hfuel : depth f < fuel) :
    Inv G c E d0 X (B ++ [f]) (backStep G c fuel f s) ∧
    ∃ d, (backStep G c fuel f s).reads = s.reads ++ [(f, d)] ∧ HasNeeded G c E f d := by
  unfold backStep
  rw [if_neg (by rw [hI.raised]; simp)]
  simp only
  have hL0 : LoopInv G c depth E d0 X B f { s with closed := [] } { s with closed := [] } :=
    ⟨⟨hI.nodup, hI.vis, hI.val, hI.none_, hI.some_, hI.bad, hI.raised, hI.cb, hI.ready⟩,
      Ext.refl _, by simp⟩
  obtain ⟨o1, o2, o3⟩ := outs_spec H hX hng hB hfuel (G.fn f).outputs.zipIdx _
    (fun x hx => by rwa [List.mem_zipIdx_iff_getElem?] at hx) hL0
  generalize List.foldl (recOut G c fuel f) _ (G.fn f).outputs.zipIdx = s1 at o1 o2 o3 ⊢
  obtain ⟨i1, i2, i3, i4⟩ := ins_spec H hX hng hB hfuel ((G.fn f).inputs.map Prod.fst).zipIdx s1
    (fun x hx => by rwa [List.mem_zipIdx_iff_getElem?] at hx) o1
  generalize List.foldl (recIn G c fuel f) s1 ((G.fn f).inputs.map Prod.fst).zipIdx = s2
    at i1 i2 i3 i4 ⊢
  have hI2 := i1.inv
  rw [if_neg (by rw [hI2.raised]; simp)]
  refine ⟨⟨hI2.nodup, hI2.vis, ?_, ?_, ?_, hI2.bad, hI2.raised, hI2.cb, hI2.ready⟩, s2.data, ?_, ?_⟩
  · intro v x hv
    simp only at hv
    split at hv
    · cases hv
    · exact hI2.val v x hv
  · intro v hv
    simp only at hv
    split at hv
    · rename_i h
      exact Or.inr (Or.inr ⟨f, by simp, H.out f v h.1⟩)
    · rcases hI2.none_ v hv with h | h | ⟨p, hp, hpv⟩
      · exact Or.inl h
      · exact Or.inr (Or.inl h)
      · exact Or.inr (Or.inr ⟨p, by simp [hp], hpv⟩)
  · intro v hv
    simp only at hv
    split at hv
    · exact absurd rfl hv
    · exact hI2.some_ v hv
  · rw [i1.ext.reads]
  · intro j u hj hu
    have hsome : ∀ v, s2.data v ≠ none → s2.data v = some (E v) := by
      intro v hv
      cases hd : s2.data v with
      | none => exact absurd hd hv
      | some x => rw [hI2.val v x hd]
    refine ⟨?_, ?_⟩
    · intro i v hv hdep
      apply hsome
      intro hn
      have hw : wantsIn G c f i = true := wantsIn_iff.mpr ⟨j, u, hj, hu, hdep⟩
      have hnA := i4 (v, i) (by rw [List.mem_zipIdx_iff_getElem?]; exact hv) hw
      have hcons : Consumes G f v := List.mem_of_getElem? hv
      rcases hI2.none_ v hn with hA | ⟨_, b1, b2, _⟩ | ⟨q, hq, hqv⟩
      · exact hnA hA
      · exact b2 f (b1 f hcons) hng (needed_in hw hv)
      · exact hB q hq (.step ⟨v, H.mem_true hcons, hqv⟩ (.refl q))
    · intro o v hv hdep
      apply hsome
      have hw : wantsOut G c f o = true := wantsOut_iff.mpr ⟨j, u, hj, hu, hdep⟩
      exact i2 v (List.mem_of_getElem? hv)
        (o3 (v, o) (by rw [List.mem_zipIdx_iff_getElem?]; exact hv) hw)

theorem backAll_spec (H : Hyp G c depth E d0 X) {fuel : Nat} :
    ∀ (order : List FnId) (B : List FnId) (s : RSt α), Inv G c E d0 X B s →
      (∀ f, f ∈ order → X f ∧ c.ng f = true ∧ depth f < fuel) →
      (∀ f, f ∈ order → ∀ b, b ∈ B → ¬Depends G f b) →
      order.Pairwise (fun b f => ¬Depends G f b) →
      Inv G c E d0 X (B ++ order) (order.foldl (fun s f => backStep G c fuel f s) s) ∧
      ∃ r, (order.foldl (fun s f => backStep G c fuel f s) s).reads = s.reads ++ r ∧
        r.map Prod.fst = order ∧ ∀ x, x ∈ r → HasNeeded G c E x.1 x.2 := by
  intro order
  induction order with
  | nil => intro B s hI _ _ _; exact ⟨by simpa using hI, [], by simp, rfl, by simp⟩
  | cons f order ih =>
    intro B s hI hf hB hp
    rw [List.foldl_cons]
    rw [List.pairwise_cons] at hp
    obtain ⟨hX, hng, hfu⟩ := hf f (by simp)
    obtain ⟨a1, d, a2, a3⟩ := backStep_spec H hI hX hng (hB f (by simp)) hfu
    obtain ⟨b1, r, b2, b3, b4⟩ := ih (B ++ [f]) _ a1 (fun g hg => hf g (by simp [hg]))
      (by
        intro g hg b hb
        rw [List.mem_append, List.mem_singleton] at hb
        rcases hb with hb | rfl
        · exact hB g (by simp [hg]) b hb
        · exact hp.1 g hg) hp.2
    refine ⟨by simpa using b1, (f, d) :: r, by rw [b2, a2]; simp, by simp [b3], ?_⟩
    intro x hx
    rcases List.mem_cons.mp hx with rfl | hx
    · exact a3
    · exact b4 x hx

end Verif.Recompute
