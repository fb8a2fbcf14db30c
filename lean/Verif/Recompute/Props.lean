import Mathlib.Data.List.Induction
import Verif.Recompute.Visit
/-
C86: theorems. Forward with any clearing options followed by backward with recomputation.
-/
namespace Verif.Recompute
open Verif.Graph
variable {α : Type}

/-- The configuration of the recomputation left by a forward pass. -/
def rcfg (G : Graph) (cfg : FCfg α) (needSetup : FnId → Nat → Bool) (clr : FnId → VarId → Bool)
    (junk : α) (s : VSt (FSt α)) : RCfg α :=
  { run := cfg.run, needSetup := needSetup, rank := s.vrank, ng := s.fng
    vg := fun v => needGradState (G.flag v) (s.vng v), clr := clr, junk := junk }

/-- `v` was cleared by the forward pass. -/
def Cleared (s : VSt (FSt α)) (v : VarId) : Prop := ∃ g, (g, v) ∈ s.ext.log

/-- The data after a forward pass. -/
def dataAfter (cfg : FCfg α) (s : VSt (FSt α)) (v : VarId) : Option α :=
  if s.ext.log.any (fun x => x.2 == v) then none else some (s.ext.mem (cfg.arr v))

/-- The state in which backward starts. -/
def startR (G : Graph) (cfg : FCfg α) (c : RCfg α) (s : VSt (FSt α)) : RSt α :=
  { data := dataAfter cfg s, ready := readyAfter G c }

theorem dataAfter_none {cfg : FCfg α} {s : VSt (FSt α)} {v : VarId} :
    dataAfter cfg s v = none ↔ Cleared s v := by
  unfold dataAfter Cleared
  split
  · rename_i h
    rw [List.any_eq_true] at h
    obtain ⟨x, hx, h⟩ := h
    simp only [beq_iff_eq] at h
    simp only [true_iff]
    exact ⟨x.1, by rw [← h]; exact hx⟩
  · rename_i h
    simp only [reduceCtorEq, false_iff]
    rintro ⟨g, hg⟩
    exact h (List.any_eq_true.mpr ⟨_, hg, by simp⟩)

/-! ### The values of a plain pass satisfy the equations of the graph -/

theorem writeAll_not {cfg : FCfg α} (harr : ∀ u v, cfg.arr u = cfg.arr v → u = v) {v : VarId} :
    ∀ (l : List (VarId × α)) (m : ArrId → α), v ∉ l.map Prod.fst →
      writeAll cfg m l (cfg.arr v) = m (cfg.arr v) := by
  intro l
  induction l with
  | nil => intro m _; rfl
  | cons x l ih =>
    intro m h
    simp only [List.map_cons, List.mem_cons, not_or] at h
    have := ih (upd m (cfg.arr x.1) x.2) h.2
    unfold writeAll at this ⊢
    rw [List.foldl_cons, this]
    simp only [upd]
    rw [if_neg (fun he => h.1 (harr _ _ he))]

theorem writeAll_outs {cfg : FCfg α} (harr : ∀ u v, cfg.arr u = cfg.arr v → u = v) :
    ∀ (l : List VarId) (xs : List α) (m : ArrId → α), l.Nodup → xs.length = l.length →
      l.map (fun v => writeAll cfg m (l.zip xs) (cfg.arr v)) = xs := by
  intro l
  induction l with
  | nil => intro xs m _ h; simp at h; simp [h]
  | cons w l ih =>
    intro xs m hn hl
    cases xs with
    | nil => simp at hl
    | cons x xs =>
      simp only [List.length_cons, Nat.add_right_cancel_iff] at hl
      rw [List.nodup_cons] at hn
      have := ih xs (upd m (cfg.arr w) x) hn.2 hl
      simp only [List.map_cons, List.zip_cons_cons, writeAll, List.foldl_cons] at this ⊢
      rw [this]
      congr 1
      have h2 := writeAll_not harr (v := w) (l.zip xs) (upd m (cfg.arr w) x) (by
        intro h
        obtain ⟨y, hy, he⟩ := List.mem_map.mp h
        rw [← he] at hn
        exact hn.1 (List.of_mem_zip hy).1)
      unfold writeAll at h2
      rw [h2]
      simp [upd]

theorem plain_value {G : Graph} {cfg : FCfg α} {depth : FnId → Nat} (hLay : Layered G depth)
    (hO : OutputsOk G) (hact : ∀ f u b, (u, b) ∈ (G.fn f).inputs → b = true)
    (harr : ∀ u v, cfg.arr u = cfg.arr v → u = v) (hnd : ∀ f, (G.fn f).outputs.Nodup)
    (hlen : ∀ f xs, (cfg.run f xs).length = (G.fn f).outputs.length) {mem0 : ArrId → α}
    {E : List FnId} (hn : E.Nodup) (hbef : ∀ f, f ∈ E → ∀ p, Feeds G p f → Before E p f) :
    ∀ (Q R : List FnId), E = Q ++ R → ∀ f, f ∈ Q →
      cfg.run f ((G.fn f).inputs.map (fun v => (plain G cfg mem0 Q).1 (cfg.arr v.1))) =
        (G.fn f).outputs.map (fun v => (plain G cfg mem0 Q).1 (cfg.arr v)) := by
  intro Q
  induction Q using List.reverseRecOn with
  | nil => intro R _ f hf; simp at hf
  | append_singleton Q g ih =>
    intro R hE f hf
    have hE' : E = Q ++ g :: R := by rw [hE]; simp
    rw [plain_append]
    simp only
    -- g changes only its outputs
    have hother : ∀ v, v ∉ (G.fn g).outputs →
        runFn G cfg g (plain G cfg mem0 Q).1 (cfg.arr v) = (plain G cfg mem0 Q).1 (cfg.arr v) := by
      intro v hv
      unfold runFn
      apply writeAll_not harr
      intro h
      obtain ⟨y, hy, he⟩ := List.mem_map.mp h
      exact hv (by rw [← he]; exact (List.of_mem_zip hy).1)
    have hin : ∀ h, h ∈ Q ++ [g] → ∀ v, v ∈ (G.fn h).inputs → v.1 ∉ (G.fn g).outputs := by
      intro h hh v hv hvo
      have hf : Feeds G g h := ⟨v.1, by rw [← hact h v.1 v.2 hv]; exact hv, hO g v.1 hvo⟩
      rw [List.mem_append, List.mem_singleton] at hh
      rcases hh with hh | rfl
      · obtain ⟨a, b, hab⟩ := List.append_of_mem hh
        have := hbef h (by rw [hE']; simp [hh]) g hf a (b ++ g :: R) (by rw [hE', hab]; simp)
        rw [hE', List.nodup_append] at hn
        exact hn.2.2 g (by rw [hab]; simp [this]) g (by simp) rfl
      · have := hLay h h hf; omega
    have hins : (G.fn f).inputs.map (fun v => runFn G cfg g (plain G cfg mem0 Q).1 (cfg.arr v.1)) =
        (G.fn f).inputs.map (fun v => (plain G cfg mem0 Q).1 (cfg.arr v.1)) := by
      apply List.map_congr_left
      intro v hv
      exact hother v.1 (hin f hf v hv)
    rw [hins]
    rw [List.mem_append, List.mem_singleton] at hf
    rcases hf with hf | rfl
    · rw [ih (g :: R) hE' f hf]
      apply List.map_congr_left
      intro v hv
      rw [hother v]
      intro hvg
      have h1 := hO f v hv
      rw [hO g v hvg] at h1
      obtain rfl := Option.some.inj h1
      rw [hE', List.nodup_append] at hn
      exact hn.2.2 g hf g (by simp) rfl
    · unfold runFn
      rw [writeAll_outs harr _ _ _ (hnd f) (hlen f _)]

/-! ### Main theorems -/

theorem pass_rank {σ : Type} {G : Graph} {m0} {root : FnId} {s : VSt σ}
    (hP : PassOk G m0 (Depends G root) s) {f b : FnId} (hd : Depends G f b) :
    Depends G root f → f = b ∨ s.frank b < s.frank f := by
  have htr : ∀ {a b c}, Depends G a b → Feeds G c b → Depends G a c := by
    intro a b c h hf
    induction h with
    | refl => exact .step hf (.refl _)
    | step h1 _ ih => exact .step h1 (ih hf)
  induction hd with
  | refl => intro _; exact Or.inl rfl
  | step hf _ ih =>
    intro hr
    have hr' := htr hr hf
    have hlt := (hP.rank _ hr).2 _ (.cons hf (hP.rank _ hr').1)
    rcases ih hr' with rfl | h
    · exact Or.inr (by omega)
    · exact Or.inr (by omega)

/-- C86 (core). From any data `d0` satisfying `Hyp`, any sequence of backward calls in which no
function comes after one it depends on: nothing is raised, no function is recomputed twice, no
recomputation reads a cleared array, and each backward call finds all the data its gradients need. -/
theorem recompute_ok {G : Graph} {c : RCfg α} {depth : FnId → Nat} {E : VarId → α}
    {d0 : VarId → Option α} {X : FnId → Prop} (H : Hyp G c depth E d0 X) (fuel : Nat)
    (order : List FnId) (hord : ∀ f, f ∈ order → X f ∧ c.ng f = true ∧ depth f < fuel)
    (hp : order.Pairwise (fun b f => ¬Depends G f b)) :
    let s := order.foldl (fun s f => backStep G c fuel f s)
      { data := d0, ready := readyAfter G c }
    s.raised = false ∧ s.visits.Nodup ∧ s.bad = [] ∧ s.reads.map Prod.fst = order ∧
      (∀ x, x ∈ s.reads → HasNeeded G c E x.1 x.2) ∧
      ∀ g, g ∈ s.visits → Recomputable G d0 g := by
  have h0 : Inv G c E d0 X [] ({ data := d0, ready := readyAfter G c } : RSt α) := by
    constructor
    · simp
    · simp
    · exact H.d0_val
    · intro v hv; exact Or.inl ⟨hv, by simp⟩
    · intro v hv; exact Or.inl hv
    · rfl
    · rfl
    · constructor
      · intro v; simp [seenAfter, uses]
      · simp
    · intro f _; rfl
  obtain ⟨h1, r, h2, h3, h4⟩ := backAll_spec H (fuel := fuel) order [] _ h0 hord (by simp) hp
  simp only at h2 ⊢
  refine ⟨h1.raised, h1.nodup, h1.bad, ?_, ?_, fun g hg => (h1.vis g hg).2⟩
  · rw [h2]; simpa using h3
  · rw [h2]; simpa using h4

/-- C86. For every acyclic graph without in-place functions and inactive inputs, any recompute
flags, forward with or without `clear_no_need_grad`, and then backward (clearing whatever it likes
of the outputs of the functions it has dealt with): the forward pass ends in a state `s'` from
which, provided
 * the data of an output that the backward of its own function needs either has the recompute flag,
   is persistent or protected, or is used by a function that cannot be recomputed (`own`), and
 * a random function that may be recomputed has an output with the recompute flag (`setup`),
backward visits what it visits without recomputation (C24), nothing is raised, no function is
recomputed twice, recomputation never reads cleared data, and every backward function finds, for
each gradient it has to compute, the data computed by forward as if nothing had been cleared. -/
theorem forward_backward_recompute_partial (G : Graph) (cfg : FCfg α) (depth : FnId → Nat)
    (hLay : Layered G depth) (hO : OutputsOk G)
    (hconv : ∀ v p, G.parent v = some p → v ∈ (G.fn p).outputs) (hRef : RefsOk G)
    (hact : ∀ f u b, (u, b) ∈ (G.fn f).inputs → b = true)
    (hni : ∀ f i, (G.fn f).inplace i = none)
    (harr : ∀ u v, cfg.arr u = cfg.arr v → u = v) (hnd : ∀ f, (G.fn f).outputs.Nodup)
    (hlen : ∀ f xs, (cfg.run f xs).length = (G.fn f).outputs.length)
    (hcb : cfg.clearBuffer = false)
    (v : VarId) (p : FnId) (hv : G.parent v = some p) (fuel : Nat) (hfuel : depth p < fuel)
    (s : VSt (FSt α)) (hc : s.closed = []) (ho : s.order = []) (hs : s.setups = [])
    (mem0 : ArrId → α) (he : s.ext = { mem := mem0 })
    (needSetup : FnId → Nat → Bool) (clr : FnId → VarId → Bool) (junk : α) :
    ∃ s', forward G (forwardCall G cfg) fuel v s = some s' ∧
      ∀ (_own : ∀ q (o : Nat) u, Depends G p q → s'.fng q = true → (G.fn q).outputs[o]? = some u →
          gradDependsOut (G.fn q) o = true →
          G.recompute u = true ∨ G.persistent u = true ∨ G.prohibitClear u = true ∨
            ((∃ g, Consumes G g u) → ∃ g, Consumes G g u ∧
              ∀ w, w ∈ (G.fn g).outputs → ¬Cleared s' w ∧ G.recompute w = false))
        (_setup : ∀ f o, Depends G p f → o < (G.fn f).outputs.length → needSetup f o = true →
          (∃ w, w ∈ (G.fn f).outputs ∧ (Cleared s' w ∨ G.recompute w = true)) →
          ∃ o' w, (G.fn f).outputs[o']? = some w ∧ G.recompute w = true ∧ needSetup f o' = true)
        (bfuel : Nat), s'.order.length ≤ bfuel →
        let c := rcfg G cfg needSetup clr junk s'
        let b := visitBackward G (BEnv.of G s') (backStep G c fuel) bfuel p (startR G cfg c s')
        b.open_ = [] ∧ BackOk G (BEnv.of G s') p b.order ∧
        b.ext.raised = false ∧ b.ext.visits.Nodup ∧ b.ext.bad = [] ∧
        b.ext.reads.map Prod.fst = b.order ∧
        ∀ x, x ∈ b.ext.reads →
          HasNeeded G c (fun u => (plain G cfg mem0 s'.order).1 (cfg.arr u)) x.1 x.2 := by
  obtain ⟨s', hs', hpass, _, hmem, hlog⟩ := forward_clear_safe_partial G cfg depth hLay hO hRef hact
    (fun a b h => by rw [harr a b h]; exact .refl _) v p hv fuel hfuel s hc ho hs mem0 he
  refine ⟨s', hs', ?_⟩
  intro hown hsetup bfuel hb
  simp only
  have hbef : ∀ f, f ∈ s'.order → ∀ q, Feeds G q f → Before s'.order q f :=
    fun f hf q hq => hpass.after f ((hpass.exact_ f).mp hf) q hq
  have hdd : ∀ f, GReach G (BEnv.of G s') p f → Depends G p f := by
    have htr : ∀ {a b c}, Depends G a b → Feeds G c b → Depends G a c := by
      intro a b c h hf
      induction h with
      | refl => exact .step hf (.refl _)
      | step h1 _ ih => exact .step h1 (ih hf)
    intro f hf
    induction hf with
    | root => exact .refl p
    | step _ _ hfe ih =>
      obtain ⟨u, hu, _, hup⟩ := hfe
      exact htr ih ⟨u, hu, hup⟩
  have hle : ∀ a b, Depends G a b → depth b ≤ depth a := by
    intro a b hab
    induction hab with
    | refl => exact Nat.le_refl _
    | step hf _ ih => have := hLay _ _ hf; omega
  obtain ⟨v1, v2, v3⟩ := visitBackward_ok G (BEnv.of G s')
    (backStep G (rcfg G cfg needSetup clr junk s') fuel) p (ranksOk_of_pass hpass) s'.order
    (fun f hf => (hpass.exact_ f).mpr (hdd f hf)) bfuel hb
    (startR G cfg (rcfg G cfg needSetup clr junk s') s')
  have H : Hyp G (rcfg G cfg needSetup clr junk s') depth
      (fun u => (plain G cfg mem0 s'.order).1 (cfg.arr u)) (dataAfter cfg s') (Depends G p) := by
    constructor
    · exact hLay
    · exact hO
    · exact hconv
    · exact hact
    · exact hni
    · exact hRef
    · intro f q hf hq
      have := hpass.after f hf q hq
      obtain ⟨a, b, hab⟩ := List.append_of_mem ((hpass.exact_ f).mpr hf)
      exact (hpass.exact_ q).mp (by rw [hab]; simp [this a b hab])
    · intro f hf
      exact plain_value hLay hO hact harr hnd hlen hpass.once hbef s'.order [] (by simp) f
        ((hpass.exact_ f).mpr hf)
    · intro f u hf hu hpar
      obtain ⟨⟨w, b⟩, hw, rfl⟩ := List.mem_map.mp hu
      obtain rfl := hact f w b hw
      have := hpass.var_rank f hf w hw
      simp only at hpar
      rw [hpar] at this
      exact this
    · intro u x hu
      have hnc : ¬Cleared s' u := by
        rw [← dataAfter_none (cfg := cfg)]; rw [hu]; simp
      have := hmem u (fun y hy hya => hnc ⟨y.1, by rw [← harr _ _ hya]; exact hy⟩)
      unfold dataAfter at hu
      split at hu
      · cases hu
      · rw [← this]; exact (Option.some.inj hu).symm
    · intro u hu
      obtain ⟨g, hg⟩ := dataAfter_none.mp hu
      obtain ⟨_, h2⟩ := hlog _ hg
      obtain ⟨_, _, h3, _, h4⟩ := h2 u rfl
      refine ⟨h3, ?_⟩
      cases hr : G.recompute u with
      | true => exact Or.inl rfl
      | false =>
        right
        intro k hk hng
        exact h4 hcb hr k ((hpass.exact_ k).mpr hk) hng
    · intro q o u hq hng hou hgd
      rcases hown q o u hq hng hou hgd with h | h | h | h
      · exact Or.inl h
      · exact Or.inr (Or.inl h)
      · exact Or.inr (Or.inr (Or.inl h))
      · right; right; right
        intro hex
        obtain ⟨g, hg1, hg2⟩ := h hex
        refine ⟨g, hg1, ?_⟩
        rintro ⟨w, hw, hw2⟩
        obtain ⟨a, b⟩ := hg2 w hw
        rcases hw2 with h | h
        · exact a (dataAfter_none.mp h)
        · rw [b] at h; cases h
    · intro f o hf ho' hns ⟨w, hw, hw2⟩
      obtain ⟨o', w', h1, h2, h3⟩ := hsetup f o hf ho' hns ⟨w, hw, by
        rcases hw2 with h | h
        · exact Or.inl (dataAfter_none.mp h)
        · exact Or.inr h⟩
      unfold readyAfter
      rw [List.any_eq_true]
      refine ⟨(w', o'), by rw [List.mem_zipIdx_iff_getElem?]; exact h1, ?_⟩
      simp only [h2, Bool.true_and]
      exact h3
  have hex := v2.exact_
  have := recompute_ok H fuel
    (visitBackward G (BEnv.of G s') (backStep G (rcfg G cfg needSetup clr junk s') fuel) bfuel p
      (startR G cfg (rcfg G cfg needSetup clr junk s') s')).order
    (fun f hf => by
      obtain ⟨a, b⟩ := (hex f).mp hf
      have hd := hdd f a
      exact ⟨hd, b, by have := hle _ _ hd; omega⟩)
    (by
      have h1 := v2.by_rank
      have h2 := v2.once
      rw [List.pairwise_iff_forall_sublist]
      intro b f hbf hdep
      have hfm := hbf.subset (show f ∈ [b, f] by simp)
      rcases pass_rank hpass hdep (hdd f ((hex f).mp hfm).1) with h | h
      · exact List.pairwise_iff_forall_sublist.mp h2 hbf h.symm
      · have := List.pairwise_iff_forall_sublist.mp h1 hbf
        simp only [BEnv.of] at this
        omega)
  rw [show (visitBackward G (BEnv.of G s') (backStep G (rcfg G cfg needSetup clr junk s') fuel) bfuel p
      (startR G cfg (rcfg G cfg needSetup clr junk s') s')).ext = _ from v3]
  exact ⟨v1, v2, this.1, this.2.1, this.2.2.1, this.2.2.2.1, this.2.2.2.2.1⟩

end Verif.Recompute
