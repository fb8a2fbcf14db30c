import Verif.NNGrad.Folds
/-
The main loop of `nn.grad`.
-/
namespace Verif.NNGrad
open Verif.Graph
variable {α : Type}

/-- Data fixed during the loop and what is known about it. `key f` is the rank under which `f` is
put in the open set, `F` the functions of the computation, `D` the sensitivities. -/
structure Ctx [AddCommMonoid α] (E : Env α) (N : Nat) (starts : List VarId) (wrt : List (Option VarId))
    (ch : List Nat) (key : FnId → Nat) (F : Finset FnId) (D : VarId → α) : Prop where
  wf : Wf E N
  sens : IsSens E starts F D
  wrtOk : WrtOk E wrt
  chOk : ∀ u, E.buf u ∈ ch ↔ ∃ w, some w ∈ wrt ∧ SuccPlus E w u
  refs : ∀ f v, Up E starts f → v ∈ E.ins f → f ∈ E.refs v
  keyStart : ∀ o p, o ∈ starts → E.G.parent o = some p → E.vrank o = key p
  keyStep : ∀ f v p, Up E starts f → v ∈ E.ins f → E.G.parent v = some p →
    E.frank p = key p ∧ key p < key f
  keyBound : ∀ f, Up E starts f → key f ≤ N
  startEnd : ∀ o p, o ∈ starts → E.G.parent o = some p → E.isEnd p = false
  vng : ∀ f v, Up E starts f → v ∈ E.ins f → some v ∈ wrt ∨ E.buf v ∈ ch → E.vng v = true
  fng : ∀ f v, Up E starts f → v ∈ E.ins f → some v ∈ wrt ∨ E.buf v ∈ ch → E.isEnd f = false →
    E.fng f = true
  noneConst : ∀ f i l l', (E.vjp f i l).isSome = (E.vjp f i l').isSome
  zero : ∀ f i, (E.vjp f i ((E.outs f).map (fun _ => 0))).getD 0 = 0
  endZero : ∀ f i l, E.isEnd f = true → (E.vjp f i l).getD 0 = 0

section
variable [AddCommMonoid α] {E : Env α} {N : Nat} {starts : List VarId} {wrt : List (Option VarId)}
  {ch : List Nat} {key : FnId → Nat} {F : Finset FnId} {D : VarId → α}

/-- The variables whose sensitivity matters: inputs and what is computed from them. -/
def Rv (E : Env α) (wrt : List (Option VarId)) (ch : List Nat) (v : VarId) : Prop :=
  some v ∈ wrt ∨ E.buf v ∈ ch

theorem Ctx.out_ch (C : Ctx E N starts wrt ch key F D) {f v} (hf : Up E starts f) (hv : v ∈ E.ins f)
    (hr : Rv E wrt ch v) (he : E.isEnd f = false) : ∀ o, o ∈ E.outs f → E.buf o ∈ ch := by
  intro o ho
  have hs : Succ E v o := ⟨f, C.refs f v hf hv, he, ho⟩
  rw [C.chOk]
  rcases hr with hr | hr
  · exact ⟨v, hr, .one hs⟩
  · obtain ⟨w, hw, hp⟩ := (C.chOk v).mp hr
    exact ⟨w, hw, hp.snoc hs⟩

theorem SuccPlus.last {E : Env α} {a b} (h : SuccPlus E a b) :
    ∃ u, (u = a ∨ SuccPlus E a u) ∧ Succ E u b := by
  induction h with
  | one h => exact ⟨_, .inl rfl, h⟩
  | cons h _ ih =>
    obtain ⟨u, hu, hs⟩ := ih
    rcases hu with rfl | hu
    · exact ⟨_, .inr (.one h), hs⟩
    · exact ⟨u, .inr (.cons h hu), hs⟩

/-- The producer of a relevant variable takes a relevant variable and is not a GradEndFunction. -/
theorem Ctx.ch_parent (C : Ctx E N starts wrt ch key F D) {v p} (hv : E.buf v ∈ ch)
    (hp : E.G.parent v = some p) : E.isEnd p = false ∧ ∃ u, u ∈ E.ins p ∧ Rv E wrt ch u := by
  obtain ⟨w, hw, hs⟩ := (C.chOk v).mp hv
  obtain ⟨u, hu, f, hf, he, ho⟩ := hs.last
  have hfp := (C.wf.out_parent f v).mp ho
  rw [hp] at hfp
  obtain rfl := Option.some.inj hfp
  refine ⟨he, u, C.wf.refs_ins u p hf, ?_⟩
  rcases hu with rfl | hu
  · exact .inl hw
  · exact .inr ((C.chOk u).mpr ⟨w, hw, hu⟩)

/-- Functions reached by gradients that are not `None`. -/
inductive Live (E : Env α) (starts : List VarId) (ch : List Nat) : FnId → Prop
  | root {o p} : o ∈ starts → E.G.parent o = some p → Live E starts ch p
  | step {f i v p} : Live E starts ch f → (E.ins f)[i]? = some v → (∀ l, (E.vjp f i l).isSome = true) →
      E.buf v ∈ ch → E.G.parent v = some p → Live E starts ch p

theorem Live.up {f} (h : Live E starts ch f) : Up E starts f := by
  induction h with
  | root h1 h2 => exact .root h1 h2
  | step _ h2 _ _ h5 ih => exact .step ih (List.mem_of_getElem? h2) h5

theorem contrib_not_mem {v f} (h : v ∉ E.ins f) : contrib E.G E.vjp D v f = 0 := by
  unfold contrib
  apply List.sum_eq_zero
  intro y hy
  rw [List.mem_map] at hy
  obtain ⟨x, hx, rfl⟩ := hy
  have hm := (List.mem_zipIdx_iff_getElem?.mp hx)
  have : x.1 ∈ E.ins f := List.mem_of_getElem? hm
  rw [if_neg (fun h' => h (by rw [← h']; exact this))]

theorem contrib_zero_of {v f} (h : ∀ i, (E.ins f)[i]? = some v →
    (E.vjp f i ((E.outs f).map D)).getD 0 = 0) : contrib E.G E.vjp D v f = 0 := by
  unfold contrib
  apply List.sum_eq_zero
  intro y hy
  rw [List.mem_map] at hy
  obtain ⟨x, hx, rfl⟩ := hy
  have hm := (List.mem_zipIdx_iff_getElem?.mp hx)
  by_cases hxv : x.1 = v
  · rw [if_pos hxv]
    exact h x.2 (by rw [hxv] at hm; exact hm)
  · rw [if_neg hxv]

/-- `g` passes a gradient to `v`. -/
def Passes (E : Env α) (starts : List VarId) (ch : List Nat) (g : FnId) (v : VarId) : Prop :=
  Live E starts ch g ∧ ∃ i, (E.ins g)[i]? = some v ∧ ∀ l, (E.vjp g i l).isSome = true

theorem Ctx.contrib_zero_aux (C : Ctx E N starts wrt ch key F D) {g v} (hg : Up E starts g)
    (hr : Rv E wrt ch v) (hn : ¬ Passes E starts ch g v)
    (hdead : ¬ Live E starts ch g → ∀ o, o ∈ E.outs g → E.buf o ∈ ch → D o = 0) :
    contrib E.G E.vjp D v g = 0 := by
  by_cases hv : v ∈ E.ins g
  · cases he : E.isEnd g with
    | true => exact contrib_zero_of (fun i _ => C.endZero g i _ he)
    | false =>
      by_cases hl : Live E starts ch g
      · apply contrib_zero_of
        intro i hi
        cases hs : E.vjp g i ((E.outs g).map D) with
        | none => rfl
        | some d =>
          exfalso
          apply hn
          refine ⟨hl, i, hi, fun l => ?_⟩
          rw [C.noneConst g i l ((E.outs g).map D), hs]
          rfl
      · have ho := C.out_ch hg hv hr he
        have : (E.outs g).map D = (E.outs g).map (fun _ => 0) :=
          List.map_congr_left (fun o h => hdead hl o h (ho o h))
        apply contrib_zero_of
        intro i _
        rw [this]
        exact C.zero g i
  · exact contrib_not_mem hv

theorem seed_zero {v} (h : v ∉ starts) :
    ((starts.filter (fun o => o == v)).map E.one).sum = 0 := by
  rw [List.filter_eq_nil_iff.mpr]
  · rfl
  · intro o ho
    simp only [beq_iff_eq]
    rintro rfl
    exact h ho

/-- The outputs of a function no gradient reaches have sensitivity zero. -/
theorem Ctx.dead (C : Ctx E N starts wrt ch key F D) : ∀ k f, N ≤ key f + k → Up E starts f →
    ¬ Live E starts ch f → ∀ o, o ∈ E.outs f → E.buf o ∈ ch → D o = 0 := by
  intro k
  induction k with
  | zero =>
    intro f hk hf hl o ho hc
    rw [C.sens.2 o]
    have hop := (C.wf.out_parent f o).mp ho
    have hns : o ∉ starts := fun h => hl (.root h hop)
    rw [seed_zero hns, zero_add]
    apply Finset.sum_eq_zero
    intro g hg
    have hgu := (C.sens.1 g).mp hg
    by_cases hog : o ∈ E.ins g
    · exfalso
      have := (C.keyStep g o f hgu hog hop).2
      have := C.keyBound g hgu
      omega
    · exact contrib_not_mem hog
  | succ k ih =>
    intro f hk hf hl o ho hc
    rw [C.sens.2 o]
    have hop := (C.wf.out_parent f o).mp ho
    have hns : o ∉ starts := fun h => hl (.root h hop)
    rw [seed_zero hns, zero_add]
    apply Finset.sum_eq_zero
    intro g hg
    have hgu := (C.sens.1 g).mp hg
    by_cases hog : o ∈ E.ins g
    · have hkg := (C.keyStep g o f hgu hog hop).2
      apply C.contrib_zero_aux hgu (.inr hc)
      · rintro ⟨hlg, i, hi, hs⟩
        exact hl (.step hlg hi hs hc hop)
      · intro hnl
        exact ih g (by omega) hgu hnl
    · exact contrib_not_mem hog

theorem Ctx.contrib_zero (C : Ctx E N starts wrt ch key F D) {g v} (hg : Up E starts g)
    (hr : Rv E wrt ch v) (hn : ¬ Passes E starts ch g v) : contrib E.G E.vjp D v g = 0 :=
  C.contrib_zero_aux hg hr hn (fun hl => C.dead N g (by omega) hg hl)

/-- Invariant of the loop: `P` is the set of the functions popped so far. -/
structure Inv (E : Env α) (starts : List VarId) (wrt : List (Option VarId)) (ch : List Nat)
    (key : FnId → Nat) (F : Finset FnId) (D : VarId → α) (P : Finset FnId) (s : St α) : Prop where
  ids : IdInv s
  opn : ∀ e, e ∈ s.opn → e.1 = key e.2.2 ∧ e.2.2 ∉ P ∧ Live E starts ch e.2.2 ∧ s.gv e.2.2 ≠ none ∧
    (∀ f, f ∈ P → key e.2.2 ≤ key f)
  sub : P ⊆ F
  cov : ∀ f, Live E starts ch f → f ∉ P → (∃ e, e ∈ s.opn ∧ e.2.2 = f) ∨
    ∃ g v, g ∉ P ∧ Passes E starts ch g v ∧ E.buf v ∈ ch ∧ E.G.parent v = some f
  gv : ∀ v q, E.buf v ∈ ch → E.G.parent v = some q → q ∉ P →
    gsum E s.gv q v = ((starts.filter (fun o => o == v)).map E.one).sum +
      ∑ f ∈ P, contrib E.G E.vjp D v f
  len : s.grads.length = wrt.length
  grads : ∀ (i : Nat) x, wrt[i]? = some (some x) → (∃ f, Up E starts f ∧ x ∈ E.ins f) →
    gval s.grads i = ∑ f ∈ P, contrib E.G E.vjp D x f
  idle : ∀ i : Nat, (∀ x, wrt[i]? = some (some x) → ∀ f, Up E starts f → x ∉ E.ins f) →
    gval s.grads i = 0

/-- A live function not popped yet is in the open set or follows something in it. -/
theorem Inv.cover (C : Ctx E N starts wrt ch key F D) {P s} (I : Inv E starts wrt ch key F D P s) :
    ∀ k f, N ≤ key f + k → Live E starts ch f → f ∉ P →
    (∃ e, e ∈ s.opn ∧ key f ≤ e.1) := by
  intro k
  induction k with
  | zero =>
    intro f hk hl hP
    rcases I.cov f hl hP with ⟨e, he, rfl⟩ | ⟨g, v, _, ⟨hlg, i, hi, _⟩, _, hp⟩
    · exact ⟨e, he, by rw [(I.opn e he).1]⟩
    · exfalso
      have := (C.keyStep g v f hlg.up (List.mem_of_getElem? hi) hp).2
      have := C.keyBound g hlg.up
      omega
  | succ k ih =>
    intro f hk hl hP
    rcases I.cov f hl hP with ⟨e, he, rfl⟩ | ⟨g, v, hgP, ⟨hlg, i, hi, _⟩, _, hp⟩
    · exact ⟨e, he, by rw [(I.opn e he).1]⟩
    · have := (C.keyStep g v f hlg.up (List.mem_of_getElem? hi) hp).2
      obtain ⟨e, he, hke⟩ := ih g (by omega) hlg hgP
      exact ⟨e, he, by omega⟩

/-- When `f` is popped, the sensitivities of its outputs are complete. -/
theorem Inv.outs_done (C : Ctx E N starts wrt ch key F D) {P s} (I : Inv E starts wrt ch key F D P s)
    {e} (he : e ∈ s.opn) (hbest : ∀ e', e' ∈ s.opn → e'.1 ≤ e.1) {o} (ho : o ∈ E.outs e.2.2)
    (hc : E.buf o ∈ ch) : gsum E s.gv e.2.2 o = D o := by
  have hop := (C.wf.out_parent _ o).mp ho
  obtain ⟨h1, h2, h3, _, _⟩ := I.opn e he
  rw [I.gv o _ hc hop h2, C.sens.2 o]
  congr 1
  apply Finset.sum_subset I.sub
  intro g hg hgP
  apply C.contrib_zero ((C.sens.1 g).mp hg) (.inr hc)
  rintro ⟨hlg, i, hi, _⟩
  have hk := (C.keyStep g o _ hlg.up (List.mem_of_getElem? hi) hop).2
  obtain ⟨e', he', hke⟩ := I.cover C N g (by omega) hlg hgP
  have := hbest e' he'
  omega

theorem zip_map_zipIdx {β γ : Type} (l : List β) (h : β × Nat → γ) :
    l.zip (l.zipIdx.map h) = l.zipIdx.map (fun x => (x.1, h x)) := by
  apply List.ext_getElem
  · simp
  · intro i h1 h2
    simp

theorem Live.notEnd (C : Ctx E N starts wrt ch key F D) {f} (h : Live E starts ch f) :
    E.isEnd f = false := by
  cases h with
  | root h1 h2 => exact C.startEnd _ _ h1 h2
  | step _ _ _ h4 h5 => exact (C.ch_parent h4 h5).1

/-- Another entry of the open set is another function. -/
theorem Inv.other {P s} (I : Inv E starts wrt ch key F D P s) {e e'} (he : e ∈ s.opn)
    (he' : e' ∈ s.opn.erase e) : e' ∈ s.opn ∧ e'.2.2 ≠ e.2.2 := by
  have hm := (List.Nodup.mem_erase_iff I.ids.opn).mp he'
  refine ⟨hm.2, ?_⟩
  intro h
  apply hm.1
  have h1 := I.ids.id e he
  have h2 := I.ids.id e' hm.2
  have hk1 := (I.opn e he).1
  have hk2 := (I.opn e' hm.2).1
  rw [h] at h2
  have hid : e'.2.1 = e.2.1 := by
    have hlt := (List.getElem?_eq_some_iff.mp h2).1
    exact (List.getElem?_inj hlt I.ids.nodup).mp (by rw [h1, h2])
  rw [h] at hk2
  exact Prod.ext (by rw [hk1, hk2]) (Prod.ext hid h)

theorem IdInv.erase {s : St α} (h : IdInv s) (e) : IdInv { s with opn := s.opn.erase e } :=
  ⟨h.nodup, h.opn.erase e, fun e' he' => h.id e' (List.mem_of_mem_erase he')⟩

theorem Ctx.given_contrib (C : Ctx E N starts wrt ch key F D) {f v} (hf : Live E starts ch f)
    (hr : Rv E wrt ch v) (gins : List α)
    (hg : (∀ o, o ∈ E.outs f → E.buf o ∈ ch) → gins = (E.outs f).map D) :
    given ((E.ins f).zip ((E.ins f).zipIdx.map (fun x => E.vjp f x.2 gins))) v =
      contrib E.G E.vjp D v f := by
  by_cases hv : v ∈ E.ins f
  · rw [hg (C.out_ch hf.up hv hr (hf.notEnd C)), zip_map_zipIdx]
    unfold given contrib
    rw [List.map_map]
    rfl
  · rw [contrib_not_mem hv, zip_map_zipIdx]
    unfold given
    apply List.sum_eq_zero
    intro y hy
    rw [List.map_map, List.mem_map] at hy
    obtain ⟨x, hx, rfl⟩ := hy
    have hm : x.1 ∈ E.ins f := List.mem_of_getElem? (List.mem_zipIdx_iff_getElem?.mp hx)
    simp only [Function.comp]
    rw [if_neg (fun h' => hv (by rw [← h']; exact hm))]

theorem loop_ok (C : Ctx E N starts wrt ch key F D) : ∀ n (P : Finset FnId) (s : St α),
    Inv E starts wrt ch key F D P s → F.card < n + P.card →
    ∃ s' P', loop E wrt ch n s = some s' ∧ Inv E starts wrt ch key F D P' s' ∧ s'.opn = [] := by
  intro n
  induction n with
  | zero =>
    intro P s I hn
    have := Finset.card_le_card I.sub
    omega
  | succ n ih =>
    intro P s I hn
    unfold loop
    cases hb : best s.opn with
    | none => exact ⟨s, P, rfl, I, (best_spec s.opn).1 hb⟩
    | some e =>
      obtain ⟨he, hbest⟩ := (best_spec s.opn).2 e hb
      obtain ⟨hkey, hnP, hlive, hgv, hmono⟩ := I.opn e he
      have hfF : e.2.2 ∈ F := (C.sens.1 _).mpr hlive.up
      have hcard : F.card < n + (insert e.2.2 P).card := by
        rw [Finset.card_insert_of_notMem hnP]; omega
      have hsub : insert e.2.2 P ⊆ F := Finset.insert_subset hfF I.sub
      have hpop : ∀ e', e' ∈ s.opn.erase e → e'.2.2 ∉ insert e.2.2 P ∧
          (∀ f, f ∈ insert e.2.2 P → key e'.2.2 ≤ key f) := by
        intro e' he'
        obtain ⟨hm, hne⟩ := I.other he he'
        obtain ⟨k1, k2, _, _, k5⟩ := I.opn e' hm
        refine ⟨by simp [hne, k2], ?_⟩
        intro f hf
        rcases Finset.mem_insert.mp hf with rfl | hf
        · have := hbest e' hm
          omega
        · exact k5 f hf
      have hstay : ∀ f, f ∉ insert e.2.2 P → (∃ e', e' ∈ s.opn ∧ e'.2.2 = f) →
          ∃ e', e' ∈ s.opn.erase e ∧ e'.2.2 = f := by
        rintro f hf ⟨e', he', rfl⟩
        refine ⟨e', (List.Nodup.mem_erase_iff I.ids.opn).mpr ⟨?_, he'⟩, rfl⟩
        rintro rfl
        exact hf (by simp)
      simp only
      by_cases hng : E.fng e.2.2 = false
      · rw [if_pos hng]
        have hno : ∀ v, Rv E wrt ch v → v ∉ E.ins e.2.2 := by
          intro v hr hv
          have := C.fng _ v hlive.up hv hr (hlive.notEnd C)
          rw [hng] at this
          cases this
        apply ih (insert e.2.2 P) _ ?_ hcard
        refine ⟨I.ids.erase e, ?_, hsub, ?_, ?_, I.len, ?_, I.idle⟩
        · intro e' he'
          obtain ⟨hm, _⟩ := I.other he he'
          obtain ⟨k1, _, k3, k4, _⟩ := I.opn e' hm
          exact ⟨k1, (hpop e' he').1, k3, k4, (hpop e' he').2⟩
        · intro f hl hf
          have hfP : f ∉ P := fun h => hf (by simp [h])
          rcases I.cov f hl hfP with h | ⟨g, v, hgP, hpass, hc, hp⟩
          · exact .inl (hstay f hf h)
          · right
            refine ⟨g, v, ?_, hpass, hc, hp⟩
            rw [Finset.mem_insert]
            rintro (rfl | h)
            · obtain ⟨_, i, hi, _⟩ := hpass
              exact hno v (.inr hc) (List.mem_of_getElem? hi)
            · exact hgP h
        · intro v q hc hp hq
          rw [I.gv v q hc hp (fun h => hq (by simp [h])), Finset.sum_insert hnP,
            contrib_not_mem (hno v (.inr hc)), zero_add]
        · intro i x hx hu
          rw [I.grads i x hx hu, Finset.sum_insert hnP,
            contrib_not_mem (hno x (.inl (List.mem_of_getElem? hx))), zero_add]
      · rw [if_neg hng]
        cases hm : s.gv e.2.2 with
        | none => exact absurd hm hgv
        | some m =>
          have hconn : connect E s.gv e.2.2 = some (((E.ins e.2.2).zip ((E.ins e.2.2).zipIdx.map
              (fun x => E.vjp e.2.2 x.2 ((E.outs e.2.2).map (fun o => gradIn (m (E.buf o))))))).foldl
              (putGrad E) (upd s.gv e.2.2 none), (E.ins e.2.2).zipIdx.map
              (fun x => E.vjp e.2.2 x.2 ((E.outs e.2.2).map (fun o => gradIn (m (E.buf o)))))) := by
            unfold connect
            rw [hm]
          simp only [hconn]
          have hgins : (∀ o, o ∈ E.outs e.2.2 → E.buf o ∈ ch) →
              (E.outs e.2.2).map (fun o => gradIn (m (E.buf o))) = (E.outs e.2.2).map D := by
            intro hc
            apply List.map_congr_left
            intro o ho
            rw [gradIn_eq, ← I.outs_done C he hbest ho (hc o ho)]
            simp [gsum, hm]
          generalize (E.outs e.2.2).map (fun o => gradIn (m (E.buf o))) = gins at hgins
          have hgs : ∀ x, x ∈ (E.ins e.2.2).zip ((E.ins e.2.2).zipIdx.map
              (fun x => E.vjp e.2.2 x.2 gins)) ↔
              ∃ i, (E.ins e.2.2)[i]? = some x.1 ∧ x.2 = E.vjp e.2.2 i gins := by
            intro x
            rw [zip_map_zipIdx, List.mem_map]
            constructor
            · rintro ⟨y, hy, rfl⟩
              exact ⟨y.2, List.mem_zipIdx_iff_getElem?.mp hy, rfl⟩
            · rintro ⟨i, hi, hx⟩
              exact ⟨(x.1, i), List.mem_zipIdx_iff_getElem?.mpr hi, Prod.ext rfl hx.symm⟩
          have hgc := fun v (hr : Rv E wrt ch v) => C.given_contrib hlive hr gins hgins
          generalize (E.ins e.2.2).zip ((E.ins e.2.2).zipIdx.map
              (fun x => E.vjp e.2.2 x.2 gins)) = gs at hgs hgc
          have hids2 : IdInv (St.mk (s.opn.erase e) s.ids (gs.foldl (putGrad E) (upd s.gv e.2.2 none))
              (gs.foldl (accGrad E wrt) s.grads)) :=
            ⟨I.ids.nodup, I.ids.opn.erase e, fun e' he' => I.ids.id e' (List.mem_of_mem_erase he')⟩
          obtain ⟨b1, b2, b3, b4, b5, b6⟩ := pushDowns_spec (E := E) (ch := ch) gs hids2
          apply ih (insert e.2.2 P) _ ?_ hcard
          refine ⟨b1, ?_, hsub, ?_, ?_, ?_, ?_, ?_⟩
          · intro e' he'
            rw [b2]
            rcases b6 e' he' with h | ⟨x, hx, hop, hfr⟩
            · obtain ⟨hm', hne⟩ := I.other he h
              obtain ⟨k1, _, k3, k4, _⟩ := I.opn e' hm'
              refine ⟨k1, (hpop e' h).1, k3, ?_, (hpop e' h).2⟩
              apply putGrads_some
              left
              simp only [upd, if_neg hne]
              exact k4
            · obtain ⟨i, hi, hxi⟩ := (hgs x).mp hx
              have hin := List.mem_of_getElem? hi
              obtain ⟨k1, k2⟩ := C.keyStep e.2.2 x.1 e'.2.2 hlive.up hin hop.2.2.2
              refine ⟨by rw [hfr, k1], ?_, ?_, ?_, ?_⟩
              · rw [Finset.mem_insert]
                rintro (h | h)
                · rw [h] at k2; omega
                · have := hmono _ h; omega
              · refine .step hlive hi ?_ hop.1 hop.2.2.2
                intro l
                rw [C.noneConst e.2.2 i l gins, ← hxi]
                exact hop.2.2.1
              · apply putGrads_some
                exact .inr ⟨x, hx, hop.2.2.1, hop.2.2.2⟩
              · intro f hf
                rcases Finset.mem_insert.mp hf with rfl | hf
                · omega
                · have := hmono _ hf; omega
          · intro f hl hf
            have hfP : f ∉ P := fun h => hf (by simp [h])
            rcases I.cov f hl hfP with h | ⟨g, v, hgP, hpass, hc, hp⟩
            · obtain ⟨e', he', hef⟩ := hstay f hf h
              exact .inl ⟨e', b4 e' he', hef⟩
            · by_cases hge : g = e.2.2
              · left
                subst hge
                obtain ⟨_, i, hi, hs⟩ := hpass
                exact b5 (v, E.vjp e.2.2 i gins) f ((hgs _).mpr ⟨i, hi, rfl⟩)
                  ⟨hc, C.vng _ v hlive.up (List.mem_of_getElem? hi) (.inr hc), hs gins, hp⟩
              · exact .inr ⟨g, v, by simp [hge, hgP], hpass, hc, hp⟩
          · intro v q hc hp hq
            rw [b2]
            rw [putGrads_gsum C.wf gs hp, Finset.sum_insert hnP, hgc v (.inr hc)]
            have hqe : q ≠ e.2.2 := fun h => hq (by simp [h])
            have hqP : q ∉ P := fun h => hq (by simp [h])
            have : gsum E (upd s.gv e.2.2 none) q v = gsum E s.gv q v := by
              simp [gsum, upd, hqe]
            rw [this, I.gv v q hc hp hqP]
            rw [add_assoc, add_comm (contrib E.G E.vjp D v e.2.2)]
          · rw [b3]
            simp only [accGrads_len]
            exact I.len
          · intro i x hx hu
            rw [b3]
            obtain ⟨f0, hf0, hxf0⟩ := hu
            have hr : Rv E wrt ch x := .inl (List.mem_of_getElem? hx)
            have hng' := C.vng f0 x hf0 hxf0 hr
            simp only
            rw [(accGrads_gval C.wf C.wrtOk gs hx hng' s.grads I.len).2, I.grads i x hx ⟨f0, hf0, hxf0⟩,
              Finset.sum_insert hnP, hgc x hr, add_comm]
          · intro i hi
            rw [b3, ← I.idle i hi]
            simp only [gval]
            rw [accGrads_idle gs]
            intro x hx hxi
            obtain ⟨j, hj, _⟩ := (hgs x).mp hx
            exact hi x.1 ((wrtIdx_spec C.wf C.wrtOk x.1 i).mp hxi) _ hlive.up (List.mem_of_getElem? hj)

end
end Verif.NNGrad
