import Verif.NNGrad.Main
/-
C70: `nn.grad` returns the sum over the outputs of the gradients with respect to each input.
-/
namespace Verif.NNGrad
open Verif.Graph
variable {α : Type} [AddCommMonoid α]

/-- What a call `nn.grad(outputs, inputs)` needs (`outs`: each output with the variable the pass starts
from; `N` bounds the ranks). -/
structure GradOk (E : Env α) (N : Nat) (outs : List (VarId × VarId)) (inputs : List VarId) : Prop where
  wf : Wf E N
  /-- variables know the functions that take them -/
  refs : ∀ f v, Up E (outs.map Prod.snd) f → v ∈ E.ins f → f ∈ E.refs v
  /-- every output is computed by a function; its rank is the one of that function (as after a
  forward pass) or no function of the computation takes a variable of that function -/
  start : ∀ o, o ∈ outs.map Prod.snd → ∃ p, E.G.parent o = some p ∧ E.isEnd p = false ∧
    (E.vrank o = E.frank p ∨ (E.frank p < E.vrank o ∧ E.vrank o ≤ N ∧
      ∀ f v, Up E (outs.map Prod.snd) f → v ∈ E.ins f → E.G.parent v ≠ some p))
  /-- the outputs are computed by different functions -/
  distinct : (outs.map Prod.snd).Pairwise (fun a b => E.G.parent a ≠ E.G.parent b)
  nodup : inputs.Nodup
  notStart : ∀ x, x ∈ inputs → x ∉ outs.map Prod.snd
  found : ∀ x, x ∈ inputs → Used E (outs.map Prod.snd) x → ∃ o, o ∈ outs.map Prod.fst ∧ PredPlus E o x
  /-- inputs and what is computed from them require gradients -/
  vng : ∀ x v, x ∈ inputs → v = x ∨ SuccPlus E x v → Used E (outs.map Prod.snd) v → E.vng v = true
  fng : ∀ x v f, x ∈ inputs → v = x ∨ SuccPlus E x v → Up E (outs.map Prod.snd) f → v ∈ E.ins f →
    E.isEnd f = false → E.fng f = true
  /-- backward functions: whether a gradient is `None` does not depend on the data, zero gives zero,
  a GradEndFunction gives zero -/
  noneConst : ∀ f i l l', (E.vjp f i l).isSome = (E.vjp f i l').isSome
  zero : ∀ f i, (E.vjp f i ((E.outs f).map (fun _ => 0))).getD 0 = 0
  endZero : ∀ f i l, E.isEnd f = true → (E.vjp f i l).getD 0 = 0

/-- State after the loop over the outputs. -/
structure InitInv (E : Env α) (done : List VarId) (s : St α) : Prop where
  ids : IdInv s
  opn : ∀ e, e ∈ s.opn → ∃ o, o ∈ done ∧ E.G.parent o = some e.2.2 ∧ e.1 = E.vrank o
  mem : ∀ o p, o ∈ done → E.G.parent o = some p → ∃ e, e ∈ s.opn ∧ e.2.2 = p
  gv : ∀ o p, o ∈ done → E.G.parent o = some p →
    s.gv p = some (fun b => if b = E.buf o then [E.one o] else [])
  none : ∀ q, (∀ o, o ∈ done → E.G.parent o ≠ some q) → s.gv q = none

theorem init_ok {E : Env α} : ∀ (l done : List VarId) (s : St α), InitInv E done s →
    (∀ o, o ∈ l → ∃ p, E.G.parent o = some p) →
    (done ++ l).Pairwise (fun a b => E.G.parent a ≠ E.G.parent b) →
    ∃ s', l.foldl (initStep E) (some s) = some s' ∧ InitInv E (done ++ l) s' := by
  intro l
  induction l with
  | nil => intro done s h _ _; exact ⟨s, rfl, by simpa using h⟩
  | cons o l ih =>
    intro done s h hp hpw
    obtain ⟨p, hop⟩ := hp o (by simp)
    rw [List.foldl_cons]
    have hstep : initStep E (some s) o = some { push s (E.vrank o) p with
        gv := upd (push s (E.vrank o) p).gv p (some (fun b => if b = E.buf o then [E.one o] else [])) } := by
      unfold initStep
      rw [hop]
    rw [hstep]
    obtain ⟨m1, m2, m3⟩ := push_mem (s := s) (r := E.vrank o) (f := p)
    have hid := push_idInv h.ids (E.vrank o) p
    have hpw' : (done ++ [o] ++ l).Pairwise (fun a b => E.G.parent a ≠ E.G.parent b) := by
      simpa using hpw
    have hdiff : ∀ o', o' ∈ done → E.G.parent o' ≠ some p := by
      intro o' ho'
      have := (List.pairwise_append.mp hpw).2.2 o' ho' o (by simp)
      rw [hop] at this
      exact this
    have hnew := ih (done ++ [o]) { push s (E.vrank o) p with
        gv := upd (push s (E.vrank o) p).gv p (some (fun b => if b = E.buf o then [E.one o] else [])) }
      ?_ (fun o h => hp o (by simp [h])) hpw'
    · simpa using hnew
    · refine ⟨⟨hid.nodup, hid.opn, hid.id⟩, ?_, ?_, ?_, ?_⟩
      · intro e he
        rcases m3 e he with he | ⟨h1, h2⟩
        · obtain ⟨o', ho', h'⟩ := h.opn e he
          exact ⟨o', by simp [ho'], h'⟩
        · exact ⟨o, by simp, by rw [h2, hop], h1⟩
      · intro o' q ho' hq
        rcases List.mem_append.mp ho' with ho' | ho'
        · obtain ⟨e, he, heq⟩ := h.mem o' q ho' hq
          exact ⟨e, m1 e he, heq⟩
        · simp only [List.mem_singleton] at ho'
          subst ho'
          rw [hop] at hq
          cases hq
          obtain ⟨e, he, _, h2⟩ := m2
          exact ⟨e, he, h2⟩
      · intro o' q ho' hq
        rcases List.mem_append.mp ho' with ho' | ho'
        · have hqp : q ≠ p := by
            rintro rfl
            exact hdiff o' ho' hq
          simp only [upd, if_neg hqp]
          exact h.gv o' q ho' hq
        · simp only [List.mem_singleton] at ho'
          subst ho'
          rw [hop] at hq
          cases hq
          simp [upd]
      · intro q hq
        have hqp : q ≠ p := by
          rintro rfl
          exact hq o (by simp) hop
        simp only [upd, if_neg hqp]
        exact h.none q (fun o' ho' => hq o' (by simp [ho']))

theorem predPlus_used {E : Env α} {starts : List VarId} {o x} (ho : o ∈ starts) (h : PredPlus E o x) :
    Used E starts x := by
  have : ∀ {u v}, PredPlus E u v → (∀ p, E.G.parent u = some p → Up E starts p) → Used E starts v := by
    intro u v huv
    induction huv with
    | one h =>
      intro hu
      obtain ⟨p, hp, hv⟩ := h
      exact ⟨p, hu p hp, hv⟩
    | cons h _ ih =>
      intro hu
      obtain ⟨p, hp, hv⟩ := h
      exact ih (fun q hq => .step (hu p hp) hv hq)
  exact this h (fun p hp => .root ho hp)

theorem used_predPlus {E : Env α} {starts : List VarId} {x} (h : Used E starts x) :
    ∃ o, o ∈ starts ∧ PredPlus E o x := by
  obtain ⟨f, hf, hx⟩ := h
  have : ∀ f, Up E starts f → ∃ o u, o ∈ starts ∧ (u = o ∨ PredPlus E o u) ∧ E.G.parent u = some f := by
    intro f hf
    induction hf with
    | @root o p h1 h2 => exact ⟨o, o, h1, .inl rfl, h2⟩
    | @step g v p _ hv hp ih =>
      obtain ⟨o, u, ho, hu, hpu⟩ := ih
      refine ⟨o, v, ho, .inr ?_, hp⟩
      have hs : Pred E u v := ⟨g, hpu, hv⟩
      rcases hu with rfl | hu
      · exact .one hs
      · have : ∀ {a b}, PredPlus E a b → ∀ {c}, Pred E b c → PredPlus E a c := by
          intro a b hab
          induction hab with
          | one h => intro c hc; exact .cons h (.one hc)
          | cons h _ ih => intro c hc; exact .cons h (ih hc)
        exact this hu hs
  obtain ⟨o, u, ho, hu, hpu⟩ := this f hf
  have hs : Pred E u x := ⟨f, hpu, hx⟩
  refine ⟨o, ho, ?_⟩
  rcases hu with rfl | hu
  · exact .one hs
  · have : ∀ {a b}, PredPlus E a b → ∀ {c}, Pred E b c → PredPlus E a c := by
      intro a b hab
      induction hab with
      | one h => intro c hc; exact .cons h (.one hc)
      | cons h _ ih => intro c hc; exact .cons h (ih hc)
    exact this hu hs

open Classical in
/-- C70. For every graph (any shapes of sharing, multi-output functions, inputs used several times,
gradients that are `None`, higher-order gradients), every list of outputs and every list of inputs
satisfying `GradOk`, `nn.grad` raises nothing and returns, for every input, the sum over the outputs
of the gradients of the output with respect to that input: the value `D` of the adjoint equations.
Missing for the full claim: outputs computed by the same function, inputs that are outputs, repeated
inputs, an output used to compute another one when no forward was executed, unlinked variables
sharing one buffer; all these are refuted below. -/
theorem nn_grad_sum_partial (E : Env α) (N : Nat) (outs : List (VarId × VarId)) (inputs : List VarId)
    (H : GradOk E N outs inputs) (F : Finset FnId) (D : VarId → α)
    (hD : IsSens E (outs.map Prod.snd) F D) (fuel : Nat) (hfN : N + 1 ≤ fuel) (hfF : F.card < fuel) :
    ∃ res, grad E fuel outs inputs = some res ∧ res.length = inputs.length ∧
      ∀ (i : Nat) x, inputs[i]? = some x → ∃ r, res[i]? = some r ∧ r.getD 0 = D x := by
  generalize hst : outs.map Prod.snd = starts at *
  have Hstart := H.start
  have Hdist := H.distinct
  rw [hst] at Hstart Hdist
  -- the loop over the outputs
  obtain ⟨s, hs, hI⟩ := init_ok starts [] ({} : St α)
    ⟨⟨by simp, by simp, by simp⟩, by simp, by simp, by simp, fun _ _ => rfl⟩
    (fun o ho => by obtain ⟨p, hp, _⟩ := Hstart o ho; exact ⟨p, hp⟩)
    (by simpa using Hdist)
  rw [List.nil_append] at hI
  unfold grad
  rw [hst, hs]
  simp only
  obtain ⟨hwl, hws⟩ := corrVars_spec H.wf H.nodup (fuel := fuel) (by omega) (outs.map Prod.fst)
  generalize corrVars E fuel inputs (outs.map Prod.fst) = wrt at *
  have hch := mem_children H.wf hfN wrt
  generalize children E fuel wrt = ch at *
  have hwi : ∀ (i : Nat) x, wrt[i]? = some (some x) → inputs[i]? = some x := by
    intro i x hx
    have hlt : i < inputs.length := by rw [← hwl]; exact (List.getElem?_eq_some_iff.mp hx).1
    have hg := List.getElem?_eq_getElem hlt
    rcases hws i _ hg with ⟨h, _⟩ | ⟨h, _⟩
    · rw [hx] at h; cases h; exact hg
    · rw [hx] at h; cases h
  have hwin : ∀ x, some x ∈ wrt → x ∈ inputs := by
    intro x hx
    obtain ⟨i, hi⟩ := List.getElem?_of_mem hx
    exact List.mem_of_getElem? (hwi i x hi)
  have hR : ∀ v, some v ∈ wrt ∨ E.buf v ∈ ch → ∃ x, x ∈ inputs ∧ (v = x ∨ SuccPlus E x v) := by
    rintro v (h | h)
    · exact ⟨v, hwin v h, .inl rfl⟩
    · obtain ⟨w, hw, hp⟩ := (hch v).mp h
      exact ⟨w, hwin w hw, .inr hp⟩
  -- the keys
  let key : FnId → Nat := fun f =>
    if h : ∃ o, o ∈ starts ∧ E.G.parent o = some f then E.vrank h.choose else E.frank f
  have huniq : ∀ o o' p, o ∈ starts → o' ∈ starts → E.G.parent o = some p → E.G.parent o' = some p →
      o = o' := by
    intro o o' p ho ho' hp hp'
    obtain ⟨i, hi⟩ := List.getElem?_of_mem ho
    obtain ⟨j, hj⟩ := List.getElem?_of_mem ho'
    obtain ⟨hil, hi⟩ := List.getElem?_eq_some_iff.mp hi
    obtain ⟨hjl, hj⟩ := List.getElem?_eq_some_iff.mp hj
    have hpw := List.pairwise_iff_getElem.mp Hdist
    rcases Nat.lt_trichotomy i j with h | h | h
    · have := hpw i j hil hjl h
      rw [hi, hj, hp, hp'] at this
      exact absurd rfl this
    · subst h
      rw [← hi, ← hj]
    · have := hpw j i hjl hil h
      rw [hi, hj, hp, hp'] at this
      exact absurd rfl this
  have hkS : ∀ o p, o ∈ starts → E.G.parent o = some p → E.vrank o = key p := by
    intro o p ho hp
    have hex : ∃ o, o ∈ starts ∧ E.G.parent o = some p := ⟨o, ho, hp⟩
    simp only [key, dif_pos hex]
    rw [huniq o hex.choose p ho hex.choose_spec.1 hp hex.choose_spec.2]
  have hkge : ∀ f, E.frank f ≤ key f := by
    intro f
    simp only [key]
    split
    · rename_i hex
      obtain ⟨p, hp, _, h⟩ := Hstart _ hex.choose_spec.1
      rw [hex.choose_spec.2] at hp
      cases hp
      rcases h with h | h <;> omega
    · exact Nat.le_refl _
  have C : Ctx E N starts wrt ch key F D := by
    refine ⟨H.wf, hD, ?_, hch, fun f v hf => H.refs f v (hst ▸ hf), hkS, ?_, ?_, ?_, ?_, ?_, H.noneConst,
      H.zero, H.endZero⟩
    · intro i j x hi hj
      have h1 := hwi i x hi
      have h2 := hwi j x hj
      exact (List.getElem?_inj (List.getElem?_eq_some_iff.mp h1).1 H.nodup).mp (by rw [h1, h2])
    · intro f v p hf hv hp
      have hk : E.frank p = key p := by
        by_cases hex : ∃ o, o ∈ starts ∧ E.G.parent o = some p
        · obtain ⟨o, ho, hop⟩ := hex
          rw [← hkS o p ho hop]
          obtain ⟨q, hq, _, h⟩ := Hstart o ho
          rw [hop] at hq
          cases hq
          rcases h with h | ⟨_, _, h⟩
          · exact h.symm
          · exact absurd hp (h f v hf hv)
        · simp only [key, dif_neg hex]
      refine ⟨hk, ?_⟩
      have := H.wf.rank f v p hv hp
      have := hkge f
      omega
    · intro f hf
      simp only [key]
      split
      · rename_i hex
        obtain ⟨p, hp, _, h⟩ := Hstart _ hex.choose_spec.1
        have := H.wf.bound p
        rcases h with h | h <;> omega
      · exact Nat.le_of_lt (H.wf.bound f)
    · intro o p ho hp
      obtain ⟨q, hq, he, _⟩ := Hstart o ho
      rw [hp] at hq
      cases hq
      exact he
    · intro f v hf hv hr
      obtain ⟨x, hx, h⟩ := hR v hr
      exact H.vng x v hx h ⟨f, hst ▸ hf, hv⟩
    · intro f v hf hv hr he
      obtain ⟨x, hx, h⟩ := hR v hr
      exact H.fng x v f hx h (hst ▸ hf) hv he
  have hnd : starts.Nodup := by
    rw [List.nodup_iff_pairwise_ne]
    exact Hdist.imp (fun h h' => h (by rw [h']))
  have I : Inv E starts wrt ch key F D ∅ { s with grads := wrt.map (fun _ => none) } := by
    refine ⟨⟨hI.ids.nodup, hI.ids.opn, hI.ids.id⟩, ?_, by simp, ?_, ?_, by simp, ?_, ?_⟩
    · intro e he
      obtain ⟨o, ho, hp, hr⟩ := hI.opn e he
      refine ⟨by rw [hr, hkS o _ ho hp], by simp, .root ho hp, ?_, by simp⟩
      simp only
      rw [hI.gv o _ ho hp]
      simp
    · intro f hl _
      cases hl with
      | root h1 h2 => exact .inl (hI.mem _ _ h1 h2)
      | @step g i v p hl hi hs hc hp => exact .inr ⟨g, v, by simp, ⟨hl, i, hi, hs⟩, hc, hp⟩
    · intro v q hc hp _
      simp only [Finset.sum_empty, add_zero, gsum]
      by_cases hv : v ∈ starts
      · rw [hI.gv v q hv hp, List.filter_beq, List.count_eq_one_of_mem hnd hv]
        simp
      · rw [seed_zero hv]
        by_cases hex : ∃ o, o ∈ starts ∧ E.G.parent o = some q
        · obtain ⟨o, ho, hoq⟩ := hex
          have : E.buf v ≠ E.buf o := fun h => hv (by rw [H.wf.buf_inj _ _ h]; exact ho)
          rw [hI.gv o q ho hoq]
          simp [this]
        · rw [hI.none q (fun o ho h => hex ⟨o, ho, h⟩)]
          simp
    · intro i x hx _
      simp only [Finset.sum_empty, gval]
      rw [List.getElem?_map]
      cases wrt[i]? <;> rfl
    · intro i _
      simp only [gval]
      rw [List.getElem?_map]
      cases wrt[i]? <;> rfl
  obtain ⟨s', P, hl, I', ho⟩ := loop_ok C fuel ∅ _ I (by simpa using hfF)
  rw [hl]
  refine ⟨s'.grads, rfl, by rw [I'.len, hwl], ?_⟩
  intro i x hx
  have hlt : i < s'.grads.length := by
    rw [I'.len, hwl]; exact (List.getElem?_eq_some_iff.mp hx).1
  refine ⟨s'.grads[i], List.getElem?_eq_getElem hlt, ?_⟩
  have hxs : x ∉ starts := hst ▸ H.notStart x (List.mem_of_getElem? hx)
  have hgv : gval s'.grads i = (s'.grads[i]).getD 0 := by
    unfold gval
    rw [List.getElem?_eq_getElem hlt]
    rfl
  by_cases hu : Used E starts x
  · rcases hws i x hx with ⟨hw, _⟩ | ⟨_, hn⟩
    · rw [← hgv, I'.grads i x hw hu, hD.2 x, seed_zero hxs, zero_add]
      apply Finset.sum_subset I'.sub
      intro g hg hgP
      apply C.contrib_zero ((hD.1 g).mp hg) (.inl (List.mem_of_getElem? hw))
      rintro ⟨hlg, _⟩
      obtain ⟨e, he, _⟩ := I'.cover C N g (by omega) hlg hgP
      rw [ho] at he
      simp at he
    · exact absurd (H.found x (List.mem_of_getElem? hx) (hst ▸ hu)) hn
  · -- not used: never touched
    have hDx : D x = 0 := by
      rw [hD.2 x, seed_zero hxs, zero_add]
      apply Finset.sum_eq_zero
      intro g hg
      exact contrib_not_mem (fun h => hu ⟨g, (hD.1 g).mp hg, h⟩)
    rw [hDx, ← hgv]
    apply I'.idle
    intro y hy f hf hyf
    have := hwi i y hy
    rw [hx] at this
    cases this
    exact hu ⟨f, hf, hyf⟩

end Verif.NNGrad
