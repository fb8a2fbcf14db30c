import Verif.NNGrad.Dfs
/-
The loops of `nn.grad`: what one iteration does to the open set, `grad_vars` and `grads`.
-/
namespace Verif.NNGrad
open Verif.Graph
variable {α : Type}

theorem gradIn_eq [AddCommMonoid α] (l : List α) : gradIn l = l.sum := by
  match l with
  | [] => rfl
  | [a] => simp [gradIn]
  | a :: b :: l => rfl

/-- Sum of the gradients waiting for `v` at its producer `q`. -/
def gsum [AddCommMonoid α] (E : Env α) (gv : GV α) (q : FnId) (v : VarId) : α :=
  (((gv q).getD (fun _ => [])) (E.buf v)).sum

/-- What a list of (input, gradient) pairs gives to `v`. -/
def given [AddCommMonoid α] (gs : List (VarId × Option α)) (v : VarId) : α :=
  (gs.map (fun x => if x.1 = v then x.2.getD 0 else 0)).sum

theorem putGrad_gsum [AddCommMonoid α] {E : Env α} {N : Nat} (W : Wf E N) (gv : GV α)
    (x : VarId × Option α) {q : FnId} {v : VarId} (hq : E.G.parent v = some q) :
    gsum E (putGrad E gv x) q v = gsum E gv q v + (if x.1 = v then x.2.getD 0 else 0) := by
  obtain ⟨u, g⟩ := x
  unfold putGrad
  cases g with
  | none => simp
  | some d =>
    simp only
    by_cases huv : u = v
    · subst huv
      rw [hq]
      simp [gsum, upd]
    · simp only [huv, if_false, add_zero]
      cases hu : E.G.parent u with
      | none => rfl
      | some p =>
        have hb : E.buf v ≠ E.buf u := fun h => huv (W.buf_inj _ _ h).symm
        by_cases hpq : q = p
        · subst hpq
          simp [gsum, upd, hb]
        · simp [gsum, upd, hpq]

theorem putGrads_gsum [AddCommMonoid α] {E : Env α} {N : Nat} (W : Wf E N) (gs : List (VarId × Option α))
    {q : FnId} {v : VarId} (hq : E.G.parent v = some q) : ∀ gv : GV α,
    gsum E (gs.foldl (putGrad E) gv) q v = gsum E gv q v + given gs v := by
  induction gs with
  | nil => intro gv; simp [given]
  | cons x gs ih =>
    intro gv
    rw [List.foldl_cons, ih, putGrad_gsum W gv x hq]
    simp only [given, List.map_cons, List.sum_cons, add_assoc]

theorem putGrad_some {E : Env α} (gv : GV α) (x : VarId × Option α) {q : FnId}
    (h : gv q ≠ none ∨ (x.2.isSome = true ∧ E.G.parent x.1 = some q)) : putGrad E gv x q ≠ none := by
  obtain ⟨u, g⟩ := x
  unfold putGrad
  cases g with
  | none => simpa using h
  | some d =>
    simp only
    cases hu : E.G.parent u with
    | none => simpa [hu] using h
    | some p =>
      simp only [upd]
      by_cases hqp : q = p
      · simp [hqp]
      · rw [if_neg hqp]
        rcases h with h | h
        · exact h
        · exfalso
          rw [hu] at h
          exact hqp (Option.some.inj h.2).symm

theorem putGrads_some {E : Env α} (gs : List (VarId × Option α)) {q : FnId} : ∀ gv : GV α,
    (gv q ≠ none ∨ ∃ x, x ∈ gs ∧ x.2.isSome = true ∧ E.G.parent x.1 = some q) →
    gs.foldl (putGrad E) gv q ≠ none := by
  induction gs with
  | nil => intro gv h; simpa using h
  | cons x gs ih =>
    intro gv h
    rw [List.foldl_cons]
    apply ih
    rcases h with h | ⟨y, hy, hs⟩
    · exact .inl (putGrad_some gv x (.inl h))
    · rcases List.mem_cons.mp hy with rfl | hy
      · exact .inl (putGrad_some gv y (.inr hs))
      · exact .inr ⟨y, hy, hs⟩

/-- Value of the gradient accumulated at position `i`. -/
def gval [Zero α] (grads : List (Option α)) (i : Nat) : α := (grads[i]?.getD none).getD 0

theorem accGrad_len [Add α] {E : Env α} {wrt : List (Option VarId)} (grads : List (Option α))
    (x : VarId × Option α) : (accGrad E wrt grads x).length = grads.length := by
  unfold accGrad
  split
  · split <;> simp
  · rfl

/-- Each input was found at one position only. -/
def WrtOk (E : Env α) (wrt : List (Option VarId)) : Prop :=
  ∀ (i j : Nat) x, wrt[i]? = some (some x) → wrt[j]? = some (some x) → i = j

theorem wrtIdx_spec {E : Env α} {N : Nat} (W : Wf E N) {wrt : List (Option VarId)} (h : WrtOk E wrt)
    (v : VarId) (i : Nat) : wrtIdx E wrt v = some i ↔ wrt[i]? = some (some v) := by
  unfold wrtIdx
  rw [List.findIdx?_eq_some_iff_getElem]
  constructor
  · rintro ⟨hlt, hp, _⟩
    rw [List.getElem?_eq_getElem hlt]
    cases hw : wrt[i] with
    | none => rw [hw] at hp; simp at hp
    | some w =>
      rw [hw] at hp
      simp only [beq_iff_eq] at hp
      rw [W.buf_inj _ _ hp]
  · intro hw
    obtain ⟨hlt, hw'⟩ := List.getElem?_eq_some_iff.mp hw
    refine ⟨hlt, by rw [hw']; simp, ?_⟩
    intro j hj
    have hjl : j < wrt.length := by omega
    cases hwj : wrt[j] with
    | none => simp
    | some w =>
      simp only [beq_iff_eq]
      intro hb
      have hwv := W.buf_inj _ _ hb
      subst hwv
      have h2 : wrt[j]? = some (some w) := by rw [List.getElem?_eq_getElem hjl, hwj]
      have := h i j w hw h2
      omega

theorem accGrad_gval [AddCommMonoid α] {E : Env α} {N : Nat} (W : Wf E N) {wrt : List (Option VarId)}
    (h : WrtOk E wrt) (grads : List (Option α)) (hl : grads.length = wrt.length)
    (x : VarId × Option α) {i : Nat} {v : VarId} (hi : wrt[i]? = some (some v)) (hng : E.vng v = true) :
    gval (accGrad E wrt grads x) i = gval grads i + (if x.1 = v then x.2.getD 0 else 0) := by
  obtain ⟨u, g⟩ := x
  have hil : i < grads.length := by
    rw [hl]; exact (List.getElem?_eq_some_iff.mp hi).1
  unfold accGrad
  cases g with
  | none => split <;> simp_all
  | some d =>
    by_cases huv : u = v
    · subst huv
      have hx := (wrtIdx_spec W h u i).mpr hi
      simp only [hx, hng, if_true]
      unfold gval
      rw [List.getElem?_set_self hil]
      have hg := List.getElem?_eq_getElem hil
      rw [hg]
      cases hgi : grads[i] with
      | none => simp
      | some a => simp
    · simp only [huv, if_false, add_zero]
      cases hx : wrtIdx E wrt u with
      | none => rfl
      | some j =>
        simp only
        have hj := (wrtIdx_spec W h u j).mp hx
        have hij : j ≠ i := by
          rintro rfl
          rw [hi] at hj
          exact huv (by cases hj; rfl)
        split
        · unfold gval
          rw [List.getElem?_set_ne hij]
        · rfl

theorem accGrads_gval [AddCommMonoid α] {E : Env α} {N : Nat} (W : Wf E N) {wrt : List (Option VarId)}
    (h : WrtOk E wrt) (gs : List (VarId × Option α)) {i : Nat} {v : VarId}
    (hi : wrt[i]? = some (some v)) (hng : E.vng v = true) : ∀ (grads : List (Option α)),
    grads.length = wrt.length →
    (gs.foldl (accGrad E wrt) grads).length = wrt.length ∧
    gval (gs.foldl (accGrad E wrt) grads) i = gval grads i + given gs v := by
  induction gs with
  | nil => intro grads hl; simp [given, hl]
  | cons x gs ih =>
    intro grads hl
    rw [List.foldl_cons]
    obtain ⟨h1, h2⟩ := ih (accGrad E wrt grads x) (by rw [accGrad_len, hl])
    refine ⟨h1, ?_⟩
    rw [h2, accGrad_gval W h grads hl x hi hng]
    simp only [given, List.map_cons, List.sum_cons, add_assoc]

theorem accGrads_len [Add α] {E : Env α} {wrt : List (Option VarId)} (gs : List (VarId × Option α)) :
    ∀ (grads : List (Option α)), (gs.foldl (accGrad E wrt) grads).length = grads.length := by
  induction gs with
  | nil => intro grads; rfl
  | cons x gs ih => intro grads; rw [List.foldl_cons, ih, accGrad_len]

theorem accGrads_idle [Add α] {E : Env α} {wrt : List (Option VarId)} {i : Nat}
    (gs : List (VarId × Option α)) (h : ∀ x, x ∈ gs → wrtIdx E wrt x.1 ≠ some i) :
    ∀ (grads : List (Option α)), (gs.foldl (accGrad E wrt) grads)[i]? = grads[i]? := by
  induction gs with
  | nil => intro grads; rfl
  | cons x gs ih =>
    intro grads
    rw [List.foldl_cons, ih (fun y hy => h y (by simp [hy]))]
    unfold accGrad
    have hx := h x (by simp)
    split
    · rename_i j d hj hd
      split
      · rw [List.getElem?_set_ne]
        rintro rfl
        exact hx hj
      · rfl
    · rfl

/-! ### the open set -/

/-- Entries of the open set carry the id of their function. -/
structure IdInv (s : St α) : Prop where
  nodup : s.ids.Nodup
  opn : s.opn.Nodup
  id : ∀ e, e ∈ s.opn → s.ids[e.2.1]? = some e.2.2

theorem push_ids {s : St α} {r : Nat} {f : FnId} : ∃ l, (push s r f).ids = s.ids ++ l := by
  unfold push
  by_cases h : f ∈ s.ids
  · exact ⟨[], by simp [h]⟩
  · exact ⟨[f], by simp [h]⟩

theorem push_idInv {s : St α} (h : IdInv s) (r : Nat) (f : FnId) : IdInv (push s r f) := by
  have hids : (push s r f).ids = if f ∈ s.ids then s.ids else s.ids ++ [f] := rfl
  have hnd : (push s r f).ids.Nodup := by
    rw [hids]
    split
    · exact h.nodup
    · rename_i hf
      rw [List.nodup_append]
      exact ⟨h.nodup, by simp, by intro a ha b hb; simp at hb; subst hb; rintro rfl; exact hf ha⟩
  have hfm : f ∈ (push s r f).ids := by
    rw [hids]
    split
    · assumption
    · simp
  have hidx : (push s r f).ids[(push s r f).ids.idxOf f]? = some f := by
    have := List.idxOf_lt_length_iff.mpr hfm
    rw [List.getElem?_eq_getElem this, List.getElem_idxOf]
  have hopn : (push s r f).opn = if (r, (push s r f).ids.idxOf f, f) ∈ s.opn then s.opn
      else s.opn ++ [(r, (push s r f).ids.idxOf f, f)] := rfl
  have hold : ∀ e, e ∈ s.opn → (push s r f).ids[e.2.1]? = some e.2.2 := by
    intro e he
    have := h.id e he
    obtain ⟨l, hl⟩ := push_ids (s := s) (r := r) (f := f)
    rw [hl]
    rw [List.getElem?_append_left (List.getElem?_eq_some_iff.mp this).1]
    exact this
  refine ⟨hnd, ?_, ?_⟩
  · rw [hopn]
    split
    · exact h.opn
    · rename_i he
      rw [List.nodup_append]
      exact ⟨h.opn, by simp, by intro a ha b hb; simp only [List.mem_singleton] at hb; subst hb; rintro rfl; exact he ha⟩
  · intro e he
    rw [hopn] at he
    split at he
    · exact hold e he
    · rcases List.mem_append.mp he with he | he
      · exact hold e he
      · simp only [List.mem_singleton] at he
        subst he
        exact hidx

theorem push_mem {s : St α} {r : Nat} {f : FnId} :
    (∀ e, e ∈ s.opn → e ∈ (push s r f).opn) ∧ (∃ e, e ∈ (push s r f).opn ∧ e.1 = r ∧ e.2.2 = f) ∧
    (∀ e, e ∈ (push s r f).opn → e ∈ s.opn ∨ (e.1 = r ∧ e.2.2 = f)) := by
  have hopn : (push s r f).opn = if (r, (push s r f).ids.idxOf f, f) ∈ s.opn then s.opn
      else s.opn ++ [(r, (push s r f).ids.idxOf f, f)] := rfl
  rw [hopn]
  split
  · rename_i he
    exact ⟨fun _ h => h, ⟨_, he, rfl, rfl⟩, fun _ h => .inl h⟩
  · refine ⟨fun _ h => by simp [h], ⟨(r, (push s r f).ids.idxOf f, f), by simp, rfl, rfl⟩, ?_⟩
    intro e he
    rcases List.mem_append.mp he with he | he
    · exact .inl he
    · simp only [List.mem_singleton] at he
      subst he
      exact .inr ⟨rfl, rfl⟩

/-- The condition under which the parent of an input is opened. -/
def Opens (E : Env α) (ch : List Nat) (x : VarId × Option α) (p : FnId) : Prop :=
  E.buf x.1 ∈ ch ∧ E.vng x.1 = true ∧ x.2.isSome = true ∧ E.G.parent x.1 = some p

theorem pushDown_spec {E : Env α} {ch : List Nat} {s : St α} (h : IdInv s) (x : VarId × Option α) :
    IdInv (pushDown E ch s x) ∧ (pushDown E ch s x).gv = s.gv ∧
    (pushDown E ch s x).grads = s.grads ∧
    (∀ e, e ∈ s.opn → e ∈ (pushDown E ch s x).opn) ∧
    (∀ p, Opens E ch x p → ∃ e, e ∈ (pushDown E ch s x).opn ∧ e.2.2 = p) ∧
    (∀ e, e ∈ (pushDown E ch s x).opn → e ∈ s.opn ∨ (Opens E ch x e.2.2 ∧ e.1 = E.frank e.2.2)) := by
  unfold pushDown Opens
  by_cases hc : E.buf x.1 ∈ ch ∧ E.vng x.1 = true ∧ x.2.isSome = true
  · rw [if_pos hc]
    cases hp : E.G.parent x.1 with
    | none => exact ⟨h, rfl, rfl, fun _ h => h, fun p hp' => by simp at hp', fun _ h => .inl h⟩
    | some p =>
      obtain ⟨h1, h2, h3⟩ := push_mem (s := s) (r := E.frank p) (f := p)
      refine ⟨push_idInv h _ _, rfl, rfl, h1, ?_, ?_⟩
      · intro q hq
        have hpq := Option.some.inj hq.2.2.2
        subst hpq
        obtain ⟨e, he, _, hf⟩ := h2
        exact ⟨e, he, hf⟩
      · intro e he
        rcases h3 e he with he | ⟨hr, hf⟩
        · exact .inl he
        · right
          rw [hf]
          exact ⟨⟨hc.1, hc.2.1, hc.2.2, rfl⟩, hr⟩
  · rw [if_neg hc]
    refine ⟨h, rfl, rfl, fun _ h => h, ?_, fun _ h => .inl h⟩
    intro p hp
    exact absurd ⟨hp.1, hp.2.1, hp.2.2.1⟩ hc

theorem pushDowns_spec {E : Env α} {ch : List Nat} (gs : List (VarId × Option α)) : ∀ {s : St α},
    IdInv s →
    let s' := gs.foldl (pushDown E ch) s
    IdInv s' ∧ s'.gv = s.gv ∧ s'.grads = s.grads ∧ (∀ e, e ∈ s.opn → e ∈ s'.opn) ∧
    (∀ x p, x ∈ gs → Opens E ch x p → ∃ e, e ∈ s'.opn ∧ e.2.2 = p) ∧
    (∀ e, e ∈ s'.opn → e ∈ s.opn ∨ ∃ x, x ∈ gs ∧ Opens E ch x e.2.2 ∧ e.1 = E.frank e.2.2) := by
  induction gs with
  | nil => intro s h; exact ⟨h, rfl, rfl, fun _ h => h, by simp, fun _ h => .inl h⟩
  | cons x gs ih =>
    intro s h
    obtain ⟨a1, a2, a3, a4, a5, a6⟩ := pushDown_spec (E := E) (ch := ch) h x
    obtain ⟨b1, b2, b3, b4, b5, b6⟩ := ih a1
    simp only [List.foldl_cons]
    refine ⟨b1, by rw [b2, a2], by rw [b3, a3], fun e he => b4 e (a4 e he), ?_, ?_⟩
    · intro y p hy hyp
      rcases List.mem_cons.mp hy with rfl | hy
      · obtain ⟨e, he, hep⟩ := a5 p hyp
        exact ⟨e, b4 e he, hep⟩
      · exact b5 y p hy hyp
    · intro e he
      rcases b6 e he with he | ⟨y, hy, hye⟩
      · rcases a6 e he with he | he
        · exact .inl he
        · exact .inr ⟨x, by simp, he⟩
      · exact .inr ⟨y, by simp [hy], hye⟩

theorem best_spec : ∀ (l : List (Nat × Nat × FnId)),
    (best l = none → l = []) ∧ (∀ e, best l = some e → e ∈ l ∧ ∀ e', e' ∈ l → e'.1 ≤ e.1) := by
  intro l
  induction l with
  | nil => simp [best]
  | cons a l ih =>
    unfold best
    cases hb : best l with
    | none =>
      have hl := ih.1 hb
      subst hl
      simp
    | some b =>
      obtain ⟨h1, h2⟩ := ih.2 b hb
      simp only
      by_cases hbt : better b a = true
      · rw [if_pos hbt]
        refine ⟨by simp, ?_⟩
        rintro e ⟨⟩
        refine ⟨by simp [h1], ?_⟩
        intro e' he'
        rcases List.mem_cons.mp he' with rfl | he'
        · simp only [better, Bool.or_eq_true, Bool.and_eq_true, decide_eq_true_eq] at hbt
          omega
        · exact h2 e' he'
      · rw [if_neg hbt]
        refine ⟨by simp, ?_⟩
        rintro e ⟨⟩
        refine ⟨by simp, ?_⟩
        intro e' he'
        simp only [better, Bool.or_eq_true, Bool.and_eq_true, decide_eq_true_eq] at hbt
        rcases List.mem_cons.mp he' with rfl | he'
        · exact Nat.le_refl _
        · have := h2 e' he'
          omega

end Verif.NNGrad
