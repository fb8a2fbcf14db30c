import Verif.NNGrad.Model
/-
The two depth first searches of `nn.grad`.
-/
namespace Verif.NNGrad
open Verif.Graph
variable {α : Type}

/-- The forward graph is a graph: every variable is listed by its producer, ranks increase from producer
to consumer (and are bounded by `N`), python's equality distinguishes the variables. -/
structure Wf (E : Env α) (N : Nat) : Prop where
  out_parent : ∀ f o, o ∈ E.outs f ↔ E.G.parent o = some f
  refs_ins : ∀ v f, f ∈ E.refs v → v ∈ E.ins f
  rank : ∀ f v p, v ∈ E.ins f → E.G.parent v = some p → E.frank p < E.frank f
  bound : ∀ f, E.frank f < N
  buf_inj : ∀ u v, E.buf u = E.buf v → u = v

/-- Depth of a variable. -/
def lay (E : Env α) (v : VarId) : Nat :=
  match E.G.parent v with
  | none => 0
  | some p => E.frank p + 1

theorem lay_le {E : Env α} {N : Nat} (W : Wf E N) {f v} (h : v ∈ E.ins f) : lay E v ≤ E.frank f := by
  unfold lay
  cases hp : E.G.parent v with
  | none => simp
  | some p => exact W.rank f v p h hp

theorem lay_out {E : Env α} {N : Nat} (W : Wf E N) {f o} (h : o ∈ E.outs f) :
    lay E o = E.frank f + 1 := by
  unfold lay
  rw [(W.out_parent f o).mp h]

/-! ### children -/

/-- `o` is computed from `v` in one step (not by a GradEndFunction). -/
def Succ (E : Env α) (v o : VarId) : Prop := ∃ f, f ∈ E.refs v ∧ E.isEnd f = false ∧ o ∈ E.outs f

inductive SuccPlus (E : Env α) : VarId → VarId → Prop
  | one {v o} : Succ E v o → SuccPlus E v o
  | cons {v u o} : Succ E v u → SuccPlus E u o → SuccPlus E v o

theorem SuccPlus.snoc {E : Env α} {v u o} (h : SuccPlus E v u) (h2 : Succ E u o) : SuccPlus E v o := by
  induction h with
  | one h => exact .cons h (.one h2)
  | cons h _ ih => exact .cons h (ih h2)

def Closed (E : Env α) (ch : List Nat) : Prop :=
  ∀ u, E.buf u ∈ ch → ∀ o, Succ E u o → E.buf o ∈ ch

/-- What a call of the dfs guarantees. -/
structure ChildPost (E : Env α) (node : VarId) (ch ch' : List Nat) : Prop where
  sub : ∀ b, b ∈ ch → b ∈ ch'
  closed : Closed E ch'
  succ : ∀ o, Succ E node o → E.buf o ∈ ch'
  sound : ∀ u, E.buf u ∈ ch' → E.buf u ∈ ch ∨ SuccPlus E node u

theorem childDfs_post {E : Env α} {N : Nat} (W : Wf E N) : ∀ n node ch, N + 1 ≤ n + lay E node →
    Closed E ch → ChildPost E node ch (childDfs E n node ch) := by
  intro n
  induction n with
  | zero =>
    intro node ch hn
    exfalso
    have : lay E node ≤ N := by
      unfold lay
      cases hp : E.G.parent node with
      | none => simp
      | some p => exact W.bound p
    omega
  | succ n ih =>
    intro node ch hn hc
    unfold childDfs
    by_cases hb : E.buf node ∈ ch
    · rw [if_pos hb]
      exact ⟨fun _ h => h, hc, fun o ho => hc node hb o ho, fun _ h => .inl h⟩
    rw [if_neg hb]
    -- fold over the functions
    have hfold : ∀ (fs : List FnId), (∀ f, f ∈ fs → f ∈ E.refs node) → ∀ ch, Closed E ch →
        (∀ b, b ∈ ch → b ∈ fs.foldl (childStep E (childDfs E n)) ch) ∧
        Closed E (fs.foldl (childStep E (childDfs E n)) ch) ∧
        (∀ f, f ∈ fs → E.isEnd f = false → ∀ o, o ∈ E.outs f →
          E.buf o ∈ fs.foldl (childStep E (childDfs E n)) ch) ∧
        (∀ u, E.buf u ∈ fs.foldl (childStep E (childDfs E n)) ch → E.buf u ∈ ch ∨ SuccPlus E node u) := by
      intro fs
      induction fs with
      | nil => intro _ ch hc; exact ⟨fun _ h => h, hc, by simp, fun _ h => .inl h⟩
      | cons f fs ihf =>
        intro hfs ch hc
        rw [List.foldl_cons]
        have hfr := hfs f (by simp)
        -- the step
        have hstep : (∀ b, b ∈ ch → b ∈ childStep E (childDfs E n) ch f) ∧
            Closed E (childStep E (childDfs E n) ch f) ∧
            (E.isEnd f = false → ∀ o, o ∈ E.outs f → E.buf o ∈ childStep E (childDfs E n) ch f) ∧
            (∀ u, E.buf u ∈ childStep E (childDfs E n) ch f → E.buf u ∈ ch ∨ SuccPlus E node u) := by
          unfold childStep
          by_cases he : E.isEnd f = true
          · rw [if_pos he]
            exact ⟨fun _ h => h, hc, fun h => by simp [he] at h, fun _ h => .inl h⟩
          rw [if_neg he]
          have he' : E.isEnd f = false := by simpa using he
          have hin := W.refs_ins node f hfr
          have hlay := lay_le W hin
          have : ∀ (os : List VarId), (∀ o, o ∈ os → o ∈ E.outs f) → ∀ ch, Closed E ch →
              let r := os.foldl (fun ch o => if E.buf o ∈ ch then ch else E.buf o :: childDfs E n o ch) ch
              (∀ b, b ∈ ch → b ∈ r) ∧ Closed E r ∧ (∀ o, o ∈ os → E.buf o ∈ r) ∧
              (∀ u, E.buf u ∈ r → E.buf u ∈ ch ∨ SuccPlus E node u) := by
            intro os
            induction os with
            | nil => intro _ ch hc; exact ⟨fun _ h => h, hc, by simp, fun _ h => .inl h⟩
            | cons o os iho =>
              intro hos ch hc
              rw [List.foldl_cons]
              have hof := hos o (by simp)
              have hlo := lay_out W hof
              have hso : Succ E node o := ⟨f, hfr, he', hof⟩
              by_cases hb : E.buf o ∈ ch
              · simp only [if_pos hb]
                obtain ⟨h1, h2, h3, h4⟩ := iho (fun o h => hos o (by simp [h])) ch hc
                refine ⟨h1, h2, ?_, h4⟩
                intro o' ho'
                rcases List.mem_cons.mp ho' with rfl | ho'
                · exact h1 _ hb
                · exact h3 o' ho'
              · simp only [if_neg hb]
                have hp := ih o ch (by omega) hc
                have hcl : Closed E (E.buf o :: childDfs E n o ch) := by
                  intro u hu o' ho'
                  rcases List.mem_cons.mp hu with hu | hu
                  · have := W.buf_inj _ _ hu
                    subst this
                    exact List.mem_cons_of_mem _ (hp.succ o' ho')
                  · exact List.mem_cons_of_mem _ (hp.closed u hu o' ho')
                obtain ⟨h1, h2, h3, h4⟩ := iho (fun o h => hos o (by simp [h])) _ hcl
                refine ⟨fun b hb => h1 b (List.mem_cons_of_mem _ (hp.sub b hb)), h2, ?_, ?_⟩
                · intro o' ho'
                  rcases List.mem_cons.mp ho' with rfl | ho'
                  · exact h1 _ (by simp)
                  · exact h3 o' ho'
                · intro u hu
                  rcases h4 u hu with hu | hu
                  · rcases List.mem_cons.mp hu with hu | hu
                    · have := W.buf_inj _ _ hu
                      subst this
                      exact .inr (.one hso)
                    · rcases hp.sound u hu with hu | hu
                      · exact .inl hu
                      · exact .inr (.cons hso hu)
                  · exact .inr hu
          obtain ⟨h1, h2, h3, h4⟩ := this (E.outs f) (fun _ h => h) ch hc
          exact ⟨h1, h2, fun _ => h3, h4⟩
        obtain ⟨s1, s2, s3, s4⟩ := hstep
        obtain ⟨h1, h2, h3, h4⟩ := ihf (fun g h => hfs g (by simp [h])) _ s2
        refine ⟨fun b hb => h1 b (s1 b hb), h2, ?_, ?_⟩
        · intro g hg hge o ho
          rcases List.mem_cons.mp hg with rfl | hg
          · exact h1 _ (s3 hge o ho)
          · exact h3 g hg hge o ho
        · intro u hu
          rcases h4 u hu with hu | hu
          · exact s4 u hu
          · exact .inr hu
    obtain ⟨h1, h2, h3, h4⟩ := hfold (E.refs node) (fun _ h => h) ch hc
    exact ⟨h1, h2, fun o ⟨f, hf, he, ho⟩ => h3 f hf he o ho, h4⟩

/-- The children are exactly the variables computed from one of the given variables. -/
theorem mem_children {E : Env α} {N : Nat} (W : Wf E N) {fuel : Nat} (hf : N + 1 ≤ fuel)
    (wrt : List (Option VarId)) (u : VarId) :
    E.buf u ∈ children E fuel wrt ↔ ∃ w, some w ∈ wrt ∧ SuccPlus E w u := by
  have : ∀ (l : List (Option VarId)) (ch : List Nat), Closed E ch →
      let r := l.foldl (fun ch w => match w with | none => ch | some w => childDfs E fuel w ch) ch
      Closed E r ∧ (∀ b, b ∈ ch → b ∈ r) ∧ (∀ w, some w ∈ l → ∀ o, Succ E w o → E.buf o ∈ r) ∧
      (∀ u, E.buf u ∈ r → E.buf u ∈ ch ∨ ∃ w, some w ∈ l ∧ SuccPlus E w u) := by
    intro l
    induction l with
    | nil => intro ch hc; exact ⟨hc, fun _ h => h, by simp, fun _ h => .inl h⟩
    | cons w l ih =>
      intro ch hc
      rw [List.foldl_cons]
      cases w with
      | none =>
        obtain ⟨h1, h2, h3, h4⟩ := ih ch hc
        refine ⟨h1, h2, fun w hw => h3 w (by simpa using hw), ?_⟩
        intro u hu
        rcases h4 u hu with h | ⟨w, hw, h⟩
        · exact .inl h
        · exact .inr ⟨w, by simp [hw], h⟩
      | some w =>
        have hp := childDfs_post W fuel w ch (by omega) hc
        obtain ⟨h1, h2, h3, h4⟩ := ih _ hp.closed
        refine ⟨h1, fun b hb => h2 b (hp.sub b hb), ?_, ?_⟩
        · intro w' hw' o ho
          rcases List.mem_cons.mp hw' with hw' | hw'
          · cases hw'
            exact h2 _ (hp.succ o ho)
          · exact h3 w' hw' o ho
        · intro u hu
          rcases h4 u hu with h | ⟨w', hw', h⟩
          · rcases hp.sound u h with h | h
            · exact .inl h
            · exact .inr ⟨w, by simp, h⟩
          · exact .inr ⟨w', by simp [hw'], h⟩
  obtain ⟨h1, _, h3, h4⟩ := this wrt [] (by intro u hu; simp at hu)
  constructor
  · intro hu
    rcases h4 u hu with h | h
    · simp at h
    · exact h
  · rintro ⟨w, hw, hs⟩
    have : ∀ {a b}, SuccPlus E a b → (∀ o, Succ E a o → E.buf o ∈ children E fuel wrt) →
        E.buf b ∈ children E fuel wrt := by
      intro a b hab
      induction hab with
      | one h => intro ha; exact ha _ h
      | cons h _ ih => intro ha; exact ih (fun o ho => h1 _ (ha _ h) o ho)
    exact this hs (fun o ho => h3 w hw o ho)

/-! ### the variables of the graph corresponding to the inputs -/

/-- `v` is an input of the function computing `u`. -/
def Pred (E : Env α) (u v : VarId) : Prop := ∃ p, E.G.parent u = some p ∧ v ∈ E.ins p

inductive PredPlus (E : Env α) : VarId → VarId → Prop
  | one {u v} : Pred E u v → PredPlus E u v
  | cons {u w v} : Pred E u w → PredPlus E w v → PredPlus E u v

theorem Pred.lay_lt {E : Env α} {N : Nat} (W : Wf E N) {u v} (h : Pred E u v) : lay E v < lay E u := by
  obtain ⟨p, hp, hv⟩ := h
  have := lay_le W hv
  have h2 : lay E u = E.frank p + 1 := by unfold lay; rw [hp]
  omega

theorem PredPlus.lay_lt {E : Env α} {N : Nat} (W : Wf E N) {u v} (h : PredPlus E u v) :
    lay E v < lay E u := by
  induction h with
  | one h => exact h.lay_lt W
  | cons h _ ih => have := h.lay_lt W; omega

/-- State invariant of the search. -/
structure CorrInv (E : Env α) (inputs : List VarId) (s : List Nat × List (Option VarId)) : Prop where
  len : s.2.length = inputs.length
  closed : ∀ u, E.buf u ∈ s.1 → ∀ v, Pred E u v → E.buf v ∈ s.1
  full : ∀ (i : Nat) x, inputs[i]? = some x → E.buf x ∈ s.1 → s.2[i]? = some (some x)
  same : ∀ (i : Nat) y, s.2[i]? = some (some y) → inputs[i]? = some y

/-- What a call guarantees. -/
structure CorrPost (E : Env α) (inputs : List VarId) (node : VarId)
    (s s' : List Nat × List (Option VarId)) : Prop where
  inv : CorrInv E inputs s'
  sub : ∀ b, b ∈ s.1 → b ∈ s'.1
  pred : ∀ v, Pred E node v → E.buf v ∈ s'.1
  sound : ∀ u, E.buf u ∈ s'.1 → E.buf u ∈ s.1 ∨ PredPlus E node u
  ret : ∀ (i : Nat) y, s'.2[i]? = some (some y) → s.2[i]? = some (some y) ∨ PredPlus E node y
  mono : ∀ (i : Nat) y, s.2[i]? = some (some y) → s'.2[i]? = some (some y)

theorem lastIdx_spec {E : Env α} {N : Nat} (W : Wf E N) {inputs : List VarId} (hnd : inputs.Nodup)
    (v : VarId) : ∀ i, lastIdx E inputs v = some i ↔ inputs[i]? = some v := by
  have hmem : ∀ x, x ∈ inputs.zipIdx.filter (fun x => E.buf x.1 == E.buf v) ↔
      x.1 = v ∧ inputs[x.2]? = some v := by
    intro x
    rw [List.mem_filter, List.mem_zipIdx_iff_getElem?]
    simp only [beq_iff_eq]
    constructor
    · rintro ⟨h1, h2⟩
      have := W.buf_inj _ _ h2
      exact ⟨this, this ▸ h1⟩
    · rintro ⟨h1, h2⟩
      exact ⟨by rw [h2, h1], by rw [h1]⟩
  intro i
  unfold lastIdx
  constructor
  · intro h
    rw [Option.map_eq_some_iff] at h
    obtain ⟨x, hx, rfl⟩ := h
    exact ((hmem x).mp (List.mem_of_getLast? hx)).2
  · intro h
    have hin : (v, i) ∈ inputs.zipIdx.filter (fun x => E.buf x.1 == E.buf v) := (hmem _).mpr ⟨rfl, h⟩
    cases hl : (inputs.zipIdx.filter (fun x => E.buf x.1 == E.buf v)).getLast? with
    | none =>
      rw [List.getLast?_eq_none_iff] at hl
      rw [hl] at hin
      simp at hin
    | some x =>
      have := (hmem x).mp (List.mem_of_getLast? hl)
      simp only [Option.map_some, Option.some.injEq]
      have h1 : i < inputs.length := (List.getElem?_eq_some_iff.mp h).1
      exact ((List.getElem?_inj h1 hnd).mp (by rw [h, this.2])).symm

theorem corrDfs_post {E : Env α} {N : Nat} (W : Wf E N) {inputs : List VarId} (hnd : inputs.Nodup) :
    ∀ n node s, lay E node ≤ n → CorrInv E inputs s →
    CorrPost E inputs node s (corrDfs E inputs n node s) := by
  intro n
  induction n with
  | zero =>
    intro node s hn hi
    have hl : E.G.parent node = none := by
      unfold lay at hn
      cases hp : E.G.parent node with
      | none => rfl
      | some p => rw [hp] at hn; simp at hn
    refine ⟨hi, fun _ h => h, ?_, fun _ h => .inl h, fun _ _ h => .inl h, fun _ _ h => h⟩
    rintro v ⟨p, hp, _⟩
    rw [hl] at hp; cases hp
  | succ n ih =>
    intro node s hn hi
    unfold corrDfs
    by_cases hb : E.buf node ∈ s.1
    · rw [if_pos hb]
      exact ⟨hi, fun _ h => h, fun v hv => hi.closed node hb v hv, fun _ h => .inl h, fun _ _ h => .inl h, fun _ _ h => h⟩
    rw [if_neg hb]
    cases hp : E.G.parent node with
    | none =>
      refine ⟨hi, fun _ h => h, ?_, fun _ h => .inl h, fun _ _ h => .inl h, fun _ _ h => h⟩
      rintro v ⟨p, hp', _⟩
      rw [hp] at hp'; cases hp'
    | some p =>
      simp only
      have hlayn : lay E node = E.frank p + 1 := by unfold lay; rw [hp]
      have : ∀ (vs : List VarId), (∀ v, v ∈ vs → v ∈ E.ins p) → ∀ s, CorrInv E inputs s →
          E.buf node ∉ s.1 →
          let r := vs.foldl (corrStep E inputs (corrDfs E inputs n) node) s
          CorrInv E inputs r ∧ (∀ b, b ∈ s.1 → b ∈ r.1) ∧ (∀ v, v ∈ vs → E.buf v ∈ r.1) ∧
          (∀ u, E.buf u ∈ r.1 → E.buf u ∈ s.1 ∨ PredPlus E node u) ∧
          (∀ (i : Nat) y, r.2[i]? = some (some y) → s.2[i]? = some (some y) ∨ PredPlus E node y) ∧
          (∀ (i : Nat) y, s.2[i]? = some (some y) → r.2[i]? = some (some y)) := by
        intro vs
        induction vs with
        | nil =>
          intro _ s hi _
          exact ⟨hi, fun _ h => h, by simp, fun _ h => .inl h, fun _ _ h => .inl h, fun _ _ h => h⟩
        | cons v vs ihv =>
          intro hvs s hi hb
          have hvp := hvs v (by simp)
          have hpred : Pred E node v := ⟨p, hp, hvp⟩
          rw [List.foldl_cons]
          -- one step
          have hstep : corrStep E inputs (corrDfs E inputs n) node s v =
              (E.buf v :: (corrDfs E inputs n v (s.1, match lastIdx E inputs v with
                | some i => s.2.set i (some v)
                | none => s.2)).1, (corrDfs E inputs n v (s.1, match lastIdx E inputs v with
                | some i => s.2.set i (some v)
                | none => s.2)).2) := by
            unfold corrStep
            rw [if_neg hb]
            rfl
          -- the updated ret
          have hret : ∃ ret : List (Option VarId), (match lastIdx E inputs v with
                | some i => s.2.set i (some v)
                | none => s.2) = ret ∧ CorrInv E inputs (s.1, ret) ∧
                (∀ (i : Nat) y, ret[i]? = some (some y) → s.2[i]? = some (some y) ∨ PredPlus E node y) ∧
                (∀ (i : Nat), inputs[i]? = some v → ret[i]? = some (some v)) ∧
                (∀ (i : Nat) y, s.2[i]? = some (some y) → ret[i]? = some (some y)) := by
            cases hl : lastIdx E inputs v with
            | none =>
              refine ⟨s.2, rfl, hi, fun _ _ h => .inl h, ?_, fun _ _ h => h⟩
              intro i hiv
              have := (lastIdx_spec W hnd v i).mpr hiv
              rw [hl] at this; cases this
            | some i =>
              have hiv := (lastIdx_spec W hnd v i).mp hl
              have hil : i < s.2.length := by
                rw [hi.len]
                exact (List.getElem?_eq_some_iff.mp hiv).1
              refine ⟨s.2.set i (some v), rfl, ⟨by simp [hi.len], hi.closed, ?_, ?_⟩, ?_, ?_, ?_⟩
              · intro j x hx hxb
                by_cases hij : i = j
                · subst hij
                  simp only [List.getElem?_set_self hil]
                  rw [hiv] at hx; cases hx; rfl
                · simp only [List.getElem?_set_ne hij]
                  exact hi.full j x hx hxb
              · intro j y hy
                by_cases hij : i = j
                · subst hij
                  simp only [List.getElem?_set_self hil] at hy
                  cases hy; exact hiv
                · simp only [List.getElem?_set_ne hij] at hy
                  exact hi.same j y hy
              · intro j y hy
                by_cases hij : i = j
                · subst hij
                  rw [List.getElem?_set_self hil] at hy
                  cases hy
                  exact .inr (.one hpred)
                · rw [List.getElem?_set_ne hij] at hy
                  exact .inl hy
              · intro j hj
                have : i = j := by
                  have h1 := (List.getElem?_eq_some_iff.mp hiv).1
                  exact (List.getElem?_inj h1 hnd).mp (by rw [hiv, hj])
                subst this
                exact List.getElem?_set_self hil
              · intro j y hy
                by_cases hij : i = j
                · subst hij
                  rw [List.getElem?_set_self hil]
                  have := hi.same i y hy
                  rw [hiv] at this
                  rw [this]
                · rw [List.getElem?_set_ne hij]
                  exact hy
          obtain ⟨ret, hre, hri, hrs, hrv, hrm⟩ := hret
          rw [hstep, hre]
          have hlv := lay_le W hvp
          have hpost := ih v (s.1, ret) (by omega) hri
          generalize corrDfs E inputs n v (s.1, ret) = s1 at hpost
          have hi1 : CorrInv E inputs (E.buf v :: s1.1, s1.2) := by
            refine ⟨hpost.inv.len, ?_, ?_, hpost.inv.same⟩
            · intro u hu w hw
              rcases List.mem_cons.mp hu with hu | hu
              · have := W.buf_inj _ _ hu
                subst this
                exact List.mem_cons_of_mem _ (hpost.pred w hw)
              · exact List.mem_cons_of_mem _ (hpost.inv.closed u hu w hw)
            · intro i x hx hxb
              rcases List.mem_cons.mp hxb with hxb | hxb
              · have := W.buf_inj _ _ hxb
                subst this
                exact hpost.mono i x (hrv i hx)
              · exact hpost.inv.full i x hx hxb
          have hlpn := hpred.lay_lt W
          have hb1 : E.buf node ∉ (E.buf v :: s1.1, s1.2).1 := by
            intro h
            rcases List.mem_cons.mp h with h | h
            · have := W.buf_inj _ _ h
              rw [this] at hlpn
              omega
            · rcases hpost.sound node h with h | h
              · exact hb h
              · have := h.lay_lt W
                omega
          obtain ⟨h1, h2, h3, h4, h5, h6⟩ := ihv (fun v h => hvs v (by simp [h])) _ hi1 hb1
          refine ⟨h1, fun b hb => h2 b (List.mem_cons_of_mem _ (hpost.sub b hb)), ?_, ?_, ?_, ?_⟩
          · intro w hw
            rcases List.mem_cons.mp hw with rfl | hw
            · exact h2 _ (by simp)
            · exact h3 w hw
          · intro u hu
            rcases h4 u hu with hu | hu
            · rcases List.mem_cons.mp hu with hu | hu
              · have := W.buf_inj _ _ hu
                subst this
                exact .inr (.one hpred)
              · rcases hpost.sound u hu with hu | hu
                · exact .inl hu
                · exact .inr (.cons hpred hu)
            · exact .inr hu
          · intro i y hy
            rcases h5 i y hy with hy | hy
            · rcases hpost.ret i y hy with hy | hy
              · exact hrs i y hy
              · exact .inr (.cons hpred hy)
            · exact .inr hy
          · intro i y hy
            exact h6 i y (hpost.mono i y (hrm i y hy))
      obtain ⟨h1, h2, h3, h4, h5, h6⟩ := this (E.ins p) (fun _ h => h) s hi hb
      refine ⟨h1, h2, ?_, h4, h5, h6⟩
      rintro v ⟨q, hq, hv⟩
      rw [hp] at hq
      cases hq
      exact h3 v hv

theorem lay_le_bound {E : Env α} {N : Nat} (W : Wf E N) (v : VarId) : lay E v ≤ N := by
  unfold lay
  cases hp : E.G.parent v with
  | none => simp
  | some p => exact W.bound p

/-- The search finds an input exactly when it is used in the computation of an output. -/
theorem corrVars_spec {E : Env α} {N : Nat} (W : Wf E N) {inputs : List VarId} (hnd : inputs.Nodup)
    {fuel : Nat} (hf : N ≤ fuel) (outputs : List VarId) :
    (corrVars E fuel inputs outputs).length = inputs.length ∧
    ∀ (i : Nat) x, inputs[i]? = some x →
      ((corrVars E fuel inputs outputs)[i]? = some (some x) ∧ ∃ o, o ∈ outputs ∧ PredPlus E o x) ∨
      ((corrVars E fuel inputs outputs)[i]? = some none ∧ ¬ ∃ o, o ∈ outputs ∧ PredPlus E o x) := by
  have : ∀ (os : List VarId) s, CorrInv E inputs s →
      let r := os.foldl (fun s o => corrDfs E inputs fuel o s) s
      CorrInv E inputs r ∧ (∀ b, b ∈ s.1 → b ∈ r.1) ∧
      (∀ o, o ∈ os → ∀ v, Pred E o v → E.buf v ∈ r.1) ∧
      (∀ (i : Nat) y, r.2[i]? = some (some y) → s.2[i]? = some (some y) ∨ ∃ o, o ∈ os ∧ PredPlus E o y) := by
    intro os
    induction os with
    | nil => intro s hi; exact ⟨hi, fun _ h => h, by simp, fun _ _ h => .inl h⟩
    | cons o os ih =>
      intro s hi
      rw [List.foldl_cons]
      have hp := corrDfs_post W hnd fuel o s (by have := lay_le_bound W o; omega) hi
      obtain ⟨h1, h2, h3, h4⟩ := ih _ hp.inv
      refine ⟨h1, fun b hb => h2 b (hp.sub b hb), ?_, ?_⟩
      · intro o' ho' v hv
        rcases List.mem_cons.mp ho' with rfl | ho'
        · exact h2 _ (hp.pred v hv)
        · exact h3 o' ho' v hv
      · intro i y hy
        rcases h4 i y hy with hy | ⟨o', ho', hy⟩
        · rcases hp.ret i y hy with hy | hy
          · exact .inl hy
          · exact .inr ⟨o, by simp, hy⟩
        · exact .inr ⟨o', by simp [ho'], hy⟩
  have hinit : CorrInv E inputs (([] : List Nat), inputs.map (fun _ => (none : Option VarId))) := by
    refine ⟨by simp, by simp, by simp, ?_⟩
    intro i y hy
    simp only [List.getElem?_map, Option.map_eq_some_iff] at hy
    obtain ⟨_, _, h⟩ := hy
    cases h
  obtain ⟨h1, _, h3, h4⟩ := this outputs _ hinit
  refine ⟨h1.len, ?_⟩
  intro i x hx
  have hclosed : ∀ {u v}, PredPlus E u v → (∀ w, Pred E u w → E.buf w ∈
      (outputs.foldl (fun s o => corrDfs E inputs fuel o s) ([], inputs.map (fun _ => none))).1) →
      E.buf v ∈ (outputs.foldl (fun s o => corrDfs E inputs fuel o s) ([], inputs.map (fun _ => none))).1 := by
    intro u v huv
    induction huv with
    | one h => intro hu; exact hu _ h
    | cons h _ ih => intro hu; exact ih (fun w hw => h1.closed _ (hu _ h) w hw)
  by_cases hex : ∃ o, o ∈ outputs ∧ PredPlus E o x
  · left
    refine ⟨?_, hex⟩
    obtain ⟨o, ho, hox⟩ := hex
    exact h1.full i x hx (hclosed hox (fun w hw => h3 o ho w hw))
  · right
    refine ⟨?_, hex⟩
    have hlt : i < (corrVars E fuel inputs outputs).length := by
      rw [show (corrVars E fuel inputs outputs).length = inputs.length from h1.len]
      exact (List.getElem?_eq_some_iff.mp hx).1
    have hg := List.getElem?_eq_getElem hlt
    cases hv : (corrVars E fuel inputs outputs)[i] with
    | none => rw [hg, hv]
    | some y =>
      exfalso
      rw [hv] at hg
      have hxy := h1.same i y hg
      rw [hx] at hxy
      cases hxy
      rcases h4 i x hg with h | h
      · simp only [List.getElem?_map, Option.map_eq_some_iff] at h
        obtain ⟨_, _, h⟩ := h
        cases h
      · exact hex h

end Verif.NNGrad
