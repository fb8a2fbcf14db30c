import Verif.Inplace.Model
import Mathlib.Data.List.Nodup
/-
C47: what the in-place check guarantees, and what it misses.
-/
namespace Verif.Inplace
variable {Val : Type}

theorem upd_same {α : Type} (f : Nat → α) (a : Nat) (b : α) : upd f a b a = b := by simp [upd]

theorem upd_other {α : Type} (f : Nat → α) {a x : Nat} (b : α) (h : x ≠ a) : upd f a b x = f x := by simp [upd, h]

/-! ### The check -/

/-- What the loop over outputs does to a variable. -/
theorem protectFold (P : Nat → Bool) (l : List (Nat × Nat)) (a : Nat → Bool) (v : Nat) :
    l.foldl (fun a p => if P p.2 then upd a p.1 false else a) a v = true ↔ a v = true ∧ ∀ p ∈ l, p.1 = v → P p.2 = false := by
  induction l generalizing a with
  | nil => simp
  | cons p l ih =>
    rw [List.foldl_cons, ih]
    by_cases hp : P p.2
    · rw [if_pos hp]
      by_cases e : v = p.1
      · subst e
        simp [upd_same, hp]
      · rw [upd_other _ _ e]
        simp only [List.mem_cons, forall_eq_or_imp]
        constructor
        · rintro ⟨h1, h2⟩; exact ⟨h1, fun h => absurd h.symm e, h2⟩
        · rintro ⟨h1, _, h2⟩; exact ⟨h1, h2⟩
    · rw [if_neg hp]
      have hp : P p.2 = false := by simpa using hp
      simp only [List.mem_cons, forall_eq_or_imp, hp]
      tauto

theorem protect_true (f : Fn Val) (ng : Nat → Bool) (i v : Nat) (a : Nat → Bool) (w : Nat) :
    protectOutputs f ng i v a w = true ↔ a w = true ∧ (ng v = true → ∀ o, f.outs[o]? = some w → f.gradDepOut i o = false) := by
  unfold protectOutputs
  by_cases h : ng v = true
  · rw [if_pos h, protectFold (fun o => f.gradDepOut i o)]
    refine and_congr_right fun _ => ?_
    constructor
    · intro hh _ o ho
      exact hh (w, o) (by rw [List.mk_mem_zipIdx_iff_getElem?]; exact ho) rfl
    · rintro hh ⟨p, o⟩ hp rfl
      rw [List.mk_mem_zipIdx_iff_getElem?] at hp
      exact hh h o hp
  · rw [if_neg h]
    simp [h]

theorem protect_outside (f : Fn Val) (ng : Nat → Bool) (i v : Nat) (a : Nat → Bool) (w : Nat) (hw : w ∉ f.outs) :
    protectOutputs f ng i v a w = a w := by
  have := protect_true f ng i v a w
  have h2 : ∀ o : Nat, f.outs[o]? ≠ some w := fun o ho => hw (List.mem_of_getElem? ho)
  cases h : a w <;> cases h' : protectOutputs f ng i v a w <;> simp_all

/-- When the check of input `i` passes and what is allowed afterwards. -/
theorem checkInput_ok (f : Fn Val) (refs : Nat → Nat) (ng : Nat → Bool) (i v : Nat) (a a' : Nat → Bool)
    (hslot : ∀ l i o, f.inplace = some (l, i, o) → o < f.outs.length) (h : checkInput f refs ng i v a = .ok a') :
    (∀ w, w ∉ f.outs → a' w = a w) ∧
    (∀ w, a' w = true → a w = true) ∧
    (∀ w, a' w = true → ng v = true → ∀ o, f.outs[o]? = some w → f.gradDepOut i o = false) ∧
    (∀ o, f.inplace = some (.modify, i, o) → v ∉ f.outs → a v = true ∧ refs v < 2) ∧
    (∀ w o, f.inplace = some (.notModify, i, o) → f.outs[o]? = some w → a' w = true → refs v ≤ 1 ∧ ng v = false) ∧
    (∀ w, a' w = false → a w = true → (ng v = true ∧ ∃ o, f.outs[o]? = some w ∧ f.gradDepOut i o = true) ∨ ∃ o, f.inplace = some (.notModify, i, o) ∧ f.outs[o]? = some w) := by
  have hp := protect_true f ng i v a
  have hpo := protect_outside f ng i v a
  have hpf : ∀ w, protectOutputs f ng i v a w = false → a w = true → ng v = true ∧ ∃ o, f.outs[o]? = some w ∧ f.gradDepOut i o = true := by
    intro w hw haw
    by_contra hcon
    have : protectOutputs f ng i v a w = true := by
      rw [hp]
      refine ⟨haw, fun hv o ho => ?_⟩
      by_contra hg
      exact hcon ⟨hv, o, ho, by simpa using hg⟩
    rw [this] at hw; exact absurd hw (by decide)
  have base : ∀ a', a' = protectOutputs f ng i v a →
      (∀ w, w ∉ f.outs → a' w = a w) ∧ (∀ w, a' w = true → a w = true) ∧
      (∀ w, a' w = true → ng v = true → ∀ o, f.outs[o]? = some w → f.gradDepOut i o = false) ∧
      (∀ w, a' w = false → a w = true → ng v = true ∧ ∃ o, f.outs[o]? = some w ∧ f.gradDepOut i o = true) := by
    rintro a' rfl
    exact ⟨hpo, fun w hw => ((hp w).mp hw).1, fun w hw => ((hp w).mp hw).2, hpf⟩
  unfold checkInput at h
  rcases hin : f.inplace with _ | ⟨l, j, o⟩
  · simp only [hin] at h
    injection h with h
    obtain ⟨b1, b2, b3, b4⟩ := base a' h.symm
    exact ⟨b1, b2, b3, by simp, by simp, fun w h1 h2 => Or.inl (b4 w h1 h2)⟩
  · cases l with
    | modify =>
      simp only [hin] at h
      by_cases hj : j = i
      · rw [if_pos hj] at h
        by_cases h1 : ¬ protectOutputs f ng i v a v = true
        · rw [if_pos h1] at h; cases h
        · rw [if_neg h1] at h
          by_cases h2 : ¬ refs v < 2
          · rw [if_pos h2] at h; cases h
          · rw [if_neg h2] at h
            injection h with h
            obtain ⟨b1, b2, b3, b4⟩ := base a' h.symm
            refine ⟨b1, b2, b3, ?_, by simp, fun w h1 h2 => Or.inl (b4 w h1 h2)⟩
            intro o' _ hv
            exact ⟨((hp v).mp (not_not.mp h1)).1, not_not.mp h2⟩
      · rw [if_neg hj] at h
        injection h with h
        obtain ⟨b1, b2, b3, b4⟩ := base a' h.symm
        refine ⟨b1, b2, b3, ?_, by simp, fun w h1 h2 => Or.inl (b4 w h1 h2)⟩
        intro o' ho
        injection ho with ho
        exact absurd (Prod.mk.inj (Prod.mk.inj ho).2).1 hj
    | notModify =>
      simp only [hin] at h
      by_cases hj : j = i
      · subst hj
        rw [if_pos rfl] at h
        have ho : f.outs[o]? = some (f.outs.getD o 0) := by
          have := hslot _ _ _ hin
          rw [List.getD_eq_getElem?_getD, List.getElem?_eq_getElem this]; rfl
        by_cases h1 : 1 < refs v ∨ ng v = true
        · rw [if_pos h1] at h
          injection h with h
          subst h
          have hupd : ∀ w, upd (protectOutputs f ng j v a) (f.outs.getD o 0) false w = true → protectOutputs f ng j v a w = true ∧ w ≠ f.outs.getD o 0 := by
            intro w hw
            by_cases e : w = f.outs.getD o 0
            · rw [e, upd_same] at hw; cases hw
            · rw [upd_other _ _ e] at hw; exact ⟨hw, e⟩
          refine ⟨?_, ?_, ?_, by simp, ?_, ?_⟩
          · intro w hw
            rw [upd_other _ _ (fun e => hw (by rw [e]; exact List.mem_of_getElem? ho)), hpo w hw]
          · intro w hw; exact ((hp w).mp (hupd w hw).1).1
          · intro w hw; exact ((hp w).mp (hupd w hw).1).2
          · intro w o' ho' hw' hw
            injection ho' with ho'
            have e : o = o' := (Prod.mk.inj (Prod.mk.inj ho').2).2
            subst e
            rw [ho] at hw'
            injection hw' with hw'
            exact absurd hw'.symm (hupd w hw).2
          · intro w hw haw
            by_cases e : w = f.outs.getD o 0
            · exact Or.inr ⟨o, rfl, by rw [e]; exact ho⟩
            · rw [upd_other _ _ e] at hw
              exact Or.inl (hpf w hw haw)
        · rw [if_neg h1] at h
          injection h with h
          obtain ⟨b1, b2, b3, b4⟩ := base a' h.symm
          refine ⟨b1, b2, b3, by simp, ?_, fun w h1 h2 => Or.inl (b4 w h1 h2)⟩
          intro w o' _ _ _
          rw [not_or] at h1
          exact ⟨by omega, by simpa using h1.2⟩
      · rw [if_neg hj] at h
        injection h with h
        obtain ⟨b1, b2, b3, b4⟩ := base a' h.symm
        refine ⟨b1, b2, b3, by simp, ?_, fun w h1 h2 => Or.inl (b4 w h1 h2)⟩
        intro w o' ho
        injection ho with ho
        exact absurd (Prod.mk.inj (Prod.mk.inj ho).2).1 hj

theorem checkInputs_ok (f : Fn Val) (refs : Nat → Nat) (ng : Nat → Bool) (hslot : ∀ l i o, f.inplace = some (l, i, o) → o < f.outs.length)
    (l : List (Nat × Nat)) (a a' : Nat → Bool) (hl : ∀ p ∈ l, p.1 ∉ f.outs) (h : checkInputs f refs ng l a = .ok a') :
    (∀ w, w ∉ f.outs → a' w = a w) ∧
    (∀ w, a' w = true → a w = true) ∧
    ∀ v i, (v, i) ∈ l →
      (∀ w, a' w = true → ng v = true → ∀ o, f.outs[o]? = some w → f.gradDepOut i o = false) ∧
      (∀ o, f.inplace = some (.modify, i, o) → a v = true ∧ refs v < 2) ∧
      (∀ w o, f.inplace = some (.notModify, i, o) → f.outs[o]? = some w → a' w = true → refs v ≤ 1 ∧ ng v = false) := by
  induction l generalizing a with
  | nil => simp only [checkInputs] at h; injection h with h; subst h; simp
  | cons p l ih =>
    obtain ⟨v, i⟩ := p
    simp only [checkInputs] at h
    rcases hc : checkInput f refs ng i v a with e | a1
    · rw [hc] at h; cases h
    · rw [hc] at h
      obtain ⟨c1, c2, c3, c4, c5, _⟩ := checkInput_ok f refs ng i v a a1 hslot hc
      obtain ⟨d1, d2, d3⟩ := ih a1 (fun p hp => hl p (List.mem_cons_of_mem _ hp)) h
      refine ⟨fun w hw => (d1 w hw).trans (c1 w hw), fun w hw => c2 w (d2 w hw), ?_⟩
      intro v' i' hm
      rcases List.mem_cons.mp hm with e | hm
      · obtain ⟨rfl, rfl⟩ := Prod.mk.inj e
        exact ⟨fun w hw => c3 w (d2 w hw), fun o ho => c4 o ho (hl _ List.mem_cons_self), fun w o h1 h2 hw => c5 w o h1 h2 (d2 w hw)⟩
      · obtain ⟨e1, e2, e3⟩ := d3 v' i' hm
        refine ⟨e1, ?_, e3⟩
        intro o ho
        have := e2 o ho
        rw [c1 v' (hl _ (List.mem_cons_of_mem _ hm))] at this
        exact this

/-- Which outputs become unmodifiable. -/
theorem checkInputs_false (f : Fn Val) (refs : Nat → Nat) (ng : Nat → Bool) (hslot : ∀ l i o, f.inplace = some (l, i, o) → o < f.outs.length)
    (l : List (Nat × Nat)) (a a' : Nat → Bool) (h : checkInputs f refs ng l a = .ok a') (w : Nat) (hw : a' w = false) (ha : a w = true) :
    ∃ v i, (v, i) ∈ l ∧ ((ng v = true ∧ ∃ o, f.outs[o]? = some w ∧ f.gradDepOut i o = true) ∨ ∃ o, f.inplace = some (.notModify, i, o) ∧ f.outs[o]? = some w) := by
  induction l generalizing a with
  | nil => simp only [checkInputs] at h; injection h with h; subst h; rw [ha] at hw; cases hw
  | cons p l ih =>
    obtain ⟨v, i⟩ := p
    simp only [checkInputs] at h
    rcases hc : checkInput f refs ng i v a with e | a1
    · rw [hc] at h; cases h
    · rw [hc] at h
      obtain ⟨_, _, _, _, _, c6⟩ := checkInput_ok f refs ng i v a a1 hslot hc
      cases h1 : a1 w
      · exact ⟨v, i, List.mem_cons_self, c6 w h1 ha⟩
      · obtain ⟨v', i', hm, hh⟩ := ih a1 h h1
        exact ⟨v', i', List.mem_cons_of_mem _ hm, hh⟩

theorem resetOuts (outs : List Nat) (a : Nat → Bool) (w : Nat) : outs.foldl (fun a v => upd a v true) a w = if w ∈ outs then true else a w := by
  induction outs generalizing a with
  | nil => simp
  | cons v vs ih =>
    rw [List.foldl_cons, ih]
    by_cases h : w ∈ vs
    · simp [h]
    · by_cases e : w = v
      · subst e; simp [upd_same]
      · simp [h, e, upd_other]

/-- Everything the check tells about one function. -/
theorem verify_ok (f : Fn Val) (refs : Nat → Nat) (ng : Nat → Bool) (a a' : Nat → Bool) (hslot : ∀ l i o, f.inplace = some (l, i, o) → o < f.outs.length)
    (hio : ∀ v ∈ f.ins, v ∉ f.outs) (h : verify f refs ng a = .ok a') :
    (∀ w, w ∉ f.outs → a' w = a w) ∧
    (∀ (i o : Nat) v w, f.ins[i]? = some v → f.outs[o]? = some w → ng v = true → f.gradDepOut i o = true → a' w = false) ∧
    (∀ i o v, f.inplace = some (.modify, i, o) → f.ins[i]? = some v → a v = true ∧ refs v < 2) ∧
    (∀ i o v w, f.inplace = some (.notModify, i, o) → f.ins[i]? = some v → f.outs[o]? = some w → a' w = true → refs v ≤ 1 ∧ ng v = false) ∧
    (∀ w ∈ f.outs, a' w = false → ∃ (v i : Nat), f.ins[i]? = some v ∧
      ((ng v = true ∧ ∃ o : Nat, f.outs[o]? = some w ∧ f.gradDepOut i o = true) ∨ ∃ o, f.inplace = some (.notModify, i, o) ∧ f.outs[o]? = some w)) := by
  unfold verify at h
  have hl : ∀ p ∈ f.ins.zipIdx, p.1 ∉ f.outs := by
    rintro ⟨v, i⟩ hp
    rw [List.mk_mem_zipIdx_iff_getElem?] at hp
    exact hio v (List.mem_of_getElem? hp)
  obtain ⟨c1, c2, c3⟩ := checkInputs_ok f refs ng hslot _ _ _ hl h
  have hz : ∀ (i : Nat) v, f.ins[i]? = some v → (v, i) ∈ f.ins.zipIdx := fun i v hv => by rw [List.mk_mem_zipIdx_iff_getElem?]; exact hv
  refine ⟨?_, ?_, ?_, ?_, ?_⟩
  · intro w hw; rw [c1 w hw, resetOuts, if_neg hw]
  · intro i o v w hv hw hng hg
    cases hc : a' w
    · rfl
    · have := (c3 v i (hz i v hv)).1 w hc hng o hw
      rw [hg] at this; cases this
  · intro i o v hin hv
    have := (c3 v i (hz i v hv)).2.1 o hin
    rw [resetOuts, if_neg (hio v (List.mem_of_getElem? hv))] at this
    exact this
  · intro i o v w hin hv hw ha
    exact (c3 v i (hz i v hv)).2.2 w o hin hw ha
  · intro w hw hf
    obtain ⟨v, i, hm, hh⟩ := checkInputs_false f refs ng hslot _ _ _ h w hf (by rw [resetOuts, if_pos hw])
    rw [List.mk_mem_zipIdx_iff_getElem?] at hm
    exact ⟨v, i, hm, hh⟩

/-! ### Memory -/

/-- Writing the outputs: arrays of other variables keep their contents, each output's array holds its value when the
outputs have different arrays. -/
theorem writeOuts_other (arr : Nat → Nat) (outs : List Nat) (xs : List Val) (mem : Nat → Val) (a : Nat) (h : ∀ v ∈ outs, arr v ≠ a) :
    writeOuts arr outs xs mem a = mem a := by
  induction outs generalizing xs mem with
  | nil => rfl
  | cons v vs ih =>
    cases xs with
    | nil => rfl
    | cons x xs =>
      rw [writeOuts, ih _ _ fun w hw => h w (List.mem_cons_of_mem _ hw), upd_other _ _ (fun e => h v List.mem_cons_self e.symm)]

theorem writeOuts_at (arr : Nat → Nat) (outs : List Nat) (xs : List Val) (mem : Nat → Val) (hnd : (outs.map arr).Nodup) (k : Nat) (v : Nat) (x : Val)
    (hv : outs[k]? = some v) (hx : xs[k]? = some x) : writeOuts arr outs xs mem (arr v) = x := by
  induction outs generalizing xs mem k with
  | nil => simp at hv
  | cons w ws ih =>
    cases xs with
    | nil => simp at hx
    | cons y ys =>
      rw [List.map_cons, List.nodup_cons] at hnd
      rw [writeOuts]
      cases k with
      | zero =>
        simp only [List.getElem?_cons_zero, Option.some.injEq] at hv hx
        subst hv; subst hx
        rw [writeOuts_other _ _ _ _ _ fun u hu e => hnd.1 (List.mem_map.mpr ⟨u, hu, e⟩), upd_same]
      | succ k =>
        simp only [List.getElem?_cons_succ] at hv hx
        exact ih ys _ hnd.2 k hv hx

/-! ### The invariant -/

/-- `v` had only one user, a function in `done` that took over its array. -/
def Taken (refs : Nat → Nat) (ng : Nat → Bool) (done : List (Fn Val)) (v : Nat) : Prop :=
  refs v < 2 ∧ ∃ f ∈ done, ∃ l i o, f.inplace = some (l, i, o) ∧ f.ins[i]? = some v ∧ (l = .modify ∨ ng v = false)

/-- Invariant after the functions in `done`; a variable has its value when no function still to come computes it. -/
structure Inv (refs : Nat → Nat) (ng : Nat → Bool) (E : Nat → Val) (done todo : List (Fn Val)) (s : St Val) : Prop where
  good : ∀ v, Leaf todo v → s.mem (s.arr v) = E v ∨ (Taken refs ng done v ∧ s.allow v = true)
  excl : ∀ v w, Leaf todo v → Leaf todo w → v ≠ w → s.arr v = s.arr w → s.allow v = true → refs v < 2 →
    (∀ f ∈ done, v ∉ f.ins) → Taken refs ng done w ∧ s.allow w = true
  arr : ∀ v, Leaf todo v → Leaf todo (s.arr v)
  fresh : ∀ v, ¬ Leaf todo v → s.arr v = v ∧ s.allow v = true
  prot : ∀ v, s.allow v = false → ng v = true ∨ ∃ f ∈ done, ∃ i o, f.inplace = some (.notModify, i, o) ∧ f.outs[o]? = some v
  grad : ∀ f ∈ done, ∀ (i o : Nat) v w, f.ins[i]? = some v → f.outs[o]? = some w → ng v = true → f.gradDepOut i o = true → s.allow w = false

theorem slots_append (p q : List (Fn Val)) (v : Nat) : slots (p ++ q) v = slots p v + slots q v := by simp [slots]

theorem slots_cons (f : Fn Val) (q : List (Fn Val)) (v : Nat) : slots (f :: q) v = f.ins.count v + slots q v := by simp [slots]

theorem slots_pos (p : List (Fn Val)) (v : Nat) (f : Fn Val) (hf : f ∈ p) (hv : v ∈ f.ins) : 1 ≤ slots p v := by
  induction p with
  | nil => simp at hf
  | cons g p ih =>
    rw [slots_cons]
    rcases List.mem_cons.mp hf with rfl | hf
    · have := List.count_pos_iff.mpr hv; omega
    · have := ih hf; omega

/-- A variable in one slot only has one user. -/
theorem one_user (p : List (Fn Val)) (v : Nat) (h : slots p v < 2) (f g : Fn Val) (hf : f ∈ p) (hg : g ∈ p) (vf : v ∈ f.ins) (vg : v ∈ g.ins) : f = g := by
  induction p with
  | nil => simp at hf
  | cons k p ih =>
    rw [slots_cons] at h
    rcases List.mem_cons.mp hf with e1 | hf1 <;> rcases List.mem_cons.mp hg with e2 | hg1
    · rw [e1, e2]
    · have := List.count_pos_iff.mpr vf; rw [e1] at this; have := slots_pos p v g hg1 vg; omega
    · have := List.count_pos_iff.mpr vg; rw [e2] at this; have := slots_pos p v f hf1 vf; omega
    · exact ih (by omega) hf1 hg1

theorem one_slot (l : List Nat) (v : Nat) (h : l.count v < 2) (i j : Nat) (hi : l[i]? = some v) (hj : l[j]? = some v) : i = j := by
  induction l generalizing i j with
  | nil => simp at hi
  | cons a l ih =>
    cases i with
    | zero =>
      cases j with
      | zero => rfl
      | succ j =>
        simp only [List.getElem?_cons_zero, Option.some.injEq, List.getElem?_cons_succ] at hi hj
        subst hi
        have := List.count_pos_iff.mpr (List.mem_of_getElem? hj)
        simp at h; omega
    | succ i =>
      cases j with
      | zero =>
        simp only [List.getElem?_cons_zero, Option.some.injEq, List.getElem?_cons_succ] at hi hj
        subst hj
        have := List.count_pos_iff.mpr (List.mem_of_getElem? hi)
        simp at h; omega
      | succ j =>
        simp only [List.getElem?_cons_succ] at hi hj
        rw [ih (by rw [List.count_cons] at h; omega) i j hi hj]

theorem not_taken_twice (refs : Nat → Nat) (done : List (Fn Val)) (f : Fn Val) (todo : List (Fn Val)) (v : Nat)
    (hrefs : slots (done ++ f :: todo) v ≤ refs v) (hv : v ∈ f.ins) (h1 : refs v < 2) (g : Fn Val) (hg : g ∈ done) : v ∉ g.ins := by
  intro hi
  rw [slots_append] at hrefs
  have a := slots_pos done v g hg hi
  have b := slots_pos (f :: todo) v f List.mem_cons_self hv
  omega

theorem Taken.mono {refs : Nat → Nat} {ng : Nat → Bool} {done : List (Fn Val)} {v : Nat} (h : Taken refs ng done v) (f : Fn Val) :
    Taken refs ng (done ++ [f]) v := by
  obtain ⟨h1, g, hg, h⟩ := h
  exact ⟨h1, g, List.mem_append_left _ hg, h⟩

theorem shareArr_other (f : Fn Val) (arr : Nat → Nat) (v : Nat) (hslot : ∀ l i o, f.inplace = some (l, i, o) → o < f.outs.length) (hv : v ∉ f.outs) :
    shareArr f arr v = arr v := by
  unfold shareArr
  rcases hin : f.inplace with _ | ⟨l, i, o⟩
  · rfl
  · refine upd_other _ _ fun e => hv ?_
    rw [e, List.getD_eq_getElem?_getD, List.getElem?_eq_getElem (hslot _ _ _ hin)]
    exact List.getElem_mem _

/-- One step keeps the invariant, and the function reads the right values. -/
theorem step_inv (refs : Nat → Nat) (ng : Nat → Bool) (E : Nat → Val) (done : List (Fn Val)) (f : Fn Val) (todo : List (Fn Val)) (s s' : St Val) (r : List Val)
    (wf : WF (done ++ f :: todo)) (hnv : NoViewOfView (done ++ f :: todo)) (hgf : GradFlows (done ++ f :: todo) ng) (hE : Values (done ++ f :: todo) E)
    (hrefs : ∀ v, slots (done ++ f :: todo) v ≤ refs v) (inv : Inv refs ng E done (f :: todo) s) (h : step refs ng f s = .ok (s', r)) :
    Inv refs ng E (done ++ [f]) todo s' ∧ r = f.ins.map E := by
  have hf : f ∈ done ++ f :: todo := by simp
  have hslot : ∀ l i o, f.inplace = some (l, i, o) → o < f.outs.length := fun l i o hh => (wf.slot f hf l i o hh).2
  have hio : ∀ v ∈ f.ins, v ∉ f.outs := fun v hv => wf.order done todo f rfl v hv f List.mem_cons_self
  have hins : ∀ v ∈ f.ins, Leaf (f :: todo) v := fun v hv => wf.order done todo f rfl v hv
  have honce : (f.outs ++ todo.flatMap Fn.outs).Nodup := by
    have := wf.once
    rw [List.flatMap_append, List.flatMap_cons, List.nodup_append] at this
    exact this.2.1
  have houtsnd : f.outs.Nodup := (List.nodup_append.mp honce).1
  have hleafout : ∀ v ∈ f.outs, Leaf todo v := by
    intro v hv g hg hvg
    exact (List.nodup_append.mp honce).2.2 v hv v (List.mem_flatMap.mpr ⟨g, hg, hvg⟩) rfl
  have hsplit : ∀ v, Leaf todo v → v ∉ f.outs → Leaf (f :: todo) v := by
    intro v hv hvo g hg
    rcases List.mem_cons.mp hg with rfl | hg
    · exact hvo
    · exact hv g hg
  have hold : ∀ v, Leaf (f :: todo) v → Leaf todo v ∧ v ∉ f.outs := fun v hv => ⟨fun g hg => hv g (List.mem_cons_of_mem _ hg), hv f List.mem_cons_self⟩
  -- the step
  unfold step at h
  rcases hver : verify f refs ng s.allow with e | a'
  · rw [hver] at h; cases h
  rw [hver] at h
  simp only [Except.ok.injEq, Prod.mk.injEq] at h
  obtain ⟨hs', hr⟩ := h
  obtain ⟨v1, v2, v3, v4, v5⟩ := verify_ok f refs ng s.allow a' hslot hio hver
  -- reads
  have hread : ∀ v ∈ f.ins, s.mem (s.arr v) = E v := by
    intro v hv
    rcases inv.good v (hins v hv) with hg | ⟨⟨ht, g, hg, l, i, o, _, hi, _⟩, _⟩
    · exact hg
    · exact absurd (List.mem_of_getElem? hi) (not_taken_twice refs done f todo v (hrefs v) hv ht g hg)
  have hreads : f.ins.map (fun v => s.mem (s.arr v)) = f.ins.map E := List.map_congr_left hread
  have hsem : f.sem (f.ins.map fun v => s.mem (s.arr v)) = f.outs.map E := by rw [hreads, hE f hf]
  refine ⟨?_, by rw [← hr, hreads]⟩
  subst hs'
  rw [hsem]
  -- arrays
  have arr1 : ∀ v, v ∉ f.outs → shareArr f s.arr v = s.arr v := fun v hv => shareArr_other f s.arr v hslot hv
  have arr2 : ∀ v ∈ f.outs, shareArr f s.arr v = v ∨ ∃ l i o x, f.inplace = some (l, i, o) ∧ f.ins[i]? = some x ∧ f.outs[o]? = some v ∧ shareArr f s.arr v = s.arr x := by
    intro v hv
    have hfr := (inv.fresh v fun hl => hl f List.mem_cons_self hv).1
    unfold shareArr
    rcases hin : f.inplace with _ | ⟨l, i, o⟩
    · exact Or.inl hfr
    · obtain ⟨hi, ho⟩ := wf.slot f hf l i o hin
      by_cases e : v = f.outs.getD o 0
      · right
        refine ⟨l, i, o, f.ins[i], rfl, List.getElem?_eq_getElem hi, ?_, ?_⟩
        · rw [e, List.getD_eq_getElem?_getD, List.getElem?_eq_getElem ho]; rfl
        · simp only [e, upd_same]
          rw [List.getD_eq_getElem?_getD, List.getElem?_eq_getElem hi]; rfl
      · left
        simp only [upd_other _ _ e]
        exact hfr
  have arr2' : ∀ l i o x v, f.inplace = some (l, i, o) → f.ins[i]? = some x → f.outs[o]? = some v → shareArr f s.arr v = s.arr x := by
    intro l i o x v hin hx hv
    unfold shareArr
    rw [hin]
    simp only
    have e1 : f.outs.getD o 0 = v := by rw [List.getD_eq_getElem?_getD, hv]; rfl
    have e2 : f.ins.getD i 0 = x := by rw [List.getD_eq_getElem?_getD, hx]; rfl
    rw [e1, e2, upd_same]
  have hsep : ∀ u v, Leaf (f :: todo) u → v ∈ f.outs → s.arr u ≠ v := fun u v hu hv e => (inv.arr u hu) f List.mem_cons_self (e ▸ hv)
  have houtarr : ∀ v ∈ f.outs, ∀ w ∈ f.outs, shareArr f s.arr v = shareArr f s.arr w → v = w := by
    intro v hv w hw e
    rcases arr2 v hv with a | ⟨l, i, o, x, hin, hx, ho, a⟩ <;> rcases arr2 w hw with b | ⟨l', i', o', x', hin', hx', ho', b⟩
    · rw [← a, e, b]
    · exfalso
      rw [a, b] at e
      exact hsep x' v (hins x' (List.mem_of_getElem? hx')) hv e.symm
    · exfalso
      rw [a, b] at e
      exact hsep x w (hins x (List.mem_of_getElem? hx)) hw e
    · rw [hin] at hin'
      simp only [Option.some.injEq, Prod.mk.injEq] at hin'
      obtain ⟨_, _, rfl⟩ := hin'
      rw [ho] at ho'
      exact Option.some.inj ho'
  have hnd : (f.outs.map (shareArr f s.arr)).Nodup := List.Nodup.map_on houtarr houtsnd
  have memout : ∀ v ∈ f.outs, writeOuts (shareArr f s.arr) f.outs (f.outs.map E) s.mem (shareArr f s.arr v) = E v := by
    intro v hv
    obtain ⟨k, hk, e⟩ := List.mem_iff_getElem.mp hv
    have hk' : f.outs[k]? = some v := by rw [List.getElem?_eq_getElem hk, e]
    exact writeOuts_at _ _ _ _ hnd k v (E v) hk' (by simp [hk'])
  have xun : ∀ x ∈ f.ins, refs x < 2 → ∀ g ∈ done, x ∉ g.ins := fun x hx hr g hg => not_taken_twice refs done f todo x (hrefs x) hx hr g hg
  have mayModify : ∀ l i o x v, f.inplace = some (l, i, o) → f.ins[i]? = some x → f.outs[o]? = some v → (l = .modify ∨ a' v = true) →
      s.allow x = true ∧ refs x < 2 ∧ (l = .modify ∨ ng x = false) := by
    intro l i o x v hin hx hv hl
    cases l with
    | modify =>
      obtain ⟨h1, h2⟩ := v3 i o x hin hx
      exact ⟨h1, h2, Or.inl rfl⟩
    | notModify =>
      rcases hl with hl | hl
      · cases hl
      obtain ⟨h1, h2⟩ := v4 i o x v hin hx hv hl
      refine ⟨?_, by omega, Or.inr h2⟩
      by_contra hcon
      rcases inv.prot x (by simpa using hcon) with hp | ⟨g, hg, i', o', hg', ho'⟩
      · rw [h2] at hp; cases hp
      · exact hnv g (List.mem_append_left _ hg) f hf i' o' i o x hg' hin ho' hx
  refine ⟨?_, ?_, ?_, ?_, ?_, ?_⟩
  · -- good
    intro v hv
    by_cases hvo : v ∈ f.outs
    · exact Or.inl (memout v hvo)
    · have hv' := hsplit v hv hvo
      simp only [arr1 v hvo, v1 v hvo]
      rcases inv.good v hv' with hg | ⟨ht, ha⟩
      · by_cases hal : ∃ w ∈ f.outs, shareArr f s.arr w = s.arr v
        · obtain ⟨w, hw, e⟩ := hal
          rcases arr2 w hw with b | ⟨l, i, o, x, hin, hx, ho, b⟩
          · exact absurd (e.symm.trans b) (hsep v w hv' hw)
          · have hx' := List.mem_of_getElem? hx
            have exv : s.arr x = s.arr v := b.symm.trans e
            cases l with
            | notModify =>
              left
              rw [← e, memout w hw]
              have hk := wf.keep f hf i o hin (f.ins.map E)
              rw [← hE f hf, List.getElem?_map, List.getElem?_map, ho, hx] at hk
              have : E w = E x := by simpa using hk
              rw [this, ← hread x hx', exv, hg]
            | modify =>
              right
              obtain ⟨c1, c2, _⟩ := mayModify _ _ _ _ _ hin hx ho (Or.inl rfl)
              by_cases evx : v = x
              · subst evx
                exact ⟨⟨c2, f, by simp, _, i, o, hin, hx, Or.inl rfl⟩, c1⟩
              · obtain ⟨t, ta⟩ := inv.excl x v (hins x hx') hv' (Ne.symm evx) exv c1 c2 (xun x hx' c2)
                exact ⟨t.mono f, ta⟩
        · left
          rw [writeOuts_other _ _ _ _ _ fun w hw e => hal ⟨w, hw, e⟩, hg]
      · exact Or.inr ⟨ht.mono f, ha⟩
  · -- excl
    intro v w hv hw hne harr ha hr hun
    by_cases hvo : v ∈ f.outs
    · by_cases hwo : w ∈ f.outs
      · exact absurd (houtarr v hvo w hwo harr) hne
      · simp only [arr1 w hwo, v1 w hwo] at harr ⊢
        have hw' := hsplit w hw hwo
        rcases arr2 v hvo with b | ⟨l, i, o, x, hin, hx, ho, b⟩
        · exact absurd (harr.symm.trans b) (hsep w v hw' hvo)
        · have hx' := List.mem_of_getElem? hx
          obtain ⟨c1, c2, c3⟩ := mayModify _ _ _ _ _ hin hx ho (Or.inr ha)
          by_cases ewx : w = x
          · subst ewx
            exact ⟨⟨c2, f, by simp, _, i, o, hin, hx, c3⟩, c1⟩
          · obtain ⟨t, ta⟩ := inv.excl x w (hins x hx') hw' (Ne.symm ewx) (b.symm.trans harr) c1 c2 (xun x hx' c2)
            exact ⟨t.mono f, ta⟩
    · have hv' := hsplit v hv hvo
      simp only [arr1 v hvo, v1 v hvo] at harr ha
      have hund : ∀ g ∈ done, v ∉ g.ins := fun g hg => hun g (List.mem_append_left _ hg)
      by_cases hwo : w ∈ f.outs
      · exfalso
        rcases arr2 w hwo with b | ⟨l, i, o, x, hin, hx, ho, b⟩
        · exact hsep v w hv' hwo (harr.trans b)
        · have hx' := List.mem_of_getElem? hx
          have hvx : v ≠ x := fun e => hun f (by simp) (e ▸ hx')
          obtain ⟨⟨t1, g, hg, l', i', o', _, hi', _⟩, _⟩ := inv.excl v x hv' (hins x hx') hvx (harr.trans b) ha hr hund
          exact xun x hx' t1 g hg (List.mem_of_getElem? hi')
      · simp only [arr1 w hwo, v1 w hwo] at harr ⊢
        obtain ⟨t, ta⟩ := inv.excl v w hv' (hsplit w hw hwo) hne harr ha hr hund
        exact ⟨t.mono f, ta⟩
  · -- arr
    intro v hv
    by_cases hvo : v ∈ f.outs
    · rcases arr2 v hvo with b | ⟨l, i, o, x, hin, hx, ho, b⟩
      · simp only [b]; exact hv
      · simp only [b]; exact (hold _ (inv.arr x (hins x (List.mem_of_getElem? hx)))).1
    · simp only [arr1 v hvo]
      exact (hold _ (inv.arr v (hsplit v hv hvo))).1
  · -- fresh
    intro v hv
    have hvo : v ∉ f.outs := fun hvo => hv (hleafout v hvo)
    have := inv.fresh v fun hl => hv (hold v hl).1
    simp only [arr1 v hvo, v1 v hvo]
    exact this
  · -- prot
    intro v hv
    by_cases hvo : v ∈ f.outs
    · obtain ⟨u, i, hu, ⟨hng, o, ho, hg⟩ | ⟨o, hin, ho⟩⟩ := v5 v hvo hv
      · exact Or.inl (hgf f hf i o u v hu ho hng hg)
      · exact Or.inr ⟨f, by simp, i, o, hin, ho⟩
    · simp only [v1 v hvo] at hv
      rcases inv.prot v hv with h | ⟨g, hg, h⟩
      · exact Or.inl h
      · exact Or.inr ⟨g, List.mem_append_left _ hg, h⟩
  · -- grad
    intro g hg i o v w hv hw hng hd
    rcases List.mem_append.mp hg with hg | hg
    · have hwo : w ∉ f.outs := by
        intro hwo
        have := wf.once
        rw [List.flatMap_append, List.flatMap_cons, List.nodup_append] at this
        exact this.2.2 w (List.mem_flatMap.mpr ⟨g, hg, List.mem_of_getElem? hw⟩) w (List.mem_append_left _ hwo) rfl
      simp only [v1 w hwo]
      exact inv.grad g hg i o v w hv hw hng hd
    · obtain rfl := List.mem_singleton.mp hg
      exact v2 i o v w hv hw hng hd

theorem run_inv (refs : Nat → Nat) (ng : Nat → Bool) (E : Nat → Val) (todo done : List (Fn Val)) (s s' : St Val) (rs : List (List Val))
    (wf : WF (done ++ todo)) (hnv : NoViewOfView (done ++ todo)) (hgf : GradFlows (done ++ todo) ng) (hE : Values (done ++ todo) E)
    (hrefs : ∀ v, slots (done ++ todo) v ≤ refs v) (inv : Inv refs ng E done todo s) (h : run refs ng todo s = .ok (s', rs)) :
    Inv refs ng E (done ++ todo) [] s' ∧ rs = todo.map fun f => f.ins.map E := by
  induction todo generalizing done s rs with
  | nil =>
    simp only [run, Except.ok.injEq, Prod.mk.injEq] at h
    obtain ⟨rfl, rfl⟩ := h
    simpa using inv
  | cons f todo ih =>
    unfold run at h
    rcases hs : step refs ng f s with e | ⟨s1, r⟩
    · rw [hs] at h; cases h
    rw [hs] at h
    simp only at h
    rcases hr : run refs ng todo s1 with e | ⟨s2, rs2⟩
    · rw [hr] at h; cases h
    rw [hr] at h
    simp only [Except.ok.injEq, Prod.mk.injEq] at h
    obtain ⟨rfl, rfl⟩ := h
    obtain ⟨inv1, e1⟩ := step_inv refs ng E done f todo s s1 r wf hnv hgf hE hrefs inv hs
    have ea : done ++ f :: todo = (done ++ [f]) ++ todo := by simp
    rw [ea] at wf hnv hgf hE hrefs
    obtain ⟨inv2, e2⟩ := ih (done ++ [f]) s1 rs2 wf hnv hgf hE hrefs inv1 hr
    rw [ea]
    exact ⟨inv2, by rw [e1, e2]; rfl⟩

/-- **C47 (partial: no view of a view, need_grad not switched off by hand).** If forward() passes the in-place checks, then
every function read the values the graph defines; a variable has lost its value only if its single user took over its array; and
everything a needed gradient depends on (outputs, and inputs the function itself did not take over) still has its value when
forward ends. What is missing is views of views, where the claim is false (`C47_refuted`). -/
theorem C47_forward_partial (prog : List (Fn Val)) (refs : Nat → Nat) (ng : Nat → Bool) (E mem0 : Nat → Val)
    (wf : WF prog) (hnv : NoViewOfView prog) (hgf : GradFlows prog ng) (hE : Values prog E) (hleaf : ∀ v, Leaf prog v → mem0 v = E v)
    (hrefs : ∀ v, slots prog v ≤ refs v) (s : St Val) (reads : List (List Val)) (h : run refs ng prog (start mem0) = .ok (s, reads)) :
    reads = prog.map (fun f => f.ins.map E) ∧
    (∀ v, s.mem (s.arr v) = E v ∨ ∃ f ∈ prog, ∃ l i o, f.inplace = some (l, i, o) ∧ f.ins[i]? = some v ∧ (∀ g ∈ prog, v ∈ g.ins → g = f) ∧ (l = .modify ∨ ng v = false)) ∧
    (∀ f ∈ prog, ∀ (i : Nat) v, f.ins[i]? = some v → ng v = true →
      (∀ (o : Nat) w, f.outs[o]? = some w → f.gradDepOut i o = true → s.mem (s.arr w) = E w) ∧
      (∀ (j : Nat) w, f.ins[j]? = some w → f.gradDepIn i j = true → (∀ l o, f.inplace = some (l, j, o) → l = .notModify ∧ j = i) → s.mem (s.arr w) = E w)) := by
  have inv0 : Inv refs ng E [] prog (start mem0) := by
    refine ⟨fun v hv => Or.inl (hleaf v hv), ?_, fun v hv => hv, fun v _ => ⟨rfl, rfl⟩, ?_, ?_⟩
    · intro v w _ _ hne e; exact absurd e hne
    · intro v hv; cases hv
    · simp
  obtain ⟨inv, hr⟩ := run_inv refs ng E prog [] (start mem0) s reads wf hnv hgf hE hrefs inv0 h
  rw [List.nil_append] at inv
  have hl : ∀ v, Leaf ([] : List (Fn Val)) v := fun v g hg => by simp at hg
  refine ⟨hr, ?_, ?_⟩
  · intro v
    rcases inv.good v (hl v) with hg | ⟨⟨h1, f, hf, l, i, o, hin, hi, hlv⟩, _⟩
    · exact Or.inl hg
    · refine Or.inr ⟨f, hf, l, i, o, hin, hi, ?_, hlv⟩
      intro g hg hv
      exact one_user prog v (by have := hrefs v; omega) g f hg hf hv (List.mem_of_getElem? hi)
  · intro f hf i v hv hng
    refine ⟨?_, ?_⟩
    · intro o w hw hd
      have ha := inv.grad f hf i o v w hv hw hng hd
      rcases inv.good w (hl w) with hg | ⟨_, ht⟩
      · exact hg
      · rw [ha] at ht; cases ht
    · intro j w hw hd hin
      rcases inv.good w (hl w) with hg | ⟨⟨h1, g, hg, l, i', o, hgin, hi', hlw⟩, _⟩
      · exact hg
      · exfalso
        have h2 : slots prog w < 2 := by have := hrefs w; omega
        have e := one_user prog w h2 f g hf hg (List.mem_of_getElem? hw) (List.mem_of_getElem? hi')
        subst e
        have hcount : f.ins.count w < 2 := by
          obtain ⟨p, q, e⟩ := List.append_of_mem hf
          rw [e, slots_append, slots_cons] at h2
          omega
        have e := one_slot f.ins w hcount i' j hi' hw
        subst e
        obtain ⟨e1, e2⟩ := hin l o hgin
        subst e1; subst e2
        rw [hv] at hw
        injection hw with hw
        subst hw
        rcases hlw with hlw | hlw
        · cases hlw
        · rw [hng] at hlw; cases hlw

/-! ### What the check misses -/

/-- A function of one input and one output. -/
def unary (x y : Nat) (inplace : Option Level) (f : Int → Int) : Fn Int :=
  { ins := [x], outs := [y], inplace := inplace.map fun l => (l, 0, 0), gradDepOut := fun _ _ => false, gradDepIn := fun _ _ => false,
    sem := fun v => v.map f }

/-- x is used by two functions: a reader (executed last) and a reshape, whose result is reshaped again and then modified in
place. -/
def viewOfView : List (Fn Int) :=
  [unary 0 1 (some .notModify) id, unary 1 2 (some .notModify) id, unary 2 3 (some .modify) (· + 1), unary 0 4 none (· * 2)]

theorem viewOfView_wf : WF viewOfView ∧ GradFlows viewOfView fun _ => false := by
  refine ⟨⟨?_, by decide, ?_, ?_⟩, ?_⟩
  · intro p q f e v hv
    match p, e with
    | [], e =>
      simp only [viewOfView, List.nil_append, List.cons.injEq] at e
      obtain ⟨rfl, rfl⟩ := e
      simp only [unary, List.mem_singleton] at hv
      subst hv
      simp [unary]
    | [_], e =>
      simp only [viewOfView, List.cons_append, List.nil_append, List.cons.injEq] at e
      obtain ⟨_, rfl, rfl⟩ := e
      simp only [unary, List.mem_singleton] at hv
      subst hv
      simp [unary]
    | [_, _], e =>
      simp only [viewOfView, List.cons_append, List.nil_append, List.cons.injEq] at e
      obtain ⟨_, _, rfl, rfl⟩ := e
      simp only [unary, List.mem_singleton] at hv
      subst hv
      simp [unary]
    | [_, _, _], e =>
      simp only [viewOfView, List.cons_append, List.nil_append, List.cons.injEq] at e
      obtain ⟨_, _, _, rfl, rfl⟩ := e
      simp only [unary, List.mem_singleton] at hv
      subst hv
      simp [unary]
    | _ :: _ :: _ :: _ :: p, e => simp [viewOfView] at e
  · intro f hf l i o h
    simp only [viewOfView, List.mem_cons, List.not_mem_nil, or_false] at hf
    rcases hf with rfl | rfl | rfl | rfl <;> simp_all [unary] <;> omega
  · intro f hf i o h x
    simp only [viewOfView, List.mem_cons, List.not_mem_nil, or_false] at hf
    rcases hf with rfl | rfl | rfl | rfl <;> simp_all [unary] <;> (obtain ⟨rfl, rfl⟩ := h; rfl)
  · intro f hf i o v w _ _ h
    cases h

/-- **C47, refuted part.** The graph of `viewOfView` passes every check, but the last function reads 6 instead of the 5 the
user stored in x: modifying a reshape of a reshape of x overwrote x, although x has another user. -/
theorem C47_refuted : ∃ s, run (slots viewOfView) (fun _ => false) viewOfView (start fun _ => 5) = .ok (s, [[5], [5], [5], [6]]) ∧
    Values viewOfView (fun v => if v = 3 then 6 else if v = 4 then 10 else 5) ∧ s.mem (s.arr 4) = 12 := by
  refine ⟨_, rfl, ?_, rfl⟩
  intro f hf
  simp only [viewOfView, List.mem_cons, List.not_mem_nil, or_false] at hf
  rcases hf with rfl | rfl | rfl | rfl <;> rfl

/-- With a single reshape in between the same mistake is detected. -/
theorem C47_single_view_detected :
    (run (slots [unary 0 1 (some .notModify) id, unary 1 2 (some .modify) (· + 1), unary 0 3 none (· * 2)]) (fun _ => false)
      [unary 0 1 (some .notModify) id, unary 1 2 (some .modify) (· + 1), unary 0 3 none (· * 2)] (start fun _ => 5)).isOk = false := by decide

/-- **C47, refuted part.** Under auto_forward the users of a variable are counted too early: x is modified in place while it has
one user, and a function connected later reads the modified value. The same graph is rejected by forward(). -/
theorem C47_auto_forward_refuted : (∃ s, dynRun (fun _ => false) [] [unary 0 1 (some .modify) (· + 1), unary 0 2 none (· * 2)] (start fun _ => 5) =
      .ok (s, [[5], [6]])) ∧
    (run (slots [unary 0 1 (some .modify) (· + 1), unary 0 2 none (· * 2)]) (fun _ => false)
      [unary 0 1 (some .modify) (· + 1), unary 0 2 none (· * 2)] (start fun _ => 5)).isOk = false := by
  exact ⟨⟨_, rfl⟩, by decide⟩

/-! ### The hypotheses are met -/

/-- x -> reshape in place -> modify in place, next to a function of two leaves: passes the check. -/
def okGraph : List (Fn Int) :=
  [unary 0 1 (some .notModify) id, unary 1 2 (some .modify) (· + 1),
   { ins := [2, 5], outs := [3], inplace := none, gradDepOut := fun _ _ => true, gradDepIn := fun _ _ => true, sem := fun v => [v.getD 0 0 * v.getD 1 0] }]

example : WF okGraph ∧ NoViewOfView okGraph ∧ GradFlows okGraph (fun v => v = 5 || v = 3) ∧
    Values okGraph (fun v => if v = 2 then 6 else if v = 3 then 30 else 5) ∧
    ∃ s, run (slots okGraph) (fun v => v = 5 || v = 3) okGraph (start fun _ => 5) = .ok (s, [[5], [5], [6, 5]]) := by
  refine ⟨⟨?_, by decide, ?_, ?_⟩, ?_, ?_, ?_, ⟨_, rfl⟩⟩
  · intro p q f e v hv
    match p, e with
    | [], e =>
      simp only [okGraph, List.nil_append, List.cons.injEq] at e
      obtain ⟨rfl, rfl⟩ := e
      simp only [unary, List.mem_singleton] at hv
      subst hv
      simp [unary]
    | [_], e =>
      simp only [okGraph, List.cons_append, List.nil_append, List.cons.injEq] at e
      obtain ⟨_, rfl, rfl⟩ := e
      simp only [unary, List.mem_singleton] at hv
      subst hv
      simp [unary]
    | [_, _], e =>
      simp only [okGraph, List.cons_append, List.nil_append, List.cons.injEq] at e
      obtain ⟨_, _, rfl, rfl⟩ := e
      simp only [List.mem_cons, List.not_mem_nil, or_false] at hv
      rcases hv with rfl | rfl <;> simp
    | _ :: _ :: _ :: p, e => simp [okGraph] at e
  · intro f hf l i o h
    simp only [okGraph, List.mem_cons, List.not_mem_nil, or_false] at hf
    rcases hf with rfl | rfl | rfl <;> simp_all [unary] <;> omega
  · intro f hf i o h x
    simp only [okGraph, List.mem_cons, List.not_mem_nil, or_false] at hf
    rcases hf with rfl | rfl | rfl <;> simp_all [unary] <;> (obtain ⟨rfl, rfl⟩ := h; rfl)
  · intro f hf g hg i o i' o' v h1 h2 h3 h4
    simp only [okGraph, List.mem_cons, List.not_mem_nil, or_false] at hf hg
    have a3 := List.mem_of_getElem? h3
    have a4 := List.mem_of_getElem? h4
    rcases hf with rfl | rfl | rfl <;> rcases hg with rfl | rfl | rfl <;> simp only [unary, List.mem_singleton, Option.map, Option.some.injEq, Prod.mk.injEq, reduceCtorEq, false_and] at h1 h2 a3 a4 <;> omega
  · intro f hf i o v w h1 h2 h3 h4
    simp only [okGraph, List.mem_cons, List.not_mem_nil, or_false] at hf
    rcases hf with rfl | rfl | rfl
    · simp [unary] at h4
    · simp [unary] at h4
    · have := List.mem_of_getElem? h2
      simp only [List.mem_singleton] at this
      subst this; rfl
  · intro f hf
    simp only [okGraph, List.mem_cons, List.not_mem_nil, or_false] at hf
    rcases hf with rfl | rfl | rfl <;> rfl

end Verif.Inplace
