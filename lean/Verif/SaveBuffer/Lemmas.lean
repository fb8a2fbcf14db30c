import Verif.SaveBuffer.Spec
namespace Verif.SaveBuffer

/-! ### buffer numbering -/

theorem mem_bufVars (n : Net) (v : Nat) : v ∈ n.bufVars ↔ n.isBuf v = true := by
  simp only [Net.bufVars, List.mem_filter, List.mem_range]
  constructor
  · exact fun h => h.2
  · intro h
    refine ⟨?_, h⟩
    simp only [Net.isBuf] at h
    cases hv : n.vars[v]? with
    | none => rw [hv] at h; simp at h
    | some x => exact (List.getElem?_eq_some_iff.mp hv).1

theorem bufVars_nodup (n : Net) : n.bufVars.Nodup := List.nodup_range.filter _

theorem bufId_lt (n : Net) (v : Nat) (h : n.isBuf v = true) : n.bufId v < n.bufVars.length :=
  List.idxOf_lt_length_iff.mpr ((mem_bufVars n v).mpr h)

theorem bufVar_bufId (n : Net) (v : Nat) (h : n.isBuf v = true) : n.bufVar (n.bufId v) = v := by
  have hl := bufId_lt n v h
  simp only [Net.bufVar, Net.bufId] at *
  rw [List.getD_eq_getElem?_getD, List.getElem?_eq_getElem hl]
  simp

theorem isBuf_bufVar (n : Net) (b : Nat) (h : b < n.bufVars.length) : n.isBuf (n.bufVar b) = true := by
  rw [← mem_bufVars]
  simp only [Net.bufVar]
  rw [List.getD_eq_getElem?_getD, List.getElem?_eq_getElem h]
  exact List.getElem_mem h

theorem bufId_bufVar (n : Net) (b : Nat) (h : b < n.bufVars.length) : n.bufId (n.bufVar b) = b := by
  simp only [Net.bufId, Net.bufVar]
  rw [List.getD_eq_getElem?_getD, List.getElem?_eq_getElem h, Option.getD_some]
  exact (bufVars_nodup n).idxOf_getElem b h

theorem bufId_inj (n : Net) (u v : Nat) (hu : n.isBuf u = true) (hv : n.isBuf v = true)
    (h : n.bufId u = n.bufId v) : u = v := by
  rw [← bufVar_bufId n u hu, h, bufVar_bufId n v hv]

/-! ### life spans -/

/-- The life of `v` after the uses in `E` (pairs of function and variable). -/
def LifeOK (n : Net) (E : Nat → Nat → Prop) (v : Nat) (l : Life) : Prop :=
  ((¬ ∃ g, E g v) → l = ⟨-1, -1⟩) ∧
  ((∃ g, E g v) →
    (v ∈ n.inputs → l.b = 0) ∧
    (v ∉ n.inputs → ∃ g, E g v ∧ l.b = (g : Int) ∧ ∀ g', E g' v → g ≤ g') ∧
    (v ∈ n.outputs → l.e = (n.fns.length : Int)) ∧
    (v ∉ n.outputs → ∃ g, E g v ∧ l.e = (g : Int) ∧ ∀ g', E g' v → g' ≤ g))

theorem touch_ok (n : Net) (f v : Nat) (E : Nat → Nat → Prop) (lives : Nat → Life)
    (hE : ∀ g w, E g w → g ≤ f)
    (h : ∀ w, n.isBuf w = true → LifeOK n E w (lives (n.bufId w))) :
    ∀ w, n.isBuf w = true →
      LifeOK n (fun g x => E g x ∨ (g = f ∧ x = v)) w (touch n f lives v (n.bufId w)) := by
  intro w hw
  by_cases hv : n.isBuf v = true
  · simp only [touch, hv, if_true]
    by_cases hwv : w = v
    · subst hwv
      rw [if_pos rfl]
      have hw' := h w hw
      refine ⟨fun hne => absurd ⟨f, Or.inr ⟨rfl, rfl⟩⟩ hne, fun _ => ?_⟩
      by_cases hex : ∃ g, E g w
      · obtain ⟨h1, h2, h3, h4⟩ := hw'.2 hex
        have hb : ¬ (lives (n.bufId w)).b < 0 := by
          by_cases hi : w ∈ n.inputs
          · rw [h1 hi]; omega
          · obtain ⟨g, _, e, _⟩ := h2 hi; rw [e]; omega
        simp only [if_neg hb]
        refine ⟨h1, ?_, fun ho => if_pos ho, fun ho => ⟨f, Or.inr (by simp), if_neg ho, ?_⟩⟩
        · intro hi
          obtain ⟨g, a, e, m⟩ := h2 hi
          refine ⟨g, Or.inl a, e, ?_⟩
          rintro g' (hg | ⟨rfl, _⟩)
          · exact m g' hg
          · exact hE g w a
        · rintro g' (hg | ⟨rfl, _⟩)
          · exact hE g' w hg
          · exact Nat.le_refl _
      · have hl := hw'.1 hex
        simp only [hl]
        rw [if_pos (show (-1 : Int) < 0 by omega)]
        refine ⟨fun hi => if_pos hi, fun hi => ⟨f, Or.inr (by simp), if_neg hi, ?_⟩, fun ho => if_pos ho,
          fun ho => ⟨f, Or.inr (by simp), if_neg ho, ?_⟩⟩
        · rintro g' (hg | ⟨rfl, _⟩)
          · exact absurd ⟨g', hg⟩ hex
          · exact Nat.le_refl _
        · rintro g' (hg | ⟨rfl, _⟩)
          · exact absurd ⟨g', hg⟩ hex
          · exact Nat.le_refl _
    · rw [if_neg (fun e => hwv (bufId_inj n w v hw hv e))]
      have : (fun g x => E g x ∨ (g = f ∧ x = v)) = fun g x => E g x ∨ (g = f ∧ x = v) := rfl
      have heq : ∀ g, (E g w ∨ (g = f ∧ w = v)) ↔ E g w := fun g => ⟨fun h => h.resolve_right (fun h => hwv h.2), Or.inl⟩
      have := h w hw
      simp only [LifeOK, heq] at this ⊢
      exact this
  · have hwv : w ≠ v := fun e => hv (e ▸ hw)
    simp only [touch, hv]
    have heq : ∀ g, (E g w ∨ (g = f ∧ w = v)) ↔ E g w := fun g => ⟨fun h => h.resolve_right (fun h => hwv h.2), Or.inl⟩
    have := h w hw
    simp only [LifeOK, heq] at this ⊢
    exact this

theorem touchAll_ok (n : Net) (f : Nat) (vs : List Nat) (E : Nat → Nat → Prop) (lives : Nat → Life)
    (hE : ∀ g w, E g w → g ≤ f)
    (h : ∀ w, n.isBuf w = true → LifeOK n E w (lives (n.bufId w))) :
    ∀ w, n.isBuf w = true →
      LifeOK n (fun g x => E g x ∨ (g = f ∧ x ∈ vs)) w (vs.foldl (touch n f) lives (n.bufId w)) := by
  induction vs generalizing E lives with
  | nil => intro w hw; have := h w hw; simpa [LifeOK] using this
  | cons v vs ih =>
    intro w hw
    have := ih (fun g x => E g x ∨ (g = f ∧ x = v)) (touch n f lives v) (by
      rintro g w (hg | ⟨rfl, _⟩)
      · exact hE g w hg
      · exact Nat.le_refl _) (touch_ok n f v E lives hE h) w hw
    have heq : ∀ g x, ((E g x ∨ (g = f ∧ x = v)) ∨ (g = f ∧ x ∈ vs)) ↔ (E g x ∨ (g = f ∧ x ∈ v :: vs)) := by
      intro g x
      simp only [List.mem_cons]
      constructor
      · rintro ((h | ⟨h1, h2⟩) | ⟨h1, h2⟩)
        · exact Or.inl h
        · exact Or.inr ⟨h1, Or.inl h2⟩
        · exact Or.inr ⟨h1, Or.inr h2⟩
      · rintro (h | ⟨h1, h2 | h2⟩)
        · exact Or.inl (Or.inl h)
        · exact Or.inl (Or.inr ⟨h1, h2⟩)
        · exact Or.inr ⟨h1, h2⟩
    simp only [LifeOK, heq] at this
    exact this

theorem makeLivesFrom_ok (n : Net) (f : Nat) (fns : List Fn) (E : Nat → Nat → Prop) (lives : Nat → Life)
    (hE : ∀ g w, E g w → g < f)
    (h : ∀ w, n.isBuf w = true → LifeOK n E w (lives (n.bufId w))) :
    ∀ w, n.isBuf w = true →
      LifeOK n (fun g x => E g x ∨ ∃ (fn : Fn), f ≤ g ∧ fns[g - f]? = some fn ∧ (x ∈ fn.ins ∨ x ∈ fn.outs)) w
        (makeLivesFrom n f fns lives (n.bufId w)) := by
  induction fns generalizing f E lives with
  | nil => intro w hw; have := h w hw; simpa [LifeOK, makeLivesFrom] using this
  | cons fn fns ih =>
    intro w hw
    have := ih (f + 1) (fun g x => E g x ∨ (g = f ∧ x ∈ fn.ins ++ fn.outs))
      ((fn.ins ++ fn.outs).foldl (touch n f) lives) (by
        rintro g w (hg | ⟨rfl, _⟩)
        · have := hE g w hg; omega
        · omega) (touchAll_ok n f _ E lives (fun g w hg => Nat.le_of_lt (hE g w hg)) h) w hw
    have heq : ∀ g x, ((E g x ∨ (g = f ∧ x ∈ fn.ins ++ fn.outs)) ∨
        ∃ fn' : Fn, f + 1 ≤ g ∧ fns[g - (f + 1)]? = some fn' ∧ (x ∈ fn'.ins ∨ x ∈ fn'.outs)) ↔
        (E g x ∨ ∃ fn' : Fn, f ≤ g ∧ (fn :: fns)[g - f]? = some fn' ∧ (x ∈ fn'.ins ∨ x ∈ fn'.outs)) := by
      intro g x
      constructor
      · rintro ((h | ⟨rfl, h2⟩) | ⟨fn', h1, h2, h3⟩)
        · exact Or.inl h
        · exact Or.inr ⟨fn, Nat.le_refl _, by simp, List.mem_append.mp h2⟩
        · refine Or.inr ⟨fn', by omega, ?_, h3⟩
          have : g - f = (g - (f + 1)) + 1 := by omega
          rw [this, List.getElem?_cons_succ]; exact h2
      · rintro (h | ⟨fn', h1, h2, h3⟩)
        · exact Or.inl (Or.inl h)
        · by_cases hg : g = f
          · subst hg
            simp at h2
            subst h2
            exact Or.inl (Or.inr ⟨rfl, List.mem_append.mpr h3⟩)
          · have : g - f = (g - (f + 1)) + 1 := by omega
            rw [this, List.getElem?_cons_succ] at h2
            exact Or.inr ⟨fn', by omega, h2, h3⟩
    simp only [LifeOK, heq] at this
    exact this

theorem makeLives_ok (n : Net) (w : Nat) (hw : n.isBuf w = true) :
    LifeOK n (Uses n) w (makeLives n (n.bufId w)) := by
  have := makeLivesFrom_ok n 0 n.fns (fun _ _ => False) (fun _ => ⟨-1, -1⟩) (fun _ _ h => h.elim)
    (fun w _ => ⟨fun _ => rfl, fun ⟨_, h⟩ => h.elim⟩) w hw
  have heq : ∀ g x, (False ∨ ∃ fn : Fn, 0 ≤ g ∧ n.fns[g - 0]? = some fn ∧ (x ∈ fn.ins ∨ x ∈ fn.outs)) ↔ Uses n g x := by
    intro g x; simp [Uses]
  simp only [LifeOK, heq] at this
  exact this

theorem Uses.lt {n : Net} {f v : Nat} (h : Uses n f v) : f < n.fns.length := by
  obtain ⟨fn, h, _⟩ := h
  exact (List.getElem?_eq_some_iff.mp h).1

/-- The computed life spans describe liveness. -/
theorem neededAt_iff (n : Net) (v f : Nat) (hv : n.isBuf v = true) (hf : f ≤ n.fns.length) :
    (makeLives n (n.bufId v)).neededAt f = true ↔ LiveAt n v f := by
  have h := makeLives_ok n v hv
  generalize makeLives n (n.bufId v) = l at h
  simp only [Life.neededAt, Bool.and_eq_true, decide_eq_true_eq]
  by_cases hu : ∃ g, Uses n g v
  · obtain ⟨h1, h2, h3, h4⟩ := h.2 hu
    constructor
    · rintro ⟨a, b⟩
      refine ⟨hu, ?_, ?_⟩
      · by_cases hi : v ∈ n.inputs
        · exact Or.inr hi
        · obtain ⟨g, g1, g2, _⟩ := h2 hi
          exact Or.inl ⟨g, by omega, g1⟩
      · by_cases ho : v ∈ n.outputs
        · exact Or.inr ho
        · obtain ⟨g, g1, g2, _⟩ := h4 ho
          exact Or.inl ⟨g, by omega, g1⟩
    · rintro ⟨_, a, b⟩
      constructor
      · by_cases hi : v ∈ n.inputs
        · rw [h1 hi]; omega
        · obtain ⟨g, _, g2, g3⟩ := h2 hi
          obtain ⟨g', c1, c2⟩ := a.resolve_right hi
          have := g3 g' c2
          omega
      · by_cases ho : v ∈ n.outputs
        · rw [h3 ho]; omega
        · obtain ⟨g, _, g2, g3⟩ := h4 ho
          obtain ⟨g', c1, c2⟩ := b.resolve_right ho
          have := g3 g' c2
          omega
  · rw [h.1 hu]
    constructor
    · rintro ⟨_, b⟩; simp at b; omega
    · rintro ⟨hu', _⟩; exact absurd hu' hu

/-- Life spans are intervals. -/
theorem live_interval (l : Life) (a b c : Nat) (h1 : a ≤ b) (h2 : b ≤ c)
    (ha : l.neededAt a = true) (hc : l.neededAt c = true) : l.neededAt b = true := by
  simp only [Life.neededAt, Bool.and_eq_true, decide_eq_true_eq] at *
  omega

end Verif.SaveBuffer
