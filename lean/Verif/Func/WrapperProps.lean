import Verif.Func.Wrapper
import Mathlib.Tactic.Common
/-
C91: an implementation is only run with the shapes it was set up for.
-/
namespace Verif.Func
variable {σ : Type}

/-! ### Specification -/

/-- The last call of a setup_impl: level, outcome, members and shapes it left. -/
def lastSetup : List (Event σ) → Option (Nat × Outcome × σ × List Shape × List Shape)
  | [] => none
  | .setup l oc m ins outs :: _ => some (l, oc, m, ins, outs)
  | _ :: evs => lastSetup evs

/-- The calls of forward_impl and backward_impl, each with the log before it. -/
def impls : List (Event σ) → List ((Nat × σ × List Shape × List Shape) × List (Event σ))
  | [] => []
  | .setup .. :: evs => impls evs
  | .forward l m ins outs :: evs => ((l, m, ins, outs), evs) :: impls evs
  | .backward l m ins outs :: evs => ((l, m, ins, outs), evs) :: impls evs

/-- What is true of a call ((l, m, ins, outs), before) with at least one input or output: there was a setup_impl before, and if the last
one was of the same implementation and did not throw, then it succeeded and left exactly the shapes and members of the call. -/
def Good (c : (Nat × σ × List Shape × List Shape) × List (Event σ)) : Prop :=
  c.1.2.2 ≠ ([], []) → ∃ l oc m ins outs, lastSetup c.2 = some (l, oc, m, ins, outs) ∧ c.1.1 ≤ l ∧
    (l = c.1.1 → oc ≠ .throws → oc = .ok ∧ (m, ins, outs) = c.1.2)

/-- The last implementation does not ask for another fall-back. -/
def EndsWell (is : List (Impl σ)) : Prop := ∀ i, is.getLast? = some i → ∀ m c a b, (i.setup m c a b).2.2 ≠ .fallback

/-! ### The invariant -/

/-- The innermost object agrees with the last setup_impl. -/
def Inv (lvl : Nat) (os : List (Obj σ)) (log : List (Event σ)) : Prop :=
  ∃ o, os.getLast? = some o ∧ (lastSetup log = none → o.inShapes = [] ∧ o.outShapes = []) ∧
    ∀ l oc m ins outs, lastSetup log = some (l, oc, m, ins, outs) →
      (oc ≠ .fallback → l + 1 = lvl + os.length) ∧ (oc = .ok → o.mem = m ∧ o.inShapes = ins ∧ o.outShapes = outs) ∧
      (oc = .fallback → o.inShapes = [] ∧ o.outShapes = [])

theorem lastSetup_append (a b : List (Event σ)) : lastSetup (a ++ b) = (lastSetup a).or (lastSetup b) := by
  induction a with
  | nil => simp [lastSetup]
  | cons e a ih => cases e <;> simp [lastSetup, ih]

theorem inv_cons (lvl : Nat) (o o' : Obj σ) (os : List (Obj σ)) (log : List (Event σ)) : Inv lvl (o :: o' :: os) log ↔ Inv (lvl + 1) (o' :: os) log := by
  unfold Inv
  simp only [List.getLast?_cons_cons, List.length_cons]
  have : ∀ n, lvl + (n + 1 + 1) = lvl + 1 + (n + 1) := by omega
  simp only [this]

theorem inv_single (lvl : Nat) (o o' : Obj σ) (log : List (Event σ)) (h : Inv lvl [o] log) (hm : o'.mem = o.mem) (hi : o'.inShapes = o.inShapes)
    (ho : o'.outShapes = o.outShapes) : Inv lvl [o'] log := by
  obtain ⟨x, hx, h1, h2⟩ := h
  simp only [List.getLast?_singleton, Option.some.injEq] at hx
  subst hx
  exact ⟨o', rfl, by rw [hi, ho]; exact h1, by rw [hm, hi, ho]; exact h2⟩

theorem inv_event (lvl : Nat) (o : Obj σ) (log : List (Event σ)) (oc : Outcome) (m : σ) (a b : List Shape)
    (h1 : oc = .ok → o.mem = m ∧ o.inShapes = a ∧ o.outShapes = b) (h2 : oc = .fallback → o.inShapes = [] ∧ o.outShapes = []) (l : Nat)
    (hl : oc ≠ .fallback → l = lvl) : Inv lvl [o] (Event.setup l oc m a b :: log) := by
  refine ⟨o, rfl, by simp [lastSetup], ?_⟩
  intro l' oc' m' a' b' h
  simp only [lastSetup, Option.some.injEq, Prod.mk.injEq] at h
  obtain ⟨rfl, rfl, rfl, rfl, rfl⟩ := h
  exact ⟨fun hne => by rw [hl hne]; rfl, h1, h2⟩

theorem endsWell_tail (i : Impl σ) (is : List (Impl σ)) (h : EndsWell (i :: is)) (hne : is ≠ []) : EndsWell is := by
  cases is with
  | nil => exact absurd rfl hne
  | cons i' is => exact fun j hj => h j (by rw [List.getLast?_cons_cons]; exact hj)

theorem setup_inv (lvl : Nat) (is : List (Impl σ)) (os : List (Obj σ)) (sh : Nat → Shape) (ins outs : List Nat) (log : List (Event σ))
    (hw : EndsWell is) (hos : os ≠ []) (hlen : os.length ≤ is.length) (h : Inv lvl os log) :
    let r := setup lvl is os sh ins outs
    Inv lvl r.1 (r.2.2.1 ++ log) ∧ r.1 ≠ [] ∧ r.1.length ≤ is.length ∧ impls (r.2.2.1 ++ log) = impls log ∧
      (r.2.2.2 = none → ∃ o, r.1.getLast? = some o ∧ lastSetup (r.2.2.1 ++ log) = some (lvl + (r.1.length - 1), .ok, o.mem, ins.map r.2.1, outs.map r.2.1)) := by
  fun_induction setup lvl is os sh ins outs generalizing log with
  | case1 lvl i is o o' os sh ins outs r ih =>
    have hne : is ≠ [] := by rintro rfl; simp at hlen
    obtain ⟨g1, g2, g3, g4, g5⟩ := ih log (endsWell_tail i is hw hne) (by simp) (by simpa using hlen) ((inv_cons ..).mp h)
    simp only at g1 g2 g3 g4 g5 ⊢
    change Inv lvl (_ :: r.1) (r.2.2.1 ++ log) ∧ _
    refine ⟨?_, by simp, by simpa using g3, g4, ?_⟩
    · cases hr : r.1 with
      | nil => exact absurd hr g2
      | cons x xs => rw [hr] at g1; exact (inv_cons ..).mpr g1
    · intro he
      obtain ⟨x, hx, hl⟩ := g5 he
      refine ⟨x, ?_, ?_⟩
      · cases hr : r.1 with
        | nil => exact absurd hr g2
        | cons y ys => rw [hr] at hx; rw [List.getLast?_cons_cons]; exact hx
      · rw [hl]
        have : 0 < r.1.length := List.length_pos_iff.mpr g2
        simp only [List.length_cons]
        congr 2
        change lvl + 1 + (r.1.length - 1) = _
        omega
  | case2 => exact ⟨inv_single _ _ _ _ h rfl rfl rfl, by simp, by simp, rfl, by simp⟩
  | case3 => exact ⟨inv_single _ _ _ _ h rfl rfl rfl, by simp, by simp, rfl, by simp⟩
  | case4 => exact ⟨inv_single _ _ _ _ h rfl rfl rfl, by simp, by simp, rfl, by simp⟩
  | case5 => 
    rename_i hoc
    exact ⟨inv_event _ _ _ _ _ _ _ (fun hh => by rw [hoc] at hh; cases hh) (fun hh => by rw [hoc] at hh; cases hh) _ fun _ => rfl, by simp, by simp, rfl, by simp⟩
  | case6 => 
    rename_i hoc
    refine ⟨inv_event _ _ _ _ _ _ _ (fun _ => ⟨rfl, rfl, rfl⟩) (fun hh => by rw [hoc] at hh; cases hh) _ fun _ => rfl, by simp, by simp, rfl, fun _ => ⟨_, rfl, ?_⟩⟩
    have hl : ∀ (l : Nat) (oc : Outcome) (m : σ) (a b : List Shape), oc = .ok → lastSetup (Event.setup l oc m a b :: ([] ++ log)) = some (l, .ok, m, a, b) := by
      rintro l oc m a b rfl; rfl
    exact hl _ _ _ _ _ hoc
  | case7 =>
    rename_i hoc hnil
    rw [List.head?_eq_none_iff] at hnil
    subst hnil
    exact absurd hoc (hw _ rfl _ _ _ _)
  | case8 lvl i is o sh ins outs c hc h1 h2 r sh' ev hoc i' hi' r' ih =>
    have hne : is ≠ [] := by rintro rfl; cases hi'
    have hpos : 0 < is.length := List.length_pos_iff.mpr hne
    have hr0 := ih (ev :: log) (endsWell_tail i _ hw hne) (by simp) (by simp; omega)
      (inv_event _ _ _ _ _ _ _ (fun hh => by rw [hoc] at hh; cases hh) (fun _ => ⟨rfl, rfl⟩) _ fun hh => absurd hoc hh)
    obtain ⟨g1, g2, g3, g4, g5⟩ := hr0
    simp only at g1 g2 g3 g4 g5 ⊢
    change Inv lvl (_ :: r'.1) ((r'.2.2.1 ++ [ev]) ++ log) ∧ _
    rw [List.append_assoc, List.singleton_append]
    refine ⟨?_, by simp, by simpa using g3, g4, ?_⟩
    · cases hr : r'.1 with
      | nil => exact absurd hr g2
      | cons x xs => 
        change Inv (lvl + 1) r'.1 (r'.2.2.1 ++ ev :: log) at g1
        rw [hr] at g1; exact (inv_cons ..).mpr g1
    · intro he
      obtain ⟨x, hx, hl⟩ := g5 he
      refine ⟨x, ?_, ?_⟩
      · cases hr : r'.1 with
        | nil => exact absurd hr g2
        | cons y ys => 
          change r'.1.getLast? = some x at hx
          rw [hr] at hx; rw [List.getLast?_cons_cons]; exact hx
      · change lastSetup (r'.2.2.1 ++ ev :: log) = _ at hl
        rw [hl]
        have : 0 < r'.1.length := List.length_pos_iff.mpr g2
        simp only [List.length_cons]
        congr 2
        change lvl + 1 + (r'.1.length - 1) = _
        omega
  | case9 is lvl os sh ins outs hx hy =>
    exfalso
    cases is with
    | nil => cases os with
      | nil => exact hos rfl
      | cons _ _ => simp at hlen
    | cons i is => cases os with
      | nil => exact hos rfl
      | cons o os => cases os with
        | nil => exact hy i is o rfl rfl
        | cons o' os => exact hx i is o o' os rfl rfl

theorem checkShapes_true (o : Obj σ) (sh : Nat → Shape) (ins outs : List Nat) (h : checkShapes o sh ins outs = .ok true) :
    o.inShapes = ins.map sh ∧ o.outShapes = outs.map sh := by
  unfold checkShapes at h
  split_ifs at h with h1 h2 h3 h4 <;> first | exact ⟨not_not.mp h3, not_not.mp h4⟩ | cases h

theorem invoke_inv (ev : Nat → σ → List Shape → List Shape → Event σ) (hev : ev = .forward ∨ ev = .backward) (lvl : Nat) (is : List (Impl σ))
    (os : List (Obj σ)) (sh : Nat → Shape) (ins outs : List Nat) (log : List (Event σ)) (hw : EndsWell is) (hos : os ≠ [])
    (hlen : os.length ≤ is.length) (h : Inv lvl os log) (hg : ∀ c ∈ impls log, Good c) :
    let r := invoke ev lvl is os sh ins outs
    Inv lvl r.1 (r.2.2.1 ++ log) ∧ r.1 ≠ [] ∧ r.1.length ≤ is.length ∧ ∀ c ∈ impls (r.2.2.1 ++ log), Good c := by
  have himp : ∀ l m a b (log : List (Event σ)), impls (ev l m a b :: log) = ((l, m, a, b), log) :: impls log := by
    rcases hev with rfl | rfl <;> intros <;> rfl
  have hls : ∀ l m a b (log : List (Event σ)), lastSetup (ev l m a b :: log) = lastSetup log := by
    rcases hev with rfl | rfl <;> intros <;> rfl
  have hinv : ∀ lvl os l m a b (log : List (Event σ)), Inv lvl os log → Inv lvl os (ev l m a b :: log) := by
    intro lvl os l m a b log h
    unfold Inv
    rw [hls]
    exact h
  fun_induction invoke ev lvl is os sh ins outs generalizing log with
  | case1 lvl i is o o' os sh ins outs r ih =>
    have hne : is ≠ [] := by rintro rfl; simp at hlen
    obtain ⟨g1, g2, g3, g4⟩ := ih log (endsWell_tail i is hw hne) (by simp) (by simpa using hlen) ((inv_cons ..).mp h) hg
    refine ⟨?_, by simp, by simpa using g3, g4⟩
    cases hr : r.1 with
    | nil => exact absurd hr g2
    | cons x xs =>
      change Inv (lvl + 1) r.1 (r.2.2.1 ++ log) at g1
      rw [hr] at g1; exact (inv_cons ..).mpr g1
  | case2 => exact ⟨h, by simp, by simp, hg⟩
  | case3 lvl i is o sh ins outs hc =>
    refine ⟨hinv _ _ _ _ _ _ _ h, by simp, by simp, ?_⟩
    intro c hcm
    change c ∈ impls (ev _ _ _ _ :: log) at hcm
    rw [himp, List.mem_cons] at hcm
    rcases hcm with rfl | hcm
    · intro hne
      obtain ⟨e1, e2⟩ := checkShapes_true _ _ _ _ hc
      obtain ⟨x, hx, h1, h2⟩ := h
      simp only [List.getLast?_singleton, Option.some.injEq] at hx
      subst hx
      simp only at hne ⊢
      cases hl : lastSetup log with
      | none => obtain ⟨q1, q2⟩ := h1 hl; rw [← e1, ← e2, q1, q2] at hne; exact absurd rfl hne
      | some t =>
        obtain ⟨l, oc, m, a, b⟩ := t
        obtain ⟨g1, g2, g3⟩ := h2 _ _ _ _ _ hl
        refine ⟨l, oc, m, a, b, rfl, ?_, ?_⟩
        · cases oc with
          | fallback => obtain ⟨q1, q2⟩ := g3 rfl; rw [← e1, ← e2, q1, q2] at hne; exact absurd rfl hne
          | ok => have := g1 (by simp); simp at this; omega
          | throws => have := g1 (by simp); simp at this; omega
        · intro _ ht
          cases oc with
          | fallback => obtain ⟨q1, q2⟩ := g3 rfl; rw [← e1, ← e2, q1, q2] at hne; exact absurd rfl hne
          | ok => obtain ⟨q0, q1, q2⟩ := g2 rfl; exact ⟨rfl, by rw [← q0, ← q1, ← q2, e1, e2]⟩
          | throws => exact absurd rfl ht
    · exact hg c hcm
  | case4 lvl i is o sh ins outs hc r e he =>
    obtain ⟨g1, g2, g3, g4, _⟩ := setup_inv lvl (i :: is) [o] sh ins outs log hw hos hlen h
    exact ⟨g1, g2, g3, by intro c hcm; exact hg c (by rw [← g4]; exact hcm)⟩
  | case5 lvl i is o sh ins outs hc r he =>
    obtain ⟨g1, g2, g3, g4, g5⟩ := setup_inv lvl (i :: is) [o] sh ins outs log hw hos hlen h
    obtain ⟨x, hx, hl⟩ := g5 he
    refine ⟨hinv _ _ _ _ _ _ _ g1, g2, g3, ?_⟩
    intro c hcm
    change c ∈ impls (ev _ _ _ _ :: (r.2.2.1 ++ log)) at hcm
    rw [himp, List.mem_cons] at hcm
    rcases hcm with rfl | hcm
    · intro _
      refine ⟨_, _, _, _, _, hl, by simp, ?_⟩
      intro hlv _
      simp only at hlv
      refine ⟨rfl, ?_⟩
      have h1 : r.1.length = 1 := by
        have := List.length_pos_iff.mpr g2
        change lvl + (r.1.length - 1) = lvl at hlv
        change 0 < r.1.length at this
        omega
      obtain ⟨y, hy⟩ := List.length_eq_one_iff.mp h1
      change r.1.getLast? = some x at hx
      rw [hy] at hx ⊢
      simp only [List.getLast?_singleton, Option.some.injEq] at hx
      subst hx
      rfl
    · exact hg c (by rw [← g4]; exact hcm)
  | case6 sh ins outs lvl is os hx hy => exact ⟨h, hos, hlen, hg⟩

/-- **C91.** In every history of setup, forward, backward and reshapes, with any variables, every forward_impl and backward_impl (of a
function with inputs or outputs) runs after a setup_impl; and if the last setup_impl was of the implementation that is run and did not throw,
it succeeded for exactly these input and output shapes and the members are those it left. Missing are the two cases refuted below:
setup_impl threw last, and setup_impl switched to a fall-back during a re-setup. -/
theorem C91_shapes_partial (is : List (Impl σ)) (i : Impl σ) (cls : String) (shape : Nat → Shape) (h : List Call) (hw : EndsWell (i :: is)) :
    ∀ c ∈ impls (run is i cls shape h).log, Good c := by
  suffices H : ∀ (h : List Call) (w : World σ), Inv 0 w.objs w.log → w.objs ≠ [] → w.objs.length ≤ (i :: is).length → (∀ c ∈ impls w.log, Good c) →
      ∀ c ∈ impls (h.foldl (step (i :: is)) w).log, Good c by
    refine H h _ ⟨_, rfl, fun _ => ⟨rfl, rfl⟩, ?_⟩ (by simp) (by simp) (by simp [impls])
    intro l oc m a b hl; cases hl
  intro h
  induction h with
  | nil => exact fun w _ _ _ hg => hg
  | cons a h ih =>
    intro w hi hne hlen hg
    refine ih (step (i :: is) w a) ?_ ?_ ?_ ?_ <;> cases a with
    | setup ins outs =>
      obtain ⟨g1, g2, g3, g4, _⟩ := setup_inv 0 (i :: is) w.objs w.shape ins outs w.log hw hne hlen hi
      first | exact g1 | exact g2 | exact g3 | (intro c hc; exact hg c (by rw [← g4]; exact hc))
    | forward ins outs =>
      obtain ⟨g1, g2, g3, g4⟩ := invoke_inv .forward (.inl rfl) 0 (i :: is) w.objs w.shape ins outs w.log hw hne hlen hi hg
      first | exact g1 | exact g2 | exact g3 | exact g4
    | backward ins outs =>
      obtain ⟨g1, g2, g3, g4⟩ := invoke_inv .backward (.inr rfl) 0 (i :: is) w.objs w.shape ins outs w.log hw hne hlen hi hg
      first | exact g1 | exact g2 | exact g3 | exact g4
    | reshape v s => first | exact hi | exact hne | exact hlen | exact hg

def Event.lvl : Event σ → Nat
  | .setup l .. => l
  | .forward l .. => l
  | .backward l .. => l

theorem setup_lvl (lvl : Nat) (is : List (Impl σ)) (os : List (Obj σ)) (sh : Nat → Shape) (ins outs : List Nat) :
    ∀ e ∈ (setup lvl is os sh ins outs).2.2.1, e.lvl < lvl + is.length := by
  fun_induction setup lvl is os sh ins outs with
  | case1 lvl i is o o' os sh ins outs r ih => intro e he; have := ih e he; simp; omega
  | case5 lvl i is => intro e he; simp at he; subst he; show lvl < lvl + (i :: is).length; simp
  | case6 lvl i is => intro e he; simp at he; subst he; show lvl < lvl + (i :: is).length; simp
  | case7 lvl i is => intro e he; simp at he; subst he; show lvl < lvl + (i :: is).length; simp
  | case8 lvl i is o sh ins outs c hc h1 h2 r sh' ev hoc i' hi' r' ih =>
    intro e he
    simp only [List.mem_append, List.mem_singleton] at he
    rcases he with he | rfl
    · have := ih e he; simp; omega
    · simp [ev, Event.lvl]
  | _ => intro e he; cases he

theorem invoke_lvl (ev : Nat → σ → List Shape → List Shape → Event σ) (hev : ev = .forward ∨ ev = .backward) (lvl : Nat) (is : List (Impl σ))
    (os : List (Obj σ)) (sh : Nat → Shape) (ins outs : List Nat) : ∀ e ∈ (invoke ev lvl is os sh ins outs).2.2.1, e.lvl < lvl + is.length := by
  have hl : ∀ l m a b, (ev l m a b).lvl = l := by rcases hev with rfl | rfl <;> intros <;> rfl
  fun_induction invoke ev lvl is os sh ins outs with
  | case1 lvl i is o o' os sh ins outs r ih => intro e he; have := ih e he; simp; omega
  | case3 => intro e he; simp at he; subst he; simp [hl]
  | case4 => intro e he; exact setup_lvl _ _ _ _ _ _ e he
  | case5 =>
    intro e he
    rcases List.mem_cons.mp he with rfl | he
    · simp [hl]
    · exact setup_lvl _ _ _ _ _ _ e he
  | _ => intro e he; cases he

theorem run_lvl (is : List (Impl σ)) (i : Impl σ) (cls : String) (shape : Nat → Shape) (h : List Call) : ∀ e ∈ (run is i cls shape h).log, e.lvl < (i :: is).length := by
  suffices H : ∀ (h : List Call) (w : World σ), (∀ e ∈ w.log, e.lvl < (i :: is).length) → ∀ e ∈ (h.foldl (step (i :: is)) w).log, e.lvl < (i :: is).length from
    H h _ (by simp)
  intro h
  induction h with
  | nil => exact fun w hw => hw
  | cons a h ih =>
    intro w hw
    refine ih _ ?_
    cases a with
    | setup ins outs => intro e he; rcases List.mem_append.mp he with he | he
                        · have := setup_lvl _ _ _ _ _ _ e he; omega
                        · exact hw e he
    | forward ins outs => intro e he; rcases List.mem_append.mp he with he | he
                          · have := invoke_lvl _ (.inl rfl) _ _ _ _ _ _ e he; omega
                          · exact hw e he
    | backward ins outs => intro e he; rcases List.mem_append.mp he with he | he
                           · have := invoke_lvl _ (.inr rfl) _ _ _ _ _ _ e he; omega
                           · exact hw e he
    | reshape v s => exact hw

/-- For functions without a fall-back, whose setup_impl does not throw in this history, this is the whole property. -/
theorem C91_shapes_plain_partial (i : Impl σ) (cls : String) (shape : Nat → Shape) (h : List Call) (hw : ∀ m c a b, (i.setup m c a b).2.2 ≠ .fallback)
    (ht : ∀ l m a b, Event.setup l .throws m a b ∉ (run [] i cls shape h).log) :
    ∀ l m ins outs log, ((l, m, ins, outs), log) ∈ impls (run [] i cls shape h).log → (ins, outs) ≠ ([], []) →
      lastSetup log = some (0, .ok, m, ins, outs) := by
  intro l m ins outs log hm hne
  have hsub : ∀ (L : List (Event σ)) c, c ∈ impls L → ∃ pre, L = pre ++ c.2 := by
    intro L
    induction L with
    | nil => intro c hc; cases hc
    | cons e L ih =>
      intro c hc
      cases e <;> simp only [impls, List.mem_cons] at hc
      · obtain ⟨pre, rfl⟩ := ih c hc; exact ⟨_ :: pre, rfl⟩
      · rcases hc with rfl | hc
        · exact ⟨[_], rfl⟩
        · obtain ⟨pre, rfl⟩ := ih c hc; exact ⟨_ :: pre, rfl⟩
      · rcases hc with rfl | hc
        · exact ⟨[_], rfl⟩
        · obtain ⟨pre, rfl⟩ := ih c hc; exact ⟨_ :: pre, rfl⟩
  have hmem : ∀ (L : List (Event σ)) l oc m a b, lastSetup L = some (l, oc, m, a, b) → Event.setup l oc m a b ∈ L := by
    intro L
    induction L with
    | nil => intro l oc m a b h; cases h
    | cons e L ih =>
      intro l oc m a b h
      cases e with
      | setup => simp only [lastSetup, Option.some.injEq, Prod.mk.injEq] at h; obtain ⟨rfl, rfl, rfl, rfl, rfl⟩ := h; exact List.mem_cons_self ..
      | forward => exact List.mem_cons_of_mem _ (ih _ _ _ _ _ h)
      | backward => exact List.mem_cons_of_mem _ (ih _ _ _ _ _ h)
  obtain ⟨l', oc, m', a, b, e, hle, hgood⟩ := C91_shapes_partial [] i cls shape h (fun j hj => by
    simp only [List.getLast?_singleton, Option.some.injEq] at hj; subst hj; exact hw) _ hm hne
  simp only at e hgood hle
  obtain ⟨pre, hpre⟩ := hsub _ _ hm
  have hin : Event.setup l' oc m' a b ∈ (run [] i cls shape h).log := by
    rw [hpre]; exact List.mem_append_right _ (hmem _ _ _ _ _ _ e)
  have h0 := run_lvl _ _ _ _ _ _ hin
  simp only [Event.lvl, List.length_singleton] at h0
  obtain rfl : l' = 0 := by omega
  obtain rfl : l = 0 := by omega
  obtain ⟨rfl, g⟩ := hgood rfl (by rintro rfl; exact ht _ _ _ _ hin)
  simp only [Prod.mk.injEq] at g
  obtain ⟨rfl, rfl, rfl⟩ := g
  exact e

/-- **C91.** A forward (or backward) with the shapes of the last successful setup runs the implementation at once, without another setup_impl,
and changes nothing. -/
theorem C91_no_setup (is : List (Impl σ)) (i : Impl σ) (o : Obj σ) (sh : Nat → Shape) (ins outs : List Nat) (log : List (Event σ))
    (h1 : o.inShapes = ins.map sh) (h2 : o.outShapes = outs.map sh) :
    step (i :: is) ⟨[o], sh, log⟩ (.forward ins outs) = ⟨[o], sh, .forward 0 o.mem (ins.map sh) (outs.map sh) :: log⟩ ∧
    step (i :: is) ⟨[o], sh, log⟩ (.backward ins outs) = ⟨[o], sh, .backward 0 o.mem (ins.map sh) (outs.map sh) :: log⟩ := by
  have hc : checkShapes o sh ins outs = .ok true := by simp [checkShapes, h1, h2]
  constructor <;> simp [step, invoke, hc]

/-- **C91.** If only the shape of an output differs, nothing is run. -/
theorem C91_output_changed (is : List (Impl σ)) (i : Impl σ) (o : Obj σ) (sh : Nat → Shape) (ins outs : List Nat) (log : List (Event σ))
    (h1 : o.inShapes = ins.map sh) (h2 : o.outShapes ≠ outs.map sh) :
    step (i :: is) ⟨[o], sh, log⟩ (.forward ins outs) = ⟨[o], sh, log⟩ ∧ step (i :: is) ⟨[o], sh, log⟩ (.backward ins outs) = ⟨[o], sh, log⟩ := by
  have hc : ∃ e, checkShapes o sh ins outs = .error e := by
    by_cases hl : outs.length = o.outShapes.length <;> simp [checkShapes, h1, h2, hl]
  obtain ⟨e, hc⟩ := hc
  constructor <;> simp [step, invoke, hc]

/-- **C91.** The array class used is the one of the context if the function allows it, otherwise the first allowed one. -/
theorem C91_array_class (classes : List String) (c : String) (hne : classes ≠ []) :
    classes[pick classes c classes.length]? = some (if c ∈ classes then c else classes.head hne) := by
  have H : ∀ n, n ≤ classes.length → (∃ j : Nat, j < n ∧ classes[j]? = some c) → classes[pick classes c n]? = some c := by
    intro n
    induction n with
    | zero => rintro _ ⟨j, hj, _⟩; omega
    | succ n ih =>
      rintro hn ⟨j, hj, hjc⟩
      rw [pick]
      by_cases h : classes[n]? = some c
      · rw [if_neg (not_not.mpr h)]; exact h
      · rw [if_pos h]
        refine ih (by omega) ⟨j, ?_, hjc⟩
        rcases Nat.lt_succ_iff_lt_or_eq.mp hj with h' | rfl
        · exact h'
        · exact absurd hjc h
  have H0 : ∀ n, (∀ j : Nat, classes[j]? ≠ some c) → pick classes c n = 0 := by
    intro n hn
    induction n with
    | zero => rfl
    | succ n ih => rw [pick, if_pos (hn n), ih]
  by_cases h : c ∈ classes
  · rw [if_pos h]
    obtain ⟨j, hj, e⟩ := List.mem_iff_getElem.mp h
    exact H _ (Nat.le_refl _) ⟨j, hj, by rw [List.getElem?_eq_getElem hj, e]⟩
  · rw [if_neg h, H0 _ fun j hj => h (List.mem_of_getElem? hj)]
    cases classes with
    | nil => exact absurd rfl hne
    | cons a as => rfl

/-- **C91.** Before backward_impl the gradient of an input is zero if the input is requested without accumulation in any of its positions,
and untouched otherwise: an implementation that does nothing gives zeros, not garbage. -/
theorem C91_zero_grad {G : Type} (zero : G) (pd accum : List Bool) (ins : List Nat) (g : Nat → G) (u : Nat) :
    ((∃ k, ins[k]? = some u ∧ pd[k]? = some true ∧ accum.getD k false = false) → zeroGrads zero false pd accum ins g u = zero) ∧
    ((∀ k, ins[k]? = some u → pd.getD k false = false ∨ accum.getD k false = true) → zeroGrads zero false pd accum ins g u = g u) ∧
    zeroGrads zero true pd accum ins g u = g u := by
  have H : ∀ n, n ≤ ins.length → ∀ r, r = (List.range n).foldl (fun g k => if pd.getD k false && !accum.getD k false then (fun u => if u = ins.getD k 0 then zero else g u) else g) g →
      ((∃ k, k < n ∧ ins[k]? = some u ∧ pd[k]? = some true ∧ accum.getD k false = false) → r u = zero) ∧
      ((∀ k, k < n → ins[k]? = some u → pd.getD k false = false ∨ accum.getD k false = true) → r u = g u) := by
    intro n
    induction n with
    | zero => rintro _ r rfl; exact ⟨by rintro ⟨k, hk, _⟩; omega, fun _ => rfl⟩
    | succ n ih =>
      rintro hn r rfl
      rw [List.range_succ, List.foldl_append]
      obtain ⟨i1, i2⟩ := ih (by omega) _ rfl
      generalize (List.range n).foldl _ g = g' at i1 i2 ⊢
      simp only [List.foldl_cons, List.foldl_nil]
      have hget : ins[n]? = some (ins.getD n 0) := by
        rw [List.getD_eq_getElem?_getD, List.getElem?_eq_getElem (by omega)]; rfl
      constructor
      · rintro ⟨k, hk, e1, e2, e3⟩
        by_cases hkn : k < n
        · have := i1 ⟨k, hkn, e1, e2, e3⟩
          split
          · simp only; split
            · rfl
            · exact this
          · exact this
        · have : k = n := by omega
          subst this
          rw [hget] at e1
          have hpd : pd.getD k false = true := by rw [List.getD_eq_getElem?_getD, e2]; rfl
          rw [if_pos (by rw [hpd, e3]; rfl), if_pos (Option.some.inj e1).symm]
      · intro h
        have := i2 fun k hk => h k (by omega)
        split
        · rename_i hc
          simp only
          split
          · rename_i hu
            rcases h n (by omega) (by rw [hget, ← hu]) with e | e
            · rw [e] at hc; simp at hc
            · rw [e] at hc; simp at hc
          · exact this
        · exact this
  refine ⟨?_, ?_, rfl⟩
  · rintro ⟨k, e1, e2, e3⟩
    exact (H _ (Nat.le_refl _) _ rfl).1 ⟨k, (List.getElem?_eq_some_iff.mp e1).1, e1, e2, e3⟩
  · intro h
    exact (H _ (Nat.le_refl _) _ rfl).2 fun k _ => h k

/-! ### Concrete implementations -/

/-- Like Convolution::setup_impl (/repo/src/nbla/function/generic/convolution.cpp:87-106) with a kernel of extent 5: the members are cleared
and filled axis by axis; an axis shorter than the kernel throws. -/
def convLike : Impl (List Nat) where
  minIn := 1
  minOut := 1
  classes := ["CpuCachedArray", "CpuArray"]
  init := []
  setup := fun _ _ ins outs =>
    let ext := ins.headD []
    let good := ext.takeWhile (5 ≤ ·)
    if good.length = ext.length then (ext.map (· - 4), [ext.map (· - 4)], .ok) else (good.map (· - 4), outs, .throws)

/-- Add2::setup_impl (/repo/src/nbla/function/generic/add2.cpp:27-36). -/
def add2 : Impl Unit where
  minIn := 2
  minOut := 1
  classes := ["CpuCachedArray", "CpuArray"]
  init := ()
  setup := fun _ _ ins outs => if ins[0]? = ins[1]? then ((), [ins.headD []], .ok) else ((), outs, .fallback)

/-- BcAdd2 for inputs of which the second is broadcast to the first. -/
def bcAdd2 : Impl Unit where
  minIn := 2
  minOut := 1
  classes := ["CpuCachedArray", "CpuArray"]
  init := ()
  setup := fun _ _ ins _ => ((), [ins.headD []], .ok)

def sh0 : Nat → Shape := fun v => if v = 0 then [8, 8] else if v = 1 then [8, 8] else []

/-- **C91 (refuted part).** The image is made too small, which forward reports, and put back to its old size: forward then runs without
another setup, with the members the failed setup left: not the output extents [4, 4] but none. -/
theorem C91_failed_setup : (run [] convLike "CpuArray" sh0 [.setup [0] [2], .reshape 0 [3, 3], .forward [0] [2], .reshape 0 [8, 8], .forward [0] [2]]).log =
    [.forward 0 [] [[8, 8]] [[4, 4]], .setup 0 .throws [] [[3, 3]] [[4, 4]], .setup 0 .ok [4, 4] [[8, 8]] [[4, 4]]] := by decide

/-- **C91 (refuted part).** Add2 is set up for equal shapes; then the second input becomes a row. forward sets it up again, which switches to
BcAdd2 (level 1), but still runs Add2's own forward_impl (level 0), which reads 64 elements of an input of 8; only the next forward is right. -/
theorem C91_fallback_not_used : (run [bcAdd2] add2 "CpuArray" sh0 [.setup [0, 1] [2], .reshape 1 [1, 8], .forward [0, 1] [2], .forward [0, 1] [2]]).log =
    [.forward 1 () [[8, 8], [1, 8]] [[8, 8]], .forward 0 () [[8, 8], [1, 8]] [[8, 8]], .setup 1 .ok () [[8, 8], [1, 8]] [[8, 8]],
      .setup 0 .fallback () [[8, 8], [1, 8]] [[8, 8]], .setup 0 .ok () [[8, 8], [8, 8]] [[8, 8]]] := by decide

example : EndsWell [convLike] := by
  intro i hi m c a b
  simp only [List.getLast?_singleton, Option.some.injEq] at hi
  subst hi
  unfold convLike
  simp only
  split <;> simp
example : EndsWell [add2, bcAdd2] := by
  intro i hi m c a b
  simp only [List.getLast?_cons_cons, List.getLast?_singleton, Option.some.injEq] at hi
  subst hi
  simp [bcAdd2]
example : (run [] convLike "CpuArray" sh0 [.setup [0] [2], .forward [0] [2], .reshape 0 [6, 9], .forward [0] [2], .backward [0] [2], .reshape 2 [1], .forward [0] [2]]).log =
    [.backward 0 [2, 5] [[6, 9]] [[2, 5]], .forward 0 [2, 5] [[6, 9]] [[2, 5]], .setup 0 .ok [2, 5] [[6, 9]] [[2, 5]],
      .forward 0 [4, 4] [[8, 8]] [[4, 4]], .setup 0 .ok [4, 4] [[8, 8]] [[4, 4]]] := by decide
example : pick ["CpuCachedArray", "CpuArray"] "CpuArray" 2 = 1 ∧ pick ["CpuCachedArray", "CpuArray"] "CudaArray" 2 = 0 := by decide

end Verif.Func
