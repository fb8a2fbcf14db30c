/-
The device memory during the iteration is bounded by the planner's account.
-/
import Verif.Lms.Spec
import Verif.Lms.Acct3
import Verif.Lms.Preclear

namespace Verif.Lms

variable {S D : Type} [DecidableEq S] [DecidableEq D] [Fintype D] [Fintype S] {z : Nat}

/-- The command concerns array `s`. -/
def cmdOn (c : Cfg S D) (s : S) (x : Sched) : Prop := ∃ r, c.order[x.r]? = some r ∧ r.said = s

/-- The event creates a device buffer of `s`. -/
def sets (c : Cfg S D) (s : S) : Ev → Prop
  | .use i => ∃ r, c.order[i]? = some r ∧ r.uses s
  | .cmd x => (x.tag = .swapInGet ∨ x.tag = .swapInCast) ∧ cmdOn c s x
  | .done _ => False

def isWait : Ev → Prop
  | .cmd x => x.tag = .wait
  | _ => False

theorem isSwapOutOf_iff (c : Cfg S D) (s : S) (x : Sched) :
    isSwapOutOf c s x = true ↔ x.tag = .swapOut ∧ cmdOn c s x := by
  unfold isSwapOutOf cmdOn
  cases c.order[x.r]? with
  | none => simp
  | some r => simp

theorem devAt_append (c : Cfg S D) (s : S) (l m : List Ev) :
    devAt c s (l ++ m) = m.foldl (stepDev c s) (devAt c s l) := by
  unfold devAt; rw [List.foldl_append]

theorem devAt_snoc (c : Cfg S D) (s : S) (l : List Ev) (y : Ev) :
    devAt c s (l ++ [y]) = stepDev c s (devAt c s l) y := devAt_append c s l [y]

theorem stepDev_other (c : Cfg S D) (s : S) (x : Bool × Bool) (y : Sched) (h : ¬ cmdOn c s y) :
    stepDev c s x (.cmd y) = x := by
  obtain ⟨t, i⟩ := y
  unfold stepDev
  simp only
  cases ho : c.order[i]? with
  | none => rfl
  | some r =>
    simp only
    rw [if_neg (fun e => h ⟨r, ho, e⟩)]

/-- Without waits the device buffer does not depend on the copy flag. -/
theorem stepDev_fst (c : Cfg S D) (s : S) (x x' : Bool × Bool) (y : Ev)
    (hw : ∀ w, y = .cmd w → w.tag = .wait → ¬ cmdOn c s w) (h : x.1 = x'.1) :
    (stepDev c s x y).1 = (stepDev c s x' y).1 := by
  cases y with
  | use i =>
    unfold stepDev; simp only
    cases c.order[i]? with
    | none => exact h
    | some r => simp only; split <;> (try split) <;> (try split) <;> first | rfl | exact h
  | cmd w =>
    by_cases hon : cmdOn c s w
    · obtain ⟨t, i⟩ := w
      obtain ⟨r, ho, hr⟩ := hon
      simp only at ho
      unfold stepDev; simp only [ho, if_pos hr]
      cases t with
      | wait => exact absurd ⟨r, ho, hr⟩ (hw ⟨.wait, i⟩ rfl rfl)
      | swapOut => exact h
      | _ => rfl
    · rw [stepDev_other c s x w hon, stepDev_other c s x' w hon]; exact h
  | done f => unfold stepDev; simp only; split <;> first | rfl | exact h

theorem fold_fst (c : Cfg S D) (s : S) (l : List Ev)
    (hw : ∀ w, Ev.cmd w ∈ l → w.tag = .wait → ¬ cmdOn c s w) : ∀ (x x' : Bool × Bool), x.1 = x'.1 →
    (l.foldl (stepDev c s) x).1 = (l.foldl (stepDev c s) x').1 := by
  induction l with
  | nil => intro x x' h; exact h
  | cons y l ih =>
    intro x x' h
    simp only [List.foldl_cons]
    refine ih (fun w hm => hw w (List.mem_cons_of_mem _ hm)) _ _ (stepDev_fst c s x x' y ?_ h)
    intro w e; subst e; exact hw w (by simp)

/-- Events that create no buffer of `s` keep "no buffer". -/
theorem fold_false (c : Cfg S D) (s : S) (l : List Ev) (hn : ∀ y ∈ l, ¬ sets c s y) : ∀ x : Bool × Bool,
    x.1 = false → (l.foldl (stepDev c s) x).1 = false := by
  induction l with
  | nil => intro x h; exact h
  | cons y l ih =>
    intro x h
    simp only [List.foldl_cons]
    refine ih (fun w hm => hn w (List.mem_cons_of_mem _ hm)) _ ?_
    have hy := hn y (by simp)
    cases y with
    | use i =>
      unfold stepDev; simp only
      cases ho : c.order[i]? with
      | none => exact h
      | some r =>
        simp only
        by_cases e : r.said = s
        · rw [if_pos e]
          by_cases hc : r.tag = .clear
          · rw [if_pos hc]
          · exact absurd ⟨r, ho, hc, e⟩ hy
        · rw [if_neg e]; exact h
    | cmd w =>
      by_cases hon : cmdOn c s w
      · obtain ⟨t, i⟩ := w
        have hon' := hon
        obtain ⟨r, ho, hr⟩ := hon
        simp only at ho
        unfold stepDev; simp only [ho, if_pos hr]
        cases t with
        | wait => simp only; split <;> first | rfl | exact h
        | swapOut => exact h
        | preclear => rfl
        | swapInGet => exact absurd ⟨.inl rfl, hon'⟩ hy
        | swapInCast => exact absurd ⟨.inr rfl, hon'⟩ hy
      · rw [stepDev_other c s x w hon]; exact h
    | done f => unfold stepDev; simp only; split <;> first | rfl | exact h

/-- Events that create no buffer of `s` keep "a buffer is being copied out". -/
theorem fold_fly (c : Cfg S D) (s : S) (l : List Ev) (hn : ∀ y ∈ l, ¬ sets c s y) : ∀ x : Bool × Bool,
    (x.1 = true → x.2 = true) → (l.foldl (stepDev c s) x).1 = true → (l.foldl (stepDev c s) x).2 = true := by
  induction l with
  | nil => intro x h; exact h
  | cons y l ih =>
    intro x h
    simp only [List.foldl_cons]
    refine ih (fun w hm => hn w (List.mem_cons_of_mem _ hm)) _ ?_
    have hy := hn y (by simp)
    cases y with
    | use i =>
      unfold stepDev; simp only
      cases ho : c.order[i]? with
      | none => exact h
      | some r =>
        simp only
        by_cases e : r.said = s
        · rw [if_pos e]
          by_cases hc : r.tag = .clear
          · rw [if_pos hc]; exact id
          · exact absurd ⟨r, ho, hc, e⟩ hy
        · rw [if_neg e]; exact h
    | cmd w =>
      by_cases hon : cmdOn c s w
      · obtain ⟨t, i⟩ := w
        have hon' := hon
        obtain ⟨r, ho, hr⟩ := hon
        simp only at ho
        unfold stepDev; simp only [ho, if_pos hr]
        cases t with
        | wait => simp only; split <;> first | exact id | exact h
        | swapOut => exact id
        | preclear => exact id
        | swapInGet => exact absurd ⟨.inl rfl, hon'⟩ hy
        | swapInCast => exact absurd ⟨.inr rfl, hon'⟩ hy
      · rw [stepDev_other c s x w hon]; exact h
    | done f => unfold stepDev; simp only; split <;> first | exact id | exact h

theorem usage_le (c : Cfg S D) (dt : S → D) (v : S → AState) (l : List Ev)
    (h : ∀ s, (devAt c s l).1 = true → (v s).state = .in_ ∨ (v s).state = .out) :
    usage c dt l ≤ tot c dt v [.in_] + tot c dt v [.out] := by
  unfold usage tot
  rw [← Finset.sum_add_distrib]
  apply Finset.sum_le_sum
  intro s _
  by_cases hd : (devAt c s l).1 = true
  · rw [if_pos hd]
    rcases h s hd with e | e <;> rw [e] <;> simp
  · rw [if_neg hd]; exact Nat.zero_le _

/-- The simulation: what is on the device is accounted for. -/
structure XInv (c : Cfg S D) (dt : S → D) (v : S → AState) (E : List Ev) : Prop where
  usage : ∀ l, l <+: E → usage c dt l ≤ c.maxBytes
  dev : ∀ s, (devAt c s E).1 = true → (v s).state = .in_ ∨ (v s).state = .out
  wt : ∀ s, (v s).state = .out → ∀ A x Q, E = A ++ Ev.cmd x :: Q → isSwapOutOf c s x = true →
    (∀ y, Ev.cmd y ∈ Q → isSwapOutOf c s y = false) → ∀ y, Ev.cmd y ∈ Q → y.tag = .wait → ¬ cmdOn c s y
  fl : ∀ s, (v s).state = .out → (devAt c s E).1 = true → (devAt c s E).2 = true

theorem prefix_snoc {α : Type} {l E : List α} {y : α} (h : l <+: E ++ [y]) : l <+: E ∨ l = E ++ [y] := by
  rcases List.prefix_concat_iff.mp h with e | e
  · right; exact e
  · left; exact e

theorem snoc_decomp {α : Type} {E A Q : List α} {x y : α} (h : E ++ [y] = A ++ x :: Q) :
    (Q = [] ∧ x = y ∧ E = A) ∨ ∃ Q', Q = Q' ++ [y] ∧ E = A ++ x :: Q' := by
  rcases List.eq_nil_or_concat Q with e | ⟨Q', y', e⟩
  · subst e
    left
    have := List.append_inj' h rfl
    exact ⟨rfl, by simpa using this.2.symm, this.1⟩
  · right
    subst e
    have h' : E ++ [y] = (A ++ x :: Q') ++ [y'] := by simpa using h
    have := List.append_inj' h' rfl
    have e2 : y = y' := by simpa using this.2
    exact ⟨Q', by rw [e2]; simp, this.1⟩

/-- A command on array `s0` is appended and the planner changes the state of `s0`. -/
theorem XInv.cmd {c : Cfg S D} {dt : S → D} {v v' : S → AState} {E : List Ev} (h : XInv c dt v E) (x : Sched) (s0 : S)
    (a : AState) (hv : v' = Function.update v s0 a) (hon : cmdOn c s0 x)
    (hlim : tot c dt v' [.in_] + tot c dt v' [.out] ≤ c.maxBytes)
    (hdev : (devAt c s0 (E ++ [.cmd x])).1 = true → a.state = .in_ ∨ a.state = .out)
    (hout : a.state = .out → x.tag = .swapOut) :
    XInv c dt v' (E ++ [.cmd x]) := by
  have hoth : ∀ s, s ≠ s0 → ¬ cmdOn c s x := by
    rintro s e ⟨r, h1, h2⟩
    obtain ⟨r', h3, h4⟩ := hon
    rw [h1] at h3; cases h3; exact e (h2.symm.trans h4)
  have hsame : ∀ s, s ≠ s0 → devAt c s (E ++ [.cmd x]) = devAt c s E := by
    intro s e; rw [devAt_snoc, stepDev_other c s _ x (hoth s e)]
  have hd : ∀ s, (devAt c s (E ++ [.cmd x])).1 = true → (v' s).state = .in_ ∨ (v' s).state = .out := by
    intro s hs
    by_cases e : s = s0
    · subst e; rw [hv, Function.update_self]; exact hdev hs
    · rw [hv, Function.update_of_ne e]; rw [hsame s e] at hs; exact h.dev s hs
  refine ⟨fun l hl => ?_, hd, fun s hs A w Q hE hw hQ => ?_, fun s hs hs1 => ?_⟩
  · rcases prefix_snoc hl with e | e
    · exact h.usage l e
    · subst e; exact (usage_le c dt v' _ hd).trans hlim
  · rcases snoc_decomp hE with ⟨e1, e2, e3⟩ | ⟨Q', e1, e2⟩
    · subst e1; intro y hy; simp at hy
    · subst e1
      by_cases e : s = s0
      · subst e
        rw [hv, Function.update_self] at hs
        have := hQ x (by simp)
        rw [(isSwapOutOf_iff c s x).mpr ⟨hout hs, hon⟩] at this
        cases this
      · rw [hv, Function.update_of_ne e] at hs
        intro y hy hyw
        rcases List.mem_append.mp hy with hy | hy
        · exact h.wt s hs A w Q' e2 hw (fun y hy => hQ y (List.mem_append_left _ hy)) y hy hyw
        · have : y = x := by simpa using hy
          subst this; exact hoth s e
  · by_cases e : s = s0
    · subst e
      rw [hv, Function.update_self] at hs
      obtain ⟨t, i⟩ := x
      have ht : t = .swapOut := hout hs
      subst ht
      obtain ⟨r, ho, hr⟩ := hon
      simp only at ho
      rw [devAt_snoc] at hs1 ⊢
      unfold stepDev at hs1 ⊢
      simp only [ho, if_pos hr] at hs1 ⊢
      exact hs1
    · rw [hv, Function.update_of_ne e] at hs
      rw [hsame s e] at hs1 ⊢
      exact h.fl s hs hs1

/-- The planner changes the state of `s0` without a command. -/
theorem XInv.silent {c : Cfg S D} {dt : S → D} {v v' : S → AState} {E : List Ev} (h : XInv c dt v E)
    (hdev : ∀ s, (devAt c s E).1 = true → (v s).state = .in_ ∨ (v s).state = .out →
      (v' s).state = .in_ ∨ (v' s).state = .out)
    (hout : ∀ s, (v' s).state = .out → (v s).state = .out) : XInv c dt v' E :=
  ⟨h.usage, fun s hs => hdev s hs (h.dev s hs), fun s hs => h.wt s (hout s hs), fun s hs => h.fl s (hout s hs)⟩

theorem use_snoc {c : Cfg S D} {dt : S → D} {v : S → AState} {E : List Ev} (h : XInv c dt v E)
    (hlim : tot c dt v [.in_] + tot c dt v [.out] ≤ c.maxBytes) (i : Nat)
    (hin : ∀ r, c.order[i]? = some r → r.tag ≠ .clear → (v r.said).state = .in_) : XInv c dt v (E ++ [.use i]) := by
  have key : ∀ s, devAt c s (E ++ [.use i]) = devAt c s E ∨ (devAt c s (E ++ [.use i])).1 = false ∨ (v s).state = .in_ := by
    intro s
    rw [devAt_snoc]
    unfold stepDev; simp only
    cases ho : c.order[i]? with
    | none => left; rfl
    | some r =>
      simp only
      by_cases e : r.said = s
      · rw [if_pos e]
        by_cases hc : r.tag = .clear
        · rw [if_pos hc]; right; left; rfl
        · right; right; rw [← e]; exact hin r ho hc
      · rw [if_neg e]; left; rfl
  have hd : ∀ s, (devAt c s (E ++ [.use i])).1 = true → (v s).state = .in_ ∨ (v s).state = .out := by
    intro s hs
    rcases key s with e | e | e
    · rw [e] at hs; exact h.dev s hs
    · rw [e] at hs; cases hs
    · exact .inl e
  refine ⟨fun l hl => ?_, hd, fun s hs A w Q hE hw hQ => ?_, fun s hs hs1 => ?_⟩
  · rcases prefix_snoc hl with e | e
    · exact h.usage l e
    · subst e; exact (usage_le c dt v _ hd).trans hlim
  · rcases snoc_decomp hE with ⟨e1, e2, e3⟩ | ⟨Q', e1, e2⟩
    · cases e2
    · subst e1
      intro y hy hyw
      rcases List.mem_append.mp hy with hy | hy
      · exact h.wt s hs A w Q' e2 hw (fun y hy => hQ y (List.mem_append_left _ hy)) y hy hyw
      · simp at hy
  · rcases key s with e | e | e
    · rw [e] at hs1 ⊢; exact h.fl s hs hs1
    · rw [e] at hs1; cases hs1
    · rw [e] at hs; cases hs

theorem uses_append {c : Cfg S D} {dt : S → D} {v : S → AState} (l : List Nat) : ∀ {E : List Ev}, XInv c dt v E →
    tot c dt v [.in_] + tot c dt v [.out] ≤ c.maxBytes →
    (∀ i ∈ l, ∀ r, c.order[i]? = some r → r.tag ≠ .clear → (v r.said).state = .in_) →
    XInv c dt v (E ++ l.map .use) := by
  induction l with
  | nil => intro E h _ _; simpa using h
  | cons i l ih =>
    intro E h hlim hin
    have h1 := use_snoc h hlim i (hin i (by simp))
    have h2 := ih h1 hlim (fun j hj => hin j (List.mem_cons_of_mem _ hj))
    simpa using h2

theorem done_snoc {c : Cfg S D} {dt : S → D} {v : S → AState} {E : List Ev} (h : XInv c dt v E)
    (hlim : tot c dt v [.in_] + tot c dt v [.out] ≤ c.maxBytes) (f : Nat) : XInv c dt v (E ++ [.done f]) := by
  have key : ∀ s, devAt c s (E ++ [.done f]) = devAt c s E ∨ (devAt c s (E ++ [.done f])).1 = false := by
    intro s
    rw [devAt_snoc]
    unfold stepDev; simp only
    split
    · right; rfl
    · left; rfl
  have hd : ∀ s, (devAt c s (E ++ [.done f])).1 = true → (v s).state = .in_ ∨ (v s).state = .out := by
    intro s hs
    rcases key s with e | e
    · rw [e] at hs; exact h.dev s hs
    · rw [e] at hs; cases hs
  refine ⟨fun l hl => ?_, hd, fun s hs A w Q hE hw hQ => ?_, fun s hs hs1 => ?_⟩
  · rcases prefix_snoc hl with e | e
    · exact h.usage l e
    · subst e; exact (usage_le c dt v _ hd).trans hlim
  · rcases snoc_decomp hE with ⟨e1, e2, e3⟩ | ⟨Q', e1, e2⟩
    · cases e2
    · subst e1
      intro y hy hyw
      rcases List.mem_append.mp hy with hy | hy
      · exact h.wt s hs A w Q' e2 hw (fun y hy => hQ y (List.mem_append_left _ hy)) y hy hyw
      · simp at hy
  · rcases key s with e | e
    · rw [e] at hs1 ⊢; exact h.fl s hs hs1
    · rw [e] at hs1; cases hs1

/-- Removing a swap out that is not waited for changes no device buffer. -/
theorem erase_dev (c : Cfg S D) (s0 : S) (x : Sched) (A Q : List Ev) (hx : isSwapOutOf c s0 x = true)
    (hQ : ∀ y, Ev.cmd y ∈ Q → y.tag = .wait → ¬ cmdOn c s0 y) (s : S) :
    (devAt c s (A ++ Q)).1 = (devAt c s (A ++ .cmd x :: Q)).1 ∧
    (s ≠ s0 → devAt c s (A ++ Q) = devAt c s (A ++ .cmd x :: Q)) := by
  obtain ⟨hx1, hx2⟩ := (isSwapOutOf_iff c s0 x).mp hx
  rw [devAt_append, devAt_append, List.foldl_cons]
  by_cases e : s = s0
  · subst e
    refine ⟨fold_fst c s Q hQ _ _ ?_, fun h => absurd rfl h⟩
    obtain ⟨t, i⟩ := x
    obtain ⟨r, ho, hr⟩ := hx2
    simp only at hx1 ho
    subst hx1
    unfold stepDev; simp only [ho, if_pos hr]
  · have : ¬ cmdOn c s x := by
      rintro ⟨r, h1, h2⟩
      obtain ⟨r', h3, h4⟩ := hx2
      rw [h1] at h3; cases h3; exact e (h2.symm.trans h4)
    rw [stepDev_other c s _ x this]
    exact ⟨rfl, fun _ => rfl⟩

theorem usage_congr (c : Cfg S D) (dt : S → D) (l m : List Ev) (h : ∀ s, (devAt c s l).1 = (devAt c s m).1) :
    usage c dt l = usage c dt m := by
  unfold usage
  exact Finset.sum_congr rfl fun s _ => by rw [h s]

theorem prefix_append_cases {α : Type} {l A Q : List α} (h : l <+: A ++ Q) : l <+: A ∨ ∃ Q1, Q1 <+: Q ∧ l = A ++ Q1 := by
  obtain ⟨t, ht⟩ := h
  rcases List.append_eq_append_iff.mp ht with ⟨m, h1, h2⟩ | ⟨m, h1, h2⟩
  · left; exact ⟨m, h1.symm⟩
  · right; exact ⟨m, ⟨t, h2.symm⟩, h1⟩

/-- A swap out of `s0` that is not waited for is cancelled. -/
theorem XInv.cancel {c : Cfg S D} {dt : S → D} {v v' : S → AState} {A Q : List Ev} {x : Sched} (s0 : S) (a : AState)
    (h : XInv c dt v (A ++ .cmd x :: Q)) (hx : isSwapOutOf c s0 x = true)
    (hQ : ∀ y, Ev.cmd y ∈ Q → isSwapOutOf c s0 y = false) (h0 : (v s0).state = .out)
    (hv : v' = Function.update v s0 a) (ha : a.state = .in_) : XInv c dt v' (A ++ Q) := by
  have hw := h.wt s0 h0 A x Q rfl hx hQ
  have hd := erase_dev c s0 x A Q hx hw
  have hns : ∀ s, s ≠ s0 → isSwapOutOf c s x = false := by
    intro s e
    by_contra hb
    have h1 := ((isSwapOutOf_iff c s x).mp (by simpa using hb)).2
    have h2 := ((isSwapOutOf_iff c s0 x).mp hx).2
    obtain ⟨r, h1, h1'⟩ := h1
    obtain ⟨r', h2, h2'⟩ := h2
    rw [h1] at h2; cases h2; exact e (h1'.symm.trans h2')
  refine ⟨fun l hl => ?_, fun s hs => ?_, fun s hs A' w Q' hE hw' hQ' y hy hyw => ?_, fun s hs hs1 => ?_⟩
  · rcases prefix_append_cases hl with e | ⟨Q1, e1, e2⟩
    · exact h.usage l (e.trans (List.prefix_append _ _))
    · subst e2
      have h1 : Verif.Lms.usage c dt (A ++ Q1) = Verif.Lms.usage c dt (A ++ .cmd x :: Q1) :=
        usage_congr c dt _ _ fun s => (erase_dev c s0 x A Q1 hx (fun y hy => hw y (e1.subset hy)) s).1
      rw [h1]
      apply h.usage
      obtain ⟨t, ht⟩ := e1
      exact ⟨t, by rw [← ht]; simp⟩
  · by_cases e : s = s0
    · subst e; left; rw [hv, Function.update_self]; exact ha
    · rw [hv, Function.update_of_ne e]
      rw [(hd s).1] at hs; exact h.dev s hs
  · by_cases e : s = s0
    · subst e; rw [hv, Function.update_self, ha] at hs; cases hs
    · rw [hv, Function.update_of_ne e] at hs
      rcases List.append_eq_append_iff.mp hE with ⟨m, h1, h2⟩ | ⟨m, h1, h2⟩
      · -- the swap out of `s` is in `Q`
        refine h.wt s hs (A ++ .cmd x :: m) w Q' (by rw [h2]; simp) hw' hQ' y hy hyw
      · cases m with
        | nil =>
          simp only [List.append_nil, List.nil_append] at h1 h2
          exact h.wt s hs (A ++ [.cmd x]) w Q' (by rw [← h2]; simp) hw' hQ' y hy hyw
        | cons m0 m =>
          have h2' : Ev.cmd w = m0 ∧ Q' = m ++ Q := by simpa using h2
          obtain ⟨e1, e2⟩ := h2'
          subst e1
          refine h.wt s hs A' w (m ++ .cmd x :: Q) (by rw [h1]; simp) hw' ?_ y ?_ hyw
          · intro y' hy'
            rcases List.mem_append.mp hy' with k | k
            · exact hQ' y' (by rw [e2]; exact List.mem_append_left _ k)
            · rcases List.mem_cons.mp k with k | k
              · have : y' = x := by simpa using k
                rw [this]; exact hns s e
              · exact hQ' y' (by rw [e2]; exact List.mem_append_right _ k)
          · rw [e2] at hy
            rcases List.mem_append.mp hy with k | k
            · exact List.mem_append_left _ k
            · exact List.mem_append_right _ (List.mem_cons_of_mem _ k)
  · by_cases e : s = s0
    · subst e; rw [hv, Function.update_self, ha] at hs; cases hs
    · rw [hv, Function.update_of_ne e] at hs
      rw [(hd s).2 e] at hs1 ⊢; exact h.fl s hs hs1

/-- Structure of the partial schedules: `f` bounds the filled end schedules, `g` the filled
beginning schedules. -/
structure SInv (c : Cfg S D) (p : P S D) (f g : Nat) : Prop where
  len : p.en.length = c.fe.length
  enE : ∀ k, f ≤ k → p.en.getD k [] = []
  begE : ∀ k, g < k → p.beg k = []
  begOk : ∀ k x, x ∈ p.beg k → x.tag ≠ .swapOut
  enOk : ∀ k x, x ∈ p.en.getD k [] → x.tag = .swapOut ∨ x.tag = .preclear

/-- The events so far while the beginning of function `f` is planned. -/
def E1 (c : Cfg S D) (p : P S D) (f : Nat) : List Ev := flat c p.beg p.en f ++ (p.beg f).map .cmd

theorem flat_succ (c : Cfg S D) (beg : Nat → List Sched) (en : List (List Sched)) (n : Nat) :
    flat c beg en (n + 1) = flat c beg en n ++ seg c beg en n := by
  unfold flat; rw [List.range_succ, List.flatMap_append]; simp

theorem flat_congr (c : Cfg S D) (beg beg' : Nat → List Sched) (en en' : List (List Sched)) (n : Nat)
    (h1 : ∀ k, k < n → beg k = beg' k) (h2 : ∀ k, k < n → en.getD k [] = en'.getD k []) :
    flat c beg en n = flat c beg' en' n := by
  induction n with
  | zero => rfl
  | succ n ih =>
    rw [flat_succ, flat_succ, ih (fun k hk => h1 k (by omega)) (fun k hk => h2 k (by omega))]
    unfold seg
    rw [h1 n (by omega), h2 n (by omega)]

theorem cancelL_spec {α : Type} (P : α → Bool) (ls : List (List α)) :
    match cancelL P ls with
    | none => ∀ (k : Nat) y, y ∈ ls.getD k [] → P y = false
    | some ls' => ∃ k l1 x l2, k < ls.length ∧ ls.getD k [] = l1 ++ x :: l2 ∧ P x = true ∧ (∀ y ∈ l2, P y = false) ∧
        (∀ (k' : Nat), k < k' → ∀ y ∈ ls.getD k' [], P y = false) ∧ ls'.length = ls.length ∧
        ls'.getD k [] = l1 ++ l2 ∧ ∀ (k' : Nat), k' ≠ k → ls'.getD k' [] = ls.getD k' [] := by
  induction ls with
  | nil => simp [cancelL]
  | cons l ls ih =>
    unfold cancelL
    cases hc : cancelL P ls with
    | some ls' =>
      rw [hc] at ih
      simp only at ih ⊢
      obtain ⟨k, l1, x, l2, h1, h2, h3, h4, h5, h6, h7, h8⟩ := ih
      refine ⟨k + 1, l1, x, l2, by simp; omega, by simpa using h2, h3, h4, ?_, by simp [h6], by simpa using h7, ?_⟩
      · intro k' hk' y hy
        obtain ⟨m, rfl⟩ : ∃ m, k' = m + 1 := ⟨k' - 1, by omega⟩
        exact h5 m (by omega) y (by simpa using hy)
      · intro k' hk'
        cases k' with
        | zero => rfl
        | succ m => simpa using h8 m (by omega)
    | none =>
      rw [hc] at ih
      simp only at ih ⊢
      by_cases ha : l.any P = true
      · rw [if_pos ha]
        simp only
        obtain ⟨a, ha1, ha2⟩ := List.any_eq_true.mp ha
        obtain ⟨b, m1, m2, e1, e2, e3, e4⟩ := List.exists_of_eraseP (p := P) (l := l.reverse) (List.mem_reverse.mpr ha1) ha2
        refine ⟨0, m2.reverse, b, m1.reverse, by simp, ?_, e2, ?_, ?_, by simp, ?_, ?_⟩
        · have := congrArg List.reverse e3
          simpa using this
        · intro y hy
          have := e1 y (List.mem_reverse.mp hy)
          simpa using this
        · intro k' hk' y hy
          obtain ⟨m, rfl⟩ : ∃ m, k' = m + 1 := ⟨k' - 1, by omega⟩
          exact ih m y (by simpa using hy)
        · simp [eraseLast, e4]
        · intro k' hk'
          obtain ⟨m, rfl⟩ : ∃ m, k' = m + 1 := ⟨k' - 1, by omega⟩
          simp
      · rw [if_neg ha]
        simp only
        intro k y hy
        cases k with
        | zero =>
          by_contra hp
          exact ha (List.any_eq_true.mpr ⟨y, by simpa using hy, by simpa using hp⟩)
        | succ m => exact ih m y (by simpa using hy)

theorem flat_split (c : Cfg S D) (beg : Nat → List Sched) (en en' : List (List Sched)) (k f : Nat) (hk : k < f)
    (h : ∀ k', k' ≠ k → en'.getD k' [] = en.getD k' []) :
    ∃ R, flat c beg en f = flat c beg en k ++ seg c beg en k ++ R ∧ flat c beg en' f = flat c beg en k ++ seg c beg en' k ++ R ∧
      ∀ y, Ev.cmd y ∈ R → ∃ k', k < k' ∧ (y ∈ beg k' ∨ y ∈ en.getD k' []) := by
  induction f with
  | zero => omega
  | succ f ih =>
    by_cases e : k = f
    · subst e
      refine ⟨[], by rw [flat_succ]; simp, ?_, by simp⟩
      rw [flat_succ, flat_congr c beg beg en' en k (fun _ _ => rfl) (fun k' hk' => h k' (by omega))]; simp
    · obtain ⟨R, h1, h2, h3⟩ := ih (by omega)
      refine ⟨R ++ seg c beg en f, by rw [flat_succ, h1]; simp, ?_, ?_⟩
      · rw [flat_succ, h2]
        have : seg c beg en' f = seg c beg en f := by unfold seg; rw [h f (fun e' => e e'.symm)]
        rw [this]; simp
      · intro y hy
        rcases List.mem_append.mp hy with hy | hy
        · exact h3 y hy
        · refine ⟨f, by omega, ?_⟩
          unfold seg at hy
          simp only [List.mem_append, List.mem_map] at hy
          rcases hy with ((⟨a, h, e⟩ | ⟨a, h, e⟩) | h) | ⟨a, h, e⟩
          · cases e; exact .inl h
          · cases e
          · simp at h
          · cases e; exact .inr h

theorem cancel_x (c : Cfg S D) (dt : S → D) (p : P S D) (f : Nat) (r : Rec S D) (a : AState) (v' : S → AState)
    (hs : SInv c p f f) (h : XInv c dt (view dt p.st) (E1 c p f)) (h0 : (view dt p.st r.said).state = .out)
    (hv : v' = Function.update (view dt p.st) r.said a) (ha : a.state = .in_) (en' : List (List Sched))
    (he : en' = (cancelL (isSwapOutOf c r.said) p.en).getD p.en) :
    XInv c dt v' (flat c p.beg en' f ++ (p.beg f).map .cmd) ∧ en'.length = c.fe.length ∧
      (∀ k, f ≤ k → en'.getD k [] = []) ∧ (∀ k x, x ∈ en'.getD k [] → x.tag = .swapOut ∨ x.tag = .preclear) := by
  have hsp := cancelL_spec (isSwapOutOf c r.said) p.en
  cases hc : cancelL (isSwapOutOf c r.said) p.en with
  | none =>
    rw [hc] at he
    have : en' = p.en := he
    subst this
    refine ⟨h.silent (fun s _ hs => ?_) (fun s hs => ?_), hs.len, hs.enE, hs.enOk⟩
    · by_cases e : s = r.said
      · subst e; left; rw [hv, Function.update_self]; exact ha
      · rw [hv, Function.update_of_ne e]; exact hs
    · by_cases e : s = r.said
      · subst e; exact h0
      · rw [hv, Function.update_of_ne e] at hs; exact hs
  | some ls =>
    rw [hc] at he hsp
    have : en' = ls := he
    subst this
    simp only at hsp
    obtain ⟨k, l1, x, l2, h1, h2, h3, h4, h5, h6, h7, h8⟩ := hsp
    have hkf : k < f := by
      by_contra hk
      rw [hs.enE k (by omega)] at h2
      simp at h2
    obtain ⟨R, g1, g2, g3⟩ := flat_split c p.beg p.en en' k f hkf h8
    refine ⟨?_, by rw [h6]; exact hs.len, fun k' hk' => ?_, fun k' y hy => ?_⟩
    · have hE : E1 c p f = (flat c p.beg p.en k ++ ((p.beg k).map .cmd ++ (c.block k).map .use ++ [.done k] ++ l1.map .cmd))
          ++ Ev.cmd x :: (l2.map .cmd ++ R ++ (p.beg f).map .cmd) := by
        unfold E1; rw [g1]; unfold seg; rw [h2]; simp
      have hE' : flat c p.beg en' f ++ (p.beg f).map .cmd =
          (flat c p.beg p.en k ++ ((p.beg k).map .cmd ++ (c.block k).map .use ++ [.done k] ++ l1.map .cmd))
          ++ (l2.map .cmd ++ R ++ (p.beg f).map .cmd) := by
        rw [g2]; unfold seg; rw [h7]; simp
      rw [hE'] 
      rw [hE] at h
      refine h.cancel r.said a h3 ?_ h0 hv ha
      intro y hy
      simp only [List.mem_append, List.mem_map] at hy
      have hbeg : ∀ k', y ∈ p.beg k' → isSwapOutOf c r.said y = false := by
        intro k' hm
        by_contra hb
        exact hs.begOk k' y hm ((isSwapOutOf_iff c r.said y).mp (by simpa using hb)).1
      rcases hy with (⟨b, hb, e⟩ | hy) | ⟨b, hb, e⟩
      · cases e; exact h4 _ hb
      · obtain ⟨k', hk', hm | hm⟩ := g3 y hy
        · exact hbeg k' hm
        · exact h5 k' hk' y hm
      · cases e; exact hbeg f hb
    · rw [h8 k' (by omega)]; exact hs.enE k' hk'
    · by_cases e : k' = k
      · subst e
        rw [h7] at hy
        apply hs.enOk k' y
        rw [h2]
        rcases List.mem_append.mp hy with m | m
        · exact List.mem_append_left _ m
        · exact List.mem_append_right _ (List.mem_cons_of_mem _ m)
      · rw [h8 k' e] at hy; exact hs.enOk k' y hy

end Verif.Lms
