/-
Every preclear command of a schedule comes from `schedule_preclear`.
-/
import Verif.Lms.Trace
import Verif.Lms.Exec
import Verif.Lms.Term

namespace Verif.Lms

variable {S D : Type} [DecidableEq S] [DecidableEq D] [Fintype D]

abbrev PK (c : Cfg S D) (p : P S D) : Prop := PreOk c p.beg p.en

theorem PK.pushBeg {c : Cfg S D} {p : P S D} (h : PK c p) (x : Sched) (hx : x.tag ≠ .preclear) : PK c (p.pushBeg x) := by
  refine ⟨fun g y hy => ?_, h.en⟩
  simp only [P.pushBeg] at hy
  split at hy
  · rcases List.mem_append.mp hy with m | m
    · exact h.beg g y m
    · have : y = x := by simpa using m
      rw [this]; exact hx
  · exact h.beg g y hy

theorem mem_modify {α : Type} (l : List (List α)) (g : Nat) (x : α) (k : Nat) (y : α)
    (h : y ∈ (l.modify g (· ++ [x])).getD k []) : y ∈ l.getD k [] ∨ (k = g ∧ y = x) := by
  rw [List.getD_eq_getElem?_getD, List.getElem?_modify] at h
  rw [List.getD_eq_getElem?_getD]
  cases hl : l[k]? with
  | none => rw [hl] at h; simp at h
  | some a =>
    rw [hl] at h
    simp only [Option.map_some, Option.getD_some] at h ⊢
    split at h
    · rename_i e
      rcases List.mem_append.mp h with m | m
      · exact .inl m
      · exact .inr ⟨e.symm, by simpa using m⟩
    · exact .inl h

theorem PK.pushEnd {c : Cfg S D} {p : P S D} (h : PK c p) (x : Sched) (hx : x.tag = .preclear → (x.r, true) ∈ clearInfo c p.fid) :
    PK c (p.pushEnd x) := by
  refine ⟨h.beg, fun g y hy ht => ?_⟩
  rcases mem_modify _ _ _ _ _ hy with m | ⟨e1, e2⟩
  · exact h.en g y m ht
  · subst e1 e2; exact hx ht

theorem PK.cancel {c : Cfg S D} {p : P S D} (h : PK c p) (q : Sched → Bool) (en' : List (List Sched))
    (he : en' = (cancelL q p.en).getD p.en) : PreOk c p.beg en' := by
  refine ⟨h.beg, fun g y hy ht => ?_⟩
  apply h.en g y _ ht
  have hsp := cancelL_spec q p.en
  cases hc : cancelL q p.en with
  | none => rw [hc] at he; rw [he] at hy; exact hy
  | some ls =>
    rw [hc] at he hsp
    have : en' = ls := he
    subst this
    simp only at hsp
    obtain ⟨k, l1, x, l2, h1, h2, h3, h4, h5, h6, h7, h8⟩ := hsp
    by_cases e : g = k
    · subst e
      rw [h7] at hy
      rw [h2]
      rcases List.mem_append.mp hy with m | m
      · exact List.mem_append_left _ m
      · exact List.mem_append_right _ (List.mem_cons_of_mem _ m)
    · rw [h8 g e] at hy; exact hy

theorem waitImpl_pk {c : Cfg S D} {p : P S D} (h : PK c p) : PK c (waitImpl c p) := by
  unfold waitImpl
  split
  · exact h
  · simp only
    split
    · exact h.pushBeg _ (by simp)
    · exact h

theorem freeLoop_pk (c : Cfg S D) (b n : Nat) : ∀ {p : P S D}, PK c p → PK c (freeLoop c b n p) := by
  induction n with
  | zero => intro p h; exact h
  | succ n ih =>
    intro p h
    unfold freeLoop
    split
    · exact ih (waitImpl_pk h)
    · exact h

theorem swapInFirst_pk (c : Cfg S D) (i : Nat) (r : Rec S D) (p p' : P S D) (hp : PK c p) (h : swapInFirst c i r p = some p') :
    PK c p' := by
  unfold swapInFirst at h
  simp only at h
  split at h
  · cases h
  · split at h
    · split at h
      · have := (Option.some.inj h).symm
        rw [this]; exact hp.cancel (isSwapOutOf c r.said) _ rfl
      · split at h
        · have := (Option.some.inj h).symm
          rw [this]; exact hp
        · unfold prefetch at h
          simp only at h
          generalize (if (p.ht r.said).1 = true ∧ (p.ht r.said).2 ≠ r.dtype then c.bytes r.said (p.ht r.said).2 else 0) = ex at h
          split at h
          · cases h
          · have := (Option.some.inj h).symm
            rw [this]
            split
            · exact (freeLoop_pk c _ _ hp).pushBeg _ (by simp)
            · exact (freeLoop_pk c _ _ hp).pushBeg _ (by simp)
    · split at h
      · have := (Option.some.inj h).symm
        rw [this]; exact hp
      · have := (Option.some.inj h).symm
        rw [this]
        exact freeLoop_pk c _ _ hp

theorem swapIn_pk (c : Cfg S D) (stop : Nat → Nat) (l : List (Rec S D)) : ∀ p : P S D, PK c p → PK c (swapIn c stop l p) := by
  induction l with
  | nil => intro p h; exact h
  | cons r rest ih =>
    intro p h
    unfold swapIn
    split
    · exact ih { p with head := p.head + 1 } h
    · split
      · exact h
      · split
        · cases hfi : swapInFirst c p.head r p with
          | none => exact h
          | some p' => exact ih (enqueue r p') (swapInFirst_pk c _ r p p' h hfi)
        · exact ih (enqueue r p) h

theorem reserveLoop_pk (c : Cfg S D) (need n : Nat) : ∀ p q : P S D, PK c p → reserveLoop c need n p = .inl q → PK c q := by
  induction n with
  | zero =>
    intro p q hp h
    unfold reserveLoop at h
    split at h
    · cases h
    · have : p = q := by simpa using h
      subst this; exact hp
  | succ n ih =>
    intro p q hp h
    unfold reserveLoop at h
    split at h
    · exact ih _ q (waitImpl_pk hp) h
    · have : p = q := by simpa using h
      subst this; exact hp

theorem release_pk (c : Cfg S D) (i : Nat) (r : Rec S D) (p : P S D) (h : PK c p) : PK c (release c (clearInfo c) i r p) := by
  unfold release
  split
  · rename_i j hj
    have hmem := List.mem_of_find?_eq_some hj
    have hij : j = i := by have := List.find?_some hj; simpa using this
    rw [hij] at hmem
    exact PK.pushEnd (p := clearAll c r p) h ⟨.preclear, i⟩ (fun _ => hmem)
  · exact h
  · split
    · exact h
    · exact PK.pushEnd (p := p) h ⟨.swapOut, i⟩ (fun e => by simp at e)

theorem swapOut_pk (c : Cfg S D) (l : List Nat) : ∀ p : P S D, PK c p → PK c (l.foldl (swapOutStep c (clearInfo c)) p) := by
  induction l with
  | nil => intro p h; exact h
  | cons i l ih =>
    intro p h
    rw [List.foldl_cons]
    apply ih
    unfold swapOutStep
    split
    · exact h
    · split
      · exact h
      · change PK c (if _ then _ else _ : P S D)
        split
        · exact release_pk c i _ p h
        · exact h

theorem step_pk (c : Cfg S D) (stop : Nat → Nat) (p p' : P S D) (fid : Nat) (hp : PK c p)
    (h : step c (clearInfo c) stop p fid = .ok p') : PK c p' := by
  unfold step at h
  simp only at h
  have h1 := swapIn_pk c stop (c.order.drop p.head) { p with fid := fid } hp
  generalize swapIn c stop (c.order.drop p.head) { p with fid := fid } = p1 at *
  cases hr : reserve c stop p1 with
  | ok p2 =>
    rw [hr] at h
    simp only at h
    obtain ⟨q, hq, e⟩ := reserve_ok c stop p1 p2 hr
    have h2 := reserveLoop_pk c _ _ p1 q h1 hq
    have h3 : PK c p2 := by
      rw [e]
      unfold unprefetchedToIn
      rw [(toIn_spec c _ _).1]; exact h2
    split at h
    · cases h
    · have := (Res.ok.inj h).symm
      rw [this]
      unfold swapOut
      apply swapOut_pk
      split
      · exact swapOut_pk c _ _ h3
      · exact h3
  | resched s => rw [hr] at h; cases h
  | outOfMemory => rw [hr] at h; cases h
  | notPrefetched => rw [hr] at h; cases h
  | stateError => rw [hr] at h; cases h
  | unclassified => rw [hr] at h; cases h

theorem steps_pk (c : Cfg S D) (stop : Nat → Nat) (l : List Nat) : ∀ p p' : P S D, PK c p →
    steps c (clearInfo c) stop l p = .ok p' → PK c p' := by
  induction l with
  | nil => intro p p' hp h; have : p = p' := by simpa [steps] using h
           subst this; exact hp
  | cons f l ih =>
    intro p p' hp h
    unfold steps at h
    cases hs : step c (clearInfo c) stop p f with
    | ok p1 => rw [hs] at h; exact ih p1 p' (step_pk c stop p p1 f hp hs) h
    | resched s => rw [hs] at h; cases h
    | outOfMemory => rw [hs] at h; cases h
    | notPrefetched => rw [hs] at h; cases h
    | stateError => rw [hs] at h; cases h
    | unclassified => rw [hs] at h; cases h

theorem calcMem_pk (c : Cfg S D) (n : Nat) : ∀ p p' : P S D, PK c p → calcMem c n p = some p' → PK c p' := by
  induction n with
  | zero => intro p p' hp h; have : p = p' := by simpa [calcMem] using h
            subst this; exact hp
  | succ n ih =>
    intro p p' hp h
    unfold calcMem at h
    cases ho : c.order[p.head]? with
    | none => rw [ho] at h; simp only at h; exact ih _ p' (by exact hp) h
    | some r =>
      rw [ho] at h
      simp only at h
      split at h
      · exact ih _ p' (by exact hp) h
      · split at h
        · split at h
          · cases h
          · exact ih _ p' (by exact hp) h
        · exact ih _ p' (by exact hp) h

theorem waitAll_pk (c : Cfg S D) (n : Nat) : ∀ p : P S D, PK c p → PK c (waitAll c n p) := by
  induction n with
  | zero => intro p h; exact h
  | succ n ih => intro p h; exact ih _ (waitImpl_pk h)

theorem attempt_pk [Fintype S] (c : Cfg S D) (stop : Nat → Nat) (p : P S D) (h : attempt c stop = .ok p) : PreOk c p.beg p.en := by
  unfold attempt at h
  have h0 : PK c (P.start c) := by
    refine ⟨fun g x hx => ?_, fun g x hx => ?_⟩
    · simp [P.start] at hx
    · exfalso
      have : (P.start c).en.getD g [] = [] := by
        change (List.replicate c.fe.length ([] : List Sched)).getD g [] = []
        rw [List.getD_eq_getElem?_getD, List.getElem?_replicate]
        split <;> rfl
      rw [this] at hx; simp at hx
  cases hc : calcMem c (c.fend 0) (P.start c) with
  | none => rw [hc] at h; cases h
  | some p0 =>
    rw [hc] at h
    simp only at h
    have h1 := calcMem_pk c _ _ p0 h0 hc
    cases hs : steps c (clearInfo c) stop (List.range' 1 (c.fe.length - 1)) p0 with
    | ok p1 =>
      rw [hs] at h
      simp only at h
      have h2 := steps_pk c stop _ p0 p1 h1 hs
      split at h
      · have := (Res.ok.inj h).symm
        rw [this]; exact waitAll_pk c _ _ h2
      · cases h
    | resched s => rw [hs] at h; cases h
    | outOfMemory => rw [hs] at h; cases h
    | notPrefetched => rw [hs] at h; cases h
    | stateError => rw [hs] at h; cases h
    | unclassified => rw [hs] at h; cases h

end Verif.Lms
