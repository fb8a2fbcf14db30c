/-
`schedule_preclear` marks a record only when the next record of the same array is a clear.
-/
import Verif.Lms.Acct2

namespace Verif.Lms

variable {S D : Type} [DecidableEq S] [DecidableEq D] [Fintype D] [Fintype S]

/-- `j` is the first record of array `s` at or after position `a`. -/
def Next (c : Cfg S D) (s : S) (a j : Nat) : Prop :=
  a ≤ j ∧ (∃ r, c.order[j]? = some r ∧ r.said = s) ∧
    ∀ k, a ≤ k → k < j → ∀ r, c.order[k]? = some r → r.said ≠ s

/-- What an entry of `clear_info[fid]` promises: the record is a use in block `fid` and the next
record of its array is a clear, in a later block if the scheduler clears it, in the same one
otherwise. -/
def ClearAfter (c : Cfg S D) (fid i : Nat) (b : Bool) : Prop :=
  c.fbegin fid ≤ i ∧ i < c.fend fid ∧ ∃ r, c.order[i]? = some r ∧ r.tag ≠ .clear ∧
    ∃ j r' f, Next c r.said (i + 1) j ∧ c.order[j]? = some r' ∧ r'.tag = .clear ∧
      c.fbegin f ≤ j ∧ j < c.fend f ∧ (if b then fid < f else f = fid)

structure PCInv (c : Cfg S D) (q : PC S) (fid pos : Nat) : Prop where
  tr : ∀ s f, q.trace s = some f → fid ≤ f ∧ ∃ j r, Next c s pos j ∧ c.order[j]? = some r ∧ r.tag = .clear ∧
    c.fbegin f ≤ j ∧ j < c.fend f
  info : ∀ k i b, (i, b) ∈ q.info k → 2 ≤ k ∧ ClearAfter c k i b

omit [Fintype S] [Fintype D] [DecidableEq S] [DecidableEq D] in
theorem Next.back {c : Cfg S D} {s : S} {pos j : Nat} (h : Next c s (pos + 1) j)
    (hn : ∀ r, c.order[pos]? = some r → r.said ≠ s) : Next c s pos j := by
  obtain ⟨h1, h2, h3⟩ := h
  refine ⟨by omega, h2, fun k hk hkj r hr => ?_⟩
  by_cases e : k = pos
  · subst e; exact hn r hr
  · exact h3 k (by omega) hkj r hr

omit [Fintype S] [Fintype D] [DecidableEq D] in
theorem preclearStep_inv (c : Cfg S D) (q : PC S) (fid i : Nat) (hf : 2 ≤ fid) (h : PCInv c q fid (i + 1))
    (hi : c.fbegin fid ≤ i) (hi' : i < c.fend fid) : PCInv c (preclearStep c fid q i) fid i := by
  unfold preclearStep
  cases ho : c.order[i]? with
  | none =>
    refine ⟨fun s f hs => ?_, h.info⟩
    obtain ⟨h1, j, r, h2, h3⟩ := h.tr s f hs
    exact ⟨h1, j, r, h2.back (fun r hr => by rw [ho] at hr; cases hr), h3⟩
  | some r =>
    simp only
    by_cases hc : r.tag = .clear
    · rw [if_pos hc]
      refine ⟨fun s f hs => ?_, h.info⟩
      simp only at hs
      by_cases e : s = r.said
      · rw [if_pos e] at hs
        have : fid = f := by simpa using hs
        subst this; subst e
        exact ⟨le_refl _, i, r, ⟨le_refl _, ⟨r, ho, rfl⟩, fun k h1 h2 => by omega⟩, ho, hc, hi, hi'⟩
      · rw [if_neg e] at hs
        obtain ⟨h1, j, r', h2, h3⟩ := h.tr s f hs
        exact ⟨h1, j, r', h2.back (fun r' hr => by rw [ho] at hr; cases hr; exact fun e' => e e'.symm), h3⟩
    · rw [if_neg hc]
      cases ht : q.trace r.said with
      | none =>
        refine ⟨fun s f hs => ?_, h.info⟩
        simp only at hs
        obtain ⟨h1, j, r', h2, h3⟩ := h.tr s f hs
        refine ⟨h1, j, r', h2.back (fun r' hr => ?_), h3⟩
        rw [ho] at hr; cases hr
        intro e; subst e; rw [ht] at hs; cases hs
      | some f =>
        simp only
        obtain ⟨g1, j, r', g2, g3, g4, g5, g6⟩ := h.tr r.said f ht
        refine ⟨fun s f' hs => ?_, fun k i' b hk => ?_⟩
        · simp only at hs
          by_cases e : s = r.said
          · rw [if_pos e] at hs; cases hs
          · rw [if_neg e] at hs
            obtain ⟨h1, j, r', h2, h3⟩ := h.tr s f' hs
            exact ⟨h1, j, r', h2.back (fun r' hr => by rw [ho] at hr; cases hr; exact fun e' => e e'.symm), h3⟩
        · by_cases hlt : fid < f
          · simp only [if_pos hlt] at hk
            by_cases e : k = fid
            · rw [if_pos e] at hk
              rcases List.mem_append.mp hk with hk | hk
              · exact h.info k i' b hk
              · have := List.mem_singleton.mp hk
                cases this
                subst e
                exact ⟨hf, hi, hi', r, ho, hc, j, r', f, g2, g3, g4, g5, g6, hlt⟩
            · rw [if_neg e] at hk; exact h.info k i' b hk
          · simp only [if_neg hlt] at hk
            by_cases hl : (if True ∧ q.last r.said = none then some false else q.last r.said) = some true
            · rw [if_pos hl] at hk
              by_cases e : k = fid
              · rw [if_pos e] at hk
                rcases List.mem_append.mp hk with hk | hk
                · exact h.info k i' b hk
                · have := List.mem_singleton.mp hk
                  cases this
                  subst e
                  exact ⟨hf, hi, hi', r, ho, hc, j, r', f, g2, g3, g4, g5, g6, by simp; omega⟩
              · rw [if_neg e] at hk; exact h.info k i' b hk
            · rw [if_neg hl] at hk; exact h.info k i' b hk

omit [Fintype S] [Fintype D] [DecidableEq D] in
theorem preclearBlock_inv (c : Cfg S D) (fid : Nat) (hf : 2 ≤ fid) (n : Nat) : ∀ (q : PC S),
    c.fbegin fid + n ≤ c.fend fid → PCInv c q fid (c.fbegin fid + n) →
    PCInv c ((List.range' (c.fbegin fid) n).reverse.foldl (preclearStep c fid) q) fid (c.fbegin fid) := by
  induction n with
  | zero => intro q _ h; exact h
  | succ n ih =>
    intro q hn h
    rw [List.range'_concat, List.reverse_append, List.reverse_singleton, List.singleton_append, List.foldl_cons]
    refine ih _ (by omega) ?_
    rw [Nat.one_mul]
    exact preclearStep_inv c q fid _ hf h (by omega) (by omega)

omit [Fintype S] [Fintype D] [DecidableEq D] in
theorem preclearFrom_inv (c : Cfg S D) (w : c.WF) (n : Nat) : ∀ q : PC S, n < c.fe.length →
    PCInv c q n (c.fend n) → ∀ k i b, (i, b) ∈ (preclearFrom c n q).info k → 2 ≤ k ∧ ClearAfter c k i b := by
  induction n with
  | zero => intro q _ h; exact h.info
  | succ n ih =>
    intro q hn h
    unfold preclearFrom
    by_cases h1 : n + 1 ≤ 1
    · rw [if_pos h1]; exact h.info
    · rw [if_neg h1]
      have hfb : c.fbegin (n + 1) = c.fend n := by unfold Cfg.fbegin; rw [if_neg (by omega)]; rfl
      have hle : c.fbegin (n + 1) ≤ c.fend (n + 1) := by rw [hfb]; exact w.mono _ _ (by omega) hn
      have h2 := preclearBlock_inv c (n + 1) (by omega) (c.fend (n + 1) - c.fbegin (n + 1)) q (by omega)
        (by rw [show c.fbegin (n + 1) + (c.fend (n + 1) - c.fbegin (n + 1)) = c.fend (n + 1) by omega]; exact h)
      apply ih _ (by omega)
      refine ⟨fun s f hs => ?_, h2.info⟩
      obtain ⟨k1, k2⟩ := h2.tr s f hs
      rw [hfb] at k2
      exact ⟨by omega, k2⟩

omit [Fintype S] [Fintype D] [DecidableEq D] in
theorem clearInfo_spec (c : Cfg S D) (w : c.WF) (k i : Nat) (b : Bool) (h : (i, b) ∈ clearInfo c k) :
    2 ≤ k ∧ ClearAfter c k i b := by
  refine preclearFrom_inv c w _ _ (by have := w.two; omega) ?_ k i b h
  exact ⟨fun s f h => by simp at h, fun k i b h => by simp at h⟩

end Verif.Lms
