import Verif.SaveBuffer.Lemmas
namespace Verif.SaveBuffer

theorem foldl_max_ge (l : List Nat) (g : Nat → Nat) (m0 : Nat) :
    m0 ≤ l.foldl (fun m f => max m (g f)) m0 ∧ ∀ f ∈ l, g f ≤ l.foldl (fun m f => max m (g f)) m0 := by
  induction l generalizing m0 with
  | nil => exact ⟨Nat.le_refl _, by simp⟩
  | cons a l ih =>
    obtain ⟨h1, h2⟩ := ih (max m0 (g a))
    refine ⟨?_, ?_⟩
    · exact Nat.le_trans (Nat.le_max_left _ _) h1
    · intro f hf
      rcases List.mem_cons.mp hf with rfl | hf
      · exact Nat.le_trans (Nat.le_max_right _ _) h1
      · exact h2 f hf

theorem refs_le (n : Net) (lives : Nat → Life) (f : Nat) (hf : f < n.fns.length) :
    (refs n lives f).length ≤ countActual n lives :=
  (foldl_max_ge _ (fun f => (refs n lives f).length) 0).2 f (List.mem_range.mpr hf)

theorem insertSorted_length (x : Int) (l : List Int) : (insertSorted x l).length = l.length + 1 := by
  induction l with
  | nil => rfl
  | cons y ys ih => simp only [insertSorted]; split <;> simp [ih]

theorem sortInts_length (l : List Int) : (sortInts l).length = l.length := by
  induction l with
  | nil => rfl
  | cons x l ih =>
    have : sortInts (x :: l) = insertSorted x (sortInts l) := rfl
    rw [this, insertSorted_length, ih, List.length_cons]

theorem actualSizes_length (n : Net) (lives : Nat → Life) :
    (actualSizes n lives).length = countActual n lives := by
  simp only [actualSizes]
  have : ∀ (l : List Nat) (acc : List Int), (∀ f ∈ l, f < n.fns.length) → acc.length = countActual n lives →
      (l.foldl (fun (acc : List Int) f => acc.zipWith max
        (sortInts ((refs n lives f).map (fun b => (n.sizeOf (n.bufVar b) : Int)) ++
          List.replicate (countActual n lives - ((refs n lives f).map (fun b => (n.sizeOf (n.bufVar b) : Int))).length) (-1)))) acc).length = countActual n lives := by
    intro l
    induction l with
    | nil => intro acc _ h; exact h
    | cons f l ih =>
      intro acc hl h
      rw [List.foldl_cons]
      apply ih _ (fun g hg => hl g (List.mem_cons_of_mem _ hg))
      have := refs_le n lives f (hl f List.mem_cons_self)
      simp [List.length_zipWith, sortInts_length, h]
      omega
  exact this _ _ (fun f hf => List.mem_range.mp hf) (by simp)

theorem mem_refs (n : Net) (lives : Nat → Life) (f b : Nat) :
    b ∈ refs n lives f ↔ b < n.bufVars.length ∧ (lives b).neededAt f = true := by
  simp [refs]

/-- Invariant of the assignment loops: `D` says which buffer indices must already be assigned. -/
structure Inv (n : Net) (lives : Nat → Life) (k : Nat) (f : Nat) (s : St) : Prop where
  only : ∀ b, b < n.bufVars.length → s.map (n.bufVar b) ≠ none → ∃ g, g ≤ f ∧ (lives b).neededAt g = true
  done : ∀ b g, b < n.bufVars.length → g < f → (lives b).neededAt g = true → s.map (n.bufVar b) ≠ none
  fits : ∀ b ab, b < n.bufVars.length → s.map (n.bufVar b) = some ab → ab < k ∧ (n.sizeOf (n.bufVar b) : Int) ≤ s.sizes ab
  disj : ∀ b c ab, b < n.bufVars.length → c < n.bufVars.length → b ≠ c → s.map (n.bufVar b) = some ab →
    s.map (n.bufVar c) = some ab → ∀ g, ¬ ((lives b).neededAt g = true ∧ (lives c).neededAt g = true)

def FlagsOK (n : Net) (bs : List Nat) (m : Nat → Option Nat) (flags : Nat → Bool) : Prop :=
  ∀ ab, flags ab = true ↔ ∃ b ∈ bs, m (n.bufVar b) = some ab

theorem restore_ok (n : Net) (m : Nat → Option Nat) (bs : List Nat) : FlagsOK n bs m (restore n m bs) := by
  have : ∀ (bs : List Nat) (fl : Nat → Bool) ab, bs.foldl (restoreOne n m) fl ab = true ↔
      fl ab = true ∨ ∃ b ∈ bs, m (n.bufVar b) = some ab := by
    intro bs
    induction bs with
    | nil => intro fl ab; simp
    | cons b bs ih =>
      intro fl ab
      rw [List.foldl_cons, ih]
      simp only [restoreOne]
      cases hm : m (n.bufVar b) with
      | none => simp [hm]
      | some a =>
        by_cases h : ab = a
        · subst h; simp [hm]
        · have h' : ¬ a = ab := fun e => h e.symm
          simp [h, h', hm]
  intro ab
  rw [restore, this]
  simp

theorem bufVar_inj (n : Net) (b c : Nat) (hb : b < n.bufVars.length) (hc : c < n.bufVars.length)
    (h : n.bufVar b = n.bufVar c) : b = c := by
  rw [← bufId_bufVar n b hb, h, bufId_bufVar n c hc]

/-- A vacant actual buffer exists. -/
theorem vacant (n : Net) (k : Nat) (bs : List Nat) (m : Nat → Option Nat) (flags : Nat → Bool)
    (hfl : FlagsOK n bs m flags) (hk : bs.length ≤ k) (b : Nat) (hb : b ∈ bs) (hn : m (n.bufVar b) = none) :
    ∃ ab, ab < k ∧ flags ab = false := by
  apply Classical.byContradiction
  intro hno
  have hall : ∀ ab, ab < k → flags ab = true := by
    intro ab h
    cases hf : flags ab with
    | true => rfl
    | false => exact absurd ⟨ab, h, hf⟩ hno
  have hsub : List.range k ⊆ bs.filterMap (fun b => m (n.bufVar b)) := by
    intro ab hab
    rw [List.mem_range] at hab
    obtain ⟨c, hc, e⟩ := (hfl ab).mp (hall ab hab)
    exact List.mem_filterMap.mpr ⟨c, hc, e⟩
  have h1 := List.Nodup.length_le_of_subset List.nodup_range hsub
  rw [List.length_range] at h1
  have h2 : (bs.filterMap (fun b => m (n.bufVar b))).length < bs.length := by
    clear hk hfl hsub h1
    induction bs with
    | nil => cases hb
    | cons c bs ih =>
      have hle : (bs.filterMap (fun b => m (n.bufVar b))).length ≤ bs.length := List.length_filterMap_le _ _
      rcases List.mem_cons.mp hb with rfl | hb
      · simp only [List.filterMap_cons, hn, List.length_cons]; omega
      · have := ih hb
        simp only [List.filterMap_cons, List.length_cons]
        cases m (n.bufVar c) with
        | none => simp only; omega
        | some a => simp only [List.length_cons]; omega
  omega

theorem assign_step (n : Net) (lives : Nat → Life) (k f : Nat) (s : St) (flags : Nat → Bool) (bs : List Nat)
    (hbs : bs = refs n lives f) (h : Inv n lives k f s) (hfl : FlagsOK n bs s.map flags)
    (b : Nat) (hb : b ∈ bs) (hn : s.map (n.bufVar b) = none) (ab : Nat) (hab : ab < k) (hv : flags ab = false)
    (sizes' : Nat → Int) (hsz : ∀ j, s.sizes j ≤ sizes' j) (hfit : (n.sizeOf (n.bufVar b) : Int) ≤ sizes' ab) :
    Inv n lives k f ⟨sizes', fun w => if w = n.bufVar b then some ab else s.map w⟩ ∧
    FlagsOK n bs (fun w => if w = n.bufVar b then some ab else s.map w) (fun j => if j = ab then true else flags j) := by
  have hbn := (mem_refs n lives f b).mp (hbs ▸ hb)
  have hnotf : ∀ c, c < n.bufVars.length → s.map (n.bufVar c) = some ab → (lives c).neededAt f = true → False := by
    intro c hc hm hnf
    have : flags ab = true := (hfl ab).mpr ⟨c, hbs ▸ (mem_refs n lives f c).mpr ⟨hc, hnf⟩, hm⟩
    rw [hv] at this; cases this
  -- `b` is new, `c` has the same actual buffer: never both needed
  have key : ∀ c, c < n.bufVars.length → s.map (n.bufVar c) = some ab →
      ∀ g, ¬ ((lives b).neededAt g = true ∧ (lives c).neededAt g = true) := by
    intro c hc hm g ⟨g1, g2⟩
    obtain ⟨g', hg', hng'⟩ := h.only c hc (by rw [hm]; simp)
    by_cases hgf : g < f
    · exact h.done b g hbn.1 hgf g1 hn
    · by_cases e : g' = f
      · subst e; exact hnotf c hc hm hng'
      · exact hnotf c hc hm (live_interval (lives c) g' f g hg' (by omega) hng' g2)
  constructor
  · constructor
    · intro c hc hm
      by_cases e : n.bufVar c = n.bufVar b
      · have := bufVar_inj n c b hc hbn.1 e
        subst this
        exact ⟨f, Nat.le_refl _, hbn.2⟩
      · simp only [if_neg e] at hm
        exact h.only c hc hm
    · intro c g hc hg hng
      by_cases e : n.bufVar c = n.bufVar b
      · simp [e]
      · simp only [if_neg e]
        exact h.done c g hc hg hng
    · intro c a hc hm
      by_cases e : n.bufVar c = n.bufVar b
      · simp only [e, if_true] at hm
        injection hm with hm
        subst hm
        exact ⟨hab, by rw [e]; exact hfit⟩
      · simp only [if_neg e] at hm
        obtain ⟨h1, h2⟩ := h.fits c a hc hm
        exact ⟨h1, Int.le_trans h2 (hsz a)⟩
    · intro c d a hc hd hcd hm1 hm2 g hg
      by_cases e1 : n.bufVar c = n.bufVar b
      · have ec := bufVar_inj n c b hc hbn.1 e1
        have e2 : ¬ n.bufVar d = n.bufVar b := fun e => hcd (bufVar_inj n c d hc hd (e1.trans e.symm))
        simp only [if_pos e1] at hm1
        simp only [if_neg e2] at hm2
        injection hm1 with hm1
        subst hm1
        rw [ec] at hg
        exact key d hd hm2 g hg
      · simp only [if_neg e1] at hm1
        by_cases e2 : n.bufVar d = n.bufVar b
        · have ed := bufVar_inj n d b hd hbn.1 e2
          simp only [if_pos e2] at hm2
          injection hm2 with hm2
          subst hm2
          rw [ed] at hg
          exact key c hc hm1 g ⟨hg.2, hg.1⟩
        · simp only [if_neg e2] at hm2
          exact h.disj c d a hc hd hcd hm1 hm2 g hg
  · intro a
    constructor
    · intro ha
      by_cases e : a = ab
      · exact ⟨b, hb, by simp [e]⟩
      · simp only [if_neg e] at ha
        obtain ⟨c, hc, hm⟩ := (hfl a).mp ha
        refine ⟨c, hc, ?_⟩
        have : ¬ n.bufVar c = n.bufVar b := fun e => by rw [e, hn] at hm; cases hm
        simp only [if_neg this]; exact hm
    · rintro ⟨c, hc, hm⟩
      by_cases e : a = ab
      · simp [e]
      · simp only [if_neg e]
        by_cases e2 : n.bufVar c = n.bufVar b
        · simp only [if_pos e2] at hm
          injection hm with hm
          exact absurd hm.symm e
        · simp only [if_neg e2] at hm
          exact (hfl a).mpr ⟨c, hc, hm⟩

theorem assignOne_ok (n : Net) (lives : Nat → Life) (k f : Nat) (s : St × (Nat → Bool)) (bs : List Nat)
    (hbs : bs = refs n lives f) (hk : bs.length ≤ k) (h : Inv n lives k f s.1) (hfl : FlagsOK n bs s.1.map s.2)
    (b : Nat) (hb : b ∈ bs) :
    Inv n lives k f (assignOne n k s b).1 ∧ FlagsOK n bs (assignOne n k s b).1.map (assignOne n k s b).2 ∧
    (assignOne n k s b).1.map (n.bufVar b) ≠ none ∧
    ∀ w, s.1.map w ≠ none → (assignOne n k s b).1.map w ≠ none := by
  unfold assignOne
  simp only
  cases hm : s.1.map (n.bufVar b) with
  | some a => exact ⟨h, hfl, by rw [hm]; simp, fun w hw => hw⟩
  | none =>
    simp only
    cases h1 : (List.range k).find? (fun ab => !s.2 ab && decide ((n.sizeOf (n.bufVar b) : Int) ≤ s.1.sizes ab)) with
    | some ab =>
      have hp := List.find?_some h1
      have hmem := List.mem_of_find?_eq_some h1
      simp only [Bool.and_eq_true, Bool.not_eq_true', decide_eq_true_eq] at hp
      obtain ⟨i1, i2⟩ := assign_step n lives k f s.1 s.2 bs hbs h hfl b hb hm ab (List.mem_range.mp hmem) hp.1
        s.1.sizes (fun _ => Int.le_refl _) hp.2
      refine ⟨i1, i2, by simp, ?_⟩
      intro w hw
      simp only
      split <;> simp_all
    | none =>
      simp only
      obtain ⟨a0, ha0, hf0⟩ := vacant n k bs s.1.map s.2 hfl hk b hb hm
      cases h2 : (List.range k).find? (fun ab => !s.2 ab) with
      | none =>
        exfalso
        have := List.find?_eq_none.mp h2 a0 (List.mem_range.mpr ha0)
        simp [hf0] at this
      | some ab =>
        have hp := List.find?_some h2
        have hmem := List.mem_of_find?_eq_some h2
        simp only [Bool.not_eq_true'] at hp
        have hsmall : ¬ ((n.sizeOf (n.bufVar b) : Int) ≤ s.1.sizes ab) := by
          intro hle
          have := List.find?_eq_none.mp h1 ab hmem
          simp [hp, hle] at this
        obtain ⟨i1, i2⟩ := assign_step n lives k f s.1 s.2 bs hbs h hfl b hb hm ab (List.mem_range.mp hmem) hp
          (fun j => if j = ab then (n.sizeOf (n.bufVar b) : Int) else s.1.sizes j)
          (fun j => by by_cases e : j = ab
                       · simp only [if_pos e]; subst e; omega
                       · simp [if_neg e]) (by simp)
        refine ⟨i1, i2, by simp, ?_⟩
        intro w hw
        simp only
        split <;> simp_all

theorem assignAll_ok (n : Net) (lives : Nat → Life) (k f : Nat) (bs : List Nat)
    (hbs : bs = refs n lives f) (hk : bs.length ≤ k) :
    ∀ (l : List Nat) (s : St × (Nat → Bool)), l ⊆ bs → Inv n lives k f s.1 → FlagsOK n bs s.1.map s.2 →
    Inv n lives k f (l.foldl (assignOne n k) s).1 ∧
    (∀ b ∈ l, (l.foldl (assignOne n k) s).1.map (n.bufVar b) ≠ none) ∧
    ∀ w, s.1.map w ≠ none → (l.foldl (assignOne n k) s).1.map w ≠ none := by
  intro l
  induction l with
  | nil => intro s _ h _; exact ⟨h, by simp, fun _ h => h⟩
  | cons b l ih =>
    intro s hl h hfl
    obtain ⟨i1, i2, i3, i4⟩ := assignOne_ok n lives k f s bs hbs hk h hfl b (hl List.mem_cons_self)
    obtain ⟨j1, j2, j3⟩ := ih (assignOne n k s b) (fun x hx => hl (List.mem_cons_of_mem _ hx)) i1 i2
    rw [List.foldl_cons]
    refine ⟨j1, ?_, fun w hw => j3 w (i4 w hw)⟩
    intro c hc
    rcases List.mem_cons.mp hc with rfl | hc
    · exact j3 _ i3
    · exact j2 c hc

theorem assignFn_ok (n : Net) (lives : Nat → Life) (k f : Nat) (s : St)
    (hk : (refs n lives f).length ≤ k) (h : Inv n lives k f s) :
    Inv n lives k (f + 1) (assignFn n lives k s f) := by
  obtain ⟨i1, i2, i3⟩ := assignAll_ok n lives k f _ rfl hk (refs n lives f) (s, restore n s.map (refs n lives f))
    (List.Subset.refl _) h (restore_ok n s.map _)
  refine ⟨?_, ?_, i1.fits, i1.disj⟩
  · intro b hb hm
    obtain ⟨g, hg, e⟩ := i1.only b hb hm
    exact ⟨g, by omega, e⟩
  · intro b g hb hg hn
    by_cases e : g = f
    · subst e
      exact i2 b ((mem_refs n lives g b).mpr ⟨hb, hn⟩)
    · exact i3 _ (h.done b g hb (by omega) hn)

theorem saveVariableBuffer_inv (n : Net) :
    ∃ s, Inv n (makeLives n) (countActual n (makeLives n)) n.fns.length s ∧
      saveVariableBuffer n = ((List.range (countActual n (makeLives n))).map s.sizes, s.map) := by
  have hgen : ∀ f, f ≤ n.fns.length → ∀ s0 : St, (∀ w, s0.map w = none) →
      Inv n (makeLives n) (countActual n (makeLives n)) f
        ((List.range f).foldl (assignFn n (makeLives n) (countActual n (makeLives n))) s0) := by
    intro f
    induction f with
    | zero =>
      intro _ s0 h0
      refine ⟨?_, ?_, ?_, ?_⟩
      · intro b _ h; exact absurd (h0 _) h
      · intro b g _ hg; omega
      · intro b ab _ h; rw [List.range_zero, List.foldl_nil, h0] at h; cases h
      · intro b c ab _ _ _ h; rw [List.range_zero, List.foldl_nil, h0] at h; cases h
    | succ f ih =>
      intro hf s0 h0
      rw [List.range_succ, List.foldl_append]
      exact assignFn_ok n _ _ f _ (refs_le n _ f (by omega)) (ih (by omega) s0 h0)
  refine ⟨_, hgen n.fns.length (Nat.le_refl _)
    ⟨fun j => (actualSizes n (makeLives n)).getD j 0, fun _ => none⟩ (fun _ => rfl), ?_⟩
  simp only [saveVariableBuffer, actualSizes_length]

end Verif.SaveBuffer
