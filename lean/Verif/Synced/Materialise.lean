/- The first access after zero/fill of the whole array. -/
import Verif.Synced.Sync

namespace Verif.Synced

variable {V : Type}

theorem deep_unique {s : St V} {st n m i} (h : Deep s st n i) (h' : Deep s st m i) : n = m := by
  have a := h.2.2.2 m h'.1 h'.2.1 h'.2.2.1
  have b := h'.2.2.2 n h.1 h.2.1 h.2.2.1
  omega

/-- Allocation of the root's array and those of all its descendants. -/
theorem syncAlloc_C0 {env : Env V} (he : EnvOk env) {s : St V} {st val} (T : Tree s st) (h : C0 env s st val) (k : BaseKey) :
    let s' := syncAlloc s 0 k (k, [])
    SameShape s s' ∧ (∀ m, lazy (s'.node m) = lazy (s.node m) ∧ (s'.node m).zeroing = (s.node m).zeroing ∧
      (s'.node m).lazyZero = (s.node m).lazyZero ∧ (s'.node m).lazyFill = (s.node m).lazyFill ∧
      (s'.node m).fillVal = (s.node m).fillVal) ∧
    (s'.node 0).arrs = [((k, []), ⟨s.nextBlk, 0, k.dt⟩, false)] ∧ s'.nextBlk = s.nextBlk + 1 ∧
    C1 env s' st (fun i => (val i).map (env.conv k.dt)) k s.nextBlk (fun _ _ => False) := by
  intro s'
  have h0a := T.root.1
  have hE0 := h.empty 0 h0a
  -- the state before the descendants are created
  let s3 : St V := { setArr (upd s 0 (fun d => { d with head := some (k, []) })) 0 (k, []) ⟨s.nextBlk, 0, k.dt⟩ false with
    nextBlk := s.nextBlk + 1 }
  have hA : s' = if !isChild (s3.node 0) && hasFamily (s3.node 0) then createDescendants 0 s3 else s3 := by
    show syncAlloc s 0 k (k, []) = _
    unfold syncAlloc
    rw [hE0]
    have hu : upd s 0 (fun d => if d.arrs.isEmpty then { d with head := some (k, []) } else d)
        = upd s 0 (fun d => { d with head := some (k, []) }) := by
      unfold upd
      congr 1
      funext m
      by_cases hm : m = 0
      · subst hm; simp [hE0]
      · simp [hm]
    simp only [find, hu]
    rfl
  have hS3 : SameShape s s3 := by
    refine SameShape.trans (SameShape.trans (sameShape_upd s 0 ?_) (setArr_shape _ 0 _ _ _))
      (⟨rfl, rfl, fun _ => rfl, fun _ => rfl, fun _ => rfl, fun _ => rfl⟩)
    exact ⟨fun _ => rfl, fun _ => rfl, fun _ => rfl, fun _ => rfl⟩
  have hn0 : s3.node 0 = { s.node 0 with head := some (k, []), arrs := [((k, []), ⟨s.nextBlk, 0, k.dt⟩, false)] } := by
    show ({ setArr (upd s 0 (fun d => { d with head := some (k, []) })) 0 (k, []) ⟨s.nextBlk, 0, k.dt⟩ false with
      nextBlk := s.nextBlk + 1 } : St V).node 0 = _
    simp only [setArr, upd_self, hE0]
    rfl
  have hnm : ∀ m, m ≠ 0 → s3.node m = s.node m := by
    intro m hm
    show (setArr (upd s 0 _) 0 _ _ _).node m = _
    simp only [setArr]
    rw [upd_ne _ _ hm, upd_ne _ _ hm]
  have hm3 : s3.mem = s.mem := rfl
  have hb3 : s3.nextBlk = s.nextBlk + 1 := rfl
  clear_value s3
  have T3 : Tree s3 st := T.shape hS3
  have h0a3 : s3.alive 0 = true := by rw [hS3.alive]; exact h0a
  have hH0 : HeadAt s3 st k s.nextBlk 0 := by
    refine ⟨[], by rw [hn0], false, ?_⟩
    rw [hn0, T.root.2.2.2.1]
    simp [find]
  -- the final state
  have fin : SameShape s3 s' ∧ s'.mem = s3.mem ∧ s'.nextBlk = s3.nextBlk ∧ s'.node 0 = s3.node 0 ∧
      (∀ m, m ≠ 0 → s.alive m = true → HeadAt s' st k s.nextBlk m ∧ KeyOk s' m ∧
        ∃ key e, (s'.node m).head = some key ∧ s'.node m = { s3.node m with head := some key, arrs := [(key, e)] }) ∧
      (∀ m, s.alive m ≠ true → s'.node m = s3.node m) := by
    by_cases hf : hasFamily (s3.node 0) = true
    · have hc : isChild (s3.node 0) = false := by simp [isChild, T3.root.2.1]
      simp only [hc, hf, Bool.not_false, Bool.and_true, if_true] at hA
      rw [hA]
      obtain ⟨a1, a2, a3, a4, a5⟩ := createDescendants_spec T3 0 h0a3 (k := k) (B := s.nextBlk)
        (by rw [T3.root.2.2.2.1, T3.root.2.2.1]) hH0 (by
          intro m hm
          rw [hnm m hm.2.1]
          exact h.empty m (by rw [← hS3.alive]; exact hm.2.2))
      refine ⟨a1, a2, a3, a4 0 (fun hb => hb.2.1 rfl), ?_, ?_⟩
      · intro m hm ha
        have ha3 : s3.alive m = true := by rw [hS3.alive]; exact ha
        exact a5 m ⟨sub_root T3 m ha3, hm, ha3⟩
      · intro m ha
        exact a4 m (fun hb => ha (by rw [← hS3.alive]; exact hb.2.2))
    · have hf' : hasFamily (s3.node 0) = false := by simpa using hf
      simp only [hf', Bool.and_false, Bool.false_eq_true, if_false] at hA
      rw [hA]
      obtain ⟨_, al⟩ := no_family_alone T3 h0a3 hf'
      refine ⟨SameShape.refl s3, rfl, rfl, rfl, ?_, fun _ _ => rfl⟩
      intro m hm ha
      exact absurd (al m (by rw [hS3.alive]; exact ha)) hm
  clear hA
  clear_value s'
  obtain ⟨f1, f2, f3, f4, f5, f6⟩ := fin
  have hS : SameShape s s' := hS3.trans f1
  have hmeta : ∀ m, lazy (s'.node m) = lazy (s.node m) ∧ (s'.node m).zeroing = (s.node m).zeroing ∧
      (s'.node m).lazyZero = (s.node m).lazyZero ∧ (s'.node m).lazyFill = (s.node m).lazyFill ∧
      (s'.node m).fillVal = (s.node m).fillVal := by
    intro m
    by_cases hm : m = 0
    · subst hm; rw [f4, hn0]; exact ⟨rfl, rfl, rfl, rfl, rfl⟩
    · by_cases ha : s.alive m = true
      · obtain ⟨_, _, key, e, _, g⟩ := f5 m hm ha
        rw [g, hnm m hm]; exact ⟨rfl, rfl, rfl, rfl, rfl⟩
      · rw [f6 m ha, hnm m hm]; exact ⟨rfl, rfl, rfl, rfl, rfl⟩
  refine ⟨hS, hmeta, by rw [f4, hn0], by rw [f3, hb3], ?_⟩
  constructor
  · rw [f3, hb3]; omega
  · rw [f4, hn0]
  · intro m hm
    rw [hS.alive] at hm
    by_cases h0 : m = 0
    · subst h0
      obtain ⟨l, e1, b, e2⟩ := hH0.key
      exact ⟨l, by rw [f4]; exact e1, b, by rw [f4]; exact e2⟩
    · exact (f5 m h0 hm).1
  · intro m hm
    rw [hS.alive] at hm
    by_cases h0 : m = 0
    · subst h0
      intro p hp
      rw [hS.parent, T.root.2.1] at hp; cases hp
    · exact (f5 m h0 hm).2.1
  · intro i v hi hv
    rw [hS.size] at hi
    simp only [Option.map_eq_some_iff] at hv
    obtain ⟨v0, hv0, hvv⟩ := hv
    obtain ⟨n, hd, hraw⟩ := h.content i v0 hi hv0
    have hd' : Deep s' st n i := by
      obtain ⟨d1, d2, d3, d4⟩ := hd
      refine ⟨by rw [hS.alive]; exact d1, by rw [(hmeta n).1]; exact d2, by rw [hS.covers]; exact d3, ?_⟩
      intro m g1 g2 g3
      rw [hS.alive] at g1; rw [(hmeta m).1] at g2; rw [hS.covers] at g3
      exact d4 m g1 g2 g3
    refine ⟨by rw [← hvv, he.idem], ?_, ?_⟩
    · intro m hm
      have := deep_unique hm hd'
      subst this
      have : lvraw env (s'.node m) = lvraw env (s.node m) := by
        unfold lvraw; rw [(hmeta m).2.2.1, (hmeta m).2.2.2.2]
      rw [this, hraw, hvv]
    · intro hno
      exact absurd hd'.2.2.1 (hno n hd'.1 hd'.2.1)
  · intro m key e hm hf hne _
    exfalso
    rw [hS.alive] at hm
    by_cases h0 : m = 0
    · subst h0
      rw [f4, hn0] at hf hne
      simp only [find] at hf
      split at hf
      · rename_i hk; apply hne; rw [hk]
      · cases hf
    · obtain ⟨_, _, key', e', g1, g2⟩ := f5 m h0 hm
      rw [g2] at hf
      rw [g1] at hne
      simp only [find] at hf
      split at hf
      · rename_i hk; exact hne (by rw [hk])
      · cases hf

/-- What the root's sync leaves behind. -/
structure Post0 (env : Env V) (s s' : St V) (st : Nat → Nat) (val : Nat → Option V) (k : BaseKey) (wo : Bool) : Prop where
  shape : SameShape s s'
  zeroing : ∀ m, (s'.node m).zeroing = (s.node m).zeroing
  lazym : ∀ m, lazy (s'.node m) = true → lazy (s.node m) = true
  full : (wo = false ∨ hasFamily (s.node 0) = true) →
    C1 env s' st (fun i => (val i).map (env.conv k.dt)) k s.nextBlk (fun _ _ => False) ∧
    lazy (s'.node 0) = false ∧ (∀ i, Covers s st 0 i → NoLazyAt s' st i)
  weak : C1 env s' st (fun _ => none) k s.nextBlk (fun _ _ => False)

theorem C1.forget {env : Env V} {s : St V} {st val k B exc} (h : C1 env s st val k B exc) :
    C1 env s st (fun _ => none) k B exc := by
  refine ⟨h.blk, h.rootKey, h.head, h.keyOk, (by intro i v _ hv; cases hv), ?_⟩
  intro n key e hn hf hne hex
  obtain ⟨k', o1, o2, o3, o4, o5, o6, o7, o8, o9⟩ := h.others n key e hn hf hne hex
  exact ⟨k', o1, o2, o3, o4, o5, o6, o7, (by intro j v _ hv; cases hv), o9⟩

theorem syncBody_C0 {env : Env V} (he : EnvOk env) {s : St V} {st val} (T : Tree s st) (h : C0 env s st val)
    (k : BaseKey) (wo : Bool) :
    (syncBody env s 0 k wo).1 = (k, []) ∧ Post0 env s (syncBody env s 0 k wo).2 st val k wo := by
  have hk : syncKey s 0 k = (k, []) := by unfold syncKey; rw [T.root.2.1]
  simp only [syncBody, hk]
  refine ⟨trivial, ?_⟩
  obtain ⟨a1, a2, a3, a4, a5⟩ := syncAlloc_C0 he T h k
  generalize syncAlloc s 0 k (k, []) = s1 at *
  have T1 : Tree s1 st := T.shape a1
  have h0a : s1.alive 0 = true := T1.root.1
  have hfam : hasFamily (s1.node 0) = hasFamily (s.node 0) := by
    unfold hasFamily; rw [a1.parent, a1.children]
  by_cases hf : hasFamily (s.node 0) = true
  · -- family: everything pending is evaluated
    obtain ⟨c, F, nl, ln⟩ := syncLazy_spec he T1 a5 h0a (by intro hx; rw [hfam, hf] at hx; cases hx)
    have Fsame := F.same
    have Fl := F.node
    generalize syncLazy env s1 0 = s2 at *
    have post : Post0 env s s2 st val k wo := by
      refine ⟨a1.trans F.shape, fun m => ((Fsame m).2.2).trans (a2 m).2.1, ?_, ?_, c.forget⟩
      · intro m hm
        rcases Fl m with hx | hx
        · rw [hx, (a2 m).1] at hm; exact hm
        · rw [hx] at hm; cases hm
      · intro _
        exact ⟨c, ln, fun i hi => nl i (by rw [a1.covers]; exact hi)⟩
    cases wo with
    | true => exact post
    | false =>
      simp only [Bool.false_eq_true, if_false]
      have harrs : (s2.node 0).arrs = [((k, []), ⟨s.nextBlk, 0, k.dt⟩, false)] := by rw [(Fsame 0).2.1]; exact a3
      have : syncCopy env s2 0 (k, []) = s2 := by
        unfold syncCopy
        have hf2 : hasFamily (s2.node 0) = true := by
          rw [show hasFamily (s2.node 0) = hasFamily (s1.node 0) by unfold hasFamily; rw [F.shape.parent, F.shape.children], hfam]
          exact hf
        simp [harrs, find, hf2]
      rw [this]; exact post
  · have hf' : hasFamily (s.node 0) = false := by simpa using hf
    have hsl : syncLazy env s1 0 = s1 := by unfold syncLazy; rw [hfam, hf']; rfl
    rw [hsl]
    obtain ⟨_, al⟩ := no_family_alone T1 h0a (by rw [hfam]; exact hf')
    cases wo with
    | true =>
      simp only [if_true]
      refine ⟨a1, fun m => (a2 m).2.1, fun m hm => by rw [(a2 m).1] at hm; exact hm, ?_, a5.forget⟩
      intro hx
      rcases hx with hx | hx
      · cases hx
      · rw [hf'] at hx; cases hx
    | false =>
      simp only [Bool.false_eq_true, if_false]
      -- the pending zero/fill of the root is written
      have hst0 := T1.root.2.2.2.1
      have fin : ∀ (s2 : St V) (x : V), lazy (s1.node 0) = true → lvraw env (s1.node 0) = x →
          s2 = { s1 with node := s2.node, mem := (writeArr s1 ⟨s.nextBlk, 0, k.dt⟩ (s1.node 0).size (fun _ => env.conv k.dt x)).mem } →
          (∀ m, m ≠ 0 → s2.node m = s1.node m) → (s2.node 0).parent = (s1.node 0).parent →
          (s2.node 0).off = (s1.node 0).off → (s2.node 0).size = (s1.node 0).size →
          (s2.node 0).children = (s1.node 0).children → (s2.node 0).arrs = (s1.node 0).arrs →
          (s2.node 0).head = (s1.node 0).head → (s2.node 0).zeroing = (s1.node 0).zeroing →
          lazy (s2.node 0) = false → Post0 env s s2 st val k false := by
        intro s2 x hl hraw heq hm p1 p2 p3 p4 p5 p6 p7 p8
        have hS2 : SameShape s1 s2 := by
          refine ⟨by rw [heq], by rw [heq], ?_, ?_, ?_, ?_⟩ <;> intro m <;> by_cases h0 : m = 0
          all_goals first
            | (subst h0; assumption)
            | (rw [hm m h0])
        have hnl : ∀ i, NoLazyAt s2 st i := by
          intro i m hma hml _
          rw [hS2.alive] at hma
          rw [al m hma, p8] at hml; cases hml
        have hmem2 : s2.mem = (writeArr s1 ⟨s.nextBlk, 0, k.dt⟩ (s1.node 0).size (fun _ => env.conv k.dt x)).mem := by rw [heq]
        have hnb2 : s2.nextBlk = s1.nextBlk := by rw [heq]
        have c2 : C1 env s2 st (fun i => (val i).map (env.conv k.dt)) k s.nextBlk (fun _ _ => False) := by
          constructor
          · rw [hnb2]; exact a5.blk
          · rw [p6]; exact a5.rootKey
          · intro m hma
            rw [hS2.alive] at hma
            have := al m hma
            subst this
            obtain ⟨l, e1, b, e2⟩ := (a5.head 0 hma).key
            exact ⟨l, by rw [p6]; exact e1, b, by rw [p5]; exact e2⟩
          · intro m hma p hp
            rw [hS2.alive] at hma
            have := al m hma
            subst this
            rw [hS2.parent, T1.root.2.1] at hp; cases hp
          · intro i v hi hv
            rw [hS2.size] at hi
            obtain ⟨q1, q2, q3⟩ := a5.content i v hi hv
            have hcov : Covers s1 st 0 i := by unfold Covers; omega
            refine ⟨q1, ?_, ?_⟩
            · intro m hd; exact absurd hd.2.2.1 (hnl i m hd.1 hd.2.1)
            · intro _
              rw [hmem2]
              simp only [writeArr]
              rw [if_pos ⟨trivial, by omega, by omega⟩, ← hraw]
              apply q2 0
              refine ⟨h0a, hl, hcov, ?_⟩
              intro m hma _ _
              rw [al m hma]; exact Nat.le_refl _
          · intro m key e hma hfd hne hex
            rw [hS2.alive] at hma
            have := al m hma
            subst this
            rw [p5] at hfd; rw [p6] at hne
            obtain ⟨k', o1, o2, o3, o4, o5, o6, o7, o8, o9⟩ := a5.others 0 key e hma hfd hne hex
            exfalso
            rw [a3] at hfd
            rw [a5.rootKey] at hne
            simp only [find] at hfd
            split at hfd
            · rename_i hk'; exact hne (by rw [hk'])
            · cases hfd
        refine ⟨a1.trans hS2, ?_, ?_, fun _ => ⟨c2, p8, fun i _ => hnl i⟩, c2.forget⟩
        · intro m
          by_cases h0 : m = 0
          · subst h0; rw [p7]; exact (a2 0).2.1
          · rw [hm m h0]; exact (a2 m).2.1
        · intro m hml
          by_cases h0 : m = 0
          · subst h0; rw [p8] at hml; cases hml
          · rw [hm m h0, (a2 m).1] at hml; exact hml
      unfold syncCopy
      simp only [a3, find, if_true, Bool.false_eq_true, if_false, hfam, hf', Bool.not_false, Bool.true_and]
      by_cases hz : (s1.node 0).lazyZero = true
      · simp only [hz, if_true]
        have hlf : (s1.node 0).lazyFill = false := by
          rw [(a2 0).2.2.2.1]; exact h.excl (by rw [← (a2 0).2.2.1]; exact hz)
        apply fin _ env.zero (by simp [lazy, hz]) (by simp [lvraw, hz])
        · rw [he.zero]; rfl
        · intro m hm; rw [upd_ne _ _ hm]; rfl
        all_goals first
          | rfl
          | (rw [upd_self]; simp [lazy, hlf])
      · have hz' : (s1.node 0).lazyZero = false := by simpa using hz
        simp only [hz', Bool.false_eq_true, if_false]
        by_cases hfl : (s1.node 0).lazyFill = true
        · simp only [hfl, if_true]
          apply fin _ (s1.node 0).fillVal (by simp [lazy, hfl]) (by simp [lvraw, hz'])
          · rfl
          · intro m hm; rw [upd_ne _ _ hm]; rfl
          all_goals first
            | rfl
            | (rw [upd_self]; simp [lazy, hz'])
        · have hfl' : (s1.node 0).lazyFill = false := by simpa using hfl
          have hl0 : lazy (s1.node 0) = false := by simp [lazy, hz', hfl']
          simp only [hfl', Bool.false_eq_true, if_false, List.length_singleton, Nat.lt_irrefl]
          refine ⟨a1, fun m => (a2 m).2.1, fun m hm => by rw [(a2 m).1] at hm; exact hm, ?_, a5.forget⟩
          intro _
          refine ⟨a5, hl0, ?_⟩
          intro i _ m hma hml _
          rw [al m hma, hl0] at hml; cases hml

end Verif.Synced
