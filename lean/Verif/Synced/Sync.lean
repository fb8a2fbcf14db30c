/- What sync does in a materialised family and when it materialises one. -/
import Verif.Synced.Inv

namespace Verif.Synced

variable {V : Type}

/-- Writing elements of array `n` into the family's block. -/
theorem C1_writeB {env : Env V} {s : St V} {st val k B exc} (h : C1 env s st val k B exc)
    {n : Nat} (val' : Nat → Option V) (f : Nat → V) (dt : Nat)
    (hnl : ∀ i, Covers s st n i → NoLazyAt s st i)
    (hout : ∀ i, ¬ Covers s st n i → val' i = val i)
    (hin : ∀ j v, j < (s.node n).size → val' (st n + j) = some v → f j = v ∧ env.conv k.dt v = v)
    (hoth : ∀ m key e, s.alive m = true → find key (s.node m).arrs = some e → some key ≠ (s.node m).head →
      ¬ exc m key → ∀ j, j < (s.node m).size → val' (st m + j) = val (st m + j)) :
    C1 env (writeArr s ⟨B, st n, dt⟩ (s.node n).size f) st val' k B exc := by
  constructor
  · exact h.blk
  · exact h.rootKey
  · intro m hm
    obtain ⟨l, e1, b, e2⟩ := (h.head m hm).key
    exact ⟨l, e1, b, e2⟩
  · intro m hm p hp hk hhk
    exact h.keyOk m hm p hp hk hhk
  · intro i v hi hv
    by_cases hc : Covers s st n i
    · obtain ⟨j, hj⟩ : ∃ j, i = st n + j := ⟨i - st n, by unfold Covers at hc; omega⟩
      have hjs : j < (s.node n).size := by unfold Covers at hc; omega
      subst hj
      obtain ⟨f1, f2⟩ := hin j v hjs hv
      refine ⟨f2, ?_, ?_⟩
      · intro m ⟨d1, d2, d3, _⟩
        exact absurd d3 (hnl _ hc m d1 d2)
      · intro _
        simp only [writeArr]
        rw [if_pos ⟨trivial, by omega, by omega⟩]
        have : st n + j - st n = j := by omega
        rw [this]; exact f1
    · rw [hout i hc] at hv
      obtain ⟨c1, c2, c3⟩ := h.content i v hi hv
      refine ⟨c1, c2, ?_⟩
      intro hno
      simp only [writeArr]
      rw [if_neg (fun hx => hc hx.2)]
      exact c3 hno
  · intro m key e hm hf hne hex
    obtain ⟨k', o1, o2, o3, o4, o5, o6, o7, o8, o9⟩ := h.others m key e hm hf hne hex
    refine ⟨k', o1, o2, o3, o4, o5, o6, o7, ?_, o9⟩
    intro j v hj hv
    simp only [writeArr]
    rw [if_neg (fun hx => o6 hx.1)]
    exact o8 j v hj (by rw [← hoth m key e hm hf hne hex j hj]; exact hv)

/-- Writing into a block nobody else uses. -/
theorem C1_writeFresh {env : Env V} {s : St V} {st val k B exc} (h : C1 env s st val k B exc)
    (a : Arr) (z : Nat) (f : Nat → V) (hB : a.blk ≠ B)
    (hoth : ∀ m key e, s.alive m = true → find key (s.node m).arrs = some e → some key ≠ (s.node m).head →
      ¬ exc m key → e.1.blk ≠ a.blk) :
    C1 env (writeArr s a z f) st val k B exc := by
  constructor
  · exact h.blk
  · exact h.rootKey
  · intro m hm
    obtain ⟨l, e1, b, e2⟩ := (h.head m hm).key
    exact ⟨l, e1, b, e2⟩
  · intro m hm p hp hk hhk
    exact h.keyOk m hm p hp hk hhk
  · intro i v hi hv
    obtain ⟨c1, c2, c3⟩ := h.content i v hi hv
    refine ⟨c1, c2, ?_⟩
    intro hno
    simp only [writeArr]
    rw [if_neg (fun hx => hB hx.1.symm)]
    exact c3 hno
  · intro m key e hm hf hne hex
    obtain ⟨k', o1, o2, o3, o4, o5, o6, o7, o8, o9⟩ := h.others m key e hm hf hne hex
    refine ⟨k', o1, o2, o3, o4, o5, o6, o7, ?_, o9⟩
    intro j v hj hv
    simp only [writeArr]
    rw [if_neg (fun hx => hoth m key e hm hf hne hex hx.1)]
    exact o8 j v hj hv

/-- Changing the array at a key other than the head of `n` (exempted), possibly with new blocks. -/
theorem C1_setOther {env : Env V} {s : St V} {st val k B} {exc : Nat → Key → Prop} (h : C1 env s st val k B exc)
    {n : Nat} {dk : Key} (hdk : some dk ≠ (s.node n).head) (a : Arr) (b : Bool) (nb : Nat) (hnb : s.nextBlk ≤ nb) :
    C1 env { setArr s n dk a b with nextBlk := nb } st val k B (fun m key => exc m key ∨ (m = n ∧ key = dk)) := by
  have hnode : ∀ m, (setArr s n dk a b).node m =
      if m = n then { s.node n with arrs := insert dk (a, b) (s.node n).arrs } else s.node m := by
    intro m
    simp only [setArr, upd]
    by_cases hm : m = n
    · subst hm; rfl
    · simp [hm]
  have hhead : ∀ m, ((setArr s n dk a b).node m).head = (s.node m).head := by
    intro m; rw [hnode]; split
    · rename_i hm; subst hm; rfl
    · rfl
  have hsize : ∀ m, ((setArr s n dk a b).node m).size = (s.node m).size := by
    intro m; rw [hnode]; split
    · rename_i hm; subst hm; rfl
    · rfl
  have hlz : ∀ m, lazy ((setArr s n dk a b).node m) = lazy (s.node m) := by
    intro m; rw [hnode]; split
    · rename_i hm; subst hm; rfl
    · rfl
  have hraw : ∀ m, lvraw env ((setArr s n dk a b).node m) = lvraw env (s.node m) := by
    intro m; rw [hnode]; split
    · rename_i hm; subst hm; rfl
    · rfl
  have hpar : ∀ m, ((setArr s n dk a b).node m).parent = (s.node m).parent ∧
      ((setArr s n dk a b).node m).off = (s.node m).off := by
    intro m; rw [hnode]; split
    · rename_i hm; subst hm; exact ⟨rfl, rfl⟩
    · exact ⟨rfl, rfl⟩
  have hfind : ∀ m key, ¬ (m = n ∧ key = dk) →
      find key ((setArr s n dk a b).node m).arrs = find key (s.node m).arrs := by
    intro m key hne
    rw [hnode]; split
    · rename_i hm; subst hm
      show find key (insert dk (a, b) _) = _
      rw [find_insert, if_neg (fun hk => hne ⟨rfl, hk⟩)]
    · rfl
  have hcov : ∀ m i, Covers { setArr s n dk a b with nextBlk := nb } st m i ↔ Covers s st m i := by
    intro m i; unfold Covers; show _ ∧ i < st m + ((setArr s n dk a b).node m).size ↔ _; rw [hsize]
  have hno : ∀ i, NoLazyAt { setArr s n dk a b with nextBlk := nb } st i ↔ NoLazyAt s st i := by
    intro i; unfold NoLazyAt
    constructor
    · intro hh m g1 g2 g3; exact hh m g1 (by show lazy ((setArr s n dk a b).node m) = true; rw [hlz]; exact g2) ((hcov m i).2 g3)
    · intro hh m g1 g2 g3
      have g2' : lazy ((setArr s n dk a b).node m) = true := g2
      rw [hlz] at g2'
      exact hh m g1 g2' ((hcov m i).1 g3)
  have hdeep : ∀ m i, Deep { setArr s n dk a b with nextBlk := nb } st m i → Deep s st m i := by
    intro m i ⟨d1, d2, d3, d4⟩
    have d2' : lazy ((setArr s n dk a b).node m) = true := d2
    rw [hlz] at d2'
    refine ⟨d1, d2', (hcov m i).1 d3, ?_⟩
    intro m' g1 g2 g3
    exact d4 m' g1 (by show lazy ((setArr s n dk a b).node m') = true; rw [hlz]; exact g2) ((hcov m' i).2 g3)
  constructor
  · exact Nat.lt_of_lt_of_le h.blk hnb
  · show ((setArr s n dk a b).node 0).head = _
    rw [hhead]; exact h.rootKey
  · intro m hm
    obtain ⟨l, e1, b', e2⟩ := (h.head m hm).key
    refine ⟨l, ?_, b', ?_⟩
    · show ((setArr s n dk a b).node m).head = _
      rw [hhead]; exact e1
    · show find _ ((setArr s n dk a b).node m).arrs = _
      rw [hfind m _ (fun hx => by obtain ⟨h1, h2⟩ := hx; subst h1; rw [h2] at e1; exact hdk e1.symm)]
      exact e2
  · intro m hm p hp hk hhk
    have hp' : ((setArr s n dk a b).node m).parent = some p := hp
    have hhk' : ((setArr s n dk a b).node p).head = some hk := hhk
    rw [(hpar m).1] at hp'; rw [hhead] at hhk'
    show ((setArr s n dk a b).node m).head = some (hk.1, hk.2 ++ [(((setArr s n dk a b).node m).off, ((setArr s n dk a b).node m).size)])
    rw [hhead, (hpar m).2, hsize]
    exact h.keyOk m hm p hp' hk hhk'
  · intro i v hi hv
    have hi' : i < ((setArr s n dk a b).node 0).size := hi
    rw [hsize] at hi'
    obtain ⟨c1, c2, c3⟩ := h.content i v hi' hv
    refine ⟨c1, ?_, ?_⟩
    · intro m hd
      show env.conv k.dt (lvraw env ((setArr s n dk a b).node m)) = v
      rw [hraw]; exact c2 m (hdeep m i hd)
    · intro hh; exact c3 ((hno i).1 hh)
  · intro m key e hm hf hne hex
    have hne2 : ¬ (m = n ∧ key = dk) := fun hx => hex (Or.inr hx)
    have hf' : find key ((setArr s n dk a b).node m).arrs = some e := hf
    have hne' : some key ≠ ((setArr s n dk a b).node m).head := hne
    rw [hfind m key hne2] at hf'
    rw [hhead] at hne'
    obtain ⟨k', o1, o2, o3, o4, o5, o6, o7, o8, o9⟩ := h.others m key e hm hf' hne' (fun hx => hex (Or.inl hx))
    refine ⟨k', o1, o2, o3, o4, Nat.lt_of_lt_of_le o5 hnb, o6, o7, ?_, ?_⟩
    · intro j v hj hv
      have hj' : j < ((setArr s n dk a b).node m).size := hj
      rw [hsize] at hj'
      exact o8 j v hj' hv
    · intro i hc
      exact (hno i).2 (o9 i ((hcov m i).1 hc))

theorem C1.mono {env : Env V} {s : St V} {st val k B} {exc exc' : Nat → Key → Prop} (h : C1 env s st val k B exc)
    (hx : ∀ m key, exc m key → exc' m key) : C1 env s st val k B exc' :=
  ⟨h.blk, h.rootKey, h.head, h.keyOk, h.content,
   fun n key e hn hf hne hex => h.others n key e hn hf hne (fun hh => hex (hx n key hh))⟩

/-- The exempted array is up to date: nothing is exempted any more. -/
theorem C1.close {env : Env V} {s : St V} {st val k B} {exc : Nat → Key → Prop} (h : C1 env s st val k B exc)
    (hx : ∀ m key e, exc m key → s.alive m = true → find key (s.node m).arrs = some e → some key ≠ (s.node m).head →
      OtherOk env s st val k B m key e) : C1 env s st val k B (fun _ _ => False) := by
  refine ⟨h.blk, h.rootKey, h.head, h.keyOk, h.content, ?_⟩
  intro n key e hn hf hne _
  by_cases hex : exc n key
  · exact hx n key e hex hn hf hne
  · exact h.others n key e hn hf hne hex

/-- The key sync uses in a family materialised in `k`. -/
theorem syncKey_C1 {env : Env V} {s : St V} {st val k B exc} (T : Tree s st) (h : C1 env s st val k B exc)
    {n : Nat} (hn : s.alive n = true) (k1 : BaseKey) :
    (k1 = k → (s.node n).head = some (syncKey s n k1)) ∧ (k1 ≠ k → syncKey s n k1 = (k1, [])) := by
  by_cases h0 : n = 0
  · subst h0
    have : syncKey s 0 k1 = (k1, []) := by unfold syncKey; rw [T.root.2.1]
    rw [this]
    exact ⟨fun hk => by rw [hk]; exact h.rootKey, fun _ => rfl⟩
  · obtain ⟨p, h1, h2, h3, _⟩ := T.child n h0 hn
    unfold syncKey
    rw [h1]
    simp only [root, h.rootKey]
    constructor
    · intro hk
      subst hk
      simp only [if_true]
      obtain ⟨l, e1, _⟩ := (h.head p h3).key
      rw [e1]
      exact h.keyOk n hn p h1 _ e1
    · intro hk
      rw [if_neg]
      intro hc
      simp only [Option.some.injEq, Prod.mk.injEq, and_true] at hc
      exact hk hc.symm

/-- What sync leaves behind. -/
structure SyncPost (env : Env V) (s s' : St V) (st : Nat → Nat) (val : Nat → Option V) (k : BaseKey) (B : Nat)
    (n : Nat) (k1 : BaseKey) (wo : Bool) (dk : Key) : Prop where
  shape : SameShape s s'
  lazy0 : lazy (s'.node 0) = false
  noLazy : ∀ i, Covers s st n i → NoLazyAt s' st i
  lazyn : lazy (s'.node n) = false
  lazym : ∀ m, lazy (s'.node m) = true → lazy (s.node m) = true
  zeroing : ∀ m, (s'.node m).zeroing = (s.node m).zeroing
  heads : ∀ m, (s'.node m).head = (s.node m).head
  c1 : C1 env s' st val k B (fun m key => m = n ∧ key = dk ∧ k1 ≠ k)
  same : k1 = k → (s'.node n).head = some dk
  other : k1 ≠ k → dk = (k1, [])
  arr : ∃ arr b, find dk (s'.node n).arrs = some (arr, b) ∧
    (k1 = k → arr = ⟨B, st n, k.dt⟩) ∧
    (k1 ≠ k → arr.dt = k1.dt ∧ arr.off = 0 ∧ arr.blk < s'.nextBlk ∧ arr.blk ≠ B ∧
      (wo = false → ∀ j v, j < (s.node n).size → val (st n + j) = some v → s'.mem arr.blk j = env.conv k1.dt v))

theorem setArr_shape (s : St V) (n : Nat) (k : Key) (a : Arr) (b : Bool) : SameShape s (setArr s n k a b) := by
  unfold setArr
  apply sameShape_upd
  exact ⟨fun _ => rfl, fun _ => rfl, fun _ => rfl, fun _ => rfl⟩

theorem syncBody_C1 {env : Env V} (he : EnvOk env) {s : St V} {st val k B} (T : Tree s st)
    (h : C1 env s st val k B (fun _ _ => False)) (hl0 : lazy (s.node 0) = false) {n : Nat} (hn : s.alive n = true)
    (k1 : BaseKey) (wo : Bool) :
    SyncPost env s (syncBody env s n k1 wo).2 st val k B n k1 wo (syncBody env s n k1 wo).1 := by
  obtain ⟨sk1, sk2⟩ := syncKey_C1 T h hn k1
  simp only [syncBody]
  generalize syncKey s n k1 = dk at *
  obtain ⟨hl, e1, eb, e2⟩ := (h.head n hn).key
  cases hfd : find dk (s.node n).arrs with
  | some e =>
    have hA : syncAlloc s n k1 dk = s := by unfold syncAlloc; rw [hfd]
    rw [hA]
    obtain ⟨c, F, nl, ln⟩ := syncLazy_spec he T h hn (fun _ => hl0)
    have Fsame := F.same
    have Fl0 := F.lazy hl0
    generalize syncLazy env s n = s2 at *
    have hfd2 : find dk (s2.node n).arrs = some e := by rw [(Fsame n).2.1]; exact hfd
    have harr : ∃ arr b, find dk (s2.node n).arrs = some (arr, b) ∧ (k1 = k → arr = ⟨B, st n, k.dt⟩) ∧
      (k1 ≠ k → b = true ∧ arr.dt = k1.dt ∧ arr.off = 0 ∧ arr.blk < s2.nextBlk ∧ arr.blk ≠ B ∧
        (∀ j v, j < (s.node n).size → val (st n + j) = some v → s2.mem arr.blk j = env.conv k1.dt v)) := by
      refine ⟨e.1, e.2, hfd2, ?_, ?_⟩
      · intro hk
        have := sk1 hk
        rw [e1] at this; cases this
        rw [e2] at hfd; cases hfd; rfl
      · intro hk
        have hdk := sk2 hk
        have hne : some dk ≠ (s2.node n).head := by
          rw [(Fsame n).1, e1, hdk]
          intro hc
          simp only [Option.some.injEq, Prod.mk.injEq] at hc
          exact hk hc.1
        obtain ⟨k', o1, o2, o3, o4, o5, o6, o7, o8, o9⟩ := c.others n dk e (by rw [F.shape.alive]; exact hn) hfd2 hne (by simp)
        rw [hdk] at o1
        have : k' = k1 := by simp only [Prod.mk.injEq, and_true] at o1; exact o1.symm
        subst this
        refine ⟨o7, o3, o4, o5, o6, ?_⟩
        intro j v hj hv
        exact o8 j v (by rw [F.shape.size]; exact hj) hv
    have base : SyncPost env s s2 st val k B n k1 wo dk := by
      obtain ⟨arr, b, q1, q2, q3⟩ := harr
      refine ⟨F.shape, Fl0, nl, ln, ?_, fun m => (Fsame m).2.2, fun m => (Fsame m).1, c.mono (by simp), ?_, sk2, arr, b, q1, q2, ?_⟩
      · intro m hm
        rcases F.node m with a | a
        · rw [a] at hm; exact hm
        · rw [a] at hm; cases hm
      · intro hk; rw [(Fsame n).1]; exact sk1 hk
      · intro hk; obtain ⟨_, p1, p2, p3, p4, p5⟩ := q3 hk; exact ⟨p1, p2, p3, p4, fun _ => p5⟩
    cases wo with
    | true => exact base
    | false =>
      -- bring up to date: nothing to do, or a copy of the head array onto itself
      obtain ⟨arr, b, q1, q2, q3⟩ := harr
      simp only [Bool.false_eq_true, if_false]
      unfold syncCopy
      rw [q1]
      simp only
      cases b with
      | true => simpa using base
      | false =>
        have hkk : k1 = k := by
          apply Classical.byContradiction; intro hk
          have := (q3 hk).1; cases this
        subst hkk
        have harr' := q2 rfl
        subst harr'
        have hlz : (s2.node n).lazyZero = false ∧ (s2.node n).lazyFill = false := by
          simpa [Synced.lazy] using ln
        simp only [Bool.false_eq_true, if_false, hlz.1, hlz.2, Bool.and_false]
        have hsk := sk1 rfl
        have hh2 : (s2.node n).head = some dk := by rw [(Fsame n).1]; exact hsk
        split
        · rw [hh2]
          simp only [q1]
          have hcw := C1_writeB (n := n) c val (fun i => env.conv k1.dt (readArr s2 ⟨B, st n, k1.dt⟩ i)) k1.dt
            (fun i hi => nl i (by rw [F.shape.covers] at hi; exact hi)) (fun _ _ => rfl) (by
              intro j v hj hv
              have hcov : Covers s st n (st n + j) := by
                unfold Covers; rw [← F.shape.size]; omega
              obtain ⟨c1, _, c3⟩ := c.content (st n + j) v (by rw [F.shape.size]; exact covers_lt T hn hcov) hv
              have hmem := c3 (nl _ hcov)
              refine ⟨?_, c1⟩
              simp only [readArr, hmem, c1]) (fun _ _ _ _ _ _ _ _ _ => rfl)
          refine ⟨F.shape.trans (sameShape_writeArr _ _ _ _), Fl0, nl, ln, base.lazym,
            base.zeroing, base.heads, hcw.mono (by simp), fun _ => hh2, sk2, _, false, q1, fun _ => rfl, fun hk => absurd rfl hk⟩
        · exact base
  | none =>
    -- only in another dtype/device
    have hk : k1 ≠ k := by
      intro hk
      have := sk1 hk
      rw [e1] at this; cases this
      rw [e2] at hfd; cases hfd
    have hdk := sk2 hk
    have hne : some dk ≠ (s.node n).head := by
      rw [e1, hdk]
      intro hc
      simp only [Option.some.injEq, Prod.mk.injEq] at hc
      exact hk hc.1
    have hA : syncAlloc s n k1 dk =
        { setArr s n dk ⟨s.nextBlk, 0, k1.dt⟩ false with nextBlk := s.nextBlk + 1 } := by
      unfold syncAlloc
      rw [hfd]
      have hu : upd s n (fun d => if d.arrs.isEmpty then { d with head := some dk } else d) = s := by
        unfold upd
        have : (fun m => if m = n then (if (s.node m).arrs.isEmpty then { s.node m with head := some dk } else s.node m)
            else s.node m) = s.node := by
          funext m
          by_cases hm : m = n
          · subst hm; simp [isEmpty_of_find e2]
          · simp [hm]
        simp only [this]
      simp only [hu]
      split
      · apply createDescendants_none (st := st)
        · exact (T.shape (setArr_shape s n dk ⟨s.nextBlk, 0, k1.dt⟩ false)).shape ⟨rfl, rfl, fun _ => rfl, fun _ => rfl, fun _ => rfl, fun _ => rfl⟩
        · exact hn
        · intro m hm
          have ham : s.alive m = true := hm.2.2
          have hd := h.head m ham
          have : m ≠ n := hm.2.1
          show hasHead ((setArr s n dk _ false).node m) = true
          unfold setArr
          rw [upd_ne _ _ this]
          exact hd.hasHead
      · rfl
    rw [hA]
    have c0 := C1_setOther h hne ⟨s.nextBlk, 0, k1.dt⟩ false (s.nextBlk + 1) (by omega)
    have hS0 : SameShape s { setArr s n dk ⟨s.nextBlk, 0, k1.dt⟩ false with nextBlk := s.nextBlk + 1 } :=
      (setArr_shape s n dk ⟨s.nextBlk, 0, k1.dt⟩ false).trans ⟨rfl, rfl, fun _ => rfl, fun _ => rfl, fun _ => rfl, fun _ => rfl⟩
    have hnode0 : ∀ m, ({ setArr s n dk ⟨s.nextBlk, 0, k1.dt⟩ false with nextBlk := s.nextBlk + 1 } : St V).node m =
        if m = n then { s.node n with arrs := insert dk (⟨s.nextBlk, 0, k1.dt⟩, false) (s.node n).arrs } else s.node m := by
      intro m
      show (setArr s n dk ⟨s.nextBlk, 0, k1.dt⟩ false).node m = _
      simp only [setArr, upd]
      by_cases hm : m = n
      · subst hm; rfl
      · simp [hm]
    have hmem0 : ({ setArr s n dk ⟨s.nextBlk, 0, k1.dt⟩ false with nextBlk := s.nextBlk + 1 } : St V).mem = s.mem := rfl
    have hnb0 : ({ setArr s n dk ⟨s.nextBlk, 0, k1.dt⟩ false with nextBlk := s.nextBlk + 1 } : St V).nextBlk = s.nextBlk + 1 := rfl
    generalize ({ setArr s n dk ⟨s.nextBlk, 0, k1.dt⟩ false with nextBlk := s.nextBlk + 1 } : St V) = s1 at *
    have T1 : Tree s1 st := T.shape hS0
    have hn1 : s1.alive n = true := by rw [hS0.alive]; exact hn
    have hl1 : lazy (s1.node 0) = false := by
      rw [hnode0]; split
      · rename_i h0; subst h0; exact hl0
      · exact hl0
    have hlm1 : ∀ m, lazy (s1.node m) = lazy (s.node m) := by
      intro m; rw [hnode0]; split
      · rename_i h0; subst h0; rfl
      · rfl
    have hzm1 : ∀ m, (s1.node m).zeroing = (s.node m).zeroing := by
      intro m; rw [hnode0]; split
      · rename_i h0; subst h0; rfl
      · rfl
    have hhm1 : ∀ m, (s1.node m).head = (s.node m).head := by
      intro m; rw [hnode0]; split
      · rename_i h0; subst h0; rfl
      · rfl
    obtain ⟨c, F, nl, ln⟩ := syncLazy_spec he T1 c0 hn1 (fun _ => hl1)
    have Fsame := F.same
    have Fl0 := F.lazy hl1
    generalize syncLazy env s1 n = s2 at *
    have hq : find dk (s2.node n).arrs = some (⟨s.nextBlk, 0, k1.dt⟩, false) := by
      rw [(Fsame n).2.1, hnode0, if_pos rfl]
      show find dk (insert dk _ _) = _
      rw [find_insert, if_pos rfl]
    have hnb2 : s2.nextBlk = s.nextBlk + 1 := F.nextBlk.trans hnb0
    have hexc : ∀ m key, (False ∨ (m = n ∧ key = dk)) → (m = n ∧ key = dk ∧ k1 ≠ k) := by
      rintro m key (h' | ⟨a, b⟩)
      · exact h'.elim
      · exact ⟨a, b, hk⟩
    have hlm2 : ∀ m, lazy (s2.node m) = true → lazy (s.node m) = true := by
      intro m hm
      rw [← hlm1]
      rcases F.node m with a | a
      · rw [a] at hm; exact hm
      · rw [a] at hm; cases hm
    cases wo with
    | true =>
      simp only [if_true]
      refine ⟨hS0.trans F.shape, Fl0, ?_, ln, hlm2, fun m => ((Fsame m).2.2).trans (hzm1 m), fun m => ((Fsame m).1).trans (hhm1 m),
        c.mono hexc, fun h' => absurd h' hk, sk2, _, false, hq, fun h' => absurd h' hk, fun _ => ⟨rfl, rfl, ?_, ?_, by simp⟩⟩
      · intro i hi; exact nl i (by rw [hS0.covers]; exact hi)
      · show s.nextBlk < s2.nextBlk; omega
      · show s.nextBlk ≠ B; have := h.blk; omega
    | false =>
      simp only [Bool.false_eq_true, if_false]
      have hlz : (s2.node n).lazyZero = false ∧ (s2.node n).lazyFill = false := by
        simpa [Synced.lazy] using ln
      have hhd2 : (s2.node n).head = some (k, hl) := by
        rw [(Fsame n).1, hnode0, if_pos rfl]; exact e1
      have hfh2 : find (k, hl) (s2.node n).arrs = some (⟨B, st n, k.dt⟩, eb) := by
        rw [(Fsame n).2.1, hnode0, if_pos rfl]
        show find (k, hl) (insert dk _ _) = _
        rw [find_insert, if_neg]
        · exact e2
        · intro hc; rw [← hc] at hne; exact hne e1.symm
      have hlen : 1 < (s2.node n).arrs.length := find_two_length hq hfh2 (by
        intro hc; rw [hc] at hne; exact hne e1.symm)
      unfold syncCopy
      rw [hq]
      simp only [Bool.false_eq_true, if_false, hlz.1, hlz.2, Bool.and_false, hlen, if_true, hhd2, hfh2]
      have hcw := C1_writeFresh c ⟨s.nextBlk, 0, k1.dt⟩ (s2.node n).size
        (fun i => env.conv k1.dt (readArr s2 ⟨B, st n, k.dt⟩ i))
        (by show s.nextBlk ≠ B; have := h.blk; omega) (by
          intro m key e hm hf hnh hex
          have hne2 : ¬ (m = n ∧ key = dk) := fun hx => hex (Or.inr hx)
          rw [(Fsame m).2.1, hnode0] at hf
          rw [(Fsame m).1, hhm1] at hnh
          rw [F.shape.alive, hS0.alive] at hm
          have hf' : find key (s.node m).arrs = some e := by
            by_cases hmn : m = n
            · subst hmn
              rw [if_pos rfl] at hf
              have hf2 : find key (insert dk (⟨s.nextBlk, 0, k1.dt⟩, false) (s.node m).arrs) = some e := hf
              rw [find_insert, if_neg (fun hx => hne2 ⟨rfl, hx⟩)] at hf2
              exact hf2
            · rw [if_neg hmn] at hf; exact hf
          obtain ⟨k', o1, o2, o3, o4, o5, _⟩ := h.others m key e hm hf' hnh (by simp)
          show e.1.blk ≠ s.nextBlk
          omega)
      refine ⟨(hS0.trans F.shape).trans (sameShape_writeArr _ _ _ _), Fl0, ?_, ln, hlm2,
        fun m => ((Fsame m).2.2).trans (hzm1 m), fun m => ((Fsame m).1).trans (hhm1 m),
        hcw.mono hexc, fun h' => absurd h' hk, sk2, _, false, hq, fun h' => absurd h' hk, fun _ => ⟨rfl, rfl, ?_, ?_, ?_⟩⟩
      · intro i hi; exact nl i (by rw [hS0.covers]; exact hi)
      · show s.nextBlk < s2.nextBlk; omega
      · show s.nextBlk ≠ B; have := h.blk; omega
      · intro _ j v hj hv
        have hsz : (s2.node n).size = (s.node n).size := (F.shape.size n).trans (hS0.size n)
        simp only [writeArr]
        rw [if_pos ⟨trivial, by omega, by omega⟩]
        have hcov : Covers s st n (st n + j) := by unfold Covers; omega
        obtain ⟨_, _, c3⟩ := c.content (st n + j) v (by
          rw [F.shape.size, hS0.size]; exact covers_lt T hn hcov) hv
        have := c3 (nl _ (by rw [hS0.covers]; exact hcov))
        simp only [readArr, Nat.sub_zero, this]

end Verif.Synced
