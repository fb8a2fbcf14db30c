/- cast: the array becomes the only up-to-date one of the family. -/
import Verif.Synced.Materialise

namespace Verif.Synced

variable {V : Type}

/-- Only zeroing flags and counters may differ. -/
structure SameCore (s s' : St V) : Prop where
  shape : SameShape s s'
  head : ∀ n, (s'.node n).head = (s.node n).head
  arrs : ∀ n, (s'.node n).arrs = (s.node n).arrs
  lz : ∀ n, (s'.node n).lazyZero = (s.node n).lazyZero
  lf : ∀ n, (s'.node n).lazyFill = (s.node n).lazyFill
  fv : ∀ n, (s'.node n).fillVal = (s.node n).fillVal
  mem : s'.mem = s.mem
  nextBlk : s'.nextBlk = s.nextBlk

theorem SameCore.refl (s : St V) : SameCore s s :=
  ⟨SameShape.refl s, fun _ => rfl, fun _ => rfl, fun _ => rfl, fun _ => rfl, fun _ => rfl, rfl, rfl⟩

theorem SameCore.trans {s s' s'' : St V} (h : SameCore s s') (h' : SameCore s' s'') : SameCore s s'' :=
  ⟨h.shape.trans h'.shape, fun n => (h'.head n).trans (h.head n), fun n => (h'.arrs n).trans (h.arrs n),
   fun n => (h'.lz n).trans (h.lz n), fun n => (h'.lf n).trans (h.lf n), fun n => (h'.fv n).trans (h.fv n),
   h'.mem.trans h.mem, h'.nextBlk.trans h.nextBlk⟩

theorem SameCore.lazy {s s' : St V} (h : SameCore s s') (n : Nat) : Synced.lazy (s'.node n) = Synced.lazy (s.node n) := by
  unfold Synced.lazy; rw [h.lz, h.lf]

theorem SameCore.raw {s s' : St V} (h : SameCore s s') (env : Env V) (n : Nat) :
    lvraw env (s'.node n) = lvraw env (s.node n) := by
  unfold lvraw; rw [h.lz, h.fv]

theorem SameCore.noLazy {s s' : St V} (h : SameCore s s') {st i} : NoLazyAt s' st i ↔ NoLazyAt s st i := by
  unfold NoLazyAt
  constructor
  · intro g m a b c; exact g m (by rw [h.shape.alive]; exact a) (by rw [h.lazy]; exact b) (by rw [h.shape.covers]; exact c)
  · intro g m a b c
    rw [h.shape.alive] at a; rw [h.lazy] at b; rw [h.shape.covers] at c
    exact g m a b c

theorem SameCore.deep {s s' : St V} (h : SameCore s s') {st n i} : Deep s' st n i ↔ Deep s st n i := by
  unfold Deep
  rw [h.shape.alive, h.lazy, h.shape.covers]
  constructor
  · rintro ⟨a, b, c, d⟩
    refine ⟨a, b, c, ?_⟩
    intro m e f g; exact d m e (by rw [h.lazy]; exact f) (by rw [h.shape.covers]; exact g)
  · rintro ⟨a, b, c, d⟩
    refine ⟨a, b, c, ?_⟩
    intro m e f g; rw [h.lazy] at f; rw [h.shape.covers] at g; exact d m e f g

theorem C0.core {env : Env V} {s s' : St V} {st val} (h : C0 env s st val) (e : SameCore s s') : C0 env s' st val := by
  constructor
  · intro n hn; rw [e.arrs]; exact h.empty n (by rw [← e.shape.alive]; exact hn)
  · rw [e.lz, e.lf]; exact h.excl
  · intro i v hi hv
    rw [e.shape.size] at hi
    obtain ⟨n, a, b⟩ := h.content i v hi hv
    exact ⟨n, e.deep.2 a, by rw [e.raw]; exact b⟩

theorem C1.core {env : Env V} {s s' : St V} {st val k B exc} (h : C1 env s st val k B exc) (e : SameCore s s') :
    C1 env s' st val k B exc := by
  constructor
  · rw [e.nextBlk]; exact h.blk
  · rw [e.head]; exact h.rootKey
  · intro n hn
    obtain ⟨l, e1, b, e2⟩ := (h.head n (by rw [← e.shape.alive]; exact hn)).key
    exact ⟨l, by rw [e.head]; exact e1, b, by rw [e.arrs]; exact e2⟩
  · intro n hn p hp hk hhk
    rw [e.shape.parent] at hp; rw [e.head] at hhk
    rw [e.head, e.shape.off, e.shape.size]
    exact h.keyOk n (by rw [← e.shape.alive]; exact hn) p hp hk hhk
  · intro i v hi hv
    rw [e.shape.size] at hi
    obtain ⟨c1, c2, c3⟩ := h.content i v hi hv
    refine ⟨c1, ?_, ?_⟩
    · intro n hd; rw [e.raw]; exact c2 n (e.deep.1 hd)
    · intro hno; rw [e.mem]; exact c3 (e.noLazy.1 hno)
  · intro n key en hn hf hne hex
    rw [e.arrs] at hf; rw [e.head] at hne
    obtain ⟨k', o1, o2, o3, o4, o5, o6, o7, o8, o9⟩ := h.others n key en (by rw [← e.shape.alive]; exact hn) hf hne hex
    refine ⟨k', o1, o2, o3, o4, by rw [e.nextBlk]; exact o5, o6, o7, ?_, ?_⟩
    · intro j v hj hv; rw [e.shape.size] at hj; rw [e.mem]; exact o8 j v hj hv
    · intro i hc; rw [e.shape.covers] at hc; exact e.noLazy.2 (o9 i hc)

/-- A node update touching only zeroing and counters. -/
structure KeepsCore (f : Node V → Node V) : Prop where
  shape : KeepsShape f
  head : ∀ d, (f d).head = d.head
  arrs : ∀ d, (f d).arrs = d.arrs
  lz : ∀ d, (f d).lazyZero = d.lazyZero
  lf : ∀ d, (f d).lazyFill = d.lazyFill
  fv : ∀ d, (f d).fillVal = d.fillVal

theorem sameCore_upd (s : St V) (n : Nat) {f : Node V → Node V} (h : KeepsCore f) : SameCore s (upd s n f) := by
  refine ⟨sameShape_upd s n h.shape, ?_, ?_, ?_, ?_, ?_, rfl, rfl⟩ <;> intro m <;> by_cases hm : m = n
  all_goals first
    | (subst hm; rw [upd_self]; first | exact h.head _ | exact h.arrs _ | exact h.lz _ | exact h.lf _ | exact h.fv _)
    | (rw [upd_ne _ _ hm])

theorem sameCore_foldl (f : Node V → Node V) (h : KeepsCore f) (L : List Nat) (s : St V) :
    SameCore s (L.foldl (fun s c => upd s c f) s) := by
  induction L generalizing s with
  | nil => exact SameCore.refl s
  | cons c L ih => exact (sameCore_upd s c h).trans (ih _)

theorem keepsCore_zeroing (b : Bool) : KeepsCore (V := V) (fun d => { d with zeroing := b }) :=
  ⟨⟨fun _ => rfl, fun _ => rfl, fun _ => rfl, fun _ => rfl⟩, fun _ => rfl, fun _ => rfl, fun _ => rfl, fun _ => rfl, fun _ => rfl⟩

theorem propagateZeroing_core (n : Nat) (b : Bool) (s : St V) : SameCore s (propagateZeroing n b s) := by
  unfold propagateZeroing
  simp only
  refine SameCore.trans (SameCore.trans ?_ (sameCore_upd _ n (keepsCore_zeroing b))) (sameCore_foldl _ (keepsCore_zeroing b) _ _)
  unfold onDesc
  rw [dfs_eq_foldl]
  exact sameCore_foldl _ (keepsCore_zeroing b) _ s

/-- Arrays nested with `n` get the flag, all others keep theirs. -/
theorem propagateZeroing_zeroing {s : St V} {st} (T : Tree s st) (n : Nat) (hn : s.alive n = true) (b : Bool) (m : Nat)
    (hm : s.alive m = true) :
    ((Sub s n m ∨ Sub s m n) → ((propagateZeroing n b s).node m).zeroing = b) ∧
    (¬ (Sub s n m ∨ Sub s m n) → ((propagateZeroing n b s).node m).zeroing = (s.node m).zeroing) := by
  unfold propagateZeroing
  simp only
  rw [foldl_upd_node _ (by intro d; rfl)]
  have hanc := mem_ancestors T n n hn (Nat.le_refl _) m
  have hd := onDesc_node T (fun d => { d with zeroing := b }) (by intro d; rfl) n hn m
  by_cases ha : m ∈ ancestors s n n
  · rw [if_pos ha]
    have := hanc.1 ha
    exact ⟨fun _ => rfl, fun h => absurd (Or.inr this.1) h⟩
  · rw [if_neg ha]
    by_cases hmn : m = n
    · subst hmn
      rw [upd_self]
      exact ⟨fun _ => rfl, fun h => absurd (Or.inl Sub.refl) h⟩
    · rw [upd_ne _ _ hmn]
      by_cases hb : Below s n m
      · rw [hd.1 hb]
        exact ⟨fun _ => rfl, fun h => absurd (Or.inl hb.1) h⟩
      · rw [hd.2 hb]
        refine ⟨?_, fun _ => rfl⟩
        rintro (h | h)
        · exact absurd ⟨h, hmn, hm⟩ hb
        · exact absurd (hanc.2 ⟨h, hmn⟩) ha

/-- Every living array has only its head array. -/
def OnlyHeads (s : St V) : Prop :=
  ∀ m key e, s.alive m = true → find key (s.node m).arrs = some e → some key = (s.node m).head

theorem find_keepHead (d : Node V) (key : Key) :
    find key (keepHead d).arrs = if some key = d.head then find key d.arrs else none := by
  have := find_filter key (fun k => decide (some k = d.head)) d.arrs
  simp only [decide_eq_true_eq] at this
  exact this

/-- Dropping copies of some nodes. -/
theorem C1_keepHead {env : Env V} {s s' : St V} {st val k B exc} (h : C1 env s st val k B exc)
    (hS : SameShape s s') (hmem : s'.mem = s.mem) (hnb : s'.nextBlk = s.nextBlk)
    (hn : ∀ m, s'.node m = s.node m ∨ s'.node m = keepHead (s.node m)) :
    C1 env s' st val k B exc := by
  have hh : ∀ m, (s'.node m).head = (s.node m).head := by
    intro m; rcases hn m with a | a <;> rw [a]; rfl
  have hl : ∀ m, lazy (s'.node m) = lazy (s.node m) ∧ lvraw env (s'.node m) = lvraw env (s.node m) := by
    intro m; rcases hn m with a | a <;> rw [a]
    · exact ⟨rfl, rfl⟩
    · exact ⟨rfl, rfl⟩
  have hf : ∀ m key e, find key (s'.node m).arrs = some e → find key (s.node m).arrs = some e := by
    intro m key e hf
    rcases hn m with a | a
    · rw [a] at hf; exact hf
    · rw [a, find_keepHead] at hf
      split at hf
      · exact hf
      · cases hf
  have hNo : ∀ i, NoLazyAt s' st i ↔ NoLazyAt s st i := by
    intro i; unfold NoLazyAt
    constructor
    · intro g m a b c; exact g m (by rw [hS.alive]; exact a) (by rw [(hl m).1]; exact b) (by rw [hS.covers]; exact c)
    · intro g m a b c
      rw [hS.alive] at a; rw [(hl m).1] at b; rw [hS.covers] at c
      exact g m a b c
  constructor
  · rw [hnb]; exact h.blk
  · rw [hh]; exact h.rootKey
  · intro m hm
    rw [hS.alive] at hm
    obtain ⟨l, e1, b, e2⟩ := (h.head m hm).key
    refine ⟨l, by rw [hh]; exact e1, b, ?_⟩
    rcases hn m with a | a
    · rw [a]; exact e2
    · rw [a, find_keepHead, if_pos e1.symm]; exact e2
  · intro m hm p hp hk hhk
    rw [hS.alive] at hm; rw [hS.parent] at hp; rw [hh] at hhk
    rw [hh, hS.off, hS.size]
    exact h.keyOk m hm p hp hk hhk
  · intro i v hi hv
    rw [hS.size] at hi
    obtain ⟨c1, c2, c3⟩ := h.content i v hi hv
    refine ⟨c1, ?_, ?_⟩
    · intro m ⟨d1, d2, d3, d4⟩
      rw [(hl m).2]
      apply c2 m
      rw [hS.alive] at d1; rw [(hl m).1] at d2; rw [hS.covers] at d3
      refine ⟨d1, d2, d3, ?_⟩
      intro m' a b c
      exact d4 m' (by rw [hS.alive]; exact a) (by rw [(hl m').1]; exact b) (by rw [hS.covers]; exact c)
    · intro hno; rw [hmem]; exact c3 ((hNo i).1 hno)
  · intro m key e hm hfd hne hex
    rw [hS.alive] at hm; rw [hh] at hne
    obtain ⟨k', o1, o2, o3, o4, o5, o6, o7, o8, o9⟩ := h.others m key e hm (hf m key e hfd) hne hex
    refine ⟨k', o1, o2, o3, o4, by rw [hnb]; exact o5, o6, o7, ?_, ?_⟩
    · intro j v hj hv; rw [hS.size] at hj; rw [hmem]; exact o8 j v hj hv
    · intro i hc; rw [hS.covers] at hc; exact (hNo i).2 (o9 i hc)

/-- The last steps of cast on array `n`: only the cast array remains in it and its flags are cleared. -/
def finishCast (n : Nat) (dk : Key) (a : Arr) (s : St V) : St V :=
  upd s n (fun d => { clearAllArray d with arrs := [(dk, a, true)], modCount := 1, clearCalled := false })

theorem finishCast_shape (n : Nat) (dk : Key) (a : Arr) (s : St V) : SameShape s (finishCast n dk a s) := by
  unfold finishCast
  apply sameShape_upd
  exact ⟨fun _ => rfl, fun _ => rfl, fun _ => rfl, fun _ => rfl⟩

/-- finishCast on the head array, when nothing is pending on the elements of `n`. -/
theorem C1_finishCast {env : Env V} {s : St V} {st val k B exc} (h : C1 env s st val k B exc)
    {n : Nat} {dk : Key} {b : Bool}
    (hh : (s.node n).head = some dk) (hf : find dk (s.node n).arrs = some (⟨B, st n, k.dt⟩, b))
    (hl : lazy (s.node n) = false) :
    C1 env (finishCast n dk ⟨B, st n, k.dt⟩ s) st val k B exc := by
  -- keep the head only, then only counters and the at-head mark change
  have hS := finishCast_shape n dk ⟨B, st n, k.dt⟩ s
  have hnn : (finishCast n dk ⟨B, st n, k.dt⟩ s).node n =
      { clearAllArray (s.node n) with arrs := [(dk, ⟨B, st n, k.dt⟩, true)], modCount := 1, clearCalled := false } := by
    unfold finishCast; rw [upd_self]
  have hnm : ∀ m, m ≠ n → (finishCast n dk ⟨B, st n, k.dt⟩ s).node m = s.node m := by
    intro m hm; unfold finishCast; rw [upd_ne _ _ hm]
  have hmem : (finishCast n dk ⟨B, st n, k.dt⟩ s).mem = s.mem := rfl
  have hnb : (finishCast n dk ⟨B, st n, k.dt⟩ s).nextBlk = s.nextBlk := rfl
  generalize finishCast n dk ⟨B, st n, k.dt⟩ s = s' at *
  have hhd : ∀ m, (s'.node m).head = (s.node m).head := by
    intro m; by_cases hm : m = n
    · subst hm; rw [hnn]; rfl
    · rw [hnm m hm]
  have hlz : ∀ m, lazy (s'.node m) = lazy (s.node m) := by
    intro m; by_cases hm : m = n
    · subst hm; rw [hl, hnn]; rfl
    · rw [hnm m hm]
  have hNo : ∀ i, NoLazyAt s' st i ↔ NoLazyAt s st i := by
    intro i; unfold NoLazyAt
    constructor
    · intro g m a b c; exact g m (by rw [hS.alive]; exact a) (by rw [hlz m]; exact b) (by rw [hS.covers]; exact c)
    · intro g m a b c
      rw [hS.alive] at a; rw [hlz m] at b; rw [hS.covers] at c
      exact g m a b c
  constructor
  · rw [hnb]; exact h.blk
  · rw [hhd]; exact h.rootKey
  · intro m hm
    rw [hS.alive] at hm
    by_cases hmn : m = n
    · subst hmn
      obtain ⟨l, e1, b, e2⟩ := (h.head m hm).key
      rw [hh] at e1; cases e1
      refine ⟨l, by rw [hhd]; exact hh, true, ?_⟩
      rw [hnn]; simp [find]
    · obtain ⟨l, e1, b, e2⟩ := (h.head m hm).key
      exact ⟨l, by rw [hhd]; exact e1, b, by rw [hnm m hmn]; exact e2⟩
  · intro m hm p hp hk hhk
    rw [hS.alive] at hm; rw [hS.parent] at hp; rw [hhd] at hhk
    rw [hhd, hS.off, hS.size]
    exact h.keyOk m hm p hp hk hhk
  · intro i v hi hv
    rw [hS.size] at hi
    obtain ⟨c1, c2, c3⟩ := h.content i v hi hv
    refine ⟨c1, ?_, ?_⟩
    · intro m ⟨d1, d2, d3, d4⟩
      rw [hS.alive] at d1; rw [hlz m] at d2; rw [hS.covers] at d3
      have hmn : m ≠ n := by intro hx; subst hx; rw [hl] at d2; cases d2
      rw [hnm m hmn]
      apply c2 m
      refine ⟨d1, d2, d3, ?_⟩
      intro m' a b c
      exact d4 m' (by rw [hS.alive]; exact a) (by rw [hlz m']; exact b) (by rw [hS.covers]; exact c)
    · intro hno; rw [hmem]; exact c3 ((hNo i).1 hno)
  · intro m key e hm hfd hne hex
    rw [hS.alive] at hm; rw [hhd] at hne
    by_cases hmn : m = n
    · exfalso
      subst hmn
      rw [hnn] at hfd
      simp only [find] at hfd
      split at hfd
      · rename_i hx; apply hne; rw [hh, hx]
      · cases hfd
    · rw [hnm m hmn] at hfd
      obtain ⟨k', o1, o2, o3, o4, o5, o6, o7, o8, o9⟩ := h.others m key e hm hfd hne hex
      refine ⟨k', o1, o2, o3, o4, by rw [hnb]; exact o5, o6, o7, ?_, ?_⟩
      · intro j v hj hv; rw [hS.size] at hj; rw [hmem]; exact o8 j v hj hv
      · intro i hc; rw [hS.covers] at hc; exact (hNo i).2 (o9 i hc)

/-- Root cast with new memory: all descendants are cleared and created again on block `B'`. -/
theorem C1_recreate {env : Env V} {s : St V} {st val} {k : BaseKey} {B' : Nat} {b : Bool} (T : Tree s st)
    (hh : (s.node 0).head = some (k, [])) (hf : find (k, []) (s.node 0).arrs = some (⟨B', 0, k.dt⟩, b))
    (hB : B' < s.nextBlk) (hall : ∀ m, s.alive m = true → hasHead (s.node m) = true)
    (hcont : ∀ i v, i < (s.node 0).size → val i = some v → env.conv k.dt v = v ∧ s.mem B' i = v) :
    let s3 := if hasFamily (s.node 0) then createDescendants 0 (clearDescendants false 0 s) else s
    let s4 := finishCast 0 (k, []) ⟨B', 0, k.dt⟩ s3
    SameShape s s4 ∧ s4.mem = s.mem ∧ s4.nextBlk = s.nextBlk ∧
    find (k, []) (s3.node 0).arrs = some (⟨B', 0, k.dt⟩, b) ∧
    C1 env s4 st val k B' (fun _ _ => False) ∧ OnlyHeads s4 ∧ (∀ m, s.alive m = true → lazy (s4.node m) = false) ∧
    (∀ m, (s4.node m).zeroing = (s.node m).zeroing) := by
  intro s3 s4
  have h0a := T.root.1
  have h3 : SameShape s s3 ∧ s3.mem = s.mem ∧ s3.nextBlk = s.nextBlk ∧ s3.node 0 = s.node 0 ∧
      (∀ m, m ≠ 0 → s.alive m = true → HeadAt s3 st k B' m ∧ KeyOk s3 m ∧ lazy (s3.node m) = false ∧
        ∃ key e, (s3.node m).head = some key ∧ (s3.node m).arrs = [(key, e)]) ∧
      (∀ m, (s3.node m).zeroing = (s.node m).zeroing) := by
    show SameShape s (if hasFamily (s.node 0) then createDescendants 0 (clearDescendants false 0 s) else s) ∧ _
    have es3 : s3 = if hasFamily (s.node 0) then createDescendants 0 (clearDescendants false 0 s) else s := rfl
    rw [es3]
    by_cases hfam : hasFamily (s.node 0) = true
    · rw [if_pos hfam]
      have hcn := fun m => clearDescendants_node T false 0 h0a (fun m hm => hall m hm.2.2) m
      obtain ⟨r1, r2, r3⟩ := clearDescendants_rest_shape T false 0 h0a (fun m hm => hall m hm.2.2)
      generalize clearDescendants false 0 s = sc at *
      have Tc : Tree sc st := T.shape r3
      have hn0 : sc.node 0 = s.node 0 := (hcn 0).2 (fun hb => hb.2.1 rfl)
      have hH : HeadAt sc st k B' 0 := by
        refine ⟨[], by rw [hn0]; exact hh, b, ?_⟩
        rw [hn0, T.root.2.2.2.1]; exact hf
      obtain ⟨a1, a2, a3, a4, a5⟩ := createDescendants_spec Tc 0 Tc.root.1 (by rw [Tc.root.2.2.2.1, Tc.root.2.2.1]) hH (by
        intro m hm
        have hb : Below s 0 m := ⟨hm.1.shape r3.symm, hm.2.1, by rw [← r3.alive]; exact hm.2.2⟩
        rw [(hcn m).1 hb]; rfl)
      refine ⟨r3.trans a1, a2.trans r1, a3.trans r2, ?_, ?_, ?_⟩
      · rw [a4 0 (fun hb => hb.2.1 rfl), hn0]
      · intro m hm ha
        have hac : sc.alive m = true := by rw [r3.alive]; exact ha
        obtain ⟨b1, b2, key, e, b3, b4⟩ := a5 m ⟨sub_root Tc m hac, hm, hac⟩
        refine ⟨b1, b2, ?_, key, e, b3, by rw [b4]⟩
        rw [b4]
        have : sc.node m = clearAllArray (s.node m) := by
          have := (hcn m).1 ⟨sub_root T m ha, hm, ha⟩
          simpa using this
        rw [this]; rfl
      · intro m
        have hz : (sc.node m).zeroing = (s.node m).zeroing := by
          by_cases hb : Below s 0 m
          · rw [(hcn m).1 hb]; rfl
          · rw [(hcn m).2 hb]
        by_cases hb : Below sc 0 m
        · obtain ⟨_, _, key, e, _, b4⟩ := a5 m hb
          rw [b4]; exact hz
        · rw [a4 m hb]; exact hz
    · rw [if_neg hfam]
      have hf' : hasFamily (s.node 0) = false := by simpa using hfam
      obtain ⟨_, al⟩ := no_family_alone T h0a hf'
      exact ⟨SameShape.refl s, rfl, rfl, rfl, fun m hm ha => absurd (al m ha) hm, fun _ => rfl⟩
  clear_value s3
  obtain ⟨q1, q2, q3, q4, q5, q6⟩ := h3
  have hS4 : SameShape s s4 := q1.trans (finishCast_shape 0 (k, []) ⟨B', 0, k.dt⟩ s3)
  have hn0 : s4.node 0 = { clearAllArray (s3.node 0) with arrs := [((k, []), ⟨B', 0, k.dt⟩, true)], modCount := 1, clearCalled := false } := by
    show (finishCast 0 (k, []) ⟨B', 0, k.dt⟩ s3).node 0 = _
    unfold finishCast; rw [upd_self]
  have hnm : ∀ m, m ≠ 0 → s4.node m = s3.node m := by
    intro m hm; show (finishCast 0 (k, []) ⟨B', 0, k.dt⟩ s3).node m = _
    unfold finishCast; rw [upd_ne _ _ hm]
  have hm4 : s4.mem = s3.mem := rfl
  have hb4 : s4.nextBlk = s3.nextBlk := rfl
  clear_value s4
  have hlz : ∀ m, s.alive m = true → lazy (s4.node m) = false := by
    intro m hm
    by_cases h0 : m = 0
    · subst h0; rw [hn0]; rfl
    · rw [hnm m h0]; exact (q5 m h0 hm).2.2.1
  have hh4 : (s4.node 0).head = some (k, []) := by rw [hn0]; show (s3.node 0).head = _; rw [q4]; exact hh
  have hno : ∀ i, NoLazyAt s4 st i := by
    intro i m ha hl _
    rw [hS4.alive] at ha
    rw [hlz m ha] at hl; cases hl
  refine ⟨hS4, hm4.trans q2, hb4.trans q3, by rw [q4]; exact hf, ?_, ?_, hlz, ?_⟩
  · constructor
    · rw [hb4, q3]; exact hB
    · exact hh4
    · intro m hm
      rw [hS4.alive] at hm
      by_cases h0 : m = 0
      · subst h0
        refine ⟨[], hh4, true, ?_⟩
        rw [hn0, T.root.2.2.2.1]; simp [find]
      · obtain ⟨l, e1, b', e2⟩ := (q5 m h0 hm).1.key
        exact ⟨l, by rw [hnm m h0]; exact e1, b', by rw [hnm m h0]; exact e2⟩
    · intro m hm
      rw [hS4.alive] at hm
      by_cases h0 : m = 0
      · subst h0
        intro p hp
        rw [hS4.parent, T.root.2.1] at hp; cases hp
      · intro p hp hk hhk
        rw [hnm m h0] at hp ⊢
        apply (q5 m h0 hm).2.1 p hp hk
        by_cases hp0 : p = 0
        · subst hp0
          rw [hn0] at hhk; exact hhk
        · rw [hnm p hp0] at hhk; exact hhk
    · intro i v hi hv
      rw [hS4.size] at hi
      obtain ⟨c1, c2⟩ := hcont i v hi hv
      refine ⟨c1, ?_, ?_⟩
      · intro m hd; exact absurd hd.2.2.1 (hno i m hd.1 hd.2.1)
      · intro _; rw [hm4, q2]; exact c2
    · intro m key e hm hfd hne _
      exfalso
      rw [hS4.alive] at hm
      by_cases h0 : m = 0
      · subst h0
        rw [hh4] at hne
        rw [hn0] at hfd
        simp only [find] at hfd
        split at hfd
        · rename_i hx; exact hne (by rw [hx])
        · cases hfd
      · obtain ⟨_, _, _, key', e', g1, g2⟩ := q5 m h0 hm
        rw [hnm m h0, g2] at hfd
        rw [hnm m h0, g1] at hne
        simp only [find] at hfd
        split at hfd
        · rename_i hx; exact hne (by rw [hx])
        · cases hfd
  · intro m key e hm hfd
    rw [hS4.alive] at hm
    by_cases h0 : m = 0
    · subst h0
      rw [hh4]
      rw [hn0] at hfd
      simp only [find] at hfd
      split at hfd
      · rename_i hx; rw [hx]
      · cases hfd
    · obtain ⟨_, _, _, key', e', g1, g2⟩ := q5 m h0 hm
      rw [hnm m h0, g2] at hfd
      rw [hnm m h0, g1]
      simp only [find] at hfd
      split at hfd
      · rename_i hx; rw [hx]
      · cases hfd
  · intro m
    by_cases h0 : m = 0
    · subst h0; rw [hn0]; exact q6 0
    · rw [hnm m h0]; exact q6 m

end Verif.Synced
