/- The invariant linking the lazily evaluated family to the specification's buffer. -/
import Verif.Synced.Walk

namespace Verif.Synced

variable {V : Type}

/-- Conversions: idempotent, zero is representable in every dtype. -/
structure EnvOk (env : Env V) : Prop where
  idem : ∀ d x, env.conv d (env.conv d x) = env.conv d x
  zero : ∀ d, env.conv d env.zero = env.zero

/-- The value of a pending zero/fill. -/
def lvraw (env : Env V) (d : Node V) : V := if d.lazyZero then env.zero else d.fillVal

theorem lazyVal_eq {env : Env V} (he : EnvOk env) (d : Node V) (dt : Nat) :
    lazyVal env d dt = env.conv dt (lvraw env d) := by
  unfold lazyVal lvraw
  split
  · rw [he.zero]
  · rfl

/-- `n` is the innermost array with a pending zero/fill at element `i`. -/
def Deep (s : St V) (st : Nat → Nat) (n i : Nat) : Prop :=
  s.alive n = true ∧ lazy (s.node n) = true ∧ Covers s st n i ∧
  ∀ m, s.alive m = true → lazy (s.node m) = true → Covers s st m i → m ≤ n

def NoLazyAt (s : St V) (st : Nat → Nat) (i : Nat) : Prop :=
  ∀ m, s.alive m = true → lazy (s.node m) = true → ¬ Covers s st m i

/-- Not materialised. -/
structure C0 (env : Env V) (s : St V) (st : Nat → Nat) (val : Nat → Option V) : Prop where
  empty : ∀ n, s.alive n = true → (s.node n).arrs = []
  excl : (s.node 0).lazyZero = true → (s.node 0).lazyFill = false
  content : ∀ i v, i < (s.node 0).size → val i = some v → ∃ n, Deep s st n i ∧ lvraw env (s.node n) = v

/-- A copy of array `n` in another dtype/device is up to date. -/
def OtherOk (env : Env V) (s : St V) (st : Nat → Nat) (val : Nat → Option V) (k : BaseKey) (B : Nat)
    (n : Nat) (key : Key) (e : Arr × Bool) : Prop :=
  ∃ k' : BaseKey, key = (k', []) ∧ k' ≠ k ∧ e.1.dt = k'.dt ∧ e.1.off = 0 ∧ e.1.blk < s.nextBlk ∧ e.1.blk ≠ B ∧
    e.2 = true ∧
    (∀ j v, j < (s.node n).size → val (st n + j) = some v → s.mem e.1.blk j = env.conv k'.dt v) ∧
    (∀ i, Covers s st n i → NoLazyAt s st i)

/-- Element `i` of the buffer `B` holds, after the pending zero/fills, the promised value. -/
def ContentAt (env : Env V) (s : St V) (st : Nat → Nat) (k : BaseKey) (B : Nat) (i : Nat) (v : V) : Prop :=
  env.conv k.dt v = v ∧ (∀ n, Deep s st n i → env.conv k.dt (lvraw env (s.node n)) = v) ∧
  (NoLazyAt s st i → s.mem B i = v)

/-- Materialised in `k`, in block `B`. `exc` exempts one array that is being brought up to date. -/
structure C1 (env : Env V) (s : St V) (st : Nat → Nat) (val : Nat → Option V) (k : BaseKey) (B : Nat)
    (exc : Nat → Key → Prop) : Prop where
  blk : B < s.nextBlk
  rootKey : (s.node 0).head = some (k, [])
  head : ∀ n, s.alive n = true → HeadAt s st k B n
  keyOk : ∀ n, s.alive n = true → KeyOk s n
  content : ∀ i v, i < (s.node 0).size → val i = some v → ContentAt env s st k B i v
  others : ∀ n key e, s.alive n = true → find key (s.node n).arrs = some e → some key ≠ (s.node n).head →
    ¬ exc n key → OtherOk env s st val k B n key e

instance (s : St V) (st : Nat → Nat) (n i : Nat) : Decidable (Covers s st n i) := by
  unfold Covers; infer_instance

theorem SameShape.covers {s s' : St V} (h : SameShape s s') {st : Nat → Nat} {n i : Nat} :
    Covers s' st n i ↔ Covers s st n i := by
  unfold Covers; rw [h.size]

/-- The element ranges of living arrays lie in the root. -/
theorem covers_lt {s : St V} {st} (T : Tree s st) {n i : Nat} (hn : s.alive n = true) (hc : Covers s st n i) :
    i < (s.node 0).size := by
  have := (sub_root T n hn).covers T hn hc
  unfold Covers at this
  have h0 := T.root.2.2.2.1
  omega

/-- A child's head key is never a base key. -/
theorem childKey_ne {env : Env V} {s : St V} {st val k B exc} (T : Tree s st) (h : C1 env s st val k B exc) {n : Nat}
    (hn : s.alive n = true) (h0 : n ≠ 0) (k' : BaseKey) : (s.node n).head ≠ some (k', []) := by
  obtain ⟨p, h1, h2, h3, _⟩ := T.child n h0 hn
  obtain ⟨l, e1, _⟩ := (h.head p h3).key
  rw [h.keyOk n hn p h1 _ e1]
  intro hc
  simp at hc

/-! ### evaluating pending zero/fill -/

/-- evalLazy on a node with a head array. -/
theorem evalLazy_node {env : Env V} {s : St V} {st k B n} (h : HeadAt s st k B n) :
    (evalLazy env s n).node n = clearFlags (s.node n) ∧
    (∀ m, m ≠ n → (evalLazy env s n).node m = s.node m) ∧
    (evalLazy env s n).alive = s.alive ∧ (evalLazy env s n).count = s.count ∧
    (evalLazy env s n).nextBlk = s.nextBlk ∧
    (∀ b i, (evalLazy env s n).mem b i =
      if b = B ∧ Covers s st n i ∧ lazy (s.node n) = true then lazyVal env (s.node n) k.dt else s.mem b i) := by
  obtain ⟨l, e1, b0, e2⟩ := h.key
  have hh := h.hasHead
  unfold evalLazy
  rw [if_pos hh]
  by_cases hl : lazy (s.node n) = true
  · simp only [hl, if_true, e1, e2, upd_self, writeArr_node]
    refine ⟨trivial, fun m hm => by rw [upd_ne _ _ hm]; rfl, rfl, rfl, rfl, ?_⟩
    intro b i
    simp only [upd_mem, writeArr, Covers, and_true]
  · simp only [hl, Bool.false_eq_true, if_false, upd_self]
    refine ⟨trivial, fun m hm => by rw [upd_ne _ _ hm], rfl, rfl, rfl, ?_⟩
    intro b i
    simp only [upd_mem]
    rw [if_neg (fun hc => by simp at hc)]

theorem evalLazy_shape {env : Env V} {s : St V} {st k B n} (h : HeadAt s st k B n) :
    SameShape s (evalLazy env s n) := by
  obtain ⟨a1, a2, a3, a4, _⟩ := evalLazy_node (env := env) h
  refine ⟨a4, a3, ?_, ?_, ?_, ?_⟩ <;> intro m <;> by_cases hm : m = n
  all_goals first
    | (subst hm; rw [a1]; rfl)
    | (rw [a2 m hm])

theorem lazy_clearFlags (d : Node V) : lazy (clearFlags d) = false := rfl

theorem evalLazy_C1 {env : Env V} (he : EnvOk env) {s : St V} {st val k B exc} (T : Tree s st)
    (h : C1 env s st val k B exc) {n : Nat} (hn : s.alive n = true)
    (hanc : ∀ p, Sub s p n → p ≠ n → lazy (s.node p) = false) :
    C1 env (evalLazy env s n) st val k B exc := by
  obtain ⟨a1, a2, a3, a4, a5, a6⟩ := evalLazy_node (env := env) (h.head n hn)
  have hS := evalLazy_shape (env := env) (h.head n hn)
  generalize evalLazy env s n = s' at *
  -- flags after: as before except n
  have hlz : ∀ m, lazy (s'.node m) = true → lazy (s.node m) = true ∧ m ≠ n ∧ s'.node m = s.node m := by
    intro m hm
    by_cases hmn : m = n
    · subst hmn; rw [a1, lazy_clearFlags] at hm; cases hm
    · rw [a2 m hmn] at hm; exact ⟨hm, hmn, a2 m hmn⟩
  have hhead : ∀ m, (s'.node m).head = (s.node m).head ∧ (s'.node m).arrs = (s.node m).arrs := by
    intro m
    by_cases hmn : m = n
    · subst hmn; rw [a1]; exact ⟨rfl, rfl⟩
    · rw [a2 m hmn]; exact ⟨rfl, rfl⟩
  have hNL : ∀ i, NoLazyAt s st i → NoLazyAt s' st i := by
    intro i hi m hm hl hc
    obtain ⟨l1, _, _⟩ := hlz m hl
    rw [hS.covers] at hc
    exact hi m (by rw [← a3]; exact hm) l1 hc
  constructor
  · rw [a5]; exact h.blk
  · rw [(hhead 0).1]; exact h.rootKey
  · intro m hm
    rw [a3] at hm
    obtain ⟨l, e1, b, e2⟩ := (h.head m hm).key
    exact ⟨l, by rw [(hhead m).1]; exact e1, b, by rw [(hhead m).2]; exact e2⟩
  · intro m hm p hp hk hhk
    rw [a3] at hm
    rw [hS.parent] at hp; rw [(hhead p).1] at hhk
    rw [(hhead m).1, hS.off, hS.size]
    exact h.keyOk m hm p hp hk hhk
  · intro i v hi hv
    rw [hS.size] at hi
    obtain ⟨c1, c2, c3⟩ := h.content i v hi hv
    refine ⟨c1, ?_, ?_⟩
    · intro m ⟨d1, d2, d3, d4⟩
      rw [a3] at d1
      rw [hS.covers] at d3
      obtain ⟨l1, l2, l3⟩ := hlz m d2
      rw [l3]
      apply c2 m
      refine ⟨d1, l1, d3, ?_⟩
      intro m' g1 g2 g3
      by_cases hm' : m' = n
      · subst hm'
        -- m comparable with n; not above n
        rcases chain T hn d1 g3 d3 with hs | hs
        · exact hs.le T d1
        · exact absurd (hanc m hs l2) (by rw [l1]; simp)
      · apply d4 m' (by rw [a3]; exact g1) (by rw [a2 m' hm']; exact g2) (by rw [hS.covers]; exact g3)
    · intro hno
      rw [a6]
      by_cases hc : Covers s st n i ∧ lazy (s.node n) = true
      · rw [if_pos ⟨rfl, hc⟩, lazyVal_eq he]
        apply c2 n
        refine ⟨hn, hc.2, hc.1, ?_⟩
        intro m g1 g2 g3
        by_cases hm : m = n
        · omega
        · exfalso
          exact hno m (by rw [a3]; exact g1) (by rw [a2 m hm]; exact g2) (by rw [hS.covers]; exact g3)
      · rw [if_neg (fun hx => hc hx.2)]
        apply c3
        intro m g1 g2 g3
        by_cases hm : m = n
        · subst hm; exact hc ⟨g3, g2⟩
        · exact hno m (by rw [a3]; exact g1) (by rw [a2 m hm]; exact g2) (by rw [hS.covers]; exact g3)
  · intro m key e hm hf hne hex
    rw [a3] at hm
    rw [(hhead m).2] at hf
    rw [(hhead m).1] at hne
    obtain ⟨k', o1, o2, o3, o4, o5, o6, o7, o8, o9⟩ := h.others m key e hm hf hne hex
    refine ⟨k', o1, o2, o3, o4, by rw [a5]; exact o5, o6, o7, ?_, ?_⟩
    · intro j v hj hv
      rw [hS.size] at hj
      rw [a6, if_neg (fun hx => o6 hx.1)]
      exact o8 j v hj hv
    · intro i hc
      rw [hS.covers] at hc
      exact hNL i (o9 i hc)

/-- States that differ only in flags of some nodes and in block `B`. -/
structure FlagStep (s s' : St V) (B : Nat) : Prop where
  shape : SameShape s s'
  nextBlk : s'.nextBlk = s.nextBlk
  node : ∀ m, s'.node m = s.node m ∨ s'.node m = clearFlags (s.node m)
  mem : ∀ b, b ≠ B → s'.mem b = s.mem b

theorem FlagStep.refl (s : St V) (B : Nat) : FlagStep s s B := ⟨SameShape.refl s, rfl, fun _ => Or.inl rfl, fun _ _ => rfl⟩

theorem FlagStep.trans {s s' s'' : St V} {B} (h : FlagStep s s' B) (h' : FlagStep s' s'' B) : FlagStep s s'' B := by
  refine ⟨h.shape.trans h'.shape, h'.nextBlk.trans h.nextBlk, ?_, fun b hb => (h'.mem b hb).trans (h.mem b hb)⟩
  intro m
  rcases h.node m with a | a <;> rcases h'.node m with b | b <;> rw [b, a]
  · exact Or.inl rfl
  · exact Or.inr rfl
  · exact Or.inr rfl
  · exact Or.inr rfl

theorem FlagStep.lazy {s s' : St V} {B} (h : FlagStep s s' B) {m : Nat} (hl : lazy (s.node m) = false) :
    Synced.lazy (s'.node m) = false := by
  rcases h.node m with a | a <;> rw [a]
  · exact hl
  · rfl

theorem FlagStep.same {s s' : St V} {B} (h : FlagStep s s' B) (m : Nat) :
    (s'.node m).head = (s.node m).head ∧ (s'.node m).arrs = (s.node m).arrs ∧
    (s'.node m).zeroing = (s.node m).zeroing := by
  rcases h.node m with a | a <;> rw [a] <;> exact ⟨rfl, rfl, rfl⟩

/-- traverse_zero_fill keeps the promise and leaves nothing pending below (and at) its start. -/
theorem traverse_spec {env : Env V} (he : EnvOk env) {s : St V} {st val k B exc} (T : Tree s st)
    (h : C1 env s st val k B exc) {r : Nat} (hr : s.alive r = true)
    (hanc : ∀ p, Sub s p r → p ≠ r → lazy (s.node p) = false) :
    let s' := traverse env r s
    C1 env s' st val k B exc ∧ FlagStep s s' B ∧
    ∀ m, Sub s r m → s.alive m = true → lazy (s'.node m) = false := by
  intro s'
  have hs' : s' = (descList (fun m => (s.node m).children) s.count r).foldl (evalLazy env) (evalLazy env s r) := by
    show traverse env r s = _
    unfold traverse; rw [dfs_eq_foldl]
  have D := isDesc T r hr
  rw [hs']
  clear hs'
  clear s'
  have step : ∀ (t : St V) (n : Nat), C1 env t st val k B exc → FlagStep s t B → s.alive n = true →
      (∀ p, Sub s p n → p ≠ n → lazy (t.node p) = false) →
      C1 env (evalLazy env t n) st val k B exc ∧ FlagStep s (evalLazy env t n) B ∧
      lazy ((evalLazy env t n).node n) = false := by
    intro t n ht hF hn ha
    have hTt : Tree t st := T.shape hF.shape
    have hnt : t.alive n = true := by rw [hF.shape.alive]; exact hn
    obtain ⟨a1, a2, a3, a4, a5, a6⟩ := evalLazy_node (env := env) (ht.head n hnt)
    have hS := evalLazy_shape (env := env) (ht.head n hnt)
    refine ⟨evalLazy_C1 he hTt ht hnt ?_, hF.trans ⟨hS, a5, ?_, ?_⟩, ?_⟩
    · intro p hp hne
      exact ha p (hp.shape hF.shape.symm) hne
    · intro m
      by_cases hm : m = n
      · subst hm; exact Or.inr a1
      · exact Or.inl (a2 m hm)
    · intro b hb
      funext i
      rw [a6, if_neg (fun hx => hb hx.1)]
    · rw [a1]; rfl
  have key : ∀ (L2 L1 : List Nat) (t : St V),
      descList (fun m => (s.node m).children) s.count r = L1 ++ L2 →
      C1 env t st val k B exc → FlagStep s t B →
      (∀ p, Sub s p r → lazy (t.node p) = false) → (∀ m ∈ L1, lazy (t.node m) = false) →
      C1 env (L2.foldl (evalLazy env) t) st val k B exc ∧ FlagStep s (L2.foldl (evalLazy env) t) B ∧
      (∀ p, Sub s p r → lazy ((L2.foldl (evalLazy env) t).node p) = false) ∧
      (∀ m ∈ L1 ++ L2, lazy ((L2.foldl (evalLazy env) t).node m) = false) := by
    intro L2
    induction L2 with
    | nil => intro L1 t _ h1 h2 h3 h4; simp only [List.foldl_nil, List.append_nil]; exact ⟨h1, h2, h3, h4⟩
    | cons c L2 ih =>
      intro L1 t hL h1 h2 h3 h4
      have hcB : Below s r c := (D.mem c).1 (by rw [hL]; simp)
      have hca : ∀ p, Sub s p c → p ≠ c → lazy (t.node p) = false := by
        -- every proper ancestor of c is above r or in L1
        intro p hp hne
        obtain ⟨q, hq, hor⟩ := D.topo L1 L2 c hL
        have hpq : Sub s p q := by
          cases hp with
          | refl => exact absurd rfl hne
          | step hs hpp => rw [hq] at hpp; cases hpp; exact hs
        rcases hor with h | h
        · subst h; exact h3 p hpq
        · -- q ∈ L1: walk up inside L1
          have walk : ∀ (q' : Nat), Sub s p q' → q' ∈ L1 → lazy (t.node p) = false := by
            intro q' hs
            induction hs with
            | refl => intro hq'; exact h4 p hq'
            | @step x y hs' hy ihw =>
              intro hyL
              obtain ⟨A1, A2, hsp⟩ := List.append_of_mem hyL
              obtain ⟨x', hx', hor'⟩ := D.topo A1 (A2 ++ c :: L2) y (by rw [hL, hsp]; simp)
              rw [hx'] at hy; cases hy
              rcases hor' with h' | h'
              · subst h'; exact h3 p hs'
              · exact ihw (by rw [hsp]; exact List.mem_append_left _ h')
          exact walk q hpq h
      obtain ⟨s1, s2, s3⟩ := step t c h1 h2 hcB.2.2 hca
      have hlz : ∀ m, lazy (t.node m) = false → lazy ((evalLazy env t c).node m) = false := by
        intro m hm
        by_cases hmc : m = c
        · subst hmc; exact s3
        · rw [(evalLazy_node (env := env) (h1.head c (by rw [h2.shape.alive]; exact hcB.2.2))).2.1 m hmc]
          exact hm
      have happ : L1 ++ c :: L2 = (L1 ++ [c]) ++ L2 := by simp
      rw [List.foldl_cons, happ]
      apply ih (L1 ++ [c]) _ (by rw [hL, happ]) s1 s2 (fun p hp => hlz p (h3 p hp))
      intro m hm
      rcases List.mem_append.1 hm with h' | h'
      · exact hlz m (h4 m h')
      · have : m = c := by simpa using h'
        subst this; exact s3
  obtain ⟨s1, s2, s3⟩ := step s r h (FlagStep.refl s B) hr hanc
  have := key _ [] (evalLazy env s r) rfl s1 s2 (by
    intro p hp
    by_cases hpr : p = r
    · subst hpr; exact s3
    · rw [(evalLazy_node (env := env) (h.head r hr)).2.1 p hpr]; exact hanc p hp hpr) (by simp)
  obtain ⟨t1, t2, t3, t4⟩ := this
  refine ⟨t1, t2, ?_⟩
  intro m hm ha
  by_cases hmr : m = r
  · subst hmr; exact t3 m Sub.refl
  · exact t4 m (by simp only [List.nil_append]; exact (D.mem m).2 ⟨hm, hmr, ha⟩)

theorem sub_comparable {s : St V} {m r n : Nat} (h1 : Sub s m n) (h2 : Sub s r n) : Sub s m r ∨ Sub s r m := by
  induction h1 with
  | refl => exact Or.inr h2
  | @step p n hs hp ih =>
    cases h2 with
    | refl => exact Or.inl (Sub.step hs hp)
    | step hs' hp' => rw [hp] at hp'; cases hp'; exact ih hs'

/-- A root without family is alone. -/
theorem no_family_alone {s : St V} {st} (T : Tree s st) {n : Nat} (hn : s.alive n = true)
    (hf : hasFamily (s.node n) = false) : n = 0 ∧ ∀ m, s.alive m = true → m = 0 := by
  simp only [hasFamily, Bool.or_eq_false_iff, Option.isSome_eq_false_iff, Option.isNone_iff_eq_none,
    Bool.not_eq_eq_eq_not, Bool.not_false, List.isEmpty_iff] at hf
  have h0 : n = 0 := by
    apply Classical.byContradiction; intro h
    obtain ⟨p, h1, _⟩ := T.child n h hn
    rw [h1] at hf; simp at hf
  subst h0
  refine ⟨rfl, ?_⟩
  intro m hm
  apply Classical.byContradiction
  intro hne
  obtain ⟨c, hc, hs⟩ := (sub_root T m hm).through (fun h => hne h.symm)
  have := (T.kids 0 c hn).2 ⟨hs.alive T hm, hc⟩
  rw [hf.2] at this
  simp at this

/-- syncLazy: nothing pending is left on the elements of `n`. -/
theorem syncLazy_spec {env : Env V} (he : EnvOk env) {s : St V} {st val k B exc} (T : Tree s st)
    (h : C1 env s st val k B exc) {n : Nat} (hn : s.alive n = true)
    (hroot : hasFamily (s.node n) = false → lazy (s.node 0) = false) :
    let s' := syncLazy env s n
    C1 env s' st val k B exc ∧ FlagStep s s' B ∧ (∀ i, Covers s st n i → NoLazyAt s' st i) ∧
    lazy (s'.node n) = false := by
  intro s'
  show C1 env (syncLazy env s n) st val k B exc ∧ _
  have e : s' = syncLazy env s n := rfl
  rw [e]; clear e; clear s'
  unfold syncLazy
  by_cases hf : hasFamily (s.node n) = true
  · by_cases hz : checkZF s n = true
    · simp only [hf, hz, Bool.and_true, if_true]
      obtain ⟨z1, z2⟩ := zeroFillRoot_spec T n hn
      obtain ⟨t1, t2, t3⟩ := traverse_spec he T h (z1.alive T hn) z2
      refine ⟨t1, t2, ?_, t3 n z1 hn⟩
      intro i hi m hm hl hc
      rw [t2.shape.alive] at hm
      rw [t2.shape.covers] at hc
      have : lazy ((traverse env (zeroFillRoot s n) s).node m) = false := by
        rcases chain T hn hm hi hc with hs | hs
        · exact t3 m (z1.trans hs) hm
        · rcases sub_comparable hs z1 with hs' | hs'
          · by_cases hmr : m = zeroFillRoot s n
            · exact t3 m (hmr ▸ Sub.refl) hm
            · exact t2.lazy (z2 m hs' hmr)
          · exact t3 m hs' hm
      rw [this] at hl; cases hl
    · have hz' : checkZF s n = false := by simpa using hz
      simp only [hz', Bool.and_false, Bool.false_eq_true, if_false]
      simp only [checkZF, Bool.or_eq_false_iff, checkDesc, List.any_eq_false, Bool.not_eq_true] at hz'
      obtain ⟨⟨q1, q2⟩, q3⟩ := hz'
      refine ⟨h, FlagStep.refl s B, ?_, q1⟩
      intro i hi m hm hl hc
      have : lazy (s.node m) = false := by
        by_cases hmn : m = n
        · subst hmn; exact q1
        · rcases chain T hn hm hi hc with hs | hs
          · exact q2 m (((isDesc T n hn).mem m).2 ⟨hs, hmn, hm⟩)
          · exact q3 m ((mem_ancestors T n n hn (Nat.le_refl _) m).2 ⟨hs, hmn⟩)
      rw [this] at hl; cases hl
  · have hf' : hasFamily (s.node n) = false := by simpa using hf
    simp only [hf', Bool.false_and, Bool.false_eq_true, if_false]
    obtain ⟨a1, a2⟩ := no_family_alone T hn hf'
    refine ⟨h, FlagStep.refl s B, ?_, by rw [a1]; exact hroot hf'⟩
    intro i _ m hm hl _
    rw [a2 m hm, hroot hf'] at hl; cases hl

end Verif.Synced
