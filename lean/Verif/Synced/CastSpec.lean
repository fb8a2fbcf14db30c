/- sync and cast as a whole. -/
import Verif.Synced.Cast

namespace Verif.Synced

variable {V : Type}

/-- What `sync` of array `n` to `k1` leaves behind, the family being held in `kh` afterwards. -/
structure SyncAll (env : Env V) (s s' : St V) (st : Nat → Nat) (val : Nat → Option V) (kh : BaseKey) (B : Nat)
    (n : Nat) (k1 : BaseKey) (wo : Bool) (dk : Key) : Prop where
  shape : SameShape s s'
  lazy0 : lazy (s'.node 0) = false
  noLazy : ∀ i, Covers s st n i → NoLazyAt s' st i
  lazyn : lazy (s'.node n) = false
  lazym : ∀ m, lazy (s'.node m) = true → lazy (s.node m) = true
  zeroing : ∀ m, (s'.node m).zeroing = (s.node m).zeroing
  c1 : C1 env s' st val kh B (fun m key => m = n ∧ key = dk ∧ k1 ≠ kh)
  same : k1 = kh → (s'.node n).head = some dk
  other : k1 ≠ kh → dk = (k1, []) ∧ (s.node 0).head = some (kh, [])
  arr : ∃ arr b, find dk (s'.node n).arrs = some (arr, b) ∧
    (k1 = kh → arr = ⟨B, st n, kh.dt⟩) ∧
    (k1 ≠ kh → arr.dt = k1.dt ∧ arr.off = 0 ∧ arr.blk < s'.nextBlk ∧ arr.blk ≠ B ∧
      (wo = false → ∀ j v, j < (s.node n).size → val (st n + j) = some v → s'.mem arr.blk j = env.conv k1.dt v))

theorem sync_C1 {env : Env V} (he : EnvOk env) {s : St V} {st val k B} (T : Tree s st)
    (h : C1 env s st val k B (fun _ _ => False)) (hl0 : lazy (s.node 0) = false) {n : Nat} (hn : s.alive n = true)
    (k1 : BaseKey) (wo : Bool) :
    SyncAll env s (sync env s n k1 wo).2 st val k B n k1 wo (sync env s n k1 wo).1 := by
  have hh := (h.head n hn).hasHead
  have e : sync env s n k1 wo = syncBody env s n k1 wo := by unfold sync; simp [hh]
  rw [e]
  have P := syncBody_C1 he T h hl0 hn k1 wo
  exact ⟨P.shape, P.lazy0, P.noLazy, P.lazyn, P.lazym, P.zeroing, P.c1, P.same,
    fun hk => ⟨P.other hk, h.rootKey⟩, P.arr⟩

theorem hasFamily_root {s : St V} {st} (T : Tree s st) {n : Nat} (hn : s.alive n = true) (h0 : n ≠ 0) :
    hasFamily (s.node 0) = true := by
  by_cases hf : hasFamily (s.node 0) = true
  · exact hf
  · have hf' : hasFamily (s.node 0) = false := by simpa using hf
    exact absurd ((no_family_alone T T.root.1 hf').2 n hn) h0

theorem hasFamily_child {s : St V} {st} (T : Tree s st) {n : Nat} (hn : s.alive n = true) (h0 : n ≠ 0) :
    hasFamily (s.node n) = true ∧ isChild (s.node n) = true := by
  obtain ⟨p, h1, _⟩ := T.child n h0 hn
  unfold hasFamily isChild; rw [h1]; simp

theorem isChild_root {s : St V} {st} (T : Tree s st) : isChild (s.node 0) = false := by
  unfold isChild; rw [T.root.2.1]; rfl

theorem C0.noHead {env : Env V} {s : St V} {st val} (h : C0 env s st val) {n : Nat} (hn : s.alive n = true) :
    hasHead (s.node n) = false := by
  unfold hasHead; rw [h.empty n hn]; simp

theorem sync_C0 {env : Env V} (he : EnvOk env) {s : St V} {st val} (T : Tree s st)
    (h : C0 env s st val) {n : Nat} (hn : s.alive n = true)
    (k1 : BaseKey) (wo : Bool) (hw : wo = false ∨ hasFamily (s.node 0) = true) :
    SyncAll env s (sync env s n k1 wo).2 st (fun i => (val i).map (env.conv k1.dt)) k1 s.nextBlk n k1 wo
      (sync env s n k1 wo).1 := by
  obtain ⟨d0, P⟩ := syncBody_C0 he T h k1 wo
  obtain ⟨c, l0, nl⟩ := P.full hw
  by_cases h0 : n = 0
  · subst h0
    have e : sync env s 0 k1 wo = syncBody env s 0 k1 wo := by unfold sync; simp [isChild_root T]
    rw [e, d0]
    refine ⟨P.shape, l0, nl, l0, P.lazym, P.zeroing, c.mono (by intro _ _ hx; exact hx.elim), fun _ => c.rootKey,
      fun hk => absurd rfl hk, ?_⟩
    obtain ⟨l, e1, b, e2⟩ := (c.head 0 (by rw [P.shape.alive]; exact hn)).key
    rw [c.rootKey] at e1; cases e1
    exact ⟨_, b, e2, fun _ => rfl, fun hk => absurd rfl hk⟩
  · have e : sync env s n k1 wo = syncBody env (syncBody env s 0 k1 wo).2 n k1 wo := by
      unfold sync
      simp [(hasFamily_child T hn h0).2, h.noHead hn, root]
    rw [e]
    generalize (syncBody env s 0 k1 wo).2 = s1 at *
    have T1 : Tree s1 st := T.shape P.shape
    have Q := syncBody_C1 he T1 c l0 (by rw [P.shape.alive]; exact hn) k1 wo
    refine ⟨P.shape.trans Q.shape, Q.lazy0, ?_, Q.lazyn, fun m hm => P.lazym m (Q.lazym m hm),
      fun m => (Q.zeroing m).trans (P.zeroing m), Q.c1, Q.same, fun hk => absurd rfl hk, ?_⟩
    · intro i hi; exact Q.noLazy i (P.shape.covers.2 hi)
    · obtain ⟨arr, b, q1, q2, q3⟩ := Q.arr
      exact ⟨arr, b, q1, q2, fun hk => absurd rfl hk⟩

/-- What `cast` of `n` to `k1` leaves behind. -/
structure CastPost (env : Env V) (s s' : St V) (st : Nat → Nat) (val : Nat → Option V) (k1 : BaseKey) (B : Nat)
    (n : Nat) : Prop where
  shape : SameShape s s'
  lazy0 : lazy (s'.node 0) = false
  noLazy : ∀ i, Covers s st n i → NoLazyAt s' st i
  lazyn : lazy (s'.node n) = false
  lazym : ∀ m, s.alive m = true → lazy (s'.node m) = true → lazy (s.node m) = true
  zeroing : ∀ m, s.alive m = true → ((Sub s n m ∨ Sub s m n) → (s'.node m).zeroing = false) ∧
    (¬ (Sub s n m ∨ Sub s m n) → (s'.node m).zeroing = (s.node m).zeroing)
  c1 : C1 env s' st val k1 B (fun _ _ => False)
  only : OnlyHeads s'

/-- The state after sync, for branch 2 of castFamily and the end of cast. -/
theorem cast_keep {env : Env V} {s : St V} {st val k B n} {dk : Key} {exc} (T : Tree s st)
    (h : C1 env s st val k B exc) (hn : s.alive n = true) (hln : lazy (s.node n) = false)
    (hh : (s.node n).head = some dk) :
    let s3 := clearDescendants true root (upd s root keepHead)
    SameShape s s3 ∧ (∃ b, find dk (s3.node n).arrs = some (⟨B, st n, k.dt⟩, b)) ∧
    C1 env (finishCast n dk ⟨B, st n, k.dt⟩ s3) st val k B (fun _ _ => False) ∧
    OnlyHeads (finishCast n dk ⟨B, st n, k.dt⟩ s3) ∧
    (∀ m, lazy ((finishCast n dk ⟨B, st n, k.dt⟩ s3).node m) = true → lazy (s.node m) = true) ∧
    (∀ m, ((finishCast n dk ⟨B, st n, k.dt⟩ s3).node m).zeroing = (s.node m).zeroing) := by
  intro s3
  have S1 : SameShape s (upd s root keepHead) := sameShape_upd s root keeps_keepHead
  have T1 : Tree (upd s root keepHead) st := T.shape S1
  have hall : ∀ m, Below (upd s root keepHead) 0 m → hasHead ((upd s root keepHead).node m) = true := by
    intro m hm
    rw [upd_ne _ _ (show m ≠ root from hm.2.1)]
    exact (h.head m (by rw [← S1.alive]; exact hm.2.2)).hasHead
  have hnode := fun m => clearDescendants_node T1 true 0 T1.root.1 hall m
  obtain ⟨r1, r2, r3⟩ := clearDescendants_rest_shape T1 true 0 T1.root.1 hall
  have es3 : s3 = clearDescendants true 0 (upd s root keepHead) := rfl
  have hS : SameShape s s3 := S1.trans r3
  have hn3 : ∀ m, s.alive m = true → s3.node m = keepHead (s.node m) := by
    intro m hm
    rw [es3]
    by_cases h0 : m = 0
    · subst h0
      rw [(hnode 0).2 (fun hb => hb.2.1 rfl)]
      exact upd_self _ _ _
    · have hb : Below (upd s root keepHead) 0 m :=
        ⟨sub_root T1 m (by rw [S1.alive]; exact hm), h0, by rw [S1.alive]; exact hm⟩
      have := (hnode m).1 hb
      rw [if_pos rfl] at this
      rw [this]
      rw [upd_ne _ _ (show m ≠ root from h0)]
  have hn3' : ∀ m, s3.node m = s.node m ∨ s3.node m = keepHead (s.node m) := by
    intro m
    by_cases hm : s.alive m = true
    · exact Or.inr (hn3 m hm)
    · left
      rw [es3, (hnode m).2 (fun hb => hm (by rw [← S1.alive]; exact hb.2.2))]
      have h0 : m ≠ 0 := by intro hx; subst hx; exact hm T.root.1
      exact upd_ne _ _ h0
  have hm3 : s3.mem = s.mem := r1
  have hb3 : s3.nextBlk = s.nextBlk := r2
  clear_value s3
  have c3 : C1 env s3 st val k B exc := C1_keepHead h hS hm3 hb3 hn3'
  have hl3 : ∀ m, lazy (s3.node m) = lazy (s.node m) := by
    intro m; rcases hn3' m with e | e <;> rw [e]; rfl
  have hh3 : (s3.node n).head = some dk := by rw [hn3 n hn]; exact hh
  obtain ⟨l, e1, b, e2⟩ := (c3.head n (by rw [hS.alive]; exact hn)).key
  rw [hh3] at e1; cases e1
  have hO : OnlyHeads s3 := by
    intro m key e hm hf
    rw [hS.alive] at hm
    rw [hn3 m hm, find_keepHead] at hf
    rw [hn3 m hm]
    split at hf
    · assumption
    · cases hf
  have c4 := C1_finishCast c3 hh3 e2 (by rw [hl3]; exact hln)
  have hfn : (finishCast n (k, l) ⟨B, st n, k.dt⟩ s3).node n =
      { clearAllArray (s3.node n) with arrs := [((k, l), ⟨B, st n, k.dt⟩, true)], modCount := 1, clearCalled := false } := by
    unfold finishCast; rw [upd_self]
  have hfm : ∀ m, m ≠ n → (finishCast n (k, l) ⟨B, st n, k.dt⟩ s3).node m = s3.node m := by
    intro m hm; unfold finishCast; rw [upd_ne _ _ hm]
  have hS4 := finishCast_shape n (k, l) ⟨B, st n, k.dt⟩ s3
  refine ⟨hS, ⟨b, e2⟩, ?_, ?_, ?_, ?_⟩
  · apply c4.close
    intro m key e _ hm hf hne
    exfalso
    by_cases hmn : m = n
    · subst hmn
      rw [hfn] at hf hne
      simp only [find] at hf
      split at hf
      · rename_i hx; apply hne; rw [← hx]; exact hh3.symm
      · cases hf
    · rw [hfm m hmn] at hf hne
      exact hne (hO m key e (by rw [← hS4.alive]; exact hm) hf)
  · intro m key e hm hf
    by_cases hmn : m = n
    · subst hmn
      rw [hfn] at hf ⊢
      simp only [find] at hf
      split at hf
      · rename_i hx; rw [← hx]; exact hh3.symm
      · cases hf
    · rw [hfm m hmn] at hf ⊢
      exact hO m key e (by rw [← hS4.alive]; exact hm) hf
  · intro m hm
    by_cases hmn : m = n
    · subst hmn; rw [hfn] at hm; cases hm
    · rw [hfm m hmn, hl3] at hm; exact hm
  · intro m
    by_cases hmn : m = n
    · subst hmn; rw [hfn]; show (s3.node m).zeroing = _
      rcases hn3' m with e | e <;> rw [e]; rfl
    · rw [hfm m hmn]
      rcases hn3' m with e | e <;> rw [e]; rfl

theorem upd_same (s : St V) (n : Nat) (f : Node V → Node V) (h : f (s.node n) = s.node n) : upd s n f = s := by
  have : (fun m => if m = n then f (s.node m) else s.node m) = s.node := by
    funext m; by_cases hm : m = n
    · subst hm; simp [h]
    · simp [hm]
  unfold upd; rw [this]

/-- The tail of cast: the zeroing flags. -/
theorem castPost_of {env : Env V} {s s4 : St V} {st val k B n} (T : Tree s st) (hn : s.alive n = true)
    (hS : SameShape s s4) (c : C1 env s4 st val k B (fun _ _ => False)) (ho : OnlyHeads s4)
    (hl0 : lazy (s4.node 0) = false) (hln : lazy (s4.node n) = false)
    (hno : ∀ i, Covers s st n i → NoLazyAt s4 st i)
    (hlm : ∀ m, s.alive m = true → lazy (s4.node m) = true → lazy (s.node m) = true)
    (hz : ∀ m, (s4.node m).zeroing = (s.node m).zeroing) :
    CastPost env s (propagateZeroing n false s4) st val k B n := by
  have T4 := T.shape hS
  have e := propagateZeroing_core n false s4
  have zz := fun m hm => propagateZeroing_zeroing T4 n (by rw [hS.alive]; exact hn) false m hm
  generalize propagateZeroing n false s4 = s5 at *
  refine ⟨hS.trans e.shape, by rw [e.lazy]; exact hl0, ?_, by rw [e.lazy]; exact hln, ?_, ?_, c.core e, ?_⟩
  · intro i hi; exact e.noLazy.2 (hno i hi)
  · intro m hm hl; rw [e.lazy] at hl; exact hlm m hm hl
  · intro m hm
    obtain ⟨z1, z2⟩ := zz m (by rw [hS.alive]; exact hm)
    constructor
    · intro hx; apply z1
      rcases hx with hx | hx
      · exact Or.inl (hx.shape hS)
      · exact Or.inr (hx.shape hS)
    · intro hx
      rw [z2, hz]
      intro hy; apply hx
      rcases hy with hy | hy
      · exact Or.inl (hy.shape hS.symm)
      · exact Or.inr (hy.shape hS.symm)
  · intro m key en hm hf
    rw [e.shape.alive] at hm; rw [e.arrs] at hf; rw [e.head]
    exact ho m key en hm hf

/-- cast, given what sync did, when the family ends up in `k1 = kh`. -/
theorem cast_after_same {env : Env V} {s s1 : St V} {st val k B n} {dk : Key} {prev : Option Key} (T : Tree s st)
    (hn : s.alive n = true) {wo : Bool}
    (P : SyncAll env s s1 st val k B n k wo dk)
    (hcov : ∀ i v, i < (s.node 0).size → val i = some v → env.conv k.dt v = v) :
    ∃ b s3, castFamily prev n (upd s1 n (fun d => { d with head := some dk })) = s3 ∧
      find dk (s3.node n).arrs = some (⟨B, st n, k.dt⟩, b) ∧
      CastPost env s (propagateZeroing n false (finishCast n dk ⟨B, st n, k.dt⟩ s3)) st val k B n := by
  have hh := P.same rfl
  rw [upd_same _ _ _ (show { s1.node n with head := some dk } = s1.node n by rw [← hh])]
  have T1 := T.shape P.shape
  have hn1 : s1.alive n = true := by rw [P.shape.alive]; exact hn
  obtain ⟨arr, b, f1, f2, _⟩ := P.arr
  have := f2 rfl; subst this
  have c1 : C1 env s1 st val k B (fun _ _ => False) := P.c1.mono (by intro _ _ hx; exact hx.2.2 rfl)
  have hcase2 : ∀ s3, s3 = clearDescendants true root (upd s1 root keepHead) → ∃ b,
      find dk (s3.node n).arrs = some (⟨B, st n, k.dt⟩, b) ∧
      CastPost env s (propagateZeroing n false (finishCast n dk ⟨B, st n, k.dt⟩ s3)) st val k B n := by
    intro s3 es3
    obtain ⟨q1, ⟨b', q2⟩, q3, q4, q5, q6⟩ := cast_keep T1 c1 hn1 P.lazyn hh
    rw [← es3] at q1 q2 q3 q4 q5 q6
    refine ⟨b', q2, ?_⟩
    have hS4 : SameShape s1 (finishCast n dk ⟨B, st n, k.dt⟩ s3) := q1.trans (finishCast_shape _ _ _ _)
    have nl : ∀ m, lazy (s1.node m) = false → lazy ((finishCast n dk ⟨B, st n, k.dt⟩ s3).node m) = false := by
      intro m hm
      cases hx : lazy ((finishCast n dk ⟨B, st n, k.dt⟩ s3).node m) with
      | false => rfl
      | true => rw [q5 m hx] at hm; cases hm
    refine castPost_of T hn (P.shape.trans hS4) q3 q4 (nl 0 P.lazy0) (nl n P.lazyn) ?_
      (fun m _ hm => P.lazym m (q5 m hm)) (fun m => (q6 m).trans (P.zeroing m))
    intro i hi m hm hl hc
    rw [hS4.alive] at hm; rw [hS4.covers] at hc
    exact P.noLazy i hi m hm (q5 m hl) hc
  have hcase1 : n = 0 → ∀ s3,
      s3 = (if hasFamily (s1.node 0) then createDescendants 0 (clearDescendants false 0 s1) else s1) → ∃ b,
      find dk (s3.node n).arrs = some (⟨B, st n, k.dt⟩, b) ∧
      CastPost env s (propagateZeroing n false (finishCast n dk ⟨B, st n, k.dt⟩ s3)) st val k B n := by
    intro h0 s3 es3
    subst h0
    have hdk : dk = (k, []) := by have := c1.rootKey; rw [hh] at this; cases this; rfl
    subst hdk
    have h00 := T.root.2.2.2.1
    rw [h00] at f1 ⊢
    obtain ⟨q1, q2, q3, q4, q5, q6, q7, q8⟩ := C1_recreate (env := env) (val := val) T1 hh f1 c1.blk
      (fun m hm => (c1.head m hm).hasHead) (by
        intro i v hi hv
        obtain ⟨_, _, g⟩ := c1.content i v hi hv
        rw [P.shape.size] at hi
        refine ⟨hcov i v hi hv, g (P.noLazy i ⟨by omega, by omega⟩)⟩)
    rw [← es3] at q1 q2 q3 q4 q5 q6 q7 q8
    refine ⟨b, q4, ?_⟩
    have hl : ∀ m, s.alive m = true → lazy ((finishCast 0 (k, []) ⟨B, 0, k.dt⟩ s3).node m) = false :=
      fun m hm => q7 m (by rw [P.shape.alive]; exact hm)
    refine castPost_of T hn (P.shape.trans q1) q5 q6 (hl 0 hn) (hl 0 hn) ?_ ?_ (fun m => (q8 m).trans (P.zeroing m))
    · intro i hi m hm hlz
      rw [q1.alive, P.shape.alive] at hm
      rw [hl m hm] at hlz; cases hlz
    · intro m hm hlz; rw [hl m hm] at hlz; cases hlz
  unfold castFamily
  by_cases hf : hasFamily (s1.node n) = true
  · rw [if_pos hf]
    by_cases hb : (s1.node n).head ≠ prev ∧ (!isChild (s1.node n)) = true
    · rw [if_pos hb]
      have h0 : n = 0 := by
        by_cases h0 : n = 0
        · exact h0
        · have := (hasFamily_child T1 hn1 h0).2
          rw [this] at hb; simp at hb
      subst h0
      obtain ⟨b', a1, a2⟩ := hcase1 rfl (createDescendants 0 (clearDescendants false 0 s1)) (by rw [if_pos hf])
      exact ⟨b', _, rfl, a1, a2⟩
    · rw [if_neg hb]
      obtain ⟨b', a1, a2⟩ := hcase2 _ rfl
      exact ⟨b', _, rfl, a1, a2⟩
  · rw [if_neg hf]
    have hf' : hasFamily (s1.node n) = false := by simpa using hf
    obtain ⟨h0, _⟩ := no_family_alone T1 hn1 hf'
    subst h0
    obtain ⟨b', a1, a2⟩ := hcase1 rfl s1 (by rw [if_neg hf])
    exact ⟨b', _, rfl, a1, a2⟩

/-- cast of the root to memory the rest of the family does not use yet. -/
theorem cast_root_new {env : Env V} {s s1 : St V} {st val} {k : BaseKey} {B' : Nat} {b : Bool} {prev : Option Key}
    (T : Tree s st) (hS : SameShape s s1) (hz : ∀ m, (s1.node m).zeroing = (s.node m).zeroing)
    (hf : find (k, []) (s1.node 0).arrs = some (⟨B', 0, k.dt⟩, b)) (hB : B' < s1.nextBlk)
    (hall : ∀ m, s1.alive m = true → hasHead (s1.node m) = true)
    (hprev : hasFamily (s.node 0) = true → prev ≠ some (k, []))
    (hcont : ∀ i v, i < (s.node 0).size → val i = some v → env.conv k.dt v = v ∧ s1.mem B' i = v) :
    ∃ b s3, castFamily prev 0 (upd s1 0 (fun d => { d with head := some (k, []) })) = s3 ∧
      find (k, []) (s3.node 0).arrs = some (⟨B', 0, k.dt⟩, b) ∧
      CastPost env s (propagateZeroing 0 false (finishCast 0 (k, []) ⟨B', 0, k.dt⟩ s3)) st val k B' 0 := by
  have S2 : SameShape s1 (upd s1 0 (fun d => { d with head := some (k, []) })) :=
    sameShape_upd s1 0 ⟨fun _ => rfl, fun _ => rfl, fun _ => rfl, fun _ => rfl⟩
  have n0 : (upd s1 0 (fun d => { d with head := some (k, []) })).node 0 = { s1.node 0 with head := some (k, []) } :=
    upd_self _ _ _
  have nm : ∀ m, m ≠ 0 → (upd s1 0 (fun d => { d with head := some (k, []) })).node m = s1.node m :=
    fun m hm => upd_ne _ _ hm
  have hm2 : (upd s1 0 (fun d => { d with head := some (k, []) })).mem = s1.mem := rfl
  have hb2 : (upd s1 0 (fun d => { d with head := some (k, []) })).nextBlk = s1.nextBlk := rfl
  generalize upd s1 0 (fun d => { d with head := some (k, []) }) = s2 at *
  have hS2 := hS.trans S2
  have T2 := T.shape hS2
  obtain ⟨q1, q2, q3, q4, q5, q6, q7, q8⟩ := C1_recreate (env := env) (val := val) (s := s2) (k := k) (B' := B') (b := b) T2
    (by rw [n0]) (by rw [n0]; exact hf) (by rw [hb2]; exact hB) (by
      intro m hm
      rw [S2.alive] at hm
      by_cases h0 : m = 0
      · subst h0
        have := hall 0 hm
        rw [n0]; unfold hasHead at this ⊢
        simp only [Bool.and_eq_true] at this ⊢
        exact ⟨rfl, this.2⟩
      · rw [nm m h0]; exact hall m hm) (by
      intro i v hi hv
      rw [hS2.size] at hi
      rw [hm2]; exact hcont i v hi hv)
  have e3 : castFamily prev 0 s2 =
      (if hasFamily (s2.node 0) then createDescendants 0 (clearDescendants false 0 s2) else s2) := by
    unfold castFamily
    by_cases hfam : hasFamily (s2.node 0) = true
    · rw [if_pos hfam, if_pos hfam, if_pos]
      refine ⟨?_, by rw [isChild_root T2]; rfl⟩
      rw [n0]
      intro hx
      apply hprev _ hx.symm
      unfold hasFamily at hfam ⊢
      rw [hS2.parent, hS2.children] at hfam; exact hfam
    · rw [if_neg hfam, if_neg hfam]
  rw [← e3] at q1 q2 q3 q4 q5 q6 q7 q8
  refine ⟨b, _, rfl, q4, ?_⟩
  have hl : ∀ m, s.alive m = true →
      lazy ((finishCast 0 (k, []) ⟨B', 0, k.dt⟩ (castFamily prev 0 s2)).node m) = false :=
    fun m hm => q7 m (by rw [hS2.alive]; exact hm)
  refine castPost_of T T.root.1 (hS2.trans q1) q5 q6 (hl 0 T.root.1) (hl 0 T.root.1) ?_ ?_ ?_
  · intro i hi m hm hlz
    rw [q1.alive, hS2.alive] at hm
    rw [hl m hm] at hlz; cases hlz
  · intro m hm hlz; rw [hl m hm] at hlz; cases hlz
  · intro m
    rw [q8 m, ← hz m]
    by_cases h0 : m = 0
    · subst h0; rw [n0]
    · rw [nm m h0]

/-- From the parts to the whole of cast. -/
theorem cast_eq {env : Env V} {s : St V} {n : Nat} {k : BaseKey} {wo : Bool} {a : Arr} {b : Bool} {s3 : St V}
    (hc : ¬ (isChild (s.node n) = true ∧ ¬ ((s.node root).head = some (k, []) ∨ ¬ hasHead (s.node root) = true)))
    (h3 : castFamily (s.node n).head n
      (upd (sync env s n k wo).2 n (fun d => { d with head := some (sync env s n k wo).1 })) = s3)
    (hf : find (sync env s n k wo).1 (s3.node n).arrs = some (a, b)) :
    cast env s n k wo =
      some (some a, propagateZeroing n false (finishCast n (sync env s n k wo).1 a s3)) := by
  unfold cast
  rw [if_neg hc]
  simp only [h3, hf]
  rfl

/-- cast in a materialised family. -/
theorem cast_C1 {env : Env V} (he : EnvOk env) {s : St V} {st val k B} (T : Tree s st)
    (h : C1 env s st val k B (fun _ _ => False)) (hl0 : lazy (s.node 0) = false) {n : Nat} (hn : s.alive n = true)
    (k1 : BaseKey) (wo : Bool) :
    (n ≠ 0 ∧ k1 ≠ k → cast env s n k1 wo = none) ∧
    (¬ (n ≠ 0 ∧ k1 ≠ k) → ∃ B' s', cast env s n k1 wo = some (some ⟨B', st n, k1.dt⟩, s') ∧
      CastPost env s s' st (if k1 = k then val else if wo then fun _ => none else fun i => (val i).map (env.conv k1.dt))
        k1 B' n) := by
  constructor
  · rintro ⟨h0, hk⟩
    unfold cast
    rw [if_pos]
    refine ⟨(hasFamily_child T hn h0).2, ?_⟩
    rintro (hx | hx)
    · rw [show root = 0 from rfl, h.rootKey] at hx; cases hx; exact hk rfl
    · exact hx (h.head 0 T.root.1).hasHead
  · intro hc
    have hchk : ¬ (isChild (s.node n) = true ∧ ¬ ((s.node root).head = some (k1, []) ∨ ¬ hasHead (s.node root) = true)) := by
      rintro ⟨x1, x2⟩
      by_cases h0 : n = 0
      · subst h0; rw [isChild_root T] at x1; cases x1
      · have hk : k1 = k := by
          by_cases hk : k1 = k
          · exact hk
          · exact absurd ⟨h0, hk⟩ hc
        apply x2; left; rw [hk]; exact h.rootKey
    have P := sync_C1 he T h hl0 hn k1 wo
    by_cases hk : k1 = k
    · subst hk
      obtain ⟨b, s3, a1, a2, a3⟩ := cast_after_same (prev := (s.node n).head) T hn P
        (fun i v hi hv => (h.content i v hi hv).1)
      refine ⟨B, _, cast_eq hchk a1 a2, ?_⟩
      rw [if_pos rfl]; exact a3
    · have h0 : n = 0 := by
        by_cases h0 : n = 0
        · exact h0
        · exact absurd ⟨h0, hk⟩ hc
      subst h0
      rw [if_neg hk]
      obtain ⟨hdk, _⟩ := P.other hk
      obtain ⟨arr, b, f1, _, f3⟩ := P.arr
      obtain ⟨g1, g2, g3, g4, g5⟩ := f3 hk
      have harr : arr = ⟨arr.blk, 0, k1.dt⟩ := by cases arr; simp_all
      have h00 := T.root.2.2.2.1
      rw [hdk, harr] at f1
      obtain ⟨b', s3, a1, a2, a3⟩ := cast_root_new (env := env) (prev := (s.node 0).head)
        (val := if wo then fun _ => none else fun i => (val i).map (env.conv k1.dt)) T P.shape P.zeroing f1 g3
        (fun m hm => (P.c1.head m hm).hasHead)
        (by intro _ hx; rw [h.rootKey] at hx; cases hx; exact hk rfl) (by
          intro i v hi hv
          cases wo with
          | true => simp at hv
          | false =>
            simp only [Bool.false_eq_true, if_false, Option.map_eq_some_iff] at hv
            obtain ⟨u, hu, hv⟩ := hv
            subst hv
            refine ⟨he.idem _ _, g5 rfl i u hi ?_⟩
            rw [h00, Nat.zero_add]; exact hu)
      refine ⟨arr.blk, _, ?_, a3⟩
      rw [h00]
      have := cast_eq (env := env) (wo := wo) (s3 := s3) (a := ⟨arr.blk, 0, k1.dt⟩) (b := b') hchk (by rw [hdk]; exact a1) (by rw [hdk]; exact a2)
      rw [this, hdk]

/-- cast in a family that is not materialised. -/
theorem cast_C0 {env : Env V} (he : EnvOk env) {s : St V} {st val} (T : Tree s st)
    (h : C0 env s st val) {n : Nat} (hn : s.alive n = true) (k1 : BaseKey) (wo : Bool) :
    ∃ B' s', cast env s n k1 wo = some (some ⟨B', st n, k1.dt⟩, s') ∧
      CastPost env s s' st (if wo = true ∧ n = 0 then fun _ => none else fun i => (val i).map (env.conv k1.dt))
        k1 B' n := by
  have hchk : ¬ (isChild (s.node n) = true ∧ ¬ ((s.node root).head = some (k1, []) ∨ ¬ hasHead (s.node root) = true)) := by
    rintro ⟨_, x2⟩
    apply x2; right; rw [show root = 0 from rfl, h.noHead T.root.1]; simp
  have hconv : ∀ i v, i < (s.node 0).size → (val i).map (env.conv k1.dt) = some v → env.conv k1.dt v = v := by
    intro i v _ hv
    simp only [Option.map_eq_some_iff] at hv
    obtain ⟨u, _, hv⟩ := hv
    rw [← hv]; exact he.idem _ _
  by_cases hw : wo = false ∨ hasFamily (s.node 0) = true
  · have P := sync_C0 he T h hn k1 wo hw
    obtain ⟨b, s3, a1, a2, a3⟩ := cast_after_same (prev := (s.node n).head) T hn P hconv
    refine ⟨s.nextBlk, _, cast_eq hchk a1 a2, ?_⟩
    split
    · refine ⟨a3.shape, a3.lazy0, a3.noLazy, a3.lazyn, a3.lazym, a3.zeroing, a3.c1.forget, a3.only⟩
    · exact a3
  · have hw1 : wo = true := by cases wo <;> simp_all
    have hfam : hasFamily (s.node 0) = false := by
      cases hx : hasFamily (s.node 0) <;> simp_all
    subst hw1
    have h0 : n = 0 := (no_family_alone T T.root.1 hfam).2 n hn
    subst h0
    obtain ⟨d0, P⟩ := syncBody_C0 he T h k1 true
    have e : sync env s 0 k1 true = syncBody env s 0 k1 true := by unfold sync; simp [isChild_root T]
    obtain ⟨l, e1, b, e2⟩ := (P.weak.head 0 (by rw [P.shape.alive]; exact T.root.1)).key
    have h00 := T.root.2.2.2.1
    rw [P.weak.rootKey] at e1; cases e1
    rw [h00] at e2
    obtain ⟨b', s3, a1, a2, a3⟩ := cast_root_new (env := env) (val := fun _ => none) (prev := (s.node 0).head) T P.shape P.zeroing
      e2 P.weak.blk (fun m hm => (P.weak.head m hm).hasHead) (by intro hx; rw [hfam] at hx; cases hx)
      (by intro i v _ hv; cases hv)
    refine ⟨s.nextBlk, propagateZeroing 0 false (finishCast 0 (k1, []) ⟨s.nextBlk, 0, k1.dt⟩ s3), ?_, ?_⟩
    · rw [h00]
      have := cast_eq (env := env) (wo := true) (s3 := s3) (a := ⟨s.nextBlk, 0, k1.dt⟩) (b := b') hchk
        (by rw [e, d0]; exact a1) (by rw [e, d0]; exact a2)
      rw [this, e, d0]
    · simp only [and_self, if_true]; exact a3

end Verif.Synced
