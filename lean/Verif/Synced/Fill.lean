/- zero and fill. -/
import Verif.Synced.CastSpec

namespace Verif.Synced

variable {V : Type}

/-- Either every living array has memory or none has. -/
def Uniform (s : St V) : Prop :=
  (∀ m, s.alive m = true → hasHead (s.node m) = true) ∨ (∀ m, s.alive m = true → (s.node m).arrs = [])

theorem C0.uniform {env : Env V} {s : St V} {st val} (h : C0 env s st val) : Uniform s := Or.inr h.empty
theorem C1.uniform {env : Env V} {s : St V} {st val k B exc} (h : C1 env s st val k B exc) : Uniform s :=
  Or.inl (fun m hm => (h.head m hm).hasHead)

/-- What resetFor leaves behind. -/
structure ResetPost (s s' : St V) (n : Nat) : Prop where
  shape : SameShape s s'
  mem : s'.mem = s.mem
  nextBlk : s'.nextBlk = s.nextBlk
  head : ∀ m, (s'.node m).head = (s.node m).head
  zeroing : ∀ m, (s'.node m).zeroing = (s.node m).zeroing
  fillVal : ∀ m, (s'.node m).fillVal = (s.node m).fillVal
  flagsIn : ∀ m, s.alive m = true → Sub s n m → (s'.node m).lazyZero = false ∧ (s'.node m).lazyFill = false
  flagsOut : ∀ m, s.alive m = true → ¬ Sub s n m → (s'.node m).lazyZero = (s.node m).lazyZero ∧
    (s'.node m).lazyFill = (s.node m).lazyFill
  rootArrs : n = 0 → ∀ m, s.alive m = true → (s'.node m).arrs = []
  nested : n ≠ 0 → ∀ m, s.alive m = true → (Sub s n m ∨ Sub s m n) → ∀ key e, find key (s'.node m).arrs = some e →
    some key = (s'.node m).head
  arrs : n ≠ 0 → ∀ m, (s'.node m).arrs = (s.node m).arrs ∨ (s'.node m).arrs = (keepHead (s.node m)).arrs

/-- The second half: flags of `n` and below. -/
theorem flags_half {s sA : St V} {st} (T : Tree s st) {n : Nat} (hn : s.alive n = true)
    (hS : SameShape s sA) (hmem : sA.mem = s.mem) (hnb : sA.nextBlk = s.nextBlk)
    (hnode : ∀ m, (sA.node m).head = (s.node m).head ∧ (sA.node m).zeroing = (s.node m).zeroing ∧
      (sA.node m).fillVal = (s.node m).fillVal)
    (hfl : ∀ m, s.alive m = true → ¬ Sub s n m → (sA.node m).lazyZero = (s.node m).lazyZero ∧
      (sA.node m).lazyFill = (s.node m).lazyFill)
    (h1 : n = 0 → ∀ m, s.alive m = true → (sA.node m).arrs = [])
    (h2 : n ≠ 0 → ∀ m, s.alive m = true → (Sub s n m ∨ Sub s m n) → ∀ key e, find key (sA.node m).arrs = some e →
      some key = (sA.node m).head)
    (h3 : n ≠ 0 → ∀ m, (sA.node m).arrs = (s.node m).arrs ∨ (sA.node m).arrs = (keepHead (s.node m)).arrs) :
    ResetPost s (onDesc clearFlags n (upd sA n clearFlags)) n := by
  have S1 := sameShape_upd sA n keeps_clearFlags
  have S2 := onDesc_shape keeps_clearFlags n (upd sA n clearFlags)
  have T1 := T.shape (hS.trans S1)
  have hn1 : (upd sA n clearFlags).alive n = true := by rw [(hS.trans S1).alive]; exact hn
  obtain ⟨r1, r2, r3, r4⟩ := onDesc_rest clearFlags n (upd sA n clearFlags)
  have hN := fun m => onDesc_node T1 clearFlags idem_clearFlags n hn1 m
  generalize onDesc clearFlags n (upd sA n clearFlags) = s' at *
  have key : ∀ m, s'.node m = sA.node m ∨ s'.node m = clearFlags (sA.node m) := by
    intro m
    by_cases hmn : m = n
    · subst hmn
      right
      rw [(hN m).2 (fun hb => hb.2.1 rfl), upd_self]
    · by_cases hb : Below (upd sA n clearFlags) n m
      · right; rw [(hN m).1 hb, upd_ne _ _ hmn]
      · left; rw [(hN m).2 hb, upd_ne _ _ hmn]
  have kin : ∀ m, s.alive m = true → Sub s n m → s'.node m = clearFlags (sA.node m) := by
    intro m hm hs
    by_cases hmn : m = n
    · subst hmn; rw [(hN m).2 (fun hb => hb.2.1 rfl), upd_self]
    · rw [(hN m).1 ⟨hs.shape (hS.trans S1), hmn, by rw [(hS.trans S1).alive]; exact hm⟩, upd_ne _ _ hmn]
  have kout : ∀ m, ¬ Sub s n m → s'.node m = sA.node m := by
    intro m hs
    have hmn : m ≠ n := by intro hx; subst hx; exact hs Sub.refl
    rw [(hN m).2 (fun hb => hs (hb.1.shape (hS.trans S1).symm)), upd_ne _ _ hmn]
  have keq : ∀ m, (s'.node m).head = (sA.node m).head ∧ (s'.node m).zeroing = (sA.node m).zeroing ∧
      (s'.node m).fillVal = (sA.node m).fillVal ∧ (s'.node m).arrs = (sA.node m).arrs := by
    intro m; rcases key m with e | e <;> rw [e]
    · exact ⟨rfl, rfl, rfl, rfl⟩
    · exact ⟨rfl, rfl, rfl, rfl⟩
  refine ⟨(hS.trans S1).trans S2, r1.trans hmem, r4.trans hnb, ?_, ?_, ?_, ?_, ?_, ?_, ?_, ?_⟩
  · intro m; rw [(keq m).1]; exact (hnode m).1
  · intro m; rw [(keq m).2.1]; exact (hnode m).2.1
  · intro m; rw [(keq m).2.2.1]; exact (hnode m).2.2
  · intro m hm hs; rw [kin m hm hs]; exact ⟨rfl, rfl⟩
  · intro m hm hs; rw [kout m hs]; exact hfl m hm hs
  · intro h0 m hm; rw [(keq m).2.2.2]; exact h1 h0 m hm
  · intro h0 m hm hs k e hf
    rw [(keq m).2.2.2] at hf; rw [(keq m).1]; exact h2 h0 m hm hs k e hf
  · intro h0 m; rw [(keq m).2.2.2]; exact h3 h0 m

theorem resetFor_spec {s : St V} {st} (T : Tree s st) (hU : Uniform s) {n : Nat} (hn : s.alive n = true) :
    ResetPost s (resetFor n s) n := by
  unfold resetFor
  simp only
  by_cases h0 : n = 0
  · subst h0
    rw [isChild_root T]
    simp only [Bool.not_false, if_true]
    have S1 := sameShape_upd s 0 keeps_clearAllArray
    have T1 := T.shape S1
    have hn1 := T1.root.1
    have hsub : ∀ m, s.alive m = true → ¬ Sub s 0 m → False := fun m hm hs => hs (sub_root T m hm)
    rcases hU with hU | hU
    · have hh : ∀ m, Below (upd s 0 clearAllArray) 0 m → hasHead ((upd s 0 clearAllArray).node m) = true := by
        intro m hb; rw [upd_ne _ _ hb.2.1]; exact hU m (by rw [← S1.alive]; exact hb.2.2)
      have hN := fun m => clearDescendants_node T1 false 0 hn1 hh m
      obtain ⟨r1, r2, r3⟩ := clearDescendants_rest_shape T1 false 0 hn1 hh
      have key : ∀ m, (clearDescendants false 0 (upd s 0 clearAllArray)).node m = s.node m ∨
          (clearDescendants false 0 (upd s 0 clearAllArray)).node m = clearAllArray (s.node m) := by
        intro m
        by_cases hmn : m = 0
        · subst hmn; right; rw [(hN 0).2 (fun hb => hb.2.1 rfl), upd_self]
        · by_cases hb : Below (upd s 0 clearAllArray) 0 m
          · right; rw [(hN m).1 hb, upd_ne _ _ hmn]; rfl
          · left; rw [(hN m).2 hb, upd_ne _ _ hmn]
      refine flags_half T hn (S1.trans r3) r1 r2 ?_ (fun m hm hs => (hsub m hm hs).elim) ?_ (fun hx => absurd rfl hx)
        (fun hx => absurd rfl hx)
      · intro m; rcases key m with e | e <;> rw [e]
        · exact ⟨rfl, rfl, rfl⟩
        · exact ⟨rfl, rfl, rfl⟩
      · intro _ m hm
        by_cases hmn : m = 0
        · subst hmn; rw [(hN 0).2 (fun hb => hb.2.1 rfl), upd_self]; rfl
        · have hm1 : (upd s 0 clearAllArray).alive m = true := hm
          rw [(hN m).1 ⟨sub_root T1 m hm1, hmn, hm1⟩]; rfl
    · rw [clearDescendants_none T1 false 0 hn1 (by
        intro m hb; rw [upd_ne _ _ hb.2.1]; unfold hasHead
        rw [hU m (by rw [← S1.alive]; exact hb.2.2)]; simp)]
      refine flags_half T hn S1 rfl rfl ?_ (fun m hm hs => (hsub m hm hs).elim) ?_ (fun hx => absurd rfl hx)
        (fun hx => absurd rfl hx)
      · intro m
        by_cases hmn : m = 0
        · subst hmn; rw [upd_self]; exact ⟨rfl, rfl, rfl⟩
        · rw [upd_ne _ _ hmn]; exact ⟨rfl, rfl, rfl⟩
      · intro _ m hm
        by_cases hmn : m = 0
        · subst hmn; rw [upd_self]; rfl
        · rw [upd_ne _ _ hmn]; exact hU m hm
  · rw [(hasFamily_child T hn h0).2]
    simp only [Bool.not_true, Bool.false_eq_true, if_false]
    rcases hU with hU | hU
    · have hh : ∀ m, Below s n m → hasHead (s.node m) = true := fun m hb => hU m hb.2.2
      have hN := fun m => clearDescendants_node T true n hn hh m
      obtain ⟨r1, r2, r3⟩ := clearDescendants_rest_shape T true n hn hh
      generalize clearDescendants true n s = sA at *
      have TA := T.shape r3
      have hnA : sA.alive n = true := by rw [r3.alive]; exact hn
      rw [if_pos (by rw [(hN n).2 (fun hb => hb.2.1 rfl)]; exact hU n hn)]
      have hF := fun m => foldl_upd_node keepHead idem_keepHead (n :: ancestors sA n n) sA m
      obtain ⟨f1, f2, f3, f4⟩ := foldl_upd_rest keepHead (n :: ancestors sA n n) sA
      have hFS := sameShape_foldl_upd keepHead keeps_keepHead (n :: ancestors sA n n) sA
      have hmem : ∀ m, m ∈ n :: ancestors sA n n ↔ Sub s m n := by
        intro m
        rw [List.mem_cons, mem_ancestors TA n n hnA (Nat.le_refl _)]
        constructor
        · rintro (hx | hx)
          · subst hx; exact Sub.refl
          · exact hx.1.shape r3.symm
        · intro hx
          by_cases hmn : m = n
          · exact Or.inl hmn
          · exact Or.inr ⟨hx.shape r3, hmn⟩
      have hkA : ∀ m, sA.node m = s.node m ∨ sA.node m = keepHead (s.node m) := by
        intro m
        by_cases hb : Below s n m
        · right; rw [(hN m).1 hb]; rfl
        · left; exact (hN m).2 hb
      generalize (n :: ancestors sA n n).foldl (fun s p => upd s p keepHead) sA = sB at *
      have key : ∀ m, sB.node m = s.node m ∨ sB.node m = keepHead (s.node m) := by
        intro m
        rw [hF m]
        split
        · right; rcases hkA m with e | e <;> rw [e]; exact idem_keepHead _
        · exact hkA m
      have kin : ∀ m, s.alive m = true → (Sub s n m ∨ Sub s m n) → sB.node m = keepHead (s.node m) := by
        intro m hm hs
        rw [hF m]
        split
        · rcases hkA m with e | e <;> rw [e]; exact idem_keepHead _
        · rename_i hx
          rw [hmem] at hx
          rcases hs with hs | hs
          · have hb : Below s n m := ⟨hs, by intro hy; subst hy; exact hx Sub.refl, hm⟩
            rw [(hN m).1 hb]; rfl
          · exact absurd hs hx
      refine flags_half T hn (r3.trans hFS) (f1.trans r1) (f4.trans r2) ?_ ?_ (fun hx => absurd hx h0) ?_ ?_
      · intro m; rcases key m with e | e <;> rw [e]
        · exact ⟨rfl, rfl, rfl⟩
        · exact ⟨rfl, rfl, rfl⟩
      · intro m _ _; rcases key m with e | e <;> rw [e]
        · exact ⟨rfl, rfl⟩
        · exact ⟨rfl, rfl⟩
      · intro _ m hm hs k e hf
        rw [kin m hm hs, find_keepHead] at hf
        rw [kin m hm hs]
        split at hf
        · assumption
        · cases hf
      · intro _ m; rcases key m with e | e <;> rw [e]
        · exact Or.inl rfl
        · exact Or.inr rfl
    · have hb0 : ∀ m, s.alive m = true → hasHead (s.node m) = false := by
        intro m hm; unfold hasHead; rw [hU m hm]; simp
      rw [clearDescendants_none T true n hn (fun m hb => hb0 m hb.2.2)]
      rw [if_neg (by rw [hb0 n hn]; simp)]
      refine flags_half T hn (SameShape.refl s) rfl rfl (fun _ => ⟨rfl, rfl, rfl⟩) (fun _ _ _ => ⟨rfl, rfl⟩)
        (fun hx => absurd hx h0) ?_ (fun _ _ => Or.inl rfl)
      intro _ m hm _ k e hf
      rw [hU m hm] at hf; cases hf

/-- What zero or fill leaves behind, `x` being the pending value. -/
structure FillPost (env : Env V) (s s' : St V) (n : Nat) (x : V) : Prop where
  shape : SameShape s s'
  mem : s'.mem = s.mem
  nextBlk : s'.nextBlk = s.nextBlk
  head : ∀ m, (s'.node m).head = (s.node m).head
  lazyn : lazy (s'.node n) = true ∧ lvraw env (s'.node n) = x
  excl : (s'.node n).lazyZero = true → (s'.node n).lazyFill = false
  below : ∀ m, Below s n m → lazy (s'.node m) = false
  out : ∀ m, s.alive m = true → ¬ Sub s n m → lazy (s'.node m) = lazy (s.node m) ∧
    lvraw env (s'.node m) = lvraw env (s.node m) ∧
    (s'.node m).lazyZero = (s.node m).lazyZero ∧ (s'.node m).lazyFill = (s.node m).lazyFill
  rootArrs : n = 0 → ∀ m, s.alive m = true → (s'.node m).arrs = []
  nested : n ≠ 0 → ∀ m, s.alive m = true → (Sub s n m ∨ Sub s m n) → ∀ key e, find key (s'.node m).arrs = some e →
    some key = (s'.node m).head
  arrs : n ≠ 0 → ∀ m, (s'.node m).arrs = (s.node m).arrs ∨ (s'.node m).arrs = (keepHead (s.node m)).arrs

theorem ResetPost.fill {env : Env V} {s s0 s' : St V} {n} {x : V}
    (R : ResetPost s s0 n)
    (hS : SameShape s0 s') (hm : s'.mem = s0.mem) (hb : s'.nextBlk = s0.nextBlk)
    (hh : ∀ m, (s'.node m).head = (s0.node m).head ∧ (s'.node m).arrs = (s0.node m).arrs)
    (hne : ∀ m, m ≠ n → (s'.node m).lazyZero = (s0.node m).lazyZero ∧ (s'.node m).lazyFill = (s0.node m).lazyFill ∧
      (s'.node m).fillVal = (s0.node m).fillVal)
    (hn' : lazy (s'.node n) = true ∧ lvraw env (s'.node n) = x)
    (hex : (s'.node n).lazyZero = true → (s'.node n).lazyFill = false) : FillPost env s s' n x := by
  refine ⟨R.shape.trans hS, hm.trans R.mem, hb.trans R.nextBlk, fun m => (hh m).1.trans (R.head m), hn', hex, ?_, ?_, ?_, ?_, ?_⟩
  · intro m hbm
    obtain ⟨z1, z2, _⟩ := hne m hbm.2.1
    obtain ⟨y1, y2⟩ := R.flagsIn m hbm.2.2 hbm.1
    unfold lazy; rw [z1, z2, y1, y2]; rfl
  · intro m hma hs
    have hmn : m ≠ n := by intro hx; subst hx; exact hs Sub.refl
    obtain ⟨z1, z2, z3⟩ := hne m hmn
    obtain ⟨y1, y2⟩ := R.flagsOut m hma hs
    unfold lazy lvraw; rw [z1, z2, z3, y1, y2, R.fillVal]; exact ⟨rfl, rfl, rfl, rfl⟩
  · intro h0 m hma; rw [(hh m).2]; exact R.rootArrs h0 m hma
  · intro h0 m hma hs key e hf
    rw [(hh m).2] at hf; rw [(hh m).1]; exact R.nested h0 m hma hs key e hf
  · intro h0 m; rw [(hh m).2]; exact R.arrs h0 m

theorem keepsCore_count (b : Nat → Nat) (c : Bool) :
    KeepsCore (V := V) (fun d => { d with modCount := b d.modCount, clearCalled := c }) :=
  ⟨⟨fun _ => rfl, fun _ => rfl, fun _ => rfl, fun _ => rfl⟩, fun _ => rfl, fun _ => rfl, fun _ => rfl, fun _ => rfl, fun _ => rfl⟩

theorem zero_spec (env : Env V) {s : St V} {st} (T : Tree s st) (hU : Uniform s) {n : Nat} (hn : s.alive n = true) :
    FillPost env s (zero n s) n env.zero ∧
    (∀ m, s.alive m = true → (Sub s n m → ((zero n s).node m).zeroing = true) ∧
      (¬ Sub s n m → ((zero n s).node m).zeroing = (s.node m).zeroing)) := by
  have R := resetFor_spec T hU hn
  unfold zero
  generalize resetFor n s = s0 at *
  have S1 : SameShape s0 (upd s0 n (fun d => { d with lazyZero := true, zeroing := true })) :=
    sameShape_upd s0 n ⟨fun _ => rfl, fun _ => rfl, fun _ => rfl, fun _ => rfl⟩
  have n1 : (upd s0 n (fun d => { d with lazyZero := true, zeroing := true })).node n =
    { s0.node n with lazyZero := true, zeroing := true } := upd_self _ _ _
  have nm1 : ∀ m, m ≠ n → (upd s0 n (fun d => { d with lazyZero := true, zeroing := true })).node m = s0.node m :=
    fun m hm => upd_ne _ _ hm
  have mm1 : (upd s0 n (fun d => { d with lazyZero := true, zeroing := true })).mem = s0.mem ∧
    (upd s0 n (fun d => { d with lazyZero := true, zeroing := true })).nextBlk = s0.nextBlk := ⟨rfl, rfl⟩
  simp only
  generalize upd s0 n (fun d => { d with lazyZero := true, zeroing := true }) = s1 at *
  have SS1 := R.shape.trans S1
  have T1 := T.shape SS1
  have hn1 : s1.alive n = true := by rw [SS1.alive]; exact hn
  have hD := fun m => onDesc_node T1 (fun d => { d with zeroing := true }) (fun _ => rfl) n hn1 m
  have C2 : SameCore s1 (onDesc (fun d => { d with zeroing := true }) n s1) := by
    unfold onDesc; rw [dfs_eq_foldl]; exact sameCore_foldl _ (keepsCore_zeroing true) _ s1
  generalize onDesc (fun d => { d with zeroing := true }) n s1 = s2 at *
  have C3 := sameCore_upd s2 n (keepsCore_count (V := V) (fun c => c + 1) false)
  have zz : ∀ m, ((upd s2 n (fun d => { d with modCount := d.modCount + 1, clearCalled := false })).node m).zeroing =
      (s2.node m).zeroing := by
    intro m; by_cases hm : m = n
    · subst hm; rw [upd_self]
    · rw [upd_ne _ _ hm]
  generalize upd s2 n (fun d => { d with modCount := d.modCount + 1, clearCalled := false }) = s3 at *
  have C := C2.trans C3
  constructor
  · refine R.fill (S1.trans C.shape) (C.mem.trans mm1.1) (C.nextBlk.trans mm1.2) ?_ ?_ ?_ ?_
    · intro m; rw [C.head, C.arrs]
      by_cases hm : m = n
      · subst hm; rw [n1]; exact ⟨rfl, rfl⟩
      · rw [nm1 m hm]; exact ⟨rfl, rfl⟩
    · intro m hm; rw [C.lz, C.lf, C.fv, nm1 m hm]; exact ⟨rfl, rfl, rfl⟩
    · rw [C.lazy, C.raw, n1]; exact ⟨rfl, rfl⟩
    · intro _; rw [C.lf, n1]; exact (R.flagsIn n hn Sub.refl).2
  · intro m hm
    have hz1 : m ≠ n → (s1.node m).zeroing = (s.node m).zeroing := by
      intro hmn; rw [nm1 m hmn, R.zeroing]
    constructor
    · intro hs
      rw [zz]
      by_cases hmn : m = n
      · subst hmn; rw [(hD m).2 (fun hb => hb.2.1 rfl), n1]
      · rw [(hD m).1 ⟨hs.shape SS1, hmn, by rw [SS1.alive]; exact hm⟩]
    · intro hs
      have hmn : m ≠ n := by intro hx; subst hx; exact hs Sub.refl
      rw [zz, (hD m).2 (fun hb => hs (hb.1.shape SS1.symm)), hz1 hmn]

theorem fill_spec (env : Env V) {s : St V} {st} (T : Tree s st) (hU : Uniform s) {n : Nat} (hn : s.alive n = true) (x : V) :
    FillPost env s (fill n x s) n x ∧
    (∀ m, s.alive m = true → ((Sub s n m ∨ Sub s m n) → ((fill n x s).node m).zeroing = false) ∧
      (¬ (Sub s n m ∨ Sub s m n) → ((fill n x s).node m).zeroing = (s.node m).zeroing)) := by
  have R := resetFor_spec T hU hn
  unfold fill
  generalize resetFor n s = s0 at *
  have T0 := T.shape R.shape
  have hn0 : s0.alive n = true := by rw [R.shape.alive]; exact hn
  have C := propagateZeroing_core n false s0
  have Z := fun m hm => propagateZeroing_zeroing T0 n hn0 false m hm
  simp only
  generalize propagateZeroing n false s0 = s1 at *
  have S2 : SameShape s1 (upd s1 n (fun d => { d with lazyFill := true, fillVal := x, modCount := d.modCount + 1, clearCalled := false })) :=
    sameShape_upd s1 n ⟨fun _ => rfl, fun _ => rfl, fun _ => rfl, fun _ => rfl⟩
  have n2 : (upd s1 n (fun d => { d with lazyFill := true, fillVal := x, modCount := d.modCount + 1, clearCalled := false })).node n =
    { s1.node n with lazyFill := true, fillVal := x, modCount := (s1.node n).modCount + 1, clearCalled := false } := upd_self _ _ _
  have nm2 : ∀ m, m ≠ n → (upd s1 n (fun d => { d with lazyFill := true, fillVal := x, modCount := d.modCount + 1, clearCalled := false })).node m = s1.node m :=
    fun m hm => upd_ne _ _ hm
  have mm2 : (upd s1 n (fun d => { d with lazyFill := true, fillVal := x, modCount := d.modCount + 1, clearCalled := false })).mem = s1.mem ∧
    (upd s1 n (fun d => { d with lazyFill := true, fillVal := x, modCount := d.modCount + 1, clearCalled := false })).nextBlk = s1.nextBlk := ⟨rfl, rfl⟩
  generalize upd s1 n (fun d => { d with lazyFill := true, fillVal := x, modCount := d.modCount + 1, clearCalled := false }) = s2 at *
  have f0 := R.flagsIn n hn Sub.refl
  constructor
  · refine R.fill (C.shape.trans S2) (mm2.1.trans C.mem) (mm2.2.trans C.nextBlk) ?_ ?_ ?_ ?_
    · intro m
      by_cases hm : m = n
      · subst hm; rw [n2]; exact ⟨C.head m, C.arrs m⟩
      · rw [nm2 m hm]; exact ⟨C.head m, C.arrs m⟩
    · intro m hm; rw [nm2 m hm, C.lz, C.lf, C.fv]; exact ⟨rfl, rfl, rfl⟩
    · unfold lazy lvraw
      rw [n2]
      simp only [C.lz, f0.1, Bool.false_or, Bool.false_eq_true, if_false, and_self]
    · intro hx; rw [n2] at hx; simp only [C.lz, f0.1] at hx; cases hx
  · intro m hm
    obtain ⟨z1, z2⟩ := Z m (by rw [R.shape.alive]; exact hm)
    have zz : (s2.node m).zeroing = (s1.node m).zeroing := by
      by_cases hmn : m = n
      · subst hmn; rw [n2]
      · rw [nm2 m hmn]
    rw [zz]
    constructor
    · intro hx; apply z1
      rcases hx with hx | hx
      · exact Or.inl (hx.shape R.shape)
      · exact Or.inr (hx.shape R.shape)
    · intro hx
      rw [z2, R.zeroing]
      intro hy; apply hx
      rcases hy with hy | hy
      · exact Or.inl (hy.shape R.shape.symm)
      · exact Or.inr (hy.shape R.shape.symm)

/-- zero/fill of the whole array. -/
theorem FillPost.root {env : Env V} {s s' : St V} {st} {x : V} (T : Tree s st) (P : FillPost env s s' 0 x) :
    C0 env s' st (fun _ => some x) := by
  have T' := T.shape P.shape
  have h00 := T.root.2.2.2.1
  refine ⟨?_, P.excl, ?_⟩
  · intro m hm; rw [P.shape.alive] at hm; exact P.rootArrs rfl m hm
  · intro i v hi hv
    cases hv
    refine ⟨0, ⟨T'.root.1, P.lazyn.1, ⟨by omega, by omega⟩, ?_⟩, P.lazyn.2⟩
    intro m hm hl _
    rw [P.shape.alive] at hm
    by_cases h0 : m = 0
    · omega
    · rw [P.below m ⟨sub_root T m hm, h0, hm⟩] at hl; cases hl

/-- The pending values after zero/fill of `n`. -/
theorem FillPost.deep {env : Env V} {s s' : St V} {st n} {x : V} (T : Tree s st) (hn : s.alive n = true)
    (P : FillPost env s s' n x) (i : Nat) :
    (Covers s st n i → Deep s' st n i) ∧
    (¬ Covers s st n i → ∀ m, Deep s' st m i ↔ Deep s st m i) ∧
    (¬ Covers s st n i → (NoLazyAt s' st i ↔ NoLazyAt s st i)) := by
  have S := P.shape
  have same : ¬ Covers s st n i → ∀ m, s.alive m = true → Covers s st m i → ¬ Sub s n m := by
    intro hc m hm hcm hs; exact hc (hs.covers T hm hcm)
  refine ⟨?_, ?_, ?_⟩
  · intro hc
    refine ⟨by rw [S.alive]; exact hn, P.lazyn.1, S.covers.2 hc, ?_⟩
    intro m hm hl hcm
    rw [S.alive] at hm; rw [S.covers] at hcm
    rcases chain T hn hm hc hcm with hs | hs
    · by_cases hmn : m = n
      · omega
      · rw [P.below m ⟨hs, hmn, hm⟩] at hl; cases hl
    · exact hs.le T hn
  · intro hc m
    unfold Deep
    rw [S.alive, S.covers]
    constructor
    · rintro ⟨a1, a2, a3, a4⟩
      refine ⟨a1, by rw [← (P.out m a1 (same hc m a1 a3)).1]; exact a2, a3, ?_⟩
      intro m' b1 b2 b3
      exact a4 m' b1 (by rw [(P.out m' b1 (same hc m' b1 b3)).1]; exact b2) (S.covers.2 b3)
    · rintro ⟨a1, a2, a3, a4⟩
      refine ⟨a1, by rw [(P.out m a1 (same hc m a1 a3)).1]; exact a2, a3, ?_⟩
      intro m' b1 b2 b3
      rw [S.covers] at b3
      exact a4 m' b1 (by rw [← (P.out m' b1 (same hc m' b1 b3)).1]; exact b2) b3
  · intro hc
    unfold NoLazyAt
    constructor
    · intro g m a1 a2 a3
      exact g m (by rw [S.alive]; exact a1) (by rw [(P.out m a1 (same hc m a1 a3)).1]; exact a2) (S.covers.2 a3)
    · intro g m a1 a2 a3
      rw [S.alive] at a1; rw [S.covers] at a3
      exact g m a1 (by rw [← (P.out m a1 (same hc m a1 a3)).1]; exact a2) a3

/-- zero/fill of a narrowed array, not materialised. -/
theorem FillPost.child_C0 {env : Env V} {s s' : St V} {st val n} {x : V} (T : Tree s st) (hn : s.alive n = true) (h0 : n ≠ 0)
    (h : C0 env s st val) (P : FillPost env s s' n x) :
    C0 env s' st (fun i => if Covers s st n i then some x else val i) := by
  have S := P.shape
  have hns : ¬ Sub s n 0 := by
    intro hs; have := hs.le T T.root.1; omega
  refine ⟨?_, ?_, ?_⟩
  · intro m hm
    rw [S.alive] at hm
    rcases P.arrs h0 m with e | e
    · rw [e]; exact h.empty m hm
    · rw [e]; unfold keepHead; simp only; rw [h.empty m hm]; rfl
  · obtain ⟨_, _, o3, o4⟩ := P.out 0 T.root.1 hns
    rw [o3, o4]; exact h.excl
  · intro i v hi hv
    rw [S.size] at hi
    obtain ⟨d1, d2, _⟩ := P.deep T hn i
    by_cases hc : Covers s st n i
    · rw [if_pos hc] at hv; cases hv
      exact ⟨n, d1 hc, P.lazyn.2⟩
    · rw [if_neg hc] at hv
      obtain ⟨m, e1, e2⟩ := h.content i v hi hv
      refine ⟨m, (d2 hc m).2 e1, ?_⟩
      rw [(P.out m e1.1 (fun hs => hc (hs.covers T e1.1 e1.2.2.1))).2.1]; exact e2

/-- zero/fill of a narrowed array, materialised. -/
theorem FillPost.child_C1 {env : Env V} (he : EnvOk env) {s s' : St V} {st val k B n} {x : V} (T : Tree s st)
    (hn : s.alive n = true) (h0 : n ≠ 0)
    (h : C1 env s st val k B (fun _ _ => False)) (hl0 : lazy (s.node 0) = false) (P : FillPost env s s' n x) :
    C1 env s' st (fun i => if Covers s st n i then some (env.conv k.dt x) else val i) k B (fun _ _ => False) ∧
    lazy (s'.node 0) = false := by
  have S := P.shape
  have hns : ¬ Sub s n 0 := by
    intro hs; have := hs.le T T.root.1; omega
  refine ⟨⟨?_, ?_, ?_, ?_, ?_, ?_⟩, ?_⟩
  · rw [P.nextBlk]; exact h.blk
  · rw [P.head]; exact h.rootKey
  · intro m hm
    rw [S.alive] at hm
    obtain ⟨l, e1, b, e2⟩ := (h.head m hm).key
    refine ⟨l, by rw [P.head]; exact e1, b, ?_⟩
    rcases P.arrs h0 m with e | e
    · rw [e]; exact e2
    · rw [e, find_keepHead, if_pos e1.symm]; exact e2
  · intro m hm p hp hk hhk
    rw [S.alive] at hm; rw [S.parent] at hp; rw [P.head] at hhk
    rw [P.head, S.off, S.size]; exact h.keyOk m hm p hp hk hhk
  · intro i v hi hv
    rw [S.size] at hi
    obtain ⟨d1, d2, d3⟩ := P.deep T hn i
    by_cases hc : Covers s st n i
    · rw [if_pos hc] at hv; cases hv
      refine ⟨he.idem _ _, ?_, ?_⟩
      · intro m hm
        have := deep_unique hm (d1 hc); subst this
        rw [P.lazyn.2]
      · intro hno
        exact absurd (S.covers.2 hc) (hno n (by rw [S.alive]; exact hn) P.lazyn.1)
    · rw [if_neg hc] at hv
      obtain ⟨c1, c2, c3⟩ := h.content i v hi hv
      refine ⟨c1, ?_, ?_⟩
      · intro m hm
        have hm' := (d2 hc m).1 hm
        rw [(P.out m hm'.1 (fun hs => hc (hs.covers T hm'.1 hm'.2.2.1))).2.1]
        exact c2 m hm'
      · intro hno; rw [P.mem]; exact c3 ((d3 hc).1 hno)
  · intro m key e hm hf hne _
    rw [S.alive] at hm
    by_cases hs : Sub s n m ∨ Sub s m n
    · exact absurd (P.nested h0 m hm hs key e hf) hne
    · have hf' : find key (s.node m).arrs = some e := by
        rcases P.arrs h0 m with ea | ea
        · rw [ea] at hf; exact hf
        · rw [ea, find_keepHead] at hf
          split at hf
          · exact hf
          · cases hf
      rw [P.head] at hne
      obtain ⟨k', o1, o2, o3, o4, o5, o6, o7, o8, o9⟩ := h.others m key e hm hf' hne (fun hx => hx)
      have hdis : ∀ i, Covers s st m i → ¬ Covers s st n i := by
        intro i h1 h2; exact hs (chain T hn hm h2 h1)
      refine ⟨k', o1, o2, o3, o4, by rw [P.nextBlk]; exact o5, o6, o7, ?_, ?_⟩
      · intro j v hj hv
        rw [S.size] at hj
        have hcm : Covers s st m (st m + j) := ⟨by omega, by omega⟩
        simp only [if_neg (hdis _ hcm)] at hv
        rw [P.mem]; exact o8 j v hj hv
      · intro i hc
        rw [S.covers] at hc
        exact ((P.deep T hn i).2.2 (hdis i hc)).2 (o9 i hc)
  · rw [(P.out 0 T.root.1 hns).1]; exact hl0

end Verif.Synced
