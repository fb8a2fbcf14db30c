import Verif.Dlpack.Lifecycle
/-!
C155: the remaining theorems about the histories of Verif.Dlpack.Lifecycle: when a history crashes, when a deleter is never called, and
what is exported.
-/
namespace Verif.Dlpack

/-! ## What is exported -/

/-- **C155 (export).** `to_dlpack(a, dtype)` that returns gives a new capsule, not yet taken, of a new tensor of that dtype and of the
size of the array, whose memory is an array that the NdArray has. -/
theorem C155_export (s s' : St) (n d : Nat) (hn : n < s.nn) (h : step s (.toDlpack n (some d) false) = .ok s') :
    s'.caps s.nc = some ⟨s.nt, true⟩ ∧ (s'.desc s.nt).dtype = d ∧ (s'.desc s.nt).size = (s.nds n).size ∧ (s'.desc s.nt).contig = true ∧
      (s'.desc s.nt).typed = true ∧ ∃ a, s'.holds s.nt = some a ∧ (s'.nds n).slots d = some a ∧ s'.arrs a = some .plain := by
  simp only [step, if_pos hn, toDlpack, Bool.false_eq_true, false_and, if_false, Option.getD_some, cast] at h
  rcases hs : (s.nds n).slots d with _ | a
  · rw [hs] at h
    simp only [export_, Function.update_self, Out.ok.injEq] at h
    subst h
    simp
  · rw [hs] at h
    simp only [export_] at h
    rcases hk : s.arrs a with _ | _ | t
    · rw [hk] at h; simp at h
    · rw [hk] at h
      simp only [Out.ok.injEq] at h
      subst h
      simp [hk]
    · rw [hk] at h; simp at h

example : ∃ s', step (newNd init 3).1 (.toDlpack 0 (some 11) false) = .ok s' ∧ (s'.desc 0).size = 3 := by
  simp [step, toDlpack, cast, newNd, init, export_, noSlots]

/-- The same with both arguments: what `to_dlpack(a, dtype, ctx)` does not do. -/
def BothArguments : Prop := ∀ (os : List Op) (s s' : St) (n d : Nat), run init os = some s → n < s.nn →
  step s (.toDlpack n (some d) true) = .ok s' → (s'.desc s.nt).dtype = d

/-- **C155 (refuted).** With both a dtype and a context `to_dlpack` exports the array as it is (the condition of dlpack.pyx:146 is
inverted): asked for FLOAT (11) it exports DOUBLE (12). -/
theorem C155_export_both_refuted : ¬ BothArguments := by
  intro h
  have := h [.newNd 3, .cast 0 12] ((cast (newNd init 3).1 0 12 .plain).1) _ 0 11 rfl (by simp [cast, newNd, init, noSlots])
    (by simp [step, toDlpack, cast, newNd, init, noSlots, export_]; rfl)
  simp [cast, newNd, init, noSlots] at this

/-- **C155 (round trip refuted).** An NdArray that holds a tensor of another framework cannot be exported: `to_dlpack` raises, for every
such tensor. -/
theorem C155_reexport_raises (d : Desc) (hc : d.contig = true) (ht : d.typed = true) :
    ∃ s, run init [.foreignExport d, .fromNew 0] = some s ∧ step s (.toDlpack 0 none false) = .raised s := by
  by_cases h : 1 = d.size
  · simp [run, fromNew, fromInto, newNd, init, cast, noSlots, hc, ht, step, toDlpack, export_, h]
  · simp [run, fromNew, fromInto, newNd, init, cast, noSlots, hc, ht, step, toDlpack, export_, h]

/-! ## Crashes -/

/-- The two cases in which an operation goes through a null pointer. -/
def Bad (s : St) : Op → Prop
  /- `from_dlpack(c, arr=n)`, where `n` has an ordinary array of the dtype and the size of the tensor -/
  | .fromInto c n => ∃ cap a, s.caps c = some cap ∧ cap.fresh = true ∧ (s.nds n).size = (s.desc cap.tensor).size ∧
      (s.nds n).slots (s.desc cap.tensor).dtype = some a ∧ s.arrs a = some .plain
  /- `to_dlpack(n, dtype, ctx)`, where `n` has no array -/
  | .toDlpack n dtype ctx => ctx = true ∧ dtype.isSome ∧ ∀ h, (s.nds n).head = some h → (s.nds n).slots h = none
  | _ => False

theorem fromInto_crash {s : St} (h : Inv s) (c n : Nat) (hs : fromInto s c n = .crash) : Bad s (.fromInto c n) := by
  unfold fromInto at hs
  rcases hc : s.caps c with _ | cap
  · rw [hc] at hs; simp at hs
  rw [hc] at hs
  simp only [] at hs
  by_cases hf : cap.fresh = false
  · rw [if_pos hf] at hs; simp at hs
  rw [if_neg hf] at hs
  by_cases hco : (s.desc cap.tensor).contig = false
  · rw [if_pos hco] at hs; simp at hs
  rw [if_neg hco] at hs
  by_cases hty : (s.desc cap.tensor).typed = false
  · rw [if_pos hty] at hs; simp at hs
  rw [if_neg hty] at hs
  by_cases hsz : (s.nds n).size = (s.desc cap.tensor).size
  · rw [if_pos hsz] at hs
    unfold cast at hs
    rcases hsl : (s.nds n).slots (s.desc cap.tensor).dtype with _ | a
    · rw [hsl] at hs; simp at hs
    · rw [hsl] at hs
      refine ⟨cap, a, hc, by simpa using hf, hsz, hsl, ?_⟩
      rcases hk : s.arrs a with _ | _ | t
      · exact absurd hk (h.slot _ _ _ hsl)
      · rfl
      · rw [hk] at hs; simp at hs
  · rw [if_neg hsz] at hs
    simp [cast, noSlots] at hs

theorem export_crash {s : St} {n d a : Nat} (hs : export_ s n d a = .crash) : s.arrs a = none := by
  unfold export_ at hs
  rcases hk : s.arrs a with _ | _ | t
  · rfl
  · rw [hk] at hs; simp at hs
  · rw [hk] at hs; simp at hs

theorem step_crash {s : St} (h : Inv s) (o : Op) (hs : step s o = .crash) : Bad s o := by
  cases o with
  | foreignExport d => simp [step] at hs
  | fromNew c =>
    simp only [step, fromNew] at hs
    obtain ⟨cap, a, -, -, -, hsl, -⟩ := fromInto_crash (newNd_inv h 1) c _ hs
    simp [newNd, noSlots] at hsl
  | fromInto c n =>
    simp only [step] at hs
    by_cases hn : n < s.nn
    · rw [if_pos hn] at hs; exact fromInto_crash h c n hs
    · rw [if_neg hn] at hs; simp at hs
  | toDlpack n dt ctx =>
    simp only [step] at hs
    by_cases hn : n < s.nn
    · rw [if_pos hn, toDlpack] at hs
      by_cases hb : ctx = true ∧ dt.isSome
      · rw [if_pos hb] at hs
        refine ⟨hb.1, hb.2, fun d hd => ?_⟩
        rw [hd] at hs
        simp only [] at hs
        rcases hsl : (s.nds n).slots d with _ | a
        · rfl
        · rw [hsl] at hs
          exact absurd (export_crash hs) (h.slot _ _ _ hsl)
      · rw [if_neg hb] at hs
        have h1 := export_crash hs
        unfold cast at h1
        rcases hsl : (s.nds n).slots (dt.getD ((s.nds n).head.getD 11)) with _ | a
        · rw [hsl] at h1; simp at h1
        · rw [hsl] at h1; exact absurd h1 (h.slot _ _ _ hsl)
    · rw [if_neg hn] at hs; simp at hs
  | dropCapsule c =>
    simp only [step] at hs
    split at hs <;> simp at hs
  | consume c =>
    simp only [step] at hs
    split at hs
    · simp at hs
    · split at hs <;> simp at hs
  | release t =>
    simp only [step] at hs
    split at hs <;> simp at hs
  | newNd k => simp [step] at hs
  | cast n d =>
    simp only [step] at hs
    split at hs <;> simp at hs
  | get n d =>
    simp only [step] at hs
    split at hs <;> simp at hs
  | clear n => simp [step] at hs
  | collect a =>
    simp only [step] at hs
    by_cases hu : unreferenced s a
    · rw [if_pos hu] at hs
      rcases hk : s.arrs a with _ | _ | _ | t
      · rw [hk] at hs; simp at hs
      · rw [hk] at hs; simp at hs
      · exact h.borrowed a hk
      · rw [hk] at hs; simp at hs
    · rw [if_neg hu] at hs; simp at hs

/-- The full claim about crashes: there are none. -/
def NoCrash : Prop := ∀ os : List Op, run init os ≠ none

/-- **C155 (no crash, part).** An operation of a history goes through a null pointer only in the two cases of `Bad`. -/
theorem C155_no_crash_partial (os : List Op) (s : St) (h : run init os = some s) (o : Op) (ho : ¬ Bad s o) : step s o ≠ .crash :=
  fun e => ho (step_crash (run_inv inv_init os s h) o e)

/-- **C155 (refuted).** A tensor of another framework is imported into an NdArray that already has an array of the same dtype and size
(both are FLOAT and have 2 elements): the array is an ordinary one, the dynamic_cast gives a null pointer. -/
theorem C155_crash_refuted : ¬ NoCrash := by
  intro h
  apply h [.newNd 2, .cast 0 11, .foreignExport ⟨11, 2, true, true⟩, .fromInto 0 0]
  simp [run, step, newNd, init, cast, noSlots, fromInto]

/-- ... and `to_dlpack(a, dtype, ctx)` of an NdArray that has not been used. -/
theorem C155_crash_export : run init [.newNd 2, .toDlpack 0 (some 11) true] = none := by
  simp [run, step, newNd, init, noSlots, toDlpack]

/-! ## Leaks -/

/-- Every tensor has been deleted or somebody is responsible for it. -/
def Tracked (s : St) : Prop := ∀ t, t < s.nt → s.dels t = 0 → ∃ o, Owns s t o

theorem Tracked.mono {s s' : St} (h : Tracked s) (e1 : s'.nt = s.nt) (e2 : s'.dels = s.dels) (hown : ∀ t o, Owns s t o → ∃ o', Owns s' t o') : Tracked s' := by
  intro t ht hd
  obtain ⟨o, ho⟩ := h t (e1 ▸ ht) (by rw [← e2]; exact hd)
  exact hown t o ho

/-- A plain array is added. -/
theorem Tracked.addArr {s s' : St} (h : Tracked s) (hi : Inv s) (k : Option Arr) (e1 : s'.nt = s.nt) (e2 : s'.dels = s.dels) (e3 : s'.caps = s.caps)
    (e4 : s'.foreign = s.foreign) (e5 : s'.arrs = Function.update s.arrs s.na k ∨ s'.arrs = s.arrs) : Tracked s' := by
  refine h.mono e1 e2 ?_
  intro t o ho
  refine ⟨o, ?_⟩
  rcases o with c | a | -
  · show s'.caps c = _; rw [e3]; exact ho
  · show s'.arrs a = _
    rcases e5 with e5 | e5
    · rw [e5, Function.update_of_ne]
      · exact ho
      · rintro rfl
        have ho : s.arrs s.na = _ := ho
        rw [hi.fa _ (Nat.le_refl _)] at ho
        simp at ho
    · rw [e5]; exact ho
  · show s'.foreign t = true; rw [e4]; exact ho

theorem Tracked.cast {s : St} (h : Tracked s) (hi : Inv s) (n d : Nat) (k : Arr) : Tracked (cast s n d k).1 := by
  unfold Dlpack.cast
  split
  · exact h.addArr hi none rfl rfl rfl rfl (.inr rfl)
  · exact h.addArr hi (some k) rfl rfl rfl rfl (.inl rfl)

/-- A new tensor in a new capsule. -/
theorem Tracked.newTensor {s s' : St} (h : Tracked s) (hc : s.caps s.nc = none) (e1 : s'.nt = s.nt + 1) (e2 : s'.dels = s.dels)
    (e3 : s'.caps = Function.update s.caps s.nc (some ⟨s.nt, true⟩)) (e4 : s'.foreign = s.foreign) (e5 : s'.arrs = s.arrs) : Tracked s' := by
  intro t ht hd
  by_cases e : t = s.nt
  · subst e; exact ⟨.cap s.nc, by show s'.caps s.nc = _; rw [e3]; simp⟩
  · obtain ⟨o, ho⟩ := h t (by omega) (by rw [← e2]; exact hd)
    refine ⟨o, ?_⟩
    rcases o with c | a | -
    · show s'.caps c = _
      rw [e3, Function.update_of_ne]
      · exact ho
      · rintro rfl
        have ho : s.caps s.nc = _ := ho
        rw [hc] at ho; simp at ho
    · show s'.arrs a = _; rw [e5]; exact ho
    · show s'.foreign t = true; rw [e4]; exact ho

/-- The deleter of a tensor is called by its owner. -/
theorem Tracked.del {s s' : St} (h : Tracked s) (t : Nat) (e1 : s'.nt = s.nt) (e2 : s'.dels = Function.update s.dels t (s.dels t + 1))
    (hown : ∀ t' o, t' ≠ t → Owns s t' o → Owns s' t' o) : Tracked s' := by
  intro t' ht hd
  have hne : t' ≠ t := by
    rintro rfl
    rw [e2, Function.update_self] at hd
    omega
  rw [e2, Function.update_of_ne hne] at hd
  obtain ⟨o, ho⟩ := h t' (e1 ▸ ht) hd
  exact ⟨o, hown t' o hne ho⟩

/-- What else is needed: no capsule has a number that has not been used. -/
def Caps (s : St) : Prop := ∀ c, s.nc ≤ c → s.caps c = none

theorem step_caps {s : St} (h : Caps s) (o : Op) : ∀ s', (step s o = .ok s' ∨ step s o = .raised s') → Caps s' := by
  intro s' hs
  have key : ∀ s' : St, s'.nc = s.nc → (∀ c, s.nc ≤ c → s'.caps c = none) → Caps s' := fun s' e hh c hc => hh c (e ▸ hc)
  have upd : ∀ (c : Nat) (x : Option Cap), s.caps c ≠ none → ∀ c', s.nc ≤ c' → Function.update s.caps c x c' = none := by
    intro c x hx c' hc'
    rw [Function.update_of_ne]
    · exact h c' hc'
    · rintro rfl; exact hx (h _ hc')
  have new : ∀ (x : Option Cap), ∀ c, s.nc + 1 ≤ c → Function.update s.caps s.nc x c = none := by
    intro x c hc
    rw [Function.update_of_ne (by omega)]
    exact h c (by omega)
  have from_ : ∀ (s0 : St) (c n : Nat), s0.caps = s.caps → s0.nc = s.nc → (fromInto s0 c n = .ok s' ∨ fromInto s0 c n = .raised s') → Caps s' := by
    intro s0 c n e1 e2 hs
    unfold fromInto at hs
    rcases hc : s0.caps c with _ | cap
    · rw [hc] at hs; simp at hs; subst hs; exact key _ e2 (by rw [e1]; exact h)
    rw [hc] at hs
    simp only [] at hs
    by_cases hf : cap.fresh = false
    · rw [if_pos hf] at hs; simp at hs; subst hs; exact key _ e2 (by rw [e1]; exact h)
    rw [if_neg hf] at hs
    by_cases hco : (s0.desc cap.tensor).contig = false
    · rw [if_pos hco] at hs; simp at hs; subst hs; exact key _ e2 (by rw [e1]; exact h)
    rw [if_neg hco] at hs
    set s1 := if (s0.nds n).size = (s0.desc cap.tensor).size then s0
        else { s0 with nds := Function.update s0.nds n ⟨noSlots, none, (s0.desc cap.tensor).size⟩ } with hs1
    have c1 : s1.caps = s.caps := by rw [hs1]; split <;> exact e1
    have c2 : s1.nc = s.nc := by rw [hs1]; split <;> exact e2
    by_cases hty : (s0.desc cap.tensor).typed = false
    · rw [if_pos hty] at hs; simp at hs; subst hs; exact key _ c2 (by rw [c1]; exact h)
    rw [if_neg hty] at hs
    have hne : s.caps c ≠ none := by rw [← e1, hc]; simp
    unfold cast at hs
    rcases hsl : (s1.nds n).slots (s0.desc cap.tensor).dtype with _ | a
    · rw [hsl] at hs
      simp at hs
      subst hs
      exact key _ c2 (by rw [c1]; exact upd _ _ hne)
    · rw [hsl] at hs
      simp only [] at hs
      rcases hk : s1.arrs a with _ | _ | t
      · rw [hk] at hs; simp at hs
      · rw [hk] at hs; simp at hs
      · rw [hk] at hs
        simp at hs
        subst hs
        exact key _ c2 (by show ∀ c', _; rw [c1]; exact upd _ _ hne)
  have exp : ∀ (s0 : St) (n d a : Nat), s0.caps = s.caps → s0.nc = s.nc → (export_ s0 n d a = .ok s' ∨ export_ s0 n d a = .raised s') → Caps s' := by
    intro s0 n d a e1 e2 hs
    unfold export_ at hs
    rcases hk : s0.arrs a with _ | _ | t
    · rw [hk] at hs; simp at hs
    · rw [hk] at hs
      simp at hs; subst hs
      intro c hc
      show Function.update s0.caps s0.nc _ c = none
      have hc : s0.nc + 1 ≤ c := hc
      rw [e1, e2]
      exact new _ c (by omega)
    · rw [hk] at hs; simp at hs; subst hs; exact key _ e2 (by rw [e1]; exact h)
  have cst : ∀ n d k, (cast s n d k).1.caps = s.caps ∧ (cast s n d k).1.nc = s.nc := by
    intro n d k; unfold cast; split <;> exact ⟨rfl, rfl⟩
  cases o with
  | foreignExport d =>
    simp [step] at hs; subst hs
    exact fun c hc => new _ c hc
  | fromNew c => exact from_ (newNd s 1).1 c (newNd s 1).2 rfl rfl (by simpa only [step, fromNew] using hs)
  | fromInto c n =>
    simp only [step] at hs
    split at hs
    · exact from_ _ c n rfl rfl hs
    · simp at hs; subst hs; exact h
  | toDlpack n dt ctx =>
    simp only [step] at hs
    split at hs
    · unfold toDlpack at hs
      by_cases hb : ctx = true ∧ dt.isSome
      · rw [if_pos hb] at hs
        rcases hh : (s.nds n).head with _ | d
        · rw [hh] at hs; simp at hs
        rw [hh] at hs
        simp only [] at hs
        rcases hsl : (s.nds n).slots d with _ | a
        · rw [hsl] at hs; simp at hs
        rw [hsl] at hs
        exact exp _ _ _ _ rfl rfl hs
      · rw [if_neg hb] at hs
        exact exp _ _ _ _ (cst _ _ _).1 (cst _ _ _).2 hs
    · simp at hs; subst hs; exact h
  | dropCapsule c =>
    simp only [step] at hs
    rcases hc : s.caps c with _ | cap
    · rw [hc] at hs; simp at hs; subst hs; exact h
    rw [hc] at hs
    simp only [Out.ok.injEq, reduceCtorEq, or_false] at hs
    have hne : s.caps c ≠ none := by rw [hc]; simp
    subst hs
    split
    · exact key _ rfl (upd c none hne)
    · exact key _ rfl (upd c none hne)
  | consume c =>
    simp only [step] at hs
    rcases hc : s.caps c with _ | cap
    · rw [hc] at hs; simp at hs; subst hs; exact h
    rw [hc] at hs
    simp only [] at hs
    have hne : s.caps c ≠ none := by rw [hc]; simp
    split at hs
    · simp at hs; subst hs; exact key _ rfl (upd c _ hne)
    · simp at hs; subst hs; exact h
  | release t =>
    simp only [step] at hs
    split at hs <;> (simp at hs; subst hs; exact h)
  | newNd k => simp [step] at hs; subst hs; exact h
  | cast n d =>
    simp only [step] at hs
    split at hs
    · simp at hs; subst hs; exact key _ (cst _ _ _).2 (by rw [(cst _ _ _).1]; exact h)
    · simp at hs; subst hs; exact h
  | get n d =>
    simp only [step] at hs
    split at hs
    · simp at hs; subst hs
      unfold get
      split <;> exact h
    · simp at hs; subst hs; exact h
  | clear n => simp [step] at hs; subst hs; exact h
  | collect a =>
    simp only [step] at hs
    split at hs
    · split at hs <;> (simp at hs)
      all_goals (subst hs; exact h)
    · simp at hs; subst hs; exact h

theorem fromInto_tracked {s : St} (h : Tracked s) (hi : Inv s) (c n : Nat) (hn : ∀ d, (s.nds n).slots d = none) :
    ∀ s', (fromInto s c n = .ok s' ∨ fromInto s c n = .raised s') → Tracked s' := by
  intro s' hs
  unfold fromInto at hs
  rcases hc : s.caps c with _ | cap
  · rw [hc] at hs; simp at hs; subst hs; exact h
  rw [hc] at hs
  simp only [] at hs
  by_cases hf : cap.fresh = false
  · rw [if_pos hf] at hs; simp at hs; subst hs; exact h
  rw [if_neg hf] at hs
  by_cases hco : (s.desc cap.tensor).contig = false
  · rw [if_pos hco] at hs; simp at hs; subst hs; exact h
  rw [if_neg hco] at hs
  set s1 := if (s.nds n).size = (s.desc cap.tensor).size then s
        else { s with nds := Function.update s.nds n ⟨noSlots, none, (s.desc cap.tensor).size⟩ } with hs1
  have h1 : Tracked s1 := by
    rw [hs1]
    split
    · exact h
    · exact h.addArr hi none rfl rfl rfl rfl (.inr rfl)
  have c1 : s1.caps = s.caps := by rw [hs1]; split <;> rfl
  have a1 : s1.arrs = s.arrs := by rw [hs1]; split <;> rfl
  have n1 : s1.na = s.na := by rw [hs1]; split <;> rfl
  have hn1 : ∀ d, (s1.nds n).slots d = none := by
    intro d
    rw [hs1]
    split
    · exact hn d
    · simp [noSlots]
  by_cases hty : (s.desc cap.tensor).typed = false
  · rw [if_pos hty] at hs; simp at hs; subst hs; exact h1
  rw [if_neg hty] at hs
  unfold cast at hs
  rw [hn1] at hs
  simp only [Function.update_self, Out.ok.injEq, reduceCtorEq, or_false] at hs
  subst hs
  intro t ht hd
  by_cases e : t = cap.tensor
  · refine ⟨.arr s1.na, ?_⟩
    subst e
    simp [Owns]
  · obtain ⟨o, ho⟩ := h1 t ht hd
    refine ⟨o, ?_⟩
    rcases o with c' | a | -
    · show Function.update s1.caps c _ c' = _
      have ho : s1.caps c' = _ := ho
      rw [Function.update_of_ne]
      · exact ho
      · rintro rfl
        rw [c1, hc] at ho
        simp only [Option.some.injEq] at ho
        exact e (by rw [ho])
    · show Function.update (Function.update s1.arrs s1.na _) s1.na _ a = _
      have ho : s1.arrs a = _ := ho
      have hne : a ≠ s1.na := by
        rintro rfl
        rw [a1, n1, hi.fa _ (Nat.le_refl _)] at ho
        simp at ho
      rw [Function.update_of_ne hne, Function.update_of_ne hne]
      exact ho
    · exact ho

theorem export_tracked {s : St} (h : Tracked s) (hc : s.caps s.nc = none) (n d a : Nat) :
    ∀ s', (export_ s n d a = .ok s' ∨ export_ s n d a = .raised s') → Tracked s' := by
  intro s' hs
  unfold export_ at hs
  rcases hk : s.arrs a with _ | _ | t
  · rw [hk] at hs; simp at hs
  · rw [hk] at hs
    simp at hs; subst hs
    exact h.newTensor hc rfl rfl rfl rfl rfl
  · rw [hk] at hs; simp at hs; subst hs; exact h

theorem step_tracked {s : St} (h : Tracked s) (hi : Inv s) (hcs : Caps s) (o : Op) (hn : ∀ c n, o = .fromInto c n → ∀ d, (s.nds n).slots d = none) :
    ∀ s', (step s o = .ok s' ∨ step s o = .raised s') → Tracked s' := by
  intro s' hs
  cases o with
  | foreignExport d =>
    simp [step] at hs; subst hs
    exact h.newTensor (hcs _ (Nat.le_refl _)) rfl rfl rfl rfl rfl
  | fromNew c =>
    simp only [step, fromNew] at hs
    refine fromInto_tracked (s := (newNd s 1).1) ?_ (newNd_inv hi 1) c _ ?_ s' hs
    · exact h.addArr hi none rfl rfl rfl rfl (.inr rfl)
    · intro d; simp [newNd, noSlots]
  | fromInto c n =>
    simp only [step] at hs
    split at hs
    · exact fromInto_tracked h hi c n (hn c n rfl) s' hs
    · simp at hs; subst hs; exact h
  | toDlpack n dt ctx =>
    simp only [step] at hs
    split at hs
    · unfold toDlpack at hs
      by_cases hb : ctx = true ∧ dt.isSome
      · rw [if_pos hb] at hs
        rcases hh : (s.nds n).head with _ | d
        · rw [hh] at hs; simp at hs
        rw [hh] at hs
        simp only [] at hs
        rcases hsl : (s.nds n).slots d with _ | a
        · rw [hsl] at hs; simp at hs
        rw [hsl] at hs
        exact export_tracked h (hcs _ (Nat.le_refl _)) _ _ _ s' hs
      · rw [if_neg hb] at hs
        refine export_tracked (h.cast hi _ _ _) ?_ _ _ _ s' hs
        have e : ∀ d, (cast s n d .plain).1.caps = s.caps ∧ (cast s n d .plain).1.nc = s.nc := by
          intro d; unfold cast; split <;> exact ⟨rfl, rfl⟩
        rw [(e _).1, (e _).2]
        exact hcs _ (Nat.le_refl _)
    · simp at hs; subst hs; exact h
  | dropCapsule c =>
    simp only [step] at hs
    rcases hc : s.caps c with _ | cap
    · rw [hc] at hs; simp at hs; subst hs; exact h
    rw [hc] at hs
    simp only [Out.ok.injEq, reduceCtorEq, or_false] at hs
    by_cases hf : cap.fresh = true
    · rw [if_pos hf] at hs
      subst hs
      refine h.del cap.tensor rfl rfl ?_
      intro t' o hne ho
      rcases o with c' | a | -
      · show Function.update s.caps c none c' = _
        have ho : s.caps c' = _ := ho
        rw [Function.update_of_ne]
        · exact ho
        · rintro rfl
          rw [hc] at ho
          simp only [Option.some.injEq] at ho
          exact hne (by rw [ho])
      · exact ho
      · exact ho
    · rw [if_neg hf] at hs
      subst hs
      refine h.mono rfl rfl ?_
      intro t o ho
      refine ⟨o, ?_⟩
      rcases o with c' | a | -
      · show Function.update s.caps c none c' = _
        have ho : s.caps c' = _ := ho
        rw [Function.update_of_ne]
        · exact ho
        · rintro rfl
          rw [hc] at ho
          simp only [Option.some.injEq] at ho
          exact hf (by rw [ho])
      · exact ho
      · exact ho
  | consume c =>
    simp only [step] at hs
    rcases hc : s.caps c with _ | cap
    · rw [hc] at hs; simp at hs; subst hs; exact h
    rw [hc] at hs
    simp only [] at hs
    by_cases hf : cap.fresh = true
    · rw [if_pos hf] at hs
      simp only [Out.ok.injEq, reduceCtorEq, or_false] at hs
      subst hs
      refine h.mono rfl rfl ?_
      intro t o ho
      by_cases e : t = cap.tensor
      · exact ⟨.foreign, by show Function.update s.foreign cap.tensor true t = true; rw [e]; simp⟩
      · refine ⟨o, ?_⟩
        rcases o with c' | a | -
        · show Function.update s.caps c _ c' = _
          have ho : s.caps c' = _ := ho
          rw [Function.update_of_ne]
          · exact ho
          · rintro rfl
            rw [hc] at ho
            simp only [Option.some.injEq] at ho
            exact e (by rw [ho])
        · exact ho
        · show Function.update s.foreign cap.tensor true t = true
          rw [Function.update_of_ne e]
          exact ho
    · rw [if_neg hf] at hs
      simp at hs; subst hs; exact h
  | release t =>
    simp only [step] at hs
    by_cases hf : s.foreign t = true
    · rw [if_pos hf] at hs
      simp only [Out.ok.injEq, reduceCtorEq, or_false] at hs
      subst hs
      refine h.del t rfl rfl ?_
      intro t' o hne ho
      rcases o with c' | a | -
      · exact ho
      · exact ho
      · show Function.update s.foreign t false t' = true
        rw [Function.update_of_ne hne]
        exact ho
    · rw [if_neg hf] at hs
      simp at hs; subst hs; exact h
  | newNd k => simp [step] at hs; subst hs; exact h.addArr hi none rfl rfl rfl rfl (.inr rfl)
  | cast n d =>
    simp only [step] at hs
    split at hs
    · simp at hs; subst hs; exact h.cast hi _ _ _
    · simp at hs; subst hs; exact h
  | get n d =>
    simp only [step] at hs
    split at hs
    · simp at hs; subst hs
      unfold get
      split
      · exact h
      · exact h.addArr hi (some .plain) rfl rfl rfl rfl (.inl rfl)
    · simp at hs; subst hs; exact h
  | clear n => simp [step] at hs; subst hs; exact h.addArr hi none rfl rfl rfl rfl (.inr rfl)
  | collect a =>
    simp only [step] at hs
    by_cases hu : unreferenced s a
    · rw [if_pos hu] at hs
      rcases hk : s.arrs a with _ | _ | _ | t
      · rw [hk] at hs; simp at hs; subst hs; exact h
      · rw [hk] at hs
        simp only [Out.ok.injEq, reduceCtorEq, or_false] at hs
        subst hs
        refine h.mono rfl rfl ?_
        intro t o ho
        refine ⟨o, ?_⟩
        rcases o with c' | b | -
        · exact ho
        · show Function.update s.arrs a none b = _
          have ho : s.arrs b = _ := ho
          rw [Function.update_of_ne]
          · exact ho
          · rintro rfl; rw [hk] at ho; simp at ho
        · exact ho
      · rw [hk] at hs; simp at hs
      · rw [hk] at hs
        simp only [Out.ok.injEq, reduceCtorEq, or_false] at hs
        subst hs
        refine h.del t rfl rfl ?_
        intro t' o hne ho
        rcases o with c' | b | -
        · exact ho
        · show Function.update s.arrs a none b = _
          have ho : s.arrs b = _ := ho
          rw [Function.update_of_ne]
          · exact ho
          · rintro rfl
            rw [hk] at ho
            simp only [Option.some.injEq, Arr.dl.injEq] at ho
            exact hne ho.symm
        · exact ho
    · rw [if_neg hu] at hs; simp at hs; subst hs; exact h

/-- A history in which tensors are imported only into new NdArrays and into NdArrays that have no array at that moment. -/
def OnlyEmpty (s : St) : List Op → Prop
  | [] => True
  | o :: os => (∀ c n, o = .fromInto c n → ∀ d, (s.nds n).slots d = none) ∧
      ∀ s', (step s o = .ok s' ∨ step s o = .raised s') → OnlyEmpty s' os

theorem run_tracked {s : St} (h : Tracked s) (hi : Inv s) (hc : Caps s) (os : List Op) (ho : OnlyEmpty s os) : ∀ s', run s os = some s' → Tracked s' := by
  induction os generalizing s with
  | nil => intro s' hs; simp [run] at hs; subst hs; exact h
  | cons o os ih =>
    intro s' hs
    simp only [run] at hs
    rcases hst : step s o with s1 | s1 | -
    · rw [hst] at hs
      exact ih (step_tracked h hi hc o ho.1 s1 (.inl hst)) (step_inv hi o s1 (.inl hst)) (step_caps hc o s1 (.inl hst)) (ho.2 s1 (.inl hst)) s' hs
    · rw [hst] at hs
      exact ih (step_tracked h hi hc o ho.1 s1 (.inr hst)) (step_inv hi o s1 (.inr hst)) (step_caps hc o s1 (.inr hst)) (ho.2 s1 (.inr hst)) s' hs
    · rw [hst] at hs; simp at hs

/-- Nobody is left who could call a deleter: no capsule, no array that has borrowed a tensor, nothing taken by another framework. -/
def Quiet (s : St) : Prop := (∀ c, s.caps c = none) ∧ (∀ a t, s.arrs a ≠ some (.dl (some t))) ∧ ∀ t, s.foreign t = false

/-- The full claim about leaks: when everything is gone, every tensor has been deleted, exactly once. -/
def NoLeak : Prop := ∀ (os : List Op) (s : St), run init os = some s → Quiet s → ∀ t, t < s.nt → s.dels t = 1

/-- **C155 (no leak, part).** It holds when tensors are imported only into NdArrays without arrays. -/
theorem C155_no_leak_partial (os : List Op) (s : St) (h : run init os = some s) (ho : OnlyEmpty init os) (hq : Quiet s) (t : Nat) (ht : t < s.nt) :
    s.dels t = 1 := by
  have hT : Tracked s := run_tracked (fun t ht => absurd ht (by simp [init])) inv_init (fun c _ => rfl) os ho s h
  have h1 := (C155_safe os s h).once t
  by_contra hne
  obtain ⟨o, hown⟩ := hT t ht (by omega)
  rcases o with c | a | -
  · have hown : s.caps c = _ := hown
    rw [hq.1 c] at hown; simp at hown
  · exact hq.2.1 a t hown
  · have hown : s.foreign t = true := hown
    rw [hq.2.2 t] at hown; simp at hown

theorem run_append (s : St) (os os' : List Op) : run s (os ++ os') = (run s os).bind fun s' => run s' os' := by
  induction os generalizing s with
  | nil => rfl
  | cons o os ih =>
    simp only [List.cons_append, run]
    rcases step s o with s1 | s1 | -
    · exact ih s1
    · exact ih s1
    · rfl

theorem step_collect {s : St} {a t : Nat} (hu : unreferenced s a) (hk : s.arrs a = some (.dl (some t))) :
    step s (.collect a) = .ok (del { s with arrs := Function.update s.arrs a none } t) := by
  simp only [step, if_pos hu, hk]

/-- A tensor is imported, an array is exported and consumed, and everything is dropped. -/
def demo : List Op := [.foreignExport ⟨11, 2, true, true⟩, .fromNew 0, .dropCapsule 0, .newNd 3, .toDlpack 1 (some 11) false, .consume 1, .dropCapsule 1,
  .clear 1, .release 1, .clear 0]

theorem demo_run : ∃ s, run init demo = some s ∧ s.nt = 2 ∧ s.dels 1 = 1 ∧ s.dels 0 = 0 ∧ (∀ n d, (s.nds n).slots d = none) ∧ s.holds 0 = none ∧
    s.arrs 0 = some (.dl (some 0)) ∧ (∀ t a, s.holds t = some a → a = 1) ∧ (∀ c, s.caps c = none) ∧ (∀ t, s.foreign t = false) ∧
    ∀ a, a ≠ 0 → ∀ t, s.arrs a ≠ some (.dl t) := by
  refine ⟨_, rfl, rfl, rfl, rfl, ?_, rfl, rfl, ?_, ?_, ?_, ?_⟩
  · intro n d
    rcases n with _ | _ | n <;> rfl
  · intro t a ha
    rcases t with _ | _ | t
    · exact absurd (show (none : Option Nat) = some a from ha) (by simp)
    · have ha : some 1 = some a := ha
      simpa using ha.symm
    · exact absurd (show (none : Option Nat) = some a from ha) (by simp)
  · intro c
    rcases c with _ | _ | c <;> rfl
  · intro t
    rcases t with _ | _ | t <;> rfl
  · intro a ha t e
    rcases a with _ | _ | a
    · exact ha rfl
    · exact absurd (show some Arr.plain = some (.dl t) from e) (by simp)
    · exact absurd (show (none : Option Arr) = some (.dl t) from e) (by simp)

/-- The history `demo`, then the array that has borrowed the tensor is destroyed: both tensors have been deleted. -/
example : ∃ s, run init (demo ++ [.collect 0]) = some s ∧ OnlyEmpty init (demo ++ [.collect 0]) ∧ Quiet s ∧ s.nt = 2 ∧ s.dels 0 = 1 ∧ s.dels 1 = 1 := by
  obtain ⟨s, h1, h2, h3, h4, h5, h6, h7, h8, h9, h10, h11⟩ := demo_run
  refine ⟨del { s with arrs := Function.update s.arrs 0 none } 0, ?_, by simp [demo, OnlyEmpty], ⟨h9, ?_, h10⟩, h2, ?_, ?_⟩
  · rw [run_append, h1, Option.bind_some, run, step_collect ⟨fun n d => by rw [h5]; simp, fun t ht => absurd (h8 t 0 ht) (by simp)⟩ h7]
    rfl
  · intro a t
    show Function.update s.arrs 0 none a ≠ _
    by_cases e : a = 0
    · subst e; simp
    · rw [Function.update_of_ne e]; exact h11 a e _
  · simp [del, h4]
  · simp [del, h3]

/-- Two tensors are imported one after the other into the same NdArray, then everything is dropped. -/
def leaky : List Op := [.foreignExport ⟨11, 1, true, true⟩, .foreignExport ⟨11, 1, true, true⟩, .fromNew 0, .fromInto 1 0, .dropCapsule 0, .dropCapsule 1, .clear 0]

theorem leaky_run : ∃ s, run init leaky = some s ∧ s.nt = 2 ∧ s.dels 0 = 0 ∧ (∀ n d, (s.nds n).slots d = none) ∧
    s.arrs 0 = some (.dl (some 1)) ∧ (∀ t, s.holds t = none) ∧ (∀ c, s.caps c = none) ∧ (∀ t, s.foreign t = false) ∧ ∀ a, a ≠ 0 → s.arrs a = none := by
  refine ⟨_, rfl, rfl, rfl, ?_, rfl, fun t => rfl, ?_, fun t => rfl, ?_⟩
  · intro n d
    rcases n with _ | n <;> rfl
  · intro c
    rcases c with _ | _ | c <;> rfl
  · intro a ha
    rcases a with _ | a
    · exact absurd rfl ha
    · rfl

/-- **C155 (refuted).** `from_dlpack(c, arr=a)` into an NdArray that has borrowed a tensor of the same dtype and size: `borrow` replaces
the tensor without calling its deleter (dlpack_array.cpp:41-44), and at the end nobody is left who could. -/
theorem C155_leak_refuted : ¬ NoLeak := by
  intro h
  obtain ⟨s, h1, h2, h3, h4, h5, h6, h7, h8, h9⟩ := leaky_run
  have hr : run init (leaky ++ [.collect 0]) = some (del { s with arrs := Function.update s.arrs 0 none } 1) := by
    rw [run_append, h1, Option.bind_some, run, step_collect ⟨fun n d => by rw [h4]; simp, fun t ht => by rw [h6] at ht; simp at ht⟩ h5]
    rfl
  have := h _ _ hr ⟨h7, ?_, h8⟩ 0 (by show 0 < s.nt; omega)
  · simp [del, h3] at this
  · intro a t
    show Function.update s.arrs 0 none a ≠ _
    by_cases e : a = 0
    · subst e; simp
    · rw [Function.update_of_ne e, h9 a e]; simp

end Verif.Dlpack
