/- zeroing, modification_count, clear_called. -/
import Verif.Synced.Refine

namespace Verif.Synced

variable {V : Type}

theorem narrowedFrom_iff {s : St V} {a : Abs V} (T : Tree s (startOf a)) (L : Link s a) (n : Nat) :
    ∀ fuel m, m ≤ fuel → s.alive m = true → (narrowedFrom a n fuel m = true ↔ Sub s n m) := by
  intro fuel
  induction fuel with
  | zero =>
    intro m hm ha
    have h0 : m = 0 := by omega
    subst h0
    unfold narrowedFrom
    rw [decide_eq_true_eq]
    constructor
    · intro hx; subst hx; exact Sub.refl
    · intro hs
      have := hs.le T ha; omega
  | succ fuel ih =>
    intro m hm ha
    unfold narrowedFrom
    rw [Bool.or_eq_true, decide_eq_true_eq]
    obtain ⟨w, _, w2, _, _, w5, _⟩ := (L.window T m).2 ha
    rw [w2]
    simp only [w5]
    by_cases h0 : m = 0
    · subst h0
      rw [T.root.2.1]
      simp only [Bool.false_eq_true, or_false]
      constructor
      · intro hx; subst hx; exact Sub.refl
      · intro hs
        have := hs.le T ha; omega
    · obtain ⟨p, p1, p2, p3, _⟩ := T.child m h0 ha
      rw [p1]
      simp only
      rw [ih p (by omega) p3]
      constructor
      · rintro (hx | hx)
        · subst hx; exact Sub.refl
        · exact Sub.step hx p1
      · intro hs
        cases hs with
        | refl => exact Or.inl rfl
        | step h1 h2 => rw [p1] at h2; cases h2; exact Or.inr h1

theorem partOf_iff {s : St V} {a : Abs V} (T : Tree s (startOf a)) (L : Link s a) {n m : Nat} (hm : s.alive m = true) :
    partOf a m n = true ↔ Sub s n m := narrowedFrom_iff T L n m m (Nat.le_refl _) hm

/-- One call changes the zeroing flags as specified. -/
theorem zeroing_step {env : Env V} (he : EnvOk env) {s : St V} {a : Abs V} {pend} (I : Inv env s a pend) (op : Op V)
    (hok : opOk a pend op) (z : Nat → Bool) (hz : ∀ m, s.alive m = true → (s.node m).zeroing = z m) :
    ∀ m, (match step env s op with | some (s', _) => s' | none => s).alive m = true →
      ((match step env s op with | some (s', _) => s' | none => s).node m).zeroing = zeroStep env a z op m := by
  have T := I.tree
  have L := I.link
  have nested : ∀ n m, s.alive n = true → s.alive m = true →
      ((partOf a m n || partOf a n m) = true ↔ (Sub s n m ∨ Sub s m n)) := by
    intro n m hn hm
    rw [Bool.or_eq_true, partOf_iff T L hm, partOf_iff T L hn]
  have raise : step env s op = none → absStep env a op = none → ∀ m,
      (match step env s op with | some (s', _) => s' | none => s).alive m = true →
      ((match step env s op with | some (s', _) => s' | none => s).node m).zeroing = zeroStep env a z op m := by
    intro h1 h2 m hm
    unfold zeroStep
    rw [h2]
    rw [h1] at hm ⊢
    exact hz m hm
  -- raising agrees
  have hr : step env s op = none ↔ absStep env a op = none := by
    have := (step_ok he I op hok).out
    cases h1 : step env s op with
    | none =>
      cases h2 : absStep env a op with
      | none => simp
      | some r => rw [h1, h2] at this; exact this.elim
    | some r =>
      cases h2 : absStep env a op with
      | none =>
        rw [h1, h2] at this
        obtain ⟨_, o⟩ := r
        cases o <;> exact this.elim
      | some r => simp
  cases hs : step env s op with
  | none =>
    have := raise hs (hr.1 hs)
    rw [hs] at this; exact this
  | some r =>
    obtain ⟨s', o⟩ := r
    have ha : absStep env a op ≠ none := by intro hx; rw [hr.2 hx] at hs; cases hs
    obtain ⟨r', hr'⟩ := Option.ne_none_iff_exists'.1 ha
    have zs : zeroStep env a z op = (match op with
      | .zero n => fun m => if partOf a m n then true else z m
      | .fill n _ | .modify n _ _ | .write n _ _ => fun m => if partOf a m n || partOf a n m then false else z m
      | .narrow _ _ _ => fun m => if m = a.win.length then false else z m
      | _ => z) := by
      unfold zeroStep; rw [hr']; cases op <;> rfl
    rw [zs]
    clear zs raise hr
    simp only
    cases op with
    | zero n =>
      cases hn : s.alive n with
      | false => simp [step, hn] at hs
      | true =>
        simp [step, hn] at hs
        obtain ⟨hs, _⟩ := hs; subst hs
        obtain ⟨P, Z⟩ := zero_spec env T I.uniform hn
        intro m hm
        rw [P.shape.alive] at hm
        simp only
        by_cases h : Sub s n m
        · rw [(Z m hm).1 h, if_pos ((partOf_iff T L hm).2 h)]
        · rw [(Z m hm).2 h, if_neg (fun hx => h ((partOf_iff T L hm).1 hx))]; exact hz m hm
    | fill n x =>
      cases hn : s.alive n with
      | false => simp [step, hn] at hs
      | true =>
        simp [step, hn] at hs
        obtain ⟨hs, _⟩ := hs; subst hs
        obtain ⟨P, Z⟩ := fill_spec env T I.uniform hn x
        intro m hm
        rw [P.shape.alive] at hm
        simp only
        by_cases h : Sub s n m ∨ Sub s m n
        · rw [(Z m hm).1 h, if_pos ((nested n m hn hm).2 h)]
        · rw [(Z m hm).2 h, if_neg (fun hx => h ((nested n m hn hm).1 hx))]; exact hz m hm
    | get n k =>
      cases hn : s.alive n with
      | false => simp [step, hn] at hs
      | true =>
        have key : ∃ arr s1 val kh B, get env s n k = (some arr, s1) ∧ GetPost env s s1 (startOf a) val kh B n k arr := by
          have hh := I.held
          unfold Held at hh
          cases hkey : a.key with
          | none =>
            rw [hkey] at hh
            obtain ⟨arr, s1, g, P⟩ := get_C0 he T hh hn k
            exact ⟨arr, s1, _, _, _, g, P⟩
          | some kh =>
            rw [hkey] at hh
            obtain ⟨B, c, l0⟩ := hh
            obtain ⟨arr, s1, g, P⟩ := get_C1 he T c l0 hn k
            exact ⟨arr, s1, _, _, _, g, P⟩
        obtain ⟨arr, s1, val, kh, B, g, P⟩ := key
        simp [step, hn, g] at hs
        obtain ⟨hs, _⟩ := hs; subst hs
        intro m hm
        rw [P.shape.alive] at hm
        rw [P.zeroing]; exact hz m hm
    | modify n k f =>
      cases hn : s.alive n with
      | false => simp [step, hn] at hs
      | true =>
        obtain ⟨c1, c2⟩ := cast_held he I hn k false
        by_cases hx : n ≠ 0 ∧ a.key ≠ none ∧ a.key ≠ some k
        · simp [step, hn, c1 hx] at hs
        · obtain ⟨B, s1, val, g, P, _⟩ := c2 hx
          simp [step, hn, g] at hs
          obtain ⟨hs, _⟩ := hs; subst hs
          intro m hm
          have hm' : s1.alive m = true := hm
          rw [P.shape.alive] at hm'
          show (s1.node m).zeroing = _
          simp only
          by_cases h : Sub s n m ∨ Sub s m n
          · rw [(P.zeroing m hm').1 h, if_pos ((nested n m hn hm').2 h)]
          · rw [(P.zeroing m hm').2 h, if_neg (fun hx => h ((nested n m hn hm').1 hx))]; exact hz m hm'
    | write n k f =>
      cases hn : s.alive n with
      | false => simp [step, hn] at hs
      | true =>
        obtain ⟨c1, c2⟩ := cast_held he I hn k true
        by_cases hx : n ≠ 0 ∧ a.key ≠ none ∧ a.key ≠ some k
        · simp [step, hn, c1 hx] at hs
        · obtain ⟨B, s1, val, g, P, _⟩ := c2 hx
          simp [step, hn, g] at hs
          obtain ⟨hs, _⟩ := hs; subst hs
          intro m hm
          have hm' : s1.alive m = true := hm
          rw [P.shape.alive] at hm'
          show (s1.node m).zeroing = _
          simp only
          by_cases h : Sub s n m ∨ Sub s m n
          · rw [(P.zeroing m hm').1 h, if_pos ((nested n m hn hm').2 h)]
          · rw [(P.zeroing m hm').2 h, if_neg (fun hx => h ((nested n m hn hm').1 hx))]; exact hz m hm'
    | narrow p off size =>
      cases hp : s.alive p with
      | false => simp [step, hp] at hs
      | true =>
        cases hnar : narrow env p off size s with
        | none => simp [step, hp, hnar] at hs
        | some s1 =>
          simp [step, hp, hnar] at hs
          obtain ⟨hs, _⟩ := hs; subst hs
          have P := narrow_post T hp hnar
          intro m hm
          simp only
          rw [L.len]
          by_cases hmc : m = s.count
          · rw [if_pos hmc, hmc]; exact P.new.2.2.2.2.2.2
          · rw [if_neg hmc]
            rw [P.alive, if_neg hmc] at hm
            by_cases hmp : m = p
            · subst hmp; rw [P.par]; exact hz m hm
            · rw [P.old m hmc hmp]; exact hz m hm
    | drop n =>
      cases hn : s.alive n with
      | false => simp [step, hn] at hs
      | true =>
        cases hd : drop n s with
        | none => simp [step, hn, hd] at hs
        | some s1 =>
          simp [step, hn, hd] at hs
          obtain ⟨hs, _⟩ := hs; subst hs
          have hlz : lazy (s.node n) = true → (s.node n).size = 0 := by
            intro hl
            have h0 : n ≠ 0 := by
              intro hx; subst hx
              unfold drop at hd; rw [T.root.2.1] at hd; cases hd
            rcases I.pending n h0 hn hl with h | h
            · rw [show pend n = false from hok] at h; cases h
            · exact h
          obtain ⟨_, _, _, al, zz, _⟩ := drop_spec T hn hd hlz
          intro m hm
          rw [al] at hm
          split at hm
          · cases hm
          · rw [zz]; exact hz m hm
    | clear n =>
      cases hn : s.alive n with
      | false => simp [step, hn] at hs
      | true =>
        simp only [step, hn, if_true, clear] at hs
        split at hs
        · cases hs
        · simp at hs
          obtain ⟨hs, _⟩ := hs; subst hs
          intro m hm
          by_cases hmn : m = n
          · subst hmn; rw [upd_self]; exact hz m hm
          · rw [upd_ne _ _ hmn]; exact hz m hm

theorem zeroing_run {env : Env V} (he : EnvOk env) (ops : List (Op V)) : ∀ {s : St V} {a : Abs V} {pend} (z : Nat → Bool),
    Inv env s a pend → HistOk env a pend ops → (∀ m, s.alive m = true → (s.node m).zeroing = z m) →
    ∀ m, (run env s ops).2.alive m = true → ((run env s ops).2.node m).zeroing = zeroRun env a z ops m := by
  induction ops with
  | nil => intro s a pend z _ _ hz m hm; exact hz m hm
  | cons op ops ih =>
    intro s a pend z I h hz
    have S := step_ok he I op h.1
    have Z := zeroing_step he I op h.1 z hz
    have e1 : (run env s (op :: ops)).2 = (run env (match step env s op with | some (s', _) => s' | none => s) ops).2 := by
      simp only [run]
      cases hs : step env s op with
      | none => rfl
      | some r => rfl
    rw [e1]
    exact ih (zeroStep env a z op) S.inv h.2 Z

/-! ### plain arrays -/

/-- A history on a plain array keeps to the restrictions. -/
theorem histOk_plain (env : Env V) (ops : List (Op V)) : ∀ (a : Abs V) (pend : Nat → Bool) (size : Nat),
    a.win = [⟨0, size, none, 0, true⟩] → (∀ op ∈ ops, plain op = true) → HistOk env a pend ops := by
  induction ops with
  | nil => intro _ _ _ _ _; trivial
  | cons op ops ih =>
    intro a pend size hw h
    have hop := h op (by simp)
    refine ⟨?_, ih _ _ size ?_ (fun o ho => h o (by simp [ho]))⟩
    · cases op with
      | clear n =>
        intro c w hc _
        rw [hw] at hc
        cases c with
        | zero => simp at hc; rw [← hc]
        | succ c => simp at hc
      | narrow p o z => simp [plain] at hop
      | drop n => simp [plain] at hop
      | _ => trivial
    · unfold absNext
      cases op with
      | narrow p o z => simp [plain] at hop
      | drop n => simp [plain] at hop
      | zero n =>
        simp only [absStep]; split
        · rename_i a' _ hx
          split at hx
          · cases hx
          · simp at hx; rw [← hx.1]; unfold absFill put; split <;> exact hw
        · exact hw
      | fill n x =>
        simp only [absStep]; split
        · rename_i a' _ hx
          split at hx
          · cases hx
          · simp at hx; rw [← hx.1]; unfold absFill put; split <;> exact hw
        · exact hw
      | get n k =>
        simp only [absStep]; split
        · rename_i a' _ hx
          split at hx
          · cases hx
          · simp at hx; rw [← hx.1]; split
            · rw [holdIn_win]; exact hw
            · exact hw
        · exact hw
      | modify n k f =>
        simp only [absStep]; split
        · rename_i a' _ hx
          split at hx
          · cases hx
          · split at hx
            · cases hx
            · simp at hx; rw [← hx.1]; show (holdIn env a k).win = _; rw [holdIn_win]; exact hw
        · exact hw
      | write n k f =>
        simp only [absStep]; split
        · rename_i a' _ hx
          split at hx
          · cases hx
          · split at hx
            · cases hx
            · simp at hx; rw [← hx.1]; show (holdIn env a k).win = _; rw [holdIn_win]; exact hw
        · exact hw
      | clear n =>
        simp only [absStep]; split
        · rename_i a' _ hx
          split at hx
          · cases hx
          · split at hx
            · cases hx
            · simp at hx; rw [← hx.1]; exact hw
        · exact hw

/-! ### counters of plain arrays -/

/-- The pair (modification_count, clear_called). -/
def counts (s : St V) (n : Nat) : Nat × Bool := ((s.node n).modCount, (s.node n).clearCalled)

theorem dfs_nil (act : St V → Nat → St V) (ch : Nat → List Nat) (fuel n : Nat) (s : St V) (h : ch n = []) :
    dfs act ch fuel n s = s := by
  cases fuel with
  | zero => rfl
  | succ f => simp [dfs, h]

theorem onDesc_nil (f : Node V → Node V) (n : Nat) (s : St V) (h : (s.node n).children = []) : onDesc f n s = s :=
  dfs_nil _ _ _ _ _ h

theorem clearDescendants_nil (b : Bool) (n : Nat) (s : St V) (h : (s.node n).children = []) :
    clearDescendants b n s = s := by
  unfold clearDescendants
  cases s.count with
  | zero => rfl
  | succ f => simp [clearDesc, h]

/-- The root without children. -/
def Lone (s : St V) : Prop := (s.node 0).parent = none ∧ (s.node 0).children = []

theorem Lone.family {s : St V} (h : Lone s) : hasFamily (s.node 0) = false ∧ isChild (s.node 0) = false := by
  unfold hasFamily isChild; rw [h.1, h.2]; exact ⟨rfl, rfl⟩

theorem propagateZeroing_lone {s : St V} (h : Lone s) (b : Bool) :
    propagateZeroing 0 b s = upd s 0 (fun d => { d with zeroing := b }) := by
  unfold propagateZeroing
  simp only
  rw [onDesc_nil _ _ _ h.2]
  rfl

theorem resetFor_lone {s : St V} (h : Lone s) : resetFor 0 s = upd (upd s 0 clearAllArray) 0 clearFlags := by
  unfold resetFor
  rw [h.family.2]
  simp only [Bool.not_false, if_true]
  rw [clearDescendants_nil _ _ _ (by rw [upd_self]; exact h.2)]
  exact onDesc_nil _ _ _ (by rw [upd_self, upd_self]; exact h.2)

theorem counts_zero {s : St V} (h : Lone s) : counts (zero 0 s) 0 = (1, false) := by
  unfold zero
  rw [resetFor_lone h]
  simp only
  rw [onDesc_nil _ _ _ (by rw [upd_self, upd_self, upd_self]; exact h.2)]
  unfold counts
  rw [upd_self, upd_self, upd_self, upd_self]
  rfl

theorem counts_fill {s : St V} (h : Lone s) (x : V) : counts (fill 0 x s) 0 = (1, false) := by
  unfold fill
  rw [resetFor_lone h, propagateZeroing_lone ⟨by rw [upd_self, upd_self]; exact h.1, by rw [upd_self, upd_self]; exact h.2⟩]
  simp only
  unfold counts
  rw [upd_self, upd_self, upd_self, upd_self]
  rfl

theorem counts_propagate (n : Nat) (b : Bool) (s : St V) (m : Nat) : counts (propagateZeroing n b s) m = counts s m := by
  have up : ∀ (s : St V) (c : Nat), counts (upd s c (fun d => { d with zeroing := b })) m = counts s m := by
    intro s c
    unfold counts
    by_cases h : m = c
    · subst h; rw [upd_self]
    · rw [upd_ne _ _ h]
  have fo : ∀ (L : List Nat) (s : St V), counts (L.foldl (fun s c => upd s c (fun d => { d with zeroing := b })) s) m = counts s m := by
    intro L
    induction L with
    | nil => intro s; rfl
    | cons c L ih => intro s; rw [List.foldl_cons, ih, up]
  unfold propagateZeroing
  simp only
  rw [fo, up]
  unfold onDesc
  rw [dfs_eq_foldl, fo]

theorem counts_cast {env : Env V} {s s' : St V} {n : Nat} {k : BaseKey} {wo : Bool} {a : Arr}
    (h : cast env s n k wo = some (some a, s')) : counts s' n = (1, false) := by
  unfold cast at h
  split at h
  · cases h
  · simp only at h
    split at h
    · simp at h
    · simp only [Option.some.injEq, Prod.mk.injEq] at h
      rw [← h.2, counts_propagate]
      unfold counts
      rw [upd_self]

theorem counts_sync {env : Env V} {s : St V} (h : Lone s) (k : BaseKey) (wo : Bool) :
    counts (sync env s 0 k wo).2 0 = counts s 0 := by
  have A : ∀ dk, Lone (syncAlloc s 0 k dk) ∧ counts (syncAlloc s 0 k dk) 0 = counts s 0 := by
    intro dk
    unfold syncAlloc
    split
    · exact ⟨h, rfl⟩
    · have hd : ∀ (d : Node V), (if d.arrs.isEmpty then { d with head := some dk } else d).parent = d.parent ∧
        (if d.arrs.isEmpty then { d with head := some dk } else d).children = d.children ∧
        (if d.arrs.isEmpty then { d with head := some dk } else d).modCount = d.modCount ∧
        (if d.arrs.isEmpty then { d with head := some dk } else d).clearCalled = d.clearCalled := by
        intro d; split <;> exact ⟨rfl, rfl, rfl, rfl⟩
      obtain ⟨d1, d2, d3, d4⟩ := hd (s.node 0)
      have n3 : (setArr (upd s 0 (fun d => if d.arrs.isEmpty then { d with head := some dk } else d)) 0 dk
          ⟨s.nextBlk, 0, k.dt⟩ false).node 0 =
          { (if (s.node 0).arrs.isEmpty then { s.node 0 with head := some dk } else s.node 0) with
            arrs := insert dk (⟨s.nextBlk, 0, k.dt⟩, false)
              (if (s.node 0).arrs.isEmpty then { s.node 0 with head := some dk } else s.node 0).arrs } := by
        unfold setArr; rw [upd_self, upd_self]
      have L3 : Lone { setArr (upd s 0 (fun d => if d.arrs.isEmpty then { d with head := some dk } else d)) 0 dk
          ⟨s.nextBlk, 0, k.dt⟩ false with nextBlk := s.nextBlk + 1 } := by
        refine ⟨?_, ?_⟩
        · show ((setArr _ 0 dk _ false).node 0).parent = none
          rw [n3]; exact d1.trans h.1
        · show ((setArr _ 0 dk _ false).node 0).children = []
          rw [n3]; exact d2.trans h.2
      simp only
      rw [if_neg (by rw [L3.family.1]; simp)]
      refine ⟨L3, ?_⟩
      unfold counts
      simp only
      rw [n3]
      simp only [d3, d4]
  have e : sync env s 0 k wo = syncBody env s 0 k wo := by unfold sync; simp [h.family.2]
  rw [e]
  unfold syncBody
  simp only
  obtain ⟨a1, a2⟩ := A (syncKey s 0 k)
  have eL : syncLazy env (syncAlloc s 0 k (syncKey s 0 k)) 0 = syncAlloc s 0 k (syncKey s 0 k) := by
    unfold syncLazy; simp [a1.family.1]
  rw [eL, ← a2]
  generalize syncAlloc s 0 k (syncKey s 0 k) = s1
  cases wo with
  | true => rfl
  | false =>
    simp only [Bool.false_eq_true, if_false]
    unfold syncCopy
    split
    · rfl
    · split
      · rfl
      · split
        · unfold counts; rw [upd_self]; rfl
        · split
          · unfold counts; rw [upd_self]; rfl
          · split
            · split
              · rfl
              · split
                · rfl
                · rfl
            · rfl

theorem counts_get {env : Env V} {s s' : St V} (h : Lone s) {k : BaseKey} {a : Arr} (hg : get env s 0 k = (some a, s')) :
    counts s' 0 = ((s.node 0).modCount, false) := by
  unfold get at hg
  simp only at hg
  have L0 : Lone (upd s 0 (fun d => { d with clearCalled := false })) :=
    ⟨by rw [upd_self]; exact h.1, by rw [upd_self]; exact h.2⟩
  have C := counts_sync (env := env) L0 k false
  split at hg
  · cases hg
  · simp only [Prod.mk.injEq] at hg
    rw [← hg.2]
    have : ∀ (s1 : St V) (dk : Key) (a : Arr), counts (setArr s1 0 dk a true) 0 = counts s1 0 := by
      intro s1 dk a; unfold counts setArr; rw [upd_self]
    rw [this, C]
    unfold counts; rw [upd_self]

end Verif.Synced
