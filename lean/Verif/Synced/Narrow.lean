/- narrow, destruction of a narrowed array, clear. -/
import Verif.Synced.Fill

namespace Verif.Synced

variable {V : Type}

/-- Arrays appear (`fresh`) or disappear; all others keep everything but their children. -/
structure Move (s s' : St V) (st st' : Nat → Nat) (fresh : Nat → Prop) : Prop where
  same : ∀ m, ¬ fresh m → (s'.node m).head = (s.node m).head ∧ (s'.node m).arrs = (s.node m).arrs ∧
    (s'.node m).lazyZero = (s.node m).lazyZero ∧ (s'.node m).lazyFill = (s.node m).lazyFill ∧
    (s'.node m).fillVal = (s.node m).fillVal ∧ (s'.node m).size = (s.node m).size ∧
    (s'.node m).parent = (s.node m).parent ∧ (s'.node m).off = (s.node m).off ∧ st' m = st m
  old : ∀ m, s'.alive m = true → ¬ fresh m → s.alive m = true
  new : ∀ m, s'.alive m = true → fresh m → lazy (s'.node m) = false
  back : ∀ m i, s.alive m = true → lazy (s.node m) = true → Covers s st m i → s'.alive m = true ∧ ¬ fresh m
  par : ∀ m p, s'.alive m = true → ¬ fresh m → (s.node m).parent = some p → ¬ fresh p
  root : ¬ fresh 0
  mem : s'.mem = s.mem
  nextBlk : s'.nextBlk = s.nextBlk

theorem Move.covers {s s' : St V} {st st' fresh} (M : Move s s' st st' fresh) {m i : Nat} (hm : ¬ fresh m) :
    Covers s' st' m i ↔ Covers s st m i := by
  obtain ⟨_, _, _, _, _, e1, _, _, e2⟩ := M.same m hm
  unfold Covers; rw [e1, e2]

theorem Move.lazy {s s' : St V} {st st' fresh} (M : Move s s' st st' fresh) {m : Nat} (hm : ¬ fresh m) :
    Synced.lazy (s'.node m) = Synced.lazy (s.node m) := by
  obtain ⟨_, _, e1, e2, _⟩ := M.same m hm
  unfold Synced.lazy; rw [e1, e2]

theorem Move.fresh_of_lazy {s s' : St V} {st st' fresh} (M : Move s s' st st' fresh) {m : Nat} (hm : s'.alive m = true)
    (hl : Synced.lazy (s'.node m) = true) : ¬ fresh m := by
  intro hf; rw [M.new m hm hf] at hl; cases hl

theorem Move.noLazy {s s' : St V} {st st' fresh} (M : Move s s' st st' fresh) {i : Nat} :
    NoLazyAt s' st' i ↔ NoLazyAt s st i := by
  constructor
  · intro g m a b c
    obtain ⟨b1, b2⟩ := M.back m i a b c
    exact g m b1 (by rw [M.lazy b2]; exact b) ((M.covers b2).2 c)
  · intro g m a b c
    have hf := M.fresh_of_lazy a b
    exact g m (M.old m a hf) (by rw [← M.lazy hf]; exact b) ((M.covers hf).1 c)

theorem Move.deep {s s' : St V} {st st' fresh} (M : Move s s' st st' fresh) {m i : Nat} :
    Deep s' st' m i ↔ Deep s st m i := by
  constructor
  · rintro ⟨a, b, c, d⟩
    have hf := M.fresh_of_lazy a b
    refine ⟨M.old m a hf, by rw [← M.lazy hf]; exact b, (M.covers hf).1 c, ?_⟩
    intro m' a' b' c'
    obtain ⟨b1, b2⟩ := M.back m' i a' b' c'
    exact d m' b1 (by rw [M.lazy b2]; exact b') ((M.covers b2).2 c')
  · rintro ⟨a, b, c, d⟩
    obtain ⟨b1, b2⟩ := M.back m i a b c
    refine ⟨b1, by rw [M.lazy b2]; exact b, (M.covers b2).2 c, ?_⟩
    intro m' a' b' c'
    have hf := M.fresh_of_lazy a' b'
    exact d m' (M.old m' a' hf) (by rw [← M.lazy hf]; exact b') ((M.covers hf).1 c')

theorem Move.raw {s s' : St V} {st st' fresh} (M : Move s s' st st' fresh) (env : Env V) {m : Nat} (hm : ¬ fresh m) :
    lvraw env (s'.node m) = lvraw env (s.node m) := by
  obtain ⟨_, _, e1, _, e3, _⟩ := M.same m hm
  unfold lvraw; rw [e1, e3]

theorem Move.C0 {env : Env V} {s s' : St V} {st st' val fresh} (M : Move s s' st st' fresh) (h : C0 env s st val)
    (hf : ∀ m, s'.alive m = true → fresh m → (s'.node m).arrs = []) : Synced.C0 env s' st' val := by
  refine ⟨?_, ?_, ?_⟩
  · intro m hm
    by_cases hx : fresh m
    · exact hf m hm hx
    · rw [(M.same m hx).2.1]; exact h.empty m (M.old m hm hx)
  · obtain ⟨_, _, e1, e2, _⟩ := M.same 0 M.root
    rw [e1, e2]; exact h.excl
  · intro i v hi hv
    rw [(M.same 0 M.root).2.2.2.2.2.1] at hi
    obtain ⟨m, d1, d2⟩ := h.content i v hi hv
    obtain ⟨_, b2⟩ := M.back m i d1.1 d1.2.1 d1.2.2.1
    exact ⟨m, M.deep.2 d1, by rw [M.raw env b2]; exact d2⟩

theorem Move.C1 {env : Env V} {s s' : St V} {st st' val fresh k B} (M : Move s s' st st' fresh)
    (h : C1 env s st val k B (fun _ _ => False))
    (hf : ∀ m, s'.alive m = true → fresh m → HeadAt s' st' k B m ∧ KeyOk s' m ∧
      ∀ key e, find key (s'.node m).arrs = some e → some key = (s'.node m).head) :
    Synced.C1 env s' st' val k B (fun _ _ => False) := by
  refine ⟨by rw [M.nextBlk]; exact h.blk, by rw [(M.same 0 M.root).1]; exact h.rootKey, ?_, ?_, ?_, ?_⟩
  · intro m hm
    by_cases hx : fresh m
    · exact (hf m hm hx).1
    · obtain ⟨e1, e2, _, _, _, _, _, _, e9⟩ := M.same m hx
      obtain ⟨l, g1, b, g2⟩ := (h.head m (M.old m hm hx)).key
      exact ⟨l, by rw [e1]; exact g1, b, by rw [e2, e9]; exact g2⟩
  · intro m hm
    by_cases hx : fresh m
    · exact (hf m hm hx).2.1
    · intro p hp hk hhk
      obtain ⟨e1, e2, _, _, _, e6, e7, e8, _⟩ := M.same m hx
      rw [e7] at hp
      rw [(M.same p (M.par m p hm hx hp)).1] at hhk
      rw [e1, e8, e6]
      exact h.keyOk m (M.old m hm hx) p hp hk hhk
  · intro i v hi hv
    rw [(M.same 0 M.root).2.2.2.2.2.1] at hi
    obtain ⟨c1, c2, c3⟩ := h.content i v hi hv
    refine ⟨c1, ?_, ?_⟩
    · intro m hd
      have hd' := M.deep.1 hd
      obtain ⟨_, b2⟩ := M.back m i hd'.1 hd'.2.1 hd'.2.2.1
      rw [M.raw env b2]; exact c2 m hd'
    · intro hno; rw [M.mem]; exact c3 (M.noLazy.1 hno)
  · intro m key e hm hfd hne _
    by_cases hx : fresh m
    · exact absurd ((hf m hm hx).2.2 key e hfd) hne
    · obtain ⟨e1, e2, _, _, _, e6, _, _, e9⟩ := M.same m hx
      rw [e2] at hfd; rw [e1] at hne
      obtain ⟨k', o1, o2, o3, o4, o5, o6, o7, o8, o9⟩ := h.others m key e (M.old m hm hx) hfd hne (fun hx => hx)
      refine ⟨k', o1, o2, o3, o4, by rw [M.nextBlk]; exact o5, o6, o7, ?_, ?_⟩
      · intro j v hj hv
        rw [e6] at hj; rw [e9] at hv; rw [M.mem]; exact o8 j v hj hv
      · intro i hc
        rw [M.covers hx] at hc
        exact M.noLazy.2 (o9 i hc)

/-! ### narrow -/

/-- The new array and its parent. -/
structure NarrowPost (s s' : St V) (p off size : Nat) : Prop where
  count : s'.count = s.count + 1
  alive : ∀ m, s'.alive m = if m = s.count then true else s.alive m
  mem : s'.mem = s.mem
  nextBlk : s'.nextBlk = s.nextBlk
  par : s'.node p = { s.node p with children := (s.node p).children ++ [s.count] }
  old : ∀ m, m ≠ s.count → m ≠ p → s'.node m = s.node m
  new : (s'.node s.count).parent = some p ∧ (s'.node s.count).off = off ∧ (s'.node s.count).size = size ∧
    (s'.node s.count).lazyZero = false ∧ (s'.node s.count).lazyFill = false ∧
    (s'.node s.count).children = [] ∧ (s'.node s.count).zeroing = false
  bare : hasHead (s.node p) = false → (s'.node s.count).arrs = []
  head : ∀ hk pa b, (s.node p).head = some hk → find hk (s.node p).arrs = some (pa, b) →
    (s'.node s.count).head = some (hk.1, hk.2 ++ [(off, size)]) ∧
    (s'.node s.count).arrs = [((hk.1, hk.2 ++ [(off, size)]), ⟨pa.blk, (s.node p).off + off, pa.dt⟩, false)]

theorem narrow_post {env : Env V} {s : St V} {st} (T : Tree s st) {p off size : Nat} (hp : s.alive p = true) {s' : St V}
    (h : narrow env p off size s = some s') : NarrowPost s s' p off size := by
  have hpc : p ≠ s.count := by
    intro hx; subst hx
    rw [T.dead _ (Nat.le_refl _)] at hp; cases hp
  unfold narrow at h
  split at h
  · cases h
  · split at h
    · cases h
    · simp only [Option.some.injEq] at h
      subst h
      by_cases hh : hasHead (s.node p) = true
      · simp only [hh, if_true]
        have hsome : (s.node p).head.isSome = true := by
          unfold hasHead at hh; simp only [Bool.and_eq_true] at hh; exact hh.1
        cases hhd : (s.node p).head with
        | none => rw [hhd] at hsome; cases hsome
        | some hk =>
          cases hfd : find hk (s.node p).arrs with
          | none =>
            unfold createFromParent
            refine ⟨?_, ?_, ?_, ?_, ?_, ?_, ?_, ?_, fun hk' pa' b' e1 e2 => ?_⟩
            · simp [hpc, hhd, hfd]
            · intro m; simp [hpc, hhd, hfd]
            · simp [hpc, hhd, hfd]
            · simp [hpc, hhd, hfd]
            · simp [hpc, hhd, hfd, upd]
            · intro m h1 h2; simp [hpc, hhd, hfd, upd, h1, h2]
            · simp [hpc, hhd, hfd, upd, Ne.symm hpc]
            · simp [hh]
            · rw [hhd] at e1; cases e1
              rw [hfd] at e2; cases e2
          | some e =>
            obtain ⟨pa, b⟩ := e
            unfold createFromParent
            refine ⟨?_, ?_, ?_, ?_, ?_, ?_, ?_, ?_, fun hk' pa' b' e1 e2 => ?_⟩
            · simp [hpc, hhd, hfd, upd, setArr]
            · intro m; simp [hpc, hhd, hfd, upd, setArr]
            · simp [hpc, hhd, hfd, upd, setArr]
            · simp [hpc, hhd, hfd, upd, setArr]
            · simp [hpc, hhd, hfd, upd, setArr]
            · intro m h1 h2; simp [hpc, hhd, hfd, upd, setArr, h1, h2]
            · simp [hpc, hhd, hfd, upd, setArr, Ne.symm hpc]
            · simp [hh]
            · rw [hhd] at e1; cases e1
              rw [hfd] at e2; cases e2
              simp [hpc, hhd, hfd, upd, setArr, insert, Ne.symm hpc]
      · have hh' : hasHead (s.node p) = false := by simpa using hh
        simp only [hh', Bool.false_eq_true, if_false]
        refine ⟨rfl, fun _ => rfl, rfl, rfl, ?_, ?_, ?_, ?_, fun hk' pa' b' e1 e2 => ?_⟩
        · simp [hpc, upd]
        · intro m h1 h2; simp [upd, h1, h2]
        · simp [upd, Ne.symm hpc]
        · simp [upd, Ne.symm hpc]
        · have : hasHead (s.node p) = true := by
            unfold hasHead; rw [e1]; simp
            have := isEmpty_of_find e2; simpa using this
          rw [this] at hh'; cases hh'

/-- When narrow succeeds. -/
theorem narrow_isSome {env : Env V} (s : St V) (p off size : Nat) :
    (narrow env p off size s).isSome = true ↔
      off + size ≤ (s.node p).size ∧ ∀ c, c ∈ (s.node p).children →
        (s.node c).off + (s.node c).size ≤ off ∨ off + size ≤ (s.node c).off := by
  unfold narrow
  split
  · rename_i h
    simp only [Option.isSome_none, Bool.false_eq_true, false_iff]
    intro hx; omega
  · rename_i h
    split
    · rename_i h2
      simp only [Option.isSome_none, Bool.false_eq_true, false_iff]
      rintro ⟨_, hx⟩
      simp only [List.any_eq_true] at h2
      obtain ⟨c, hc, h3⟩ := h2
      have := hx c hc
      simp only [Bool.not_eq_true', Bool.or_eq_false_iff, decide_eq_false_iff_not] at h3
      omega
    · rename_i h2
      simp only [Option.isSome_some, true_iff]
      refine ⟨by omega, ?_⟩
      intro c hc
      have h4 : ¬ ((!(decide ((s.node c).off + (s.node c).size < off + 1) || decide (off + size < (s.node c).off + 1))) = true) := by
        intro hx; apply h2; simp only [List.any_eq_true]; exact ⟨c, hc, hx⟩
      simp only [Bool.not_eq_true', Bool.or_eq_false_iff, decide_eq_false_iff_not] at h4
      omega

theorem narrow_tree {env : Env V} {s s' : St V} {st st'} (T : Tree s st) {p off size : Nat} (hp : s.alive p = true)
    (h : narrow env p off size s = some s') (hst : st p = (s.node p).off)
    (hs1 : st' s.count = st p + off) (hs2 : ∀ m, m ≠ s.count → st' m = st m) : Tree s' st' := by
  have P := narrow_post T hp h
  obtain ⟨g1, g2⟩ := (narrow_isSome s p off size).1 (by rw [h]; rfl)
  have hpc : p < s.count := by
    cases Nat.lt_or_ge p s.count with
    | inl hx => exact hx
    | inr hx => rw [T.dead p hx] at hp; cases hp
  have h0c : (0 : Nat) < s.count := T.root.2.2.2.2
  have hlt : ∀ m, s.alive m = true → m < s.count := by
    intro m hm
    cases Nat.lt_or_ge m s.count with
    | inl hx => exact hx
    | inr hx => rw [T.dead m hx] at hm; cases hm
  have sm : ∀ m, m ≠ s.count → (s'.node m).parent = (s.node m).parent ∧ (s'.node m).off = (s.node m).off ∧
      (s'.node m).size = (s.node m).size := by
    intro m hm
    by_cases hmp : m = p
    · subst hmp; rw [P.par]; exact ⟨rfl, rfl, rfl⟩
    · rw [P.old m hm hmp]; exact ⟨rfl, rfl, rfl⟩
  have al : ∀ m, m ≠ s.count → s'.alive m = s.alive m := by
    intro m hm; rw [P.alive, if_neg hm]
  have aln : s'.alive s.count = true := by rw [P.alive, if_pos rfl]
  refine ⟨?_, ?_, ?_, ?_, ?_, ?_⟩
  · have hne : (0 : Nat) ≠ s.count := by omega
    obtain ⟨e1, e2, _⟩ := sm 0 hne
    rw [al 0 hne, e1, e2, hs2 0 hne, P.count]
    obtain ⟨r1, r2, r3, r4, r5⟩ := T.root
    exact ⟨r1, r2, r3, r4, by omega⟩
  · intro m hm
    rw [P.count] at hm
    rw [al m (by omega)]; exact T.dead m (by omega)
  · intro m hm0 hm
    by_cases hmc : m = s.count
    · subst hmc
      obtain ⟨n1, n2, n3, _⟩ := P.new
      have hpn : p ≠ s.count := by omega
      refine ⟨p, n1, hpc, by rw [al p hpn]; exact hp, ?_, ?_, ?_⟩
      · rw [hs1, n2, hs2 p hpn]
      · rw [n2, n3, (sm p hpn).2.2]; exact g1
      · rw [hs2 p hpn, (sm p hpn).2.1]; exact hst
    · rw [al m hmc] at hm
      obtain ⟨q, q1, q2, q3, q4, q5, q6⟩ := T.child m hm0 hm
      have hqc : q ≠ s.count := by have := hlt q q3; omega
      obtain ⟨e1, e2, e3⟩ := sm m hmc
      obtain ⟨f1, f2, f3⟩ := sm q hqc
      refine ⟨q, by rw [e1]; exact q1, q2, by rw [al q hqc]; exact q3, ?_, ?_, ?_⟩
      · rw [hs2 m hmc, hs2 q hqc, e2]; exact q4
      · rw [e2, e3, f3]; exact q5
      · rw [hs2 q hqc, f2]; exact q6
  · intro q c hq
    by_cases hqc : q = s.count
    · subst hqc
      rw [P.new.2.2.2.2.2.1]
      constructor
      · intro hx; cases hx
      · rintro ⟨x1, x2⟩
        by_cases hcc : c = s.count
        · subst hcc; rw [P.new.1] at x2; cases x2; omega
        · rw [(sm c hcc).1] at x2; rw [al c hcc] at x1
          by_cases hc0 : c = 0
          · subst hc0; rw [T.root.2.1] at x2; cases x2
          · obtain ⟨q', y1, y2, y3, _⟩ := T.child c hc0 x1
            rw [y1] at x2; cases x2
            have := hlt _ y3; omega
    · rw [al q hqc] at hq
      by_cases hqp : q = p
      · subst hqp
        rw [P.par]
        simp only [List.mem_append, List.mem_singleton]
        by_cases hcc : c = s.count
        · subst hcc
          constructor
          · intro _; exact ⟨aln, P.new.1⟩
          · intro _; right; rfl
        · rw [al c hcc, (sm c hcc).1, ← T.kids q c hq]
          simp [hcc]
      · rw [P.old q hqc hqp]
        by_cases hcc : c = s.count
        · subst hcc
          rw [P.new.1]
          constructor
          · intro hx
            have := ((T.kids q s.count hq).1 hx).1
            rw [T.dead _ (Nat.le_refl _)] at this; cases this
          · rintro ⟨_, hx⟩; cases hx; exact absurd rfl hqp
        · rw [al c hcc, (sm c hcc).1]; exact T.kids q c hq
  · intro q hq
    by_cases hqc : q = s.count
    · subst hqc; rw [P.new.2.2.2.2.2.1]; exact List.nodup_nil
    · rw [al q hqc] at hq
      by_cases hqp : q = p
      · subst hqp
        rw [P.par]
        simp only
        rw [List.nodup_append]
        refine ⟨T.nodup q hq, by simp, ?_⟩
        intro a ha b hb hab
        simp only [List.mem_singleton] at hb
        subst hb; subst hab
        have := ((T.kids q _ hq).1 ha).1
        rw [T.dead _ (Nat.le_refl _)] at this; cases this
      · rw [P.old q hqc hqp]; exact T.nodup q hq
  · intro c1 c2 q a1 a2 b1 b2 hne
    by_cases h1 : c1 = s.count
    · subst h1
      have h2 : c2 ≠ s.count := Ne.symm hne
      rw [P.new.1] at b1; cases b1
      rw [al c2 h2] at a2; rw [(sm c2 h2).1] at b2
      have := g2 c2 ((T.kids p c2 hp).2 ⟨a2, b2⟩)
      rw [P.new.2.1, P.new.2.2.1, (sm c2 h2).2.1, (sm c2 h2).2.2]
      omega
    · by_cases h2 : c2 = s.count
      · subst h2
        rw [P.new.1] at b2; cases b2
        rw [al c1 h1] at a1; rw [(sm c1 h1).1] at b1
        have := g2 c1 ((T.kids p c1 hp).2 ⟨a1, b1⟩)
        rw [P.new.2.1, P.new.2.2.1, (sm c1 h1).2.1, (sm c1 h1).2.2]
        omega
      · rw [al c1 h1] at a1; rw [al c2 h2] at a2
        rw [(sm c1 h1).1] at b1; rw [(sm c2 h2).1] at b2
        rw [(sm c1 h1).2.1, (sm c1 h1).2.2, (sm c2 h2).2.1, (sm c2 h2).2.2]
        exact T.disj c1 c2 q a1 a2 b1 b2 hne

theorem narrow_move {env : Env V} {s s' : St V} {st st'} (T : Tree s st) {p off size : Nat} (hp : s.alive p = true)
    (h : narrow env p off size s = some s') (hs2 : ∀ m, m ≠ s.count → st' m = st m) :
    Move s s' st st' (fun m => m = s.count) := by
  have P := narrow_post T hp h
  have hlt : ∀ m, s.alive m = true → m < s.count := by
    intro m hm
    cases Nat.lt_or_ge m s.count with
    | inl hx => exact hx
    | inr hx => rw [T.dead m hx] at hm; cases hm
  refine ⟨?_, ?_, ?_, ?_, ?_, ?_, P.mem, P.nextBlk⟩
  · intro m hm
    rw [hs2 m hm]
    by_cases hmp : m = p
    · subst hmp; rw [P.par]; exact ⟨rfl, rfl, rfl, rfl, rfl, rfl, rfl, rfl, rfl⟩
    · rw [P.old m hm hmp]; exact ⟨rfl, rfl, rfl, rfl, rfl, rfl, rfl, rfl, rfl⟩
  · intro m hm hx; rw [P.alive, if_neg hx] at hm; exact hm
  · intro m _ hx; subst hx; unfold lazy; rw [P.new.2.2.2.1, P.new.2.2.2.2.1]; rfl
  · intro m i a _ _
    have := hlt m a
    exact ⟨by rw [P.alive, if_neg (by omega)]; exact a, by omega⟩
  · intro m q hm hx hq
    rw [P.alive, if_neg hx] at hm
    intro hqc
    by_cases h0 : m = 0
    · subst h0; rw [T.root.2.1] at hq; cases hq
    · obtain ⟨q', y1, y2, y3, _⟩ := T.child m h0 hm
      rw [y1] at hq; cases hq
      have := hlt _ y3; omega
  · have := T.root.2.2.2.2; omega

theorem narrow_C1 {env : Env V} {s s' : St V} {st st' val k B} (T : Tree s st) {p off size : Nat} (hp : s.alive p = true)
    (h : narrow env p off size s = some s') (hst : st p = (s.node p).off)
    (hs1 : st' s.count = st p + off) (hs2 : ∀ m, m ≠ s.count → st' m = st m)
    (hc : C1 env s st val k B (fun _ _ => False)) : C1 env s' st' val k B (fun _ _ => False) := by
  have P := narrow_post T hp h
  apply (narrow_move T hp h hs2).C1 hc
  intro m _ hx
  subst hx
  obtain ⟨l, e1, b, e2⟩ := (hc.head p hp).key
  obtain ⟨f1, f2⟩ := P.head _ _ _ e1 e2
  refine ⟨?_, ?_, ?_⟩
  · refine ⟨_, f1, false, ?_⟩
    rw [f2, hs1, hst]; simp [find]
  · intro q hq hk hhk
    rw [P.new.1] at hq; cases hq
    rw [P.par] at hhk
    rw [e1] at hhk; cases hhk
    rw [f1, P.new.2.1, P.new.2.2.1]
  · intro key e hf
    rw [f2] at hf; rw [f1]
    simp only [find] at hf
    split at hf
    · rename_i hx; rw [← hx]
    · cases hf

/-! ### drop -/

theorem drop_spec {s s' : St V} {st} (T : Tree s st) {n : Nat} (hn : s.alive n = true) (h : drop n s = some s')
    (hl : lazy (s.node n) = true → (s.node n).size = 0) :
    Tree s' st ∧ Move s s' st st (fun _ => False) ∧ s'.count = s.count ∧
    (∀ m, s'.alive m = if m = n then false else s.alive m) ∧ (∀ m, (s'.node m).zeroing = (s.node m).zeroing) ∧ n ≠ 0 ∧
    (s.node n).children = [] := by
  unfold drop at h
  cases hp : (s.node n).parent with
  | none => rw [hp] at h; cases h
  | some p =>
    rw [hp] at h
    simp only at h
    have hn0 : n ≠ 0 := by intro hx; subst hx; rw [T.root.2.1] at hp; cases hp
    split at h
    · cases h
    · rename_i hch
      have hch' : (s.node n).children = [] := by simpa using hch
      simp only [Option.some.injEq] at h
      have al : ∀ m, s'.alive m = if m = n then false else s.alive m := by intro m; rw [← h]
      have ct : s'.count = s.count := by rw [← h]; rfl
      have nd : ∀ m, s'.node m = if m = p then { s.node p with children := (s.node p).children.filter (· ≠ n) } else s.node m := by
        intro m; rw [← h]; simp only [upd]
        by_cases hm : m = p
        · subst hm; simp
        · simp [hm]
      have sm : ∀ m, (s'.node m).head = (s.node m).head ∧ (s'.node m).arrs = (s.node m).arrs ∧
        (s'.node m).lazyZero = (s.node m).lazyZero ∧ (s'.node m).lazyFill = (s.node m).lazyFill ∧
        (s'.node m).fillVal = (s.node m).fillVal ∧ (s'.node m).size = (s.node m).size ∧
        (s'.node m).parent = (s.node m).parent ∧ (s'.node m).off = (s.node m).off ∧ (s'.node m).zeroing = (s.node m).zeroing := by
        intro m; rw [nd]; split
        · rename_i hm; subst hm; exact ⟨rfl, rfl, rfl, rfl, rfl, rfl, rfl, rfl, rfl⟩
        · exact ⟨rfl, rfl, rfl, rfl, rfl, rfl, rfl, rfl, rfl⟩
      have mm : s'.mem = s.mem ∧ s'.nextBlk = s.nextBlk := by rw [← h]; exact ⟨rfl, rfl⟩
      clear h
      obtain ⟨p', y1, y2, y3, _⟩ := T.child n hn0 hn
      rw [hp] at y1; cases y1
      have aln : ∀ m, s'.alive m = true → s.alive m = true ∧ m ≠ n := by
        intro m hm; rw [al] at hm
        split at hm
        · cases hm
        · exact ⟨hm, by assumption⟩
      have noKid : ∀ c, s.alive c = true → (s.node c).parent ≠ some n := by
        intro c hc hpc
        have := (T.kids n c hn).2 ⟨hc, hpc⟩
        rw [hch'] at this; cases this
      refine ⟨⟨?_, ?_, ?_, ?_, ?_, ?_⟩, ⟨?_, ?_, ?_, ?_, ?_, ?_, mm.1, mm.2⟩, ct, al, fun m => (sm m).2.2.2.2.2.2.2.2, hn0, hch'⟩
      · obtain ⟨r1, r2, r3, r4, r5⟩ := T.root
        obtain ⟨_, _, _, _, _, _, e7, e8, _⟩ := sm 0
        rw [al, if_neg (Ne.symm hn0), e7, e8, ct]
        exact ⟨r1, r2, r3, r4, r5⟩
      · intro m hm; rw [ct] at hm; rw [al]; split
        · rfl
        · exact T.dead m hm
      · intro m hm0 hm
        obtain ⟨a1, a2⟩ := aln m hm
        obtain ⟨q, q1, q2, q3, q4, q5, q6⟩ := T.child m hm0 a1
        obtain ⟨_, _, _, _, _, e6, e7, e8, _⟩ := sm m
        obtain ⟨_, _, _, _, _, f6, _, f8, _⟩ := sm q
        have hqn : q ≠ n := by intro hx; subst hx; exact noKid m a1 q1
        refine ⟨q, by rw [e7]; exact q1, q2, by rw [al, if_neg hqn]; exact q3, by rw [e8]; exact q4,
          by rw [e8, e6, f6]; exact q5, by rw [f8]; exact q6⟩
      · intro q c hq
        obtain ⟨a1, a2⟩ := aln q hq
        have hk := T.kids q c a1
        rw [(sm c).2.2.2.2.2.2.1, al c]
        have hmem : c ∈ (s'.node q).children ↔ c ∈ (s.node q).children ∧ c ≠ n := by
          rw [nd]
          by_cases hqp : q = p
          · subst hqp
            simp
          · rw [if_neg hqp]
            constructor
            · intro hx
              refine ⟨hx, ?_⟩
              intro hcn; subst hcn
              have := (hk.1 hx).2
              rw [hp] at this; cases this; exact hqp rfl
            · exact fun hx => hx.1
        rw [hmem, hk]
        by_cases hcn : c = n
        · subst hcn; simp
        · simp [hcn]
      · intro q hq
        obtain ⟨a1, a2⟩ := aln q hq
        rw [nd]
        split
        · rename_i hqp; subst hqp; exact (T.nodup q a1).filter _
        · exact T.nodup q a1
      · intro c1 c2 q a1 a2 b1 b2 hne
        obtain ⟨_, _, _, _, _, e6, e7, e8, _⟩ := sm c1
        obtain ⟨_, _, _, _, _, f6, f7, f8, _⟩ := sm c2
        rw [e7] at b1; rw [f7] at b2
        rw [e6, e8, f6, f8]
        exact T.disj c1 c2 q (aln c1 a1).1 (aln c2 a2).1 b1 b2 hne
      · intro m _
        obtain ⟨e1, e2, e3, e4, e5, e6, e7, e8, _⟩ := sm m
        exact ⟨e1, e2, e3, e4, e5, e6, e7, e8, rfl⟩
      · intro m hm _; exact (aln m hm).1
      · intro m _ hx; exact hx.elim
      · intro m i a b c
        refine ⟨?_, fun hx => hx⟩
        rw [al, if_neg]; exact a
        intro hx; subst hx
        have := hl b
        unfold Covers at c; omega
      · intro _ _ _ _ _ hx; exact hx
      · exact fun hx => hx

/-! ### clear -/

theorem clear_alone {env : Env V} {s : St V} {st} (T : Tree s st) (halone : ∀ m, s.alive m = true → m = 0) :
    C0 env (upd s 0 clearAllArray) st (fun _ => none) := by
  refine ⟨?_, ?_, ?_⟩
  · intro m hm
    have := halone m hm; subst this
    rw [upd_self]; rfl
  · intro hx; rw [upd_self] at hx; cases hx
  · intro i v _ hv; cases hv


end Verif.Synced
