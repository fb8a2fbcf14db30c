/- alloc, free and every history keep the invariant. -/
import Verif.Alloc.Device

namespace Verif.Alloc

/-! ### free -/

theorem setCache_self (s : St) (b : Bool) (d : Nat) : setCache s b d (s.cache b d) = s := by
  unfold setCache
  have : (fun b' e => if b' = b ∧ e = d then s.cache b d else s.cache b' e) = s.cache := by
    funext b' e
    split
    · rename_i h; rw [h.1, h.2]
    · rfl
  rw [this]

theorem setCache_setCache (s : St) (b : Bool) (d : Nat) (l l') : setCache (setCache s b d l) b d l' = setCache s b d l' := by
  unfold setCache
  congr 1
  funext b' e
  simp only
  split <;> simp_all

theorem tryMerge_setCache (s : St) (b : Bool) (d : Nat) (l) (m : Nat) (o : Option Nat) :
    tryMerge (setCache s b d l) m o = setCache (tryMerge s m o) b d l := by
  unfold tryMerge
  cases o with
  | none => rfl
  | some f =>
    simp only [show (setCache s b d l).mem = s.mem from rfl]
    by_cases h1 : (s.mem f).locked = true
    · simp only [h1, if_true]
    · have h1' : (s.mem f).locked = false := by simpa using h1
      simp only [h1', Bool.false_eq_true, if_false]
      by_cases h2 : (s.mem m).next = some f
      · simp only [h2, if_true]
        simp only [assoc]; cases (s.mem f).next <;> rfl
      · simp only [h2, if_false]
        by_cases h3 : (s.mem m).prev = some f
        · simp only [h3, if_true]
          simp only [assoc]; cases (s.mem f).prev <;> rfl
        · simp only [h3, if_false]; rfl

theorem tryMerge_frame (s : St) (c : Bool → Nat → Int) (l : List (Nat × Nat)) (m : Nat) (o : Option Nat) :
    tryMerge { s with cnt := c, live := l } m o = { tryMerge s m o with cnt := c, live := l } := by
  unfold tryMerge
  cases o with
  | none => rfl
  | some f =>
    show (if (s.mem f).locked then _ else _) = _
    by_cases h1 : (s.mem f).locked = true
    · simp only [h1, if_true]
    · have h1' : (s.mem f).locked = false := by simpa using h1
      simp only [h1', Bool.false_eq_true, if_false]
      by_cases h2 : (s.mem m).next = some f
      · simp only [h2, if_true]
        simp only [assoc]; cases (s.mem f).next <;> rfl
      · simp only [h2, if_false]
        by_cases h3 : (s.mem m).prev = some f
        · simp only [h3, if_true]
          simp only [assoc]; cases (s.mem f).prev <;> rfl
        · simp only [h3, if_false]; rfl

/-- Same place and size. -/
def Fixed (a b : Mem) : Prop := a.null = b.null ∧ a.bytes = b.bytes ∧ a.dev = b.dev ∧ a.chunk = b.chunk ∧ a.off = b.off

/-- What merging with one neighbour achieves. -/
structure Merged (s : St) (m : Nat) (o : Option Nat) (b : Bool) (d : Nat) (lay' : Nat → List Nat) (ρ : Nat → Nat) : Prop where
  full : Full (setCache (tryMerge s m o) b d (tryErase (tryMerge s m o) o (s.cache b d))) lay' (some m) ρ
  dev : ((tryMerge s m o).mem m).dev = d
  locked : ∀ y, ((tryMerge s m o).mem y).locked = (s.mem y).locked
  same : ∀ y, y ≠ m → (o ≠ some y ∨ (s.mem y).locked = true) → Fixed ((tryMerge s m o).mem y) (s.mem y)

theorem tryErase_setCache (s : St) (b : Bool) (d : Nat) (l l') (o : Option Nat) : tryErase (setCache s b d l) o l' = tryErase s o l' := rfl

theorem Full.tryNext {s lay m ρ} (h : Full s lay (some m) ρ) {c A B} (hc : lay c = A ++ m :: B) {b d}
    (hb : b = decide ((s.mem m).bytes ≤ smallAlloc)) (hd : (s.mem m).dev = d) :
    ∃ lay' B', Merged s m (s.mem m).next b d lay' ρ ∧ lay' c = A ++ m :: B' ∧
      (∀ y, B'.head? = some y → (s.mem y).locked = true) := by
  have L := h.st.layout c
  rw [hc] at L
  have nx := L.next_eq
  have nd := L.nodup
  obtain ⟨mA, mB, _, _, AB⟩ := split_facts nd
  rw [nx]
  cases B with
  | nil =>
    refine ⟨lay, [], ⟨?_, hd, fun _ => rfl, fun _ _ _ => ⟨rfl, rfl, rfl, rfl, rfl⟩⟩, hc, fun y hy => by cases hy⟩
    show Full (setCache s b d (s.cache b d)) lay (some m) ρ
    rw [setCache_self]; exact h
  | cons f B =>
    show ∃ lay' B', Merged s m (some f) b d lay' ρ ∧ _
    have fg := L.each f (by simp)
    by_cases hl : (s.mem f).locked = true
    · have e : tryMerge s m (some f) = s := by unfold tryMerge; simp [hl]
      refine ⟨lay, f :: B, ⟨?_, ?_, ?_, ?_⟩, hc, ?_⟩
      · rw [e]
        have : tryErase s (some f) (s.cache b d) = s.cache b d := by unfold tryErase; simp [fg.null]
        rw [this, setCache_self]; exact h
      · rw [e]; exact hd
      · rw [e]; exact fun _ => rfl
      · rw [e]; exact fun _ _ _ => ⟨rfl, rfl, rfl, rfl, rfl⟩
      · intro y hy; simp at hy; rw [← hy]; exact hl
    · have hl' : (s.mem f).locked = false := by simpa using hl
      obtain ⟨_, Mm, Mf, Mo⟩ := h.st.mergeNext hc hl' hb hd
      have F := h.mergeNext hc hl' hb hd
      have hfm : f ≠ m := fun hx => mB (by simp [hx])
      refine ⟨setLay lay c (A ++ m :: B), B, ⟨?_, ?_, ?_, ?_⟩, setLay_self _ _ _, ?_⟩
      · have : tryErase (tryMerge s m (some f)) (some f) (s.cache b d) = erase ((s.mem f).bytes, f) (s.cache b d) := by
          unfold tryErase; simp only [Mf, if_true]
        rw [this]; exact F
      · rw [Mm]; exact hd
      · intro y
        rcases Mo y with e | ⟨p, e⟩ | e | e
        · rw [e]
        · rw [e]
        · subst e; rw [Mm]
        · subst e; rw [Mf]
      · intro y h1 h2
        rcases Mo y with e | ⟨p, e⟩ | e | e
        · rw [e]; exact ⟨rfl, rfl, rfl, rfl, rfl⟩
        · rw [e]; exact ⟨rfl, rfl, rfl, rfl, rfl⟩
        · exact absurd e h1
        · subst e
          rcases h2 with h2 | h2
          · exact absurd rfl h2
          · exact absurd h2 hl
      · intro y hy
        have ch := h.st.nofree c
        rw [hc, List.isChain_append, List.isChain_cons, List.isChain_cons] at ch
        have := ch.2.1.2.1 y hy
        have hym : y ≠ m := fun hx => mB (by simp [← hx, List.mem_of_mem_head? hy])
        rcases this with (a | a) | (a | a)
        · exact absurd a hl
        · cases a; exact absurd rfl hfm
        · exact a
        · cases a; exact absurd rfl hym

theorem Full.tryPrev {s lay m ρ} (h : Full s lay (some m) ρ) {c A B} (hc : lay c = A ++ m :: B) {b d}
    (hb : b = decide ((s.mem m).bytes ≤ smallAlloc)) (hd : (s.mem m).dev = d) :
    ∃ lay' A', Merged s m (s.mem m).prev b d lay' ρ ∧ lay' c = A' ++ m :: B ∧
      (∀ y, A'.getLast? = some y → (s.mem y).locked = true) := by
  have L := h.st.layout c
  rw [hc] at L
  have nx := L.prev_eq
  have nd := L.nodup
  obtain ⟨mA, mB, _, _, AB⟩ := split_facts nd
  rw [nx]
  rcases List.eq_nil_or_concat A with rfl | ⟨A, f, rfl⟩
  · refine ⟨lay, [], ⟨?_, hd, fun _ => rfl, fun _ _ _ => ⟨rfl, rfl, rfl, rfl, rfl⟩⟩, hc, fun y hy => by cases hy⟩
    show Full (setCache s b d (s.cache b d)) lay (some m) ρ
    rw [setCache_self]; exact h
  · have el : (A.concat f).getLast? = some f := by simp
    rw [el]
    have fg := L.each f (by simp)
    by_cases hl : (s.mem f).locked = true
    · have e : tryMerge s m (some f) = s := by unfold tryMerge; simp [hl]
      refine ⟨lay, A.concat f, ⟨?_, ?_, ?_, ?_⟩, hc, ?_⟩
      · rw [e]
        have : tryErase s (some f) (s.cache b d) = s.cache b d := by unfold tryErase; simp [fg.null]
        rw [this, setCache_self]; exact h
      · rw [e]; exact hd
      · rw [e]; exact fun _ => rfl
      · rw [e]; exact fun _ _ _ => ⟨rfl, rfl, rfl, rfl, rfl⟩
      · intro y hy; rw [el] at hy; cases hy; exact hl
    · have hl' : (s.mem f).locked = false := by simpa using hl
      have hc' : lay c = A ++ f :: m :: B := by rw [hc]; simp
      obtain ⟨_, Mm, Mf, Mo⟩ := h.st.mergePrev hc' hl' hb hd
      have F := h.mergePrev hc' hl' hb hd
      have hfm : f ≠ m := fun hx => mA (by simp [hx])
      refine ⟨setLay lay c (A ++ m :: B), A, ⟨?_, ?_, ?_, ?_⟩, setLay_self _ _ _, ?_⟩
      · have : tryErase (tryMerge s m (some f)) (some f) (s.cache b d) = erase ((s.mem f).bytes, f) (s.cache b d) := by
          unfold tryErase; simp only [Mf, if_true]
        rw [this]; exact F
      · rw [Mm]; exact hd
      · intro y
        rcases Mo y with e | ⟨p, e⟩ | e | e
        · rw [e]
        · rw [e]
        · subst e; rw [Mm]
        · subst e; rw [Mf]
      · intro y h1 h2
        rcases Mo y with e | ⟨p, e⟩ | e | e
        · rw [e]; exact ⟨rfl, rfl, rfl, rfl, rfl⟩
        · rw [e]; exact ⟨rfl, rfl, rfl, rfl, rfl⟩
        · exact absurd e h1
        · subst e
          rcases h2 with h2 | h2
          · exact absurd rfl h2
          · exact absurd h2 hl
      · intro y hy
        have ch := h.st.nofree c
        rw [hc', List.isChain_append] at ch
        have := ch.2.2 y hy f rfl
        have hym : y ≠ m := fun hx => mA (by simp [← hx, List.mem_of_getLast? hy])
        rcases this with (a | a) | (a | a)
        · exact a
        · cases a; exact absurd rfl hym
        · exact absurd a hl
        · cases a; exact absurd rfl hfm

theorem free_eq (s : St) (m : Nat) :
    free s m =
      let u := unlockSt s m
      let small := decide ((s.mem m).bytes ≤ smallAlloc)
      let d := (s.mem m).dev
      let n := (s.mem m).next
      let s1 := tryMerge u m n
      let p := (s1.mem m).prev
      let s2 := tryMerge s1 m p
      let l := tryErase s2 p (tryErase s2 n (s2.cache small d))
      setCache s2 small d (erase ((s2.mem m).bytes, m) l ++ [((s2.mem m).bytes, m)]) := by
  have e0 : ∀ y, (updM s m (fun x => { x with locked := false })).mem y = { s.mem y with locked := if y = m then false else (s.mem y).locked } :=
    fun y => updM_locked_mem s m false y
  unfold free unlockSt
  simp only [e0]
  simp only [tryMerge_frame]
  have h1 := (tryMerge_rest (updM s m (fun x => { x with locked := false })) m (s.mem m).next)
  have h2 := (tryMerge_rest (tryMerge (updM s m (fun x => { x with locked := false })) m (s.mem m).next) m
    ((tryMerge (updM s m (fun x => { x with locked := false })) m (s.mem m).next).mem m).prev)
  obtain ⟨_, _, _, _, _, _, a7, a8, _, _⟩ := h1.trans h2
  have te : ∀ (t : St) c l o q, tryErase { t with cnt := c, live := l } o q = tryErase t o q := fun _ _ _ _ _ => rfl
  simp only [te]
  unfold setCache
  simp only [a7, a8]
  generalize (tryMerge (tryMerge (updM s m (fun x => { x with locked := false })) m (s.mem m).next) m
    ((tryMerge (updM s m (fun x => { x with locked := false })) m (s.mem m).next).mem m).prev) = s2
  congr 1

theorem Full.free {s lay ρ} (h : Full s lay none ρ) {m : Nat} (hm : m ∈ s.live.map (·.1)) :
    ∃ lay', Full (free s m) lay' none ρ ∧
      (∀ y, (s.mem y).locked = true → y ≠ m → Fixed ((free s m).mem y) (s.mem y)) := by
  have U := h.unlock hm
  have hu : ∀ y, (unlockSt s m).mem y = { s.mem y with locked := if y = m then false else (s.mem y).locked } :=
    fun y => updM_locked_mem _ m false y
  rw [free_eq]
  simp only
  have e1 : (s.mem m).bytes = ((unlockSt s m).mem m).bytes := by rw [hu]
  have e2 : (s.mem m).dev = ((unlockSt s m).mem m).dev := by rw [hu]
  have e3 : (s.mem m).next = ((unlockSt s m).mem m).next := by rw [hu]
  have e4 : ∀ y, (s.mem y).locked = true → y ≠ m → Fixed ((unlockSt s m).mem y) (s.mem y) ∧ ((unlockSt s m).mem y).locked = true := by
    intro y h1 h2; rw [hu, if_neg h2]; exact ⟨⟨rfl, rfl, rfl, rfl, rfl⟩, h1⟩
  rw [e1, e2, e3]
  generalize unlockSt s m = u at *
  obtain ⟨⟨c, mc⟩, ml⟩ := U.st.hand m rfl
  obtain ⟨A, B, hc⟩ := List.mem_iff_append.1 mc
  generalize hbb : decide ((u.mem m).bytes ≤ smallAlloc) = b
  generalize hdd : (u.mem m).dev = d
  obtain ⟨lay1, B', M1, hc1, hB1⟩ := U.tryNext hc hbb.symm hdd
  have r1 := tryMerge_rest u m (u.mem m).next
  generalize hn : (u.mem m).next = n at *
  generalize hs1 : tryMerge u m n = s1 at *
  generalize hL : tryErase s1 n (u.cache b d) = L1 at *
  have F1 := M1.full
  rw [hs1, hL] at F1
  have mc1 : m ∈ lay1 c := by rw [hc1]; simp
  have cls1 : b = decide ((s1.mem m).bytes ≤ smallAlloc) := by
    have c1 := F1.st.cls mc1
    have c0 := U.st.cls mc
    rw [← hbb, c0]
    refine Eq.trans ?_ c1.symm
    show _ = decide (s1.chunkSize c ≤ smallAlloc)
    rw [r1.2.1]
  have dev1 : (s1.mem m).dev = d := by have := M1.dev; rw [hs1] at this; exact this
  obtain ⟨lay2, A', M2, hc2, hA2⟩ := Full.tryPrev F1 hc1 cls1 dev1
  have ps : ((setCache s1 b d L1).mem m).prev = (s1.mem m).prev := rfl
  have npe : ∀ y, n = some y → (s1.mem m).prev ≠ some y := by
    intro y hy hp
    have LU := U.st.layout c
    rw [hc] at LU
    have L1' := F1.st.layout c
    rw [hc1] at L1'
    have h1 := LU.next_eq
    have h2 := L1'.prev_eq
    rw [ps, hp] at h2
    rw [hn, hy] at h1
    exact (split_facts LU.nodup).2.2.2.2 y (List.mem_of_getLast? h2.symm) (List.mem_of_mem_head? h1.symm)
  have nme : ∀ y, n = some y → y ≠ m := by
    intro y hy hx
    have LU := U.st.layout c
    rw [hc] at LU
    have h1 := LU.next_eq
    rw [hn, hy] at h1
    exact (split_facts LU.nodup).2.1 (hx ▸ List.mem_of_mem_head? h1.symm)
  obtain ⟨F2, dev2, lk2, same2⟩ := M2
  rw [ps] at F2 dev2 lk2 same2
  generalize hp : (s1.mem m).prev = p at *
  rw [tryMerge_setCache] at F2 dev2 lk2 same2
  have r2 := tryMerge_rest s1 m p
  generalize hs2 : tryMerge s1 m p = s2 at *
  rw [setCache_cache, if_pos ⟨rfl, rfl⟩, setCache_setCache, tryErase_setCache] at F2
  have te : tryErase s2 n (s2.cache b d) = L1 := by
    rw [← hL, r2.2.2.2.1, r1.2.2.2.1]
    cases hno : n with
    | none => rfl
    | some y =>
      have := same2 y (nme y hno) (Or.inl (fun hx => npe y hno hx))
      have t1 : (s2.mem y).null = (s1.mem y).null := this.1
      have t2 : (s2.mem y).bytes = (s1.mem y).bytes := this.2.1
      unfold tryErase
      simp only
      rw [t1, t2]
  rw [te]
  have mc2 : m ∈ lay2 c := by rw [hc2]; simp
  have cls2 : b = decide ((s2.mem m).bytes ≤ smallAlloc) := by
    have c1 := F1.st.cls mc1
    have c2 := F2.st.cls mc2
    rw [cls1]
    refine Eq.trans c1 (Eq.trans ?_ c2.symm)
    show decide (s1.chunkSize c ≤ smallAlloc) = decide (s2.chunkSize c ≤ smallAlloc)
    rw [r2.2.1]
  have lk1 : ∀ y, (s1.mem y).locked = (u.mem y).locked := by
    intro y; have := M1.locked y; rw [hs1] at this; exact this
  have lk2' : ∀ y, (s2.mem y).locked = (s1.mem y).locked := fun y => lk2 y
  have := F2.put hc2 (fun y hy => by
      show (s2.mem y).locked = true
      rw [lk2']; exact hA2 y hy) (fun y hy => by
      show (s2.mem y).locked = true
      rw [lk2', lk1]; exact hB1 y hy) (b := b) (d := d) cls2 dev2
  rw [setCache_setCache, setCache_cache, if_pos ⟨rfl, rfl⟩] at this
  refine ⟨lay2, this, ?_⟩
  intro y h1 h2
  obtain ⟨f1, l1⟩ := e4 y h1 h2
  have f2 := M1.same y h2 (Or.inr l1)
  rw [hs1] at f2
  have f3 : Fixed (s2.mem y) (s1.mem y) := same2 y h2 (Or.inr (by
    show (s1.mem y).locked = true
    rw [lk1]; exact l1))
  show Fixed (s2.mem y) (s.mem y)
  exact ⟨f3.1.trans (f2.1.trans f1.1), f3.2.1.trans (f2.2.1.trans f1.2.1), f3.2.2.1.trans (f2.2.2.1.trans f1.2.2.1),
    f3.2.2.2.1.trans (f2.2.2.2.1.trans f1.2.2.2.1), f3.2.2.2.2.trans (f2.2.2.2.2.trans f1.2.2.2.2)⟩

/-! ### alloc -/

theorem lowerBound_spec (addr : Nat → Nat) (bytes : Nat) (l : List (Nat × Nat)) :
    (∀ k, lowerBound addr bytes l = some k → k ∈ l ∧ bytes ≤ k.1 ∧ ∀ j ∈ l, bytes ≤ j.1 → k.1 ≤ j.1) ∧
    (lowerBound addr bytes l = none → ∀ j ∈ l, j.1 < bytes) := by
  induction l with
  | nil => exact ⟨fun k hk => (by cases hk), fun _ j hj => (by cases hj)⟩
  | cons a l ih =>
    simp only [lowerBound]
    by_cases ha : a.1 < bytes
    · rw [if_pos ha]
      refine ⟨fun k hk => ?_, fun hn j hj => ?_⟩
      · obtain ⟨h1, h2, h3⟩ := ih.1 k hk
        refine ⟨by simp [h1], h2, fun j hj hb => ?_⟩
        rcases List.mem_cons.1 hj with hj | hj
        · subst hj; omega
        · exact h3 j hj hb
      · rcases List.mem_cons.1 hj with hj | hj
        · subst hj; exact ha
        · exact ih.2 hn j hj
    · rw [if_neg ha]
      cases hb : lowerBound addr bytes l with
      | none =>
        have := ih.2 hb
        refine ⟨fun k hk => ?_, fun hn => by cases hn⟩
        cases hk
        refine ⟨by simp, by omega, fun j hj hbj => ?_⟩
        rcases List.mem_cons.1 hj with hj | hj
        · rw [hj]
        · have := this j hj; omega
      | some k =>
        obtain ⟨h1, h2, h3⟩ := ih.1 k hb
        simp only
        split
        · rename_i hc
          refine ⟨fun k' hk => ?_, fun hn => by cases hn⟩
          cases hk
          refine ⟨by simp, by omega, fun j hj hbj => ?_⟩
          rcases List.mem_cons.1 hj with hj | hj
          · rw [hj]
          · have := h3 j hj hbj; omega
        · rename_i hc
          refine ⟨fun k' hk => ?_, fun hn => by cases hn⟩
          cases hk
          refine ⟨by simp [h1], h2, fun j hj hbj => ?_⟩
          rcases List.mem_cons.1 hj with hj | hj
          · rw [hj]; omega
          · exact h3 j hj hbj

theorem le_roundSize (n : Nat) : n ≤ roundSize n ∧ 0 < roundSize n := by
  unfold roundSize roundSmall smallAlloc roundLarge
  split
  · omega
  · split <;> omega

/-- A block in the allocator's hands that serves a request. -/
structure Served (s s' : St) (lay : Nat → List Nat) (m bytes d : Nat) (small : Bool) : Prop where
  full : Full s' lay (some m) (fun _ => 0)
  bytes : bytes ≤ (s'.mem m).bytes
  dev : (s'.mem m).dev = d
  cls : small = decide ((s'.mem m).bytes ≤ smallAlloc)
  right : ∀ c A B, lay c = A ++ m :: B → ∀ y, B.head? = some y → (s'.mem y).locked = true
  live : s'.live = s.live
  fixed : ∀ y, y < s.count → s'.mem y = s.mem y
  unlocked : (s'.mem m).locked = false

theorem Full.served {s lay} (h : Full s lay none (fun _ => 0)) (addr : Nat → Nat) {bytes d : Nat} {small ok1 ok2 : Bool}
    (hb : 0 < bytes) (hs : small = decide (bytes ≤ smallAlloc)) :
    match obtain addr s bytes d small ok1 ok2 with
    | (none, s1) => (∃ lay1, Full s1 lay1 none (fun _ => 0)) ∧ Kept s s1
    | (some m, s1) => ∃ lay1, Served s s1 lay1 m bytes d small := by
  unfold obtain
  have spec := lowerBound_spec addr bytes (s.cache small d)
  cases hl : lowerBound addr bytes (s.cache small d) with
  | some k =>
    obtain ⟨h1, h2, h3⟩ := spec.1 k hl
    have hk := (h.st.cache small d k).1 h1
    refine ⟨lay, h.take h1, ?_, hk.2.2.2.1, hk.2.2.2.2, ?_, rfl, fun _ _ => rfl, ?_⟩
    · show bytes ≤ (s.mem k.2).bytes
      rw [← hk.2.2.1]; exact h2
    · intro c A B hc y hy
      have kl : (s.mem k.2).locked = false := by
        have := hk.2.1
        unfold busy at this
        simpa using this
      exact (h.st.neighbours hc kl).2 y hy
    · have := hk.2.1
      unfold busy at this
      show (s.mem k.2).locked = false
      simpa using this
  | none =>
    simp only
    unfold newMemory
    simp only
    have F : ∃ lay1, Full (if ok1 then s else Alloc.freeUnused s d) lay1 none (fun _ => 0) ∧
        Kept s (if ok1 then s else Alloc.freeUnused s d) := by
      cases ok1 with
      | true => exact ⟨lay, h, Kept.refl s⟩
      | false =>
        obtain ⟨lay1, F, K, _⟩ := h.freeUnused d
        exact ⟨lay1, F, K⟩
    obtain ⟨lay1, F, K⟩ := F
    generalize (if ok1 then s else Alloc.freeUnused s d) = s1 at *
    by_cases hok : (ok1 || ok2) = true
    · rw [if_pos hok]
      simp only
      generalize hbb : (if small = true then smallAlloc else bytes) = b0
      have hb0 : bytes ≤ b0 ∧ 0 < b0 ∧ small = decide (b0 ≤ smallAlloc) := by
        cases small with
        | true =>
          have := of_decide_eq_true hs.symm
          rw [← hbb]; simp; exact ⟨this, by unfold smallAlloc; omega⟩
        | false =>
          have := (decide_eq_false_iff_not.1 hs.symm)
          rw [← hbb]; simp; exact ⟨hb, by omega⟩
      have hmx : max b0 1 = b0 := by omega
      rw [hmx]
      have Mn : (freshSt s1 b0 d).mem s1.count = ⟨d, s1.chunks, 0, b0, false, false, none, none⟩ := by
        show (if s1.count = s1.count then _ else s1.mem s1.count) = _; rw [if_pos rfl]
      refine ⟨_, F.fresh b0 d hb0.2.1, ?_, ?_, ?_, ?_, K.live, ?_, ?_⟩
      · show bytes ≤ ((freshSt s1 b0 d).mem s1.count).bytes
        rw [Mn]; exact hb0.1
      · show ((freshSt s1 b0 d).mem s1.count).dev = d
        rw [Mn]
      · show small = decide (((freshSt s1 b0 d).mem s1.count).bytes ≤ smallAlloc)
        rw [Mn]; exact hb0.2.2
      · intro c A B hc y hy
        have F' := F.fresh b0 d hb0.2.1
        have e : c = s1.chunks := by
          refine F'.st.unique (m := s1.count) (by rw [hc]; simp) (by rw [setLay_self]; simp)
        rw [e, setLay_self] at hc
        have : B = [] := by
          have := congrArg List.length hc
          simp at this
          exact List.length_eq_zero_iff.1 (by omega)
        rw [this] at hy; cases hy
      · intro y hy
        show (if y = s1.count then _ else s1.mem y) = _
        rw [K.count, if_neg (by omega), K.mem]
      · show ((freshSt s1 b0 d).mem s1.count).locked = false
        rw [Mn]
    · rw [if_neg hok]
      exact ⟨⟨lay1, F⟩, K⟩

/-- A block cut to size. -/
structure Cut (s s' : St) (lay : Nat → List Nat) (m bytes d : Nat) : Prop where
  full : Full s' lay (some m) (fun _ => 0)
  bytes : bytes ≤ (s'.mem m).bytes
  dev : (s'.mem m).dev = d
  live : s'.live = s.live
  fixed : ∀ y, y < s.count → y ≠ m → Fixed (s'.mem y) (s.mem y)

theorem Served.cut {s s1 lay1 m bytes d small} (S : Served s s1 lay1 m bytes d small) (hb : 0 < bytes)
    (hs : small = decide (bytes ≤ smallAlloc)) (hcnt : s.count ≤ s1.count) :
    ∃ lay2, Cut s (split s1 m bytes d small) lay2 m bytes d := by
  unfold Alloc.split
  by_cases hge' : (if small = true then roundSmall else smallAlloc + 1) ≤ (s1.mem m).bytes - bytes
  · rw [if_pos hge']
    simp only
    obtain ⟨c, mc⟩ := (S.full.st.hand m rfl).1
    obtain ⟨A, B, hc⟩ := List.mem_iff_append.1 mc
    have lt : ∀ y, InLay lay1 y → y < s1.count := fun y ⟨c', hy⟩ => ((S.full.st.layout c').each y hy).lt
    have L := S.full.st.layout c
    have mlt := lt m ⟨c, mc⟩
    rw [hc] at L
    have hh : ∀ h, (s1.mem m).next = some h → h ≠ s1.count ∧ h ≠ m := by
      intro y hy
      rw [L.next_eq] at hy
      have hyB : y ∈ B := List.mem_of_mem_head? hy
      have := lt y ⟨c, by rw [hc]; simp [hyB]⟩
      refine ⟨by omega, fun hx => (split_facts L.nodup).2.1 (hx ▸ hyB)⟩
    have Mn : ((divide s1 m bytes).mem s1.count).bytes = (s1.mem m).bytes - bytes := by
      rw [divide_mem s1 m bytes (by omega) hh, if_pos rfl]
    have Mm : (divide s1 m bytes).mem m = { s1.mem m with bytes := bytes, next := some s1.count } := by
      rw [divide_mem s1 m bytes (by omega) hh, if_neg (by omega), if_pos rfl]
    have rm : 0 < (s1.mem m).bytes - bytes := by
      have : 0 < (if small = true then roundSmall else smallAlloc + 1) := by
        cases small <;> simp [roundSmall]
      omega
    have hl : smallAlloc < s1.chunkSize c → smallAlloc < bytes ∧ smallAlloc < (s1.mem m).bytes - bytes := by
      intro hx
      have g := (S.full.st.layout c).each m mc
      have := g.large hx
      have hsm : small = false := by rw [S.cls]; simp; exact this
      rw [hsm] at hs hge'
      have := decide_eq_false_iff_not.1 hs.symm
      simp at hge'
      omega
    have F := S.full.split hc (S.right c A B hc) hb (by omega) hl S.cls S.dev
    have r := divide_rest s1 m bytes
    rw [Mn, r.2.2.2.1]
    refine ⟨_, F, ?_, ?_, ?_, ?_⟩
    · show bytes ≤ ((divide s1 m bytes).mem m).bytes
      rw [Mm]
    · show ((divide s1 m bytes).mem m).dev = d
      rw [Mm]; exact S.dev
    · show (divide s1 m bytes).live = s.live
      rw [r.2.2.2.2.2.2.1, S.live]
    · intro y hy hym
      show Fixed ((divide s1 m bytes).mem y) (s.mem y)
      rw [divide_mem s1 m bytes (by omega) hh, if_neg (by omega), if_neg hym, ← S.fixed y hy]
      split <;> exact ⟨rfl, rfl, rfl, rfl, rfl⟩
  · rw [if_neg hge']
    exact ⟨lay1, S.full, S.bytes, S.dev, S.live, fun y hy _ => by rw [S.fixed y hy]; exact ⟨rfl, rfl, rfl, rfl, rfl⟩⟩

theorem newMemory_count (s : St) (bytes d : Nat) (ok1 ok2 : Bool) {lay} (h : Full s lay none (fun _ => 0)) :
    s.count ≤ (newMemory s bytes d ok1 ok2).2.count := by
  unfold newMemory
  simp only
  have : (if ok1 then s else Alloc.freeUnused s d).count = s.count := by
    cases ok1 with
    | true => rfl
    | false => obtain ⟨_, _, K, _⟩ := h.freeUnused d; exact K.count
  split
  · show s.count ≤ (if ok1 then s else Alloc.freeUnused s d).count + 1
    omega
  · show s.count ≤ (if ok1 then s else Alloc.freeUnused s d).count
    omega

theorem obtain_count (addr : Nat → Nat) (s : St) (bytes d : Nat) (small ok1 ok2 : Bool) {lay} (h : Full s lay none (fun _ => 0)) :
    s.count ≤ (obtain addr s bytes d small ok1 ok2).2.count := by
  unfold obtain
  split
  · exact Nat.le_refl _
  · exact newMemory_count s _ d ok1 ok2 h

/-- alloc keeps the invariant; the other handles stay where they are. -/
theorem Full.alloc {s lay} (h : Full s lay none (fun _ => 0)) (addr : Nat → Nat) (req d : Nat) (ok1 ok2 : Bool) :
    ∃ lay', Full (alloc addr s req d ok1 ok2).2 lay' none (fun _ => 0) ∧
      (∀ y, (s.mem y).locked = true → InLay lay y → Fixed ((alloc addr s req d ok1 ok2).2.mem y) (s.mem y)) ∧
      (∀ m, (alloc addr s req d ok1 ok2).1 = some m → (alloc addr s req d ok1 ok2).2.live = s.live ++ [(m, req)] ∧
        ((alloc addr s req d ok1 ok2).2.mem m).dev = d) ∧
      ((alloc addr s req d ok1 ok2).1 = none → (alloc addr s req d ok1 ok2).2.live = s.live) := by
  have hr := le_roundSize (max req 1)
  unfold Alloc.alloc
  simp only
  generalize roundSize (max req 1) = bytes at *
  generalize hs : decide (bytes ≤ smallAlloc) = small
  have S := h.served addr (bytes := bytes) (d := d) (small := small) (ok1 := ok1) (ok2 := ok2) hr.2 hs.symm
  have C := obtain_count addr s bytes d small ok1 ok2 h
  cases ho : obtain addr s bytes d small ok1 ok2 with
  | mk o s1 =>
    rw [ho] at S C
    cases o with
    | none =>
      obtain ⟨⟨lay1, F⟩, K⟩ := S
      refine ⟨lay1, F, ?_, ?_, fun _ => K.live⟩
      · intro y _ _
        show Fixed (s1.mem y) (s.mem y)
        rw [K.mem]; exact ⟨rfl, rfl, rfl, rfl, rfl⟩
      · intro m hm; cases hm
    | some m =>
      obtain ⟨lay1, S⟩ := S
      have ml := S.unlocked
      obtain ⟨lay2, T⟩ := S.cut hr.2 hs.symm C
      simp only
      generalize Alloc.split s1 m bytes d small = s2 at *
      have R := T.full.lock (req := req) (d := d) (by have := T.bytes; omega) T.dev
      refine ⟨lay2, R, ?_, ?_, fun hx => by cases hx⟩
      · intro y hy hin
        show Fixed ((lockSt s2 m req d).mem y) (s.mem y)
        have e : (lockSt s2 m req d).mem y = { s2.mem y with locked := if y = m then true else (s2.mem y).locked } :=
          updM_locked_mem _ m true y
        obtain ⟨c', hc'⟩ := hin
        have ylt := ((h.st.layout c').each y hc').lt
        have hym : y ≠ m := by
          intro hx
          rw [← hx, S.fixed y ylt, hy] at ml; cases ml
        have := T.fixed y ylt hym
        rw [e]; exact this
      · intro m' hm'
        cases hm'
        refine ⟨?_, ?_⟩
        · show s2.live ++ [(m, req)] = _
          rw [T.live]
        · show ((lockSt s2 m req d).mem m).dev = d
          have e : (lockSt s2 m req d).mem m = { s2.mem m with locked := if m = m then true else (s2.mem m).locked } :=
            updM_locked_mem _ m true m
          rw [e]; exact T.dev

/-! ### all calls, all histories -/

theorem Full.freeUnusedAll_go {s lay} (ds : List Nat) (h : Full s lay none (fun _ => 0)) :
    ∃ lay', Full (ds.foldl Alloc.freeUnused s) lay' none (fun _ => 0) ∧ Kept s (ds.foldl Alloc.freeUnused s) ∧
      (∀ b e k, k ∈ (ds.foldl Alloc.freeUnused s).cache b e ↔ k ∈ s.cache b e ∧ ¬ (e ∈ ds ∧ whole s k)) := by
  induction ds generalizing s lay with
  | nil => exact ⟨lay, h, Kept.refl s, by simp⟩
  | cons d ds ih =>
    obtain ⟨lay1, F, K, C, _⟩ := h.freeUnused d
    obtain ⟨lay2, F2, K2, C2⟩ := ih F
    refine ⟨lay2, F2, K.trans K2, ?_⟩
    intro b e k
    have wh : whole (Alloc.freeUnused s d) k ↔ whole s k := by unfold whole; rw [K.mem]
    rw [List.foldl_cons, C2, C, wh, List.mem_cons]
    constructor
    · rintro ⟨⟨a1, a2⟩, a3⟩
      exact ⟨a1, fun ⟨a4, a5⟩ => a4.elim (fun x => a2 ⟨x, a5⟩) (fun x => a3 ⟨x, a5⟩)⟩
    · rintro ⟨a1, a2⟩
      exact ⟨⟨a1, fun a3 => a2 ⟨Or.inl a3.1, a3.2⟩⟩, fun a3 => a2 ⟨Or.inr a3.1, a3.2⟩⟩

/-- The invariant between calls. -/
def Inv (s : St) : Prop := ∃ lay, Full s lay none (fun _ => 0)

theorem inv_init : Inv init := by
  refine ⟨fun _ => [], ?_⟩
  constructor
  · constructor
    · intro c
      exact ⟨List.isChain_nil, (by intro a ha; cases ha), (by intro a ha; cases ha), (by intro a ha; cases ha)⟩
    · intro c; simp [init]
    · intro c _; rfl
    · intro c; exact List.isChain_nil
    · intro b d; exact List.nodup_nil
    · intro b d k
      constructor
      · intro hx; cases hx
      · rintro ⟨⟨c, hx⟩, _⟩; cases hx
    · intro m hm; cases hm
  · exact List.nodup_nil
  · intro m
    constructor
    · intro hx; cases hx
    · rintro ⟨⟨c, hx⟩, _⟩; cases hx
  · intro k hk; cases hk
  · intro b d; rfl
  · intro d; rfl
  · intro d; rfl
  · intro c hc; cases hc

theorem inv_step (addr : Nat → Nat) {s : St} (h : Inv s) (o : Op) : Inv (step addr s o) := by
  obtain ⟨lay, h⟩ := h
  cases o with
  | alloc req d ok1 ok2 => obtain ⟨l, F, _⟩ := h.alloc addr req d ok1 ok2; exact ⟨l, F⟩
  | free m =>
    show Inv (if m ∈ s.live.map (·.1) then Alloc.free s m else s)
    split
    · rename_i hm; obtain ⟨l, F, _⟩ := h.free hm; exact ⟨l, F⟩
    · exact ⟨lay, h⟩
  | freeUnused d => obtain ⟨l, F, _⟩ := h.freeUnused d; exact ⟨l, F⟩
  | freeUnusedAll => obtain ⟨l, F, _⟩ := Full.freeUnusedAll_go s.known h; exact ⟨l, F⟩

theorem inv_run (addr : Nat → Nat) {s : St} (h : Inv s) (ops : List Op) : Inv (run addr s ops) := by
  unfold run
  induction ops generalizing s with
  | nil => exact h
  | cons o ops ih => exact ih (inv_step addr h o)

end Verif.Alloc
