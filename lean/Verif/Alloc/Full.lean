/- Handles and accounting on top of the structural invariant. `ρ d`: bytes already returned to device `d` but
still counted. -/
import Verif.Alloc.Merge

namespace Verif.Alloc

def csum (l : List (Nat × Nat)) : Nat := (l.map (·.1)).sum
/-- Bytes in the pools of a device. -/
def cs (s : St) (d : Nat) : Nat := csum (s.cache true d) + csum (s.cache false d)
/-- Bytes handed out on a device. -/
def liveB (s : St) (d : Nat) : Nat := (s.live.map (fun h => if (s.mem h.1).dev = d then (s.mem h.1).bytes else 0)).sum
def handB (s : St) (x : Option Nat) (d : Nat) : Nat :=
  match x with
  | none => 0
  | some m => if (s.mem m).dev = d then (s.mem m).bytes else 0
/-- Bytes obtained from a device and not returned. -/
def devB (s : St) (d : Nat) : Nat :=
  ((List.range s.chunks).map (fun c => if s.returned c = false ∧ s.chunkDev c = d then s.chunkSize c else 0)).sum

def isCls (s : St) (b : Bool) (d : Nat) (h : Nat × Nat) : Bool :=
  decide ((s.mem h.1).dev = d) && (decide ((s.mem h.1).bytes ≤ smallAlloc) == b)

structure Full (s : St) (lay : Nat → List Nat) (x : Option Nat) (ρ : Nat → Nat) : Prop where
  st : Struct s lay x
  ids : (s.live.map (·.1)).Nodup
  live : ∀ m, m ∈ s.live.map (·.1) ↔ InLay lay m ∧ (s.mem m).locked = true
  req : ∀ h ∈ s.live, h.2 ≤ (s.mem h.1).bytes
  cnt : ∀ b d, s.cnt b d = (s.live.countP (isCls s b d) : Nat)
  acct : ∀ d, s.used d = ((liveB s d + cs s d + handB s x d + ρ d : Nat) : Int)
  dev : ∀ d, s.used d = ((devB s d + ρ d : Nat) : Int)
  known : ∀ c < s.chunks, s.chunkDev c ∈ s.known

theorem csum_append (a b) : csum (a ++ b) = csum a + csum b := by simp [csum]

theorem csum_erase {l : List (Nat × Nat)} {k} (nd : l.Nodup) (hk : k ∈ l) : csum l = k.1 + csum (erase k l) := by
  induction l with
  | nil => cases hk
  | cons a l ih =>
    rw [List.nodup_cons] at nd
    by_cases ha : a = k
    · subst ha
      have : erase a l = l := by
        unfold erase; rw [List.filter_eq_self]
        intro y hy; simp; intro hx; exact nd.1 (hx ▸ hy)
      have e : erase a (a :: l) = erase a l := by simp [erase]
      rw [e, this]; simp [csum]
    · have hk' : k ∈ l := by
        rcases List.mem_cons.1 hk with h | h
        · exact absurd h.symm ha
        · exact h
      have e : erase k (a :: l) = a :: erase k l := by simp [erase, ha]
      rw [e]
      have := ih nd.2 hk'
      simp only [csum, List.map_cons, List.sum_cons] at *
      omega

theorem erase_notin {l : List (Nat × Nat)} {k} (hk : k ∉ l) : erase k l = l := by
  unfold erase; rw [List.filter_eq_self]
  intro y hy; simp; intro hx; exact hk (hx ▸ hy)

theorem cs_setCache (s : St) (b : Bool) (d : Nat) (l : List (Nat × Nat)) (d' : Nat) :
    cs (setCache s b d l) d' + (if d' = d then csum (s.cache b d) else 0) = cs s d' + (if d' = d then csum l else 0) := by
  unfold cs
  rw [setCache_cache, setCache_cache]
  by_cases hd : d' = d
  · subst hd
    cases b <;> simp <;> omega
  · simp [hd]

/-- Changes that do not touch handles and chunks. -/
theorem Full.frame {s s' : St} {lay lay' : Nat → List Nat} {x x' : Option Nat} {ρ} (h : Full s lay x ρ)
    (st : Struct s' lay' x')
    (r : s'.live = s.live ∧ s'.cnt = s.cnt ∧ s'.used = s.used ∧ s'.known = s.known ∧ s'.chunks = s.chunks ∧
      s'.chunkSize = s.chunkSize ∧ s'.chunkDev = s.chunkDev ∧ s'.returned = s.returned)
    (hm : ∀ m, InLay lay m → (s.mem m).locked = true →
      (s'.mem m).bytes = (s.mem m).bytes ∧ (s'.mem m).dev = (s.mem m).dev)
    (hl : ∀ m, (InLay lay' m ∧ (s'.mem m).locked = true) ↔ (InLay lay m ∧ (s.mem m).locked = true))
    (hs : ∀ d, cs s' d + handB s' x' d = cs s d + handB s x d) : Full s' lay' x' ρ := by
  obtain ⟨r1, r2, r3, r4, r5, r6, r7, r8⟩ := r
  have hm' : ∀ h' ∈ s.live, (s'.mem h'.1).bytes = (s.mem h'.1).bytes ∧ (s'.mem h'.1).dev = (s.mem h'.1).dev := by
    intro h' hh'
    have := (h.live h'.1).1 (List.mem_map_of_mem hh')
    exact hm h'.1 this.1 this.2
  have eL : ∀ d, liveB s' d = liveB s d := by
    intro d
    unfold liveB
    rw [r1]
    congr 1
    apply List.map_congr_left
    intro h' hh'
    rw [(hm' h' hh').1, (hm' h' hh').2]
  refine ⟨st, by rw [r1]; exact h.ids, ?_, ?_, ?_, ?_, ?_, ?_⟩
  · intro m; rw [r1, h.live m, hl m]
  · intro h' hh'; rw [r1] at hh'; rw [(hm' h' hh').1]; exact h.req h' hh'
  · intro b d
    rw [r2, h.cnt b d, r1]
    congr 1
    apply List.countP_congr
    intro h' hh'
    unfold isCls
    rw [(hm' h' hh').1, (hm' h' hh').2]
  · intro d
    rw [r3, h.acct d, eL d]
    have := hs d
    congr 1
    omega
  · intro d
    rw [r3, h.dev d]
    unfold devB; rw [r5, r6, r7, r8]
  · intro c hc
    rw [r5] at hc; rw [r7, r4]; exact h.known c hc

theorem Full.take {s lay ρ} (h : Full s lay none ρ) {b d k} (hk : k ∈ s.cache b d) :
    Full (setCache s b d (erase k (s.cache b d))) lay (some k.2) ρ := by
  refine h.frame (h.st.take hk) ⟨rfl, rfl, rfl, rfl, rfl, rfl, rfl, rfl⟩ (fun _ _ _ => ⟨rfl, rfl⟩) (fun _ => Iff.rfl) ?_
  intro d'
  have h1 := cs_setCache s b d (erase k (s.cache b d)) d'
  have h2 := csum_erase (h.st.nodup b d) hk
  have h3 := (h.st.cache b d k).1 hk
  unfold handB
  simp only
  show _ + (if (s.mem k.2).dev = d' then (s.mem k.2).bytes else 0) = _
  rw [h3.2.2.2.1, ← h3.2.2.1]
  by_cases hd : d' = d
  · subst hd; simp only [if_true] at *; omega
  · have hd' : ¬ d = d' := fun hx => hd hx.symm
    rw [if_neg hd'] at *; rw [if_neg hd] at h1; rw [if_neg hd] at h1; omega

theorem Full.put {s lay m ρ} (h : Full s lay (some m) ρ) {c A B} (hc : lay c = A ++ m :: B)
    (hA : ∀ a, A.getLast? = some a → (s.mem a).locked = true) (hB : ∀ b, B.head? = some b → (s.mem b).locked = true)
    {b d} (hb : b = decide ((s.mem m).bytes ≤ smallAlloc)) (hd : (s.mem m).dev = d) :
    Full (setCache s b d (erase ((s.mem m).bytes, m) (s.cache b d) ++ [((s.mem m).bytes, m)])) lay none ρ := by
  refine h.frame (h.st.put hc hA hB hb hd (s.cache b d) (fun _ => Iff.rfl) (h.st.nodup b d))
    ⟨rfl, rfl, rfl, rfl, rfl, rfl, rfl, rfl⟩ (fun _ _ _ => ⟨rfl, rfl⟩) (fun _ => Iff.rfl) ?_
  intro d'
  have hnot : ((s.mem m).bytes, m) ∉ s.cache b d := by
    intro hx
    exact ((h.st.cache b d _).1 hx).2.1 (Or.inr rfl)
  have h1 := cs_setCache s b d (erase ((s.mem m).bytes, m) (s.cache b d) ++ [((s.mem m).bytes, m)]) d'
  rw [erase_notin hnot, csum_append] at h1
  have e : csum [((s.mem m).bytes, m)] = (s.mem m).bytes := by simp [csum]
  rw [e] at h1
  rw [erase_notin hnot]
  unfold handB
  simp only
  rw [hd]
  by_cases hdd : d' = d
  · subst hdd; simp only [if_true] at *; omega
  · have hd' : ¬ d = d' := fun hx => hdd hx.symm
    rw [if_neg hd']; rw [if_neg hdd, if_neg hdd] at h1; omega

/-- Splitting keeps lockedness and everything of the other blocks. -/
theorem divide_keeps {s : St} {m start : Nat} (hm : m ≠ s.count) (hh : ∀ h, (s.mem m).next = some h → h ≠ s.count ∧ h ≠ m)
    {y} (hy : y ≠ s.count) : ((divide s m start).mem y).locked = (s.mem y).locked ∧
      ((divide s m start).mem y).dev = (s.mem y).dev ∧
      (y ≠ m → ((divide s m start).mem y).bytes = (s.mem y).bytes) := by
  rw [divide_mem s m start hm hh y, if_neg hy]
  by_cases hym : y = m
  · subst hym; rw [if_pos rfl]; exact ⟨rfl, rfl, fun hx => absurd rfl hx⟩
  · rw [if_neg hym]; split <;> exact ⟨rfl, rfl, fun _ => rfl⟩

theorem Full.split {s lay m ρ} (h : Full s lay (some m) ρ) {c A B} (hc : lay c = A ++ m :: B)
    (hB : ∀ b, B.head? = some b → (s.mem b).locked = true) {start : Nat} (h0 : 0 < start) (h1 : start < (s.mem m).bytes)
    (hl : smallAlloc < s.chunkSize c → smallAlloc < start ∧ smallAlloc < (s.mem m).bytes - start)
    {b d} (hb : b = decide ((s.mem m).bytes ≤ smallAlloc)) (hd : (s.mem m).dev = d) :
    Full (setCache (divide s m start) b d
        (erase ((s.mem m).bytes - start, s.count) (s.cache b d) ++ [((s.mem m).bytes - start, s.count)]))
      (setLay lay c (A ++ m :: s.count :: B)) (some m) ρ := by
  have st := h.st.split hc hB h0 h1 hl hb hd
  have mc : m ∈ lay c := by rw [hc]; simp
  have lt : ∀ y, InLay lay y → y < s.count := fun y ⟨c', hy⟩ => ((h.st.layout c').each y hy).lt
  have mlt := lt m ⟨c, mc⟩
  have L := h.st.layout c
  rw [hc] at L
  have hh : ∀ h, (s.mem m).next = some h → h ≠ s.count ∧ h ≠ m := by
    intro y hy
    rw [L.next_eq] at hy
    have hyB : y ∈ B := List.mem_of_mem_head? hy
    have := lt y ⟨c, by rw [hc]; simp [hyB]⟩
    refine ⟨by omega, fun hx => ?_⟩
    have := (split_facts L.nodup).2.1
    exact this (hx ▸ hyB)
  obtain ⟨r1, r2, r3, r4, r5, r6, r7, r8, r9, r10⟩ := divide_rest s m start
  have K := fun y (hy : y ≠ s.count) => divide_keeps (start := start) (show m ≠ s.count by omega) hh hy
  have Mn : ((divide s m start).mem s.count).locked = false := by
    rw [divide_mem s m start (by omega) hh, if_pos rfl]
  have Mm : ((divide s m start).mem m).bytes = start := by
    rw [divide_mem s m start (by omega) hh, if_neg (by omega), if_pos rfl]
  have inl : ∀ y, InLay (setLay lay c (A ++ m :: s.count :: B)) y → InLay lay y ∨ y = s.count := by
    rintro y ⟨c', hy⟩
    by_cases hcc : c' = c
    · subst hcc
      rw [setLay_self] at hy
      simp only [List.mem_append, List.mem_cons] at hy
      rcases hy with hy | hy | hy | hy
      · exact Or.inl ⟨c', by rw [hc]; simp [hy]⟩
      · exact Or.inl ⟨c', hy ▸ mc⟩
      · exact Or.inr hy
      · exact Or.inl ⟨c', by rw [hc]; simp [hy]⟩
    · rw [setLay_ne _ _ hcc] at hy; exact Or.inl ⟨c', hy⟩
  have inl' : ∀ y, InLay lay y → InLay (setLay lay c (A ++ m :: s.count :: B)) y := by
    rintro y ⟨c', hy⟩
    by_cases hcc : c' = c
    · subst hcc
      refine ⟨c', ?_⟩
      rw [setLay_self]
      rw [hc] at hy
      simp only [List.mem_append, List.mem_cons] at hy ⊢
      rcases hy with hy | hy | hy
      · exact Or.inl hy
      · exact Or.inr (Or.inl hy)
      · exact Or.inr (Or.inr (Or.inr hy))
    · exact ⟨c', by rw [setLay_ne _ _ hcc]; exact hy⟩
  refine h.frame st ⟨r7, r8, r9, r10, r5, r2, r3, r6⟩ ?_ ?_ ?_
  · intro y hy hlk
    show ((divide s m start).mem y).bytes = _ ∧ ((divide s m start).mem y).dev = _
    have hyc : y ≠ s.count := by have := lt y hy; omega
    have hym : y ≠ m := by
      intro hx; rw [hx, (h.st.hand m rfl).2] at hlk; cases hlk
    exact ⟨(K y hyc).2.2 hym, (K y hyc).2.1⟩
  · intro y
    show (_ ∧ ((divide s m start).mem y).locked = true) ↔ _
    constructor
    · rintro ⟨h1, h2⟩
      rcases inl y h1 with h3 | h3
      · have hyc : y ≠ s.count := by have := lt y h3; omega
        exact ⟨h3, by rw [(K y hyc).1] at h2; exact h2⟩
      · rw [h3, Mn] at h2; cases h2
    · rintro ⟨h1, h2⟩
      have hyc : y ≠ s.count := by have := lt y h1; omega
      exact ⟨inl' y h1, by rw [(K y hyc).1]; exact h2⟩
  · intro d'
    have hnot : ((s.mem m).bytes - start, s.count) ∉ s.cache b d := by
      intro hx
      have := lt _ ((h.st.cache b d _).1 hx).1
      simp at this
    have e1 := cs_setCache (divide s m start) b d
      (erase ((s.mem m).bytes - start, s.count) (s.cache b d) ++ [((s.mem m).bytes - start, s.count)]) d'
    rw [erase_notin hnot, csum_append] at e1
    rw [erase_notin hnot]
    have e2 : csum [((s.mem m).bytes - start, s.count)] = (s.mem m).bytes - start := by simp [csum]
    rw [e2] at e1
    have e3 : cs (divide s m start) d' = cs s d' := by unfold cs; rw [r4]
    rw [e3, r4] at e1
    unfold handB
    simp only
    have e4 : ((setCache (divide s m start) b d (s.cache b d ++ [((s.mem m).bytes - start, s.count)])).mem m).dev = d := by
      show ((divide s m start).mem m).dev = d
      rw [(K m (by omega)).2.1]; exact hd
    have e5 : ((setCache (divide s m start) b d (s.cache b d ++ [((s.mem m).bytes - start, s.count)])).mem m).bytes = start := Mm
    rw [e4, e5, hd]
    by_cases hdd : d' = d
    · subst hdd; simp only [if_true] at *; omega
    · have hd' : ¬ d = d' := fun hx => hdd hx.symm
      rw [if_neg hd', if_neg hd']; rw [if_neg hdd, if_neg hdd] at e1; omega

/-- Merging: common to both directions. -/
theorem Full.merge {s s1 : St} {lay lay' : Nat → List Nat} {m f ρ} (h : Full s lay (some m) ρ)
    {b d} (hfm : f ≠ m) (hfl : (s.mem f).locked = false) (hfi : InLay lay f)
    (st : Struct (setCache s1 b d (erase ((s.mem f).bytes, f) (s.cache b d))) lay' (some m))
    (r : SameRest s s1)
    (hmb : (s1.mem m).bytes = (s.mem m).bytes + (s.mem f).bytes) (hmd : (s1.mem m).dev = (s.mem m).dev)
    (hml : (s1.mem m).locked = (s.mem m).locked)
    (hfl1 : (s1.mem f).locked = false)
    (ho : ∀ y, y ≠ m → y ≠ f → (s1.mem y).locked = (s.mem y).locked ∧ (s1.mem y).bytes = (s.mem y).bytes ∧
      (s1.mem y).dev = (s.mem y).dev)
    (hin : ∀ y, y ≠ f → (InLay lay' y ↔ InLay lay y))
    (hb : b = decide ((s.mem f).bytes ≤ smallAlloc)) (hd : (s.mem f).dev = d) (hd' : (s.mem m).dev = d) :
    Full (setCache s1 b d (erase ((s.mem f).bytes, f) (s.cache b d))) lay' (some m) ρ := by
  obtain ⟨r1, r2, r3, r4, r5, r6, r7, r8, r9, r10⟩ := r
  have ne : ∀ y, (s.mem y).locked = true → y ≠ m ∧ y ≠ f := by
    intro y hy
    exact ⟨fun hx => (by rw [hx, (h.st.hand m rfl).2] at hy; cases hy), fun hx => (by rw [hx, hfl] at hy; cases hy)⟩
  refine h.frame st ⟨r7, r8, r9, r10, r5, r2, r3, r6⟩ ?_ ?_ ?_
  · intro y _ hy
    obtain ⟨n1, n2⟩ := ne y hy
    exact (ho y n1 n2).2
  · intro y
    show (_ ∧ (s1.mem y).locked = true) ↔ _
    constructor
    · rintro ⟨h1, h2⟩
      have hyf : y ≠ f := fun hx => by rw [hx, hfl1] at h2; cases h2
      have hym : y ≠ m := fun hx => by rw [hx, hml, (h.st.hand m rfl).2] at h2; cases h2
      exact ⟨(hin y hyf).1 h1, by rw [(ho y hym hyf).1] at h2; exact h2⟩
    · rintro ⟨h1, h2⟩
      obtain ⟨n1, n2⟩ := ne y h2
      exact ⟨(hin y n2).2 h1, by rw [(ho y n1 n2).1]; exact h2⟩
  · intro d'
    have hk : ((s.mem f).bytes, f) ∈ s.cache b d := by
      rw [h.st.cache]
      refine ⟨hfi, ?_, rfl, hd, hb⟩
      rintro (hx | hx)
      · rw [hfl] at hx; cases hx
      · cases hx; exact hfm rfl
    have e1 := cs_setCache s1 b d (erase ((s.mem f).bytes, f) (s.cache b d)) d'
    have e2 := csum_erase (h.st.nodup b d) hk
    have e3 : cs s1 d' = cs s d' := by unfold cs; rw [r4]
    rw [e3, r4] at e1
    unfold handB
    simp only
    show _ + (if (s1.mem m).dev = d' then (s1.mem m).bytes else 0) = _
    rw [hmb, hmd]
    by_cases hdd : d' = d
    · subst hdd
      rw [if_pos hd', if_pos hd']
      simp only [if_true] at *; omega
    · have hd2 : ¬ (s.mem m).dev = d' := fun hx => hdd (hx.symm.trans hd')
      rw [if_neg hd2, if_neg hd2]; rw [if_neg hdd, if_neg hdd] at e1; omega

theorem Full.mergeNext {s lay m ρ} (h : Full s lay (some m) ρ) {c f A B} (hc : lay c = A ++ m :: f :: B)
    (hl : (s.mem f).locked = false)
    {b d} (hb : b = decide ((s.mem m).bytes ≤ smallAlloc)) (hd : (s.mem m).dev = d) :
    Full (setCache (tryMerge s m (some f)) b d (erase ((s.mem f).bytes, f) (s.cache b d)))
        (setLay lay c (A ++ m :: B)) (some m) ρ := by
  obtain ⟨st, Mm, Mf, Mo⟩ := h.st.mergeNext hc hl hb hd
  have mc : m ∈ lay c := by rw [hc]; simp
  have fc : f ∈ lay c := by rw [hc]; simp
  have nd := (h.st.layout c).nodup
  rw [hc] at nd
  have hfm : f ≠ m := fun hx => (split_facts nd).2.1 (by simp [hx])
  refine h.merge hfm hl ⟨c, fc⟩ st (tryMerge_rest s m (some f)) (by rw [Mm]) (by rw [Mm]) (by rw [Mm]) (by rw [Mf]; exact hl)
    ?_ ?_ (by rw [hb, h.st.cls mc, h.st.cls fc]) (by rw [← hd, ((h.st.layout c).each f fc).dev, ((h.st.layout c).each m mc).dev]) hd
  · intro y h1 h2
    rcases Mo y with e | ⟨p, e⟩ | e | e
    · rw [e]; exact ⟨rfl, rfl, rfl⟩
    · rw [e]; exact ⟨rfl, rfl, rfl⟩
    · exact absurd e h1
    · exact absurd e h2
  · intro y hy
    constructor
    · rintro ⟨c', h1⟩
      by_cases hcc : c' = c
      · subst hcc
        rw [setLay_self] at h1
        refine ⟨c', ?_⟩
        rw [hc]
        simp only [List.mem_append, List.mem_cons] at h1 ⊢
        rcases h1 with h1 | h1 | h1
        · exact Or.inl h1
        · exact Or.inr (Or.inl h1)
        · exact Or.inr (Or.inr (Or.inr h1))
      · rw [setLay_ne _ _ hcc] at h1; exact ⟨c', h1⟩
    · rintro ⟨c', h1⟩
      by_cases hcc : c' = c
      · subst hcc
        refine ⟨c', ?_⟩
        rw [setLay_self]
        rw [hc] at h1
        simp only [List.mem_append, List.mem_cons] at h1 ⊢
        rcases h1 with h1 | h1 | h1 | h1
        · exact Or.inl h1
        · exact Or.inr (Or.inl h1)
        · exact absurd h1 hy
        · exact Or.inr (Or.inr h1)
      · exact ⟨c', by rw [setLay_ne _ _ hcc]; exact h1⟩

theorem Full.mergePrev {s lay m ρ} (h : Full s lay (some m) ρ) {c f A B} (hc : lay c = A ++ f :: m :: B)
    (hl : (s.mem f).locked = false)
    {b d} (hb : b = decide ((s.mem m).bytes ≤ smallAlloc)) (hd : (s.mem m).dev = d) :
    Full (setCache (tryMerge s m (some f)) b d (erase ((s.mem f).bytes, f) (s.cache b d)))
        (setLay lay c (A ++ m :: B)) (some m) ρ := by
  obtain ⟨st, Mm, Mf, Mo⟩ := h.st.mergePrev hc hl hb hd
  have mc : m ∈ lay c := by rw [hc]; simp
  have fc : f ∈ lay c := by rw [hc]; simp
  have nd := (h.st.layout c).nodup
  rw [hc] at nd
  have hfm : f ≠ m := fun hx => (split_facts nd).2.1 (by simp [hx])
  refine h.merge hfm hl ⟨c, fc⟩ st (tryMerge_rest s m (some f)) (by rw [Mm]) (by rw [Mm]) (by rw [Mm]) (by rw [Mf]; exact hl)
    ?_ ?_ (by rw [hb, h.st.cls mc, h.st.cls fc]) (by rw [← hd, ((h.st.layout c).each f fc).dev, ((h.st.layout c).each m mc).dev]) hd
  · intro y h1 h2
    rcases Mo y with e | ⟨p, e⟩ | e | e
    · rw [e]; exact ⟨rfl, rfl, rfl⟩
    · rw [e]; exact ⟨rfl, rfl, rfl⟩
    · exact absurd e h1
    · exact absurd e h2
  · intro y hy
    constructor
    · rintro ⟨c', h1⟩
      by_cases hcc : c' = c
      · subst hcc
        rw [setLay_self] at h1
        refine ⟨c', ?_⟩
        rw [hc]
        simp only [List.mem_append, List.mem_cons] at h1 ⊢
        rcases h1 with h1 | h1 | h1
        · exact Or.inl h1
        · exact Or.inr (Or.inr (Or.inl h1))
        · exact Or.inr (Or.inr (Or.inr h1))
      · rw [setLay_ne _ _ hcc] at h1; exact ⟨c', h1⟩
    · rintro ⟨c', h1⟩
      by_cases hcc : c' = c
      · subst hcc
        refine ⟨c', ?_⟩
        rw [setLay_self]
        rw [hc] at h1
        simp only [List.mem_append, List.mem_cons] at h1 ⊢
        rcases h1 with h1 | h1 | h1 | h1
        · exact Or.inl h1
        · exact absurd h1 hy
        · exact Or.inr (Or.inl h1)
        · exact Or.inr (Or.inr h1)
      · exact ⟨c', by rw [setLay_ne _ _ hcc]; exact h1⟩

end Verif.Alloc
