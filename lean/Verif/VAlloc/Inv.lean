import Verif.VAlloc.Model

/-! The ownership invariant of the virtual-memory caching allocator and its preservation. -/
namespace Verif.VAlloc

/-! ## Counting -/

def cn (cs : List Chunk) (c : Key) : Nat := (cs.map Chunk.key).count c

@[simp] theorem cn_nil (c : Key) : cn [] c = 0 := rfl
@[simp] theorem cn_cons (x : Chunk) (cs : List Chunk) (c : Key) : cn (x :: cs) c = (if x.key = c then 1 else 0) + cn cs c := by
  simp only [cn, List.map_cons, List.count_cons, beq_iff_eq]; omega
@[simp] theorem cn_append (a b : List Chunk) (c : Key) : cn (a ++ b) c = cn a c + cn b c := by
  simp [cn, List.count_append]

def cc (vs : List VM) (c : Key) : Nat := cn (vs.flatMap VM.chunks) c
def kk (vs : List VM) (k : Key) : Nat := (vs.map VM.key).count k

@[simp] theorem cc_nil (c : Key) : cc [] c = 0 := rfl
@[simp] theorem kk_nil (k : Key) : kk [] k = 0 := rfl
@[simp] theorem cc_cons (v : VM) (vs : List VM) (c : Key) : cc (v :: vs) c = cn v.chunks c + cc vs c := by
  simp [cc, List.flatMap_cons]
@[simp] theorem kk_cons (v : VM) (vs : List VM) (k : Key) : kk (v :: vs) k = (if v.key = k then 1 else 0) + kk vs k := by
  simp only [kk, List.map_cons, List.count_cons, beq_iff_eq]; omega
@[simp] theorem cc_append (a b : List VM) (c : Key) : cc (a ++ b) c = cc a c + cc b c := by
  simp [cc, List.flatMap_append]
@[simp] theorem kk_append (a b : List VM) (k : Key) : kk (a ++ b) k = kk a k + kk b k := by
  simp [kk, List.count_append]
theorem cc_perm {a b : List VM} (h : a.Perm b) (c : Key) : cc a c = cc b c := ((h.flatMap_right _).map _).count_eq c
theorem kk_perm {a b : List VM} (h : a.Perm b) (k : Key) : kk a k = kk b k := (h.map _).count_eq k

def liveV (x : Dev) : List VM := x.live.map Prod.snd
def mapV (l : List Ent) : List VM := l.map Ent.vm

@[simp] theorem mapV_nil : mapV [] = [] := rfl
@[simp] theorem mapV_cons (e : Ent) (l : List Ent) : mapV (e :: l) = e.vm :: mapV l := rfl
@[simp] theorem mapV_append (a b : List Ent) : mapV (a ++ b) = mapV a ++ mapV b := by simp [mapV]

def csum (cs : List Chunk) : Nat := (cs.map Chunk.bytes).foldl (· + ·) 0

theorem foldl_add (l : List Nat) (a : Nat) : l.foldl (· + ·) a = a + l.foldl (· + ·) 0 := by
  induction l generalizing a with
  | nil => simp
  | cons x xs ih => simp only [List.foldl_cons]; rw [ih (a + x), ih (0 + x)]; omega
@[simp] theorem csum_nil : csum [] = 0 := rfl
@[simp] theorem csum_cons (c : Chunk) (cs : List Chunk) : csum (c :: cs) = c.bytes + csum cs := by
  simp only [csum, List.map_cons, List.foldl_cons]; rw [foldl_add]; omega
@[simp] theorem csum_append (a b : List Chunk) : csum (a ++ b) = csum a + csum b := by
  induction a with
  | nil => simp
  | cons x xs ih => simp [ih]; omega

/-! ## Loops -/

theorem pushWait_perm (e : Ent) (l : List Ent) : (pushWait e l).Perm (e :: l) := by
  induction l with
  | nil => exact .refl _
  | cons x xs ih =>
    unfold pushWait
    split
    · exact .refl _
    · exact (ih.cons x).trans (.swap e x xs)

theorem pushAll_perm (es l : List Ent) : (pushAll es l).Perm (es ++ l) := by
  induction es generalizing l with
  | nil => exact .refl _
  | cons x xs ih =>
    simp only [pushAll, List.foldl_cons] at ih ⊢
    exact (ih (pushWait x l)).trans (((pushWait_perm x l).append_left xs).trans List.perm_middle)

theorem insMapped_perm (e : Ent) (l : List Ent) : (insMapped e l).Perm (e :: l) := by
  induction l with
  | nil => exact .refl _
  | cons x xs ih =>
    unfold insMapped
    split
    · exact .refl _
    · exact (ih.cons x).trans (.swap e x xs)

theorem takeUntil_split (t : Nat) (cs : List Chunk) (h : Nat) : (takeUntil t cs h).1 ++ (takeUntil t cs h).2.1 = cs := by
  induction cs generalizing h with
  | nil => rfl
  | cons c cs ih =>
    unfold takeUntil
    split
    · simp [ih]
    · rfl

theorem takeUntil_count (t : Nat) (cs : List Chunk) (h : Nat) (c : Key) :
    cn (takeUntil t cs h).1 c + cn (takeUntil t cs h).2.1 c = cn cs c := by
  rw [← cn_append, takeUntil_split]

theorem takeUntil_bytes (t : Nat) (cs : List Chunk) (h : Nat) : (takeUntil t cs h).2.2 = h + csum (takeUntil t cs h).1 := by
  induction cs generalizing h with
  | nil => rfl
  | cons c cs ih =>
    unfold takeUntil
    split
    · simp [ih]; omega
    · rfl

theorem takeUntil_enough (t : Nat) (cs : List Chunk) (h : Nat) (he : t ≤ h + csum cs) : t ≤ (takeUntil t cs h).2.2 := by
  induction cs generalizing h with
  | nil => exact he
  | cons c cs ih =>
    unfold takeUntil
    split
    · simp only; exact ih _ (by simp at he; omega)
    · simp only; omega

/-- Either enough was taken, or everything. -/
theorem takeUntil_all (t : Nat) (cs : List Chunk) (h : Nat) : t ≤ (takeUntil t cs h).2.2 ∨ (takeUntil t cs h).2.1 = [] := by
  induction cs generalizing h with
  | nil => exact Or.inr rfl
  | cons c cs ih =>
    unfold takeUntil
    split
    · exact ih _
    · exact Or.inl (by simp only; omega)

theorem allocPhys_bytes (sz t d b h n : Nat) : (allocPhys sz t d b h n).2.1 = h + csum (allocPhys sz t d b h n).1 := by
  induction b generalizing h n with
  | zero => rfl
  | succ b ih =>
    unfold allocPhys
    split
    · simp [ih]; omega
    · rfl

theorem allocPhys_done (sz t d b h n : Nat) (he : (allocPhys sz t d b h n).2.2.2 = true) : t ≤ (allocPhys sz t d b h n).2.1 := by
  induction b generalizing h n with
  | zero => simp [allocPhys] at he ⊢; exact he
  | succ b ih =>
    unfold allocPhys at he ⊢
    split
    · rw [if_pos (by assumption)] at he; exact ih _ _ he
    · simp only; omega

theorem allocPhys_next (sz t d b h n : Nat) : n ≤ (allocPhys sz t d b h n).2.2.1 := by
  induction b generalizing h n with
  | zero => exact Nat.le_refl _
  | succ b ih =>
    unfold allocPhys
    split
    · have := ih (h + sz) (n + 1); simp only; omega
    · exact Nat.le_refl _

theorem allocPhys_count (sz t d b h n : Nat) (c : Key) :
    cn (allocPhys sz t d b h n).1 c ≤ if c.1 = d ∧ n ≤ c.2 ∧ c.2 < (allocPhys sz t d b h n).2.2.1 then 1 else 0 := by
  induction b generalizing h n with
  | zero => simp [allocPhys]
  | succ b ih =>
    have hn := allocPhys_next sz t d b (h + sz) (n + 1)
    unfold allocPhys
    split
    · simp only [cn_cons]
      have := ih (h + sz) (n + 1)
      by_cases e : (⟨n, d, sz⟩ : Chunk).key = c
      · have e1 : c.1 = d := by rw [← e]; rfl
        have e2 : c.2 = n := by rw [← e]; rfl
        rw [if_pos e, if_pos ⟨e1, by omega, by omega⟩]
        rw [if_neg (by omega)] at this
        omega
      · rw [if_neg e]
        by_cases hc : c.1 = d ∧ n + 1 ≤ c.2 ∧ c.2 < (allocPhys sz t d b (h + sz) (n + 1)).2.2.1
        · rw [if_pos hc] at this
          rw [if_pos ⟨hc.1, by omega, hc.2.2⟩]; omega
        · rw [if_neg hc] at this; omega
    · simp

theorem transferDown_bytes (t : Nat) (es : List Ent) (h : Nat) : (transferDown t es h).2.2.2.2 = h + csum (transferDown t es h).2.2.1 := by
  induction es generalizing h with
  | nil => rfl
  | cons e es ih =>
    unfold transferDown
    split
    · simp [ih, takeUntil_bytes]; omega
    · rfl

/-- Entries are split in two; the chunks of the unmapped ones are moved or go to the cache. -/
theorem transferDown_split (t : Nat) (es : List Ent) (h : Nat) : (transferDown t es h).2.1 ++ (transferDown t es h).1 = es := by
  induction es generalizing h with
  | nil => rfl
  | cons e es ih =>
    unfold transferDown
    split
    · simp [ih]
    · rfl

theorem transferDown_count (t : Nat) (es : List Ent) (h : Nat) (c : Key) :
    cn (transferDown t es h).2.2.1 c + cn (transferDown t es h).2.2.2.1 c = cc (mapV (transferDown t es h).2.1) c := by
  induction es generalizing h with
  | nil => rfl
  | cons e es ih =>
    unfold transferDown
    split
    · have h1 := takeUntil_count t e.vm.chunks h c
      have h2 := ih (takeUntil t e.vm.chunks h).2.2
      simp only [cn_append, mapV_cons, cc_cons]
      omega
    · simp

theorem syncList_split (l : Key → Bool) (es : List Ent) :
    (syncList l es).2 ++ mapV (syncList l es).1 = mapV es := by
  induction es with
  | nil => rfl
  | cons e es ih =>
    unfold syncList
    split
    · rfl
    · simp [ih]

theorem syncList_unlocked (l : Key → Bool) (es : List Ent) (v : VM) (hv : v ∈ (syncList l es).2) : l v.key = false := by
  induction es with
  | nil => exact absurd hv (by simp [syncList])
  | cons e es ih =>
    unfold syncList at hv
    split at hv
    · exact absurd hv (by simp)
    · rcases List.mem_cons.mp hv with rfl | h
      · simpa using ‹¬ l _ = true›
      · exact ih h

/-! ## The invariant -/

def lcnt (x : Dev) (c : Key) : Nat := cc (liveV x) c
def own (x : Dev) (c : Key) : Nat := cc (liveV x) c + cc (mapV x.mapped) c + cn x.pcache c
def keys (x : Dev) (k : Key) : Nat := kk (liveV x) k + kk (mapV x.mapped) k
def away (s : St) (k : Key) : Nat := kk (mapV s.waiting) k + s.unbound.count k

structure DevOk (d next : Nat) (x : Dev) : Prop where
  chunk : ∀ c, own x c ≤ if c.1 = d ∧ c.2 < next then 1 else 0
  dev : ∀ k : Key, k.1 ≠ d → keys x k = 0
  live : ∀ p ∈ x.live, p.1 ≤ p.2.bytes ∧ p.2.bytes ≤ csum p.2.chunks
  mapped : ∀ e ∈ x.mapped, e.size = e.vm.bytes ∧ e.vm.bytes ≤ csum e.vm.chunks

structure Inv (s : St) : Prop where
  size : 0 < s.chunkSize
  dev : ∀ d, DevOk d s.nextChunk (s.dev d)
  key : ∀ k : Key, keys (s.dev k.1) k + away s k ≤ if k.2 < s.nextMem then 1 else 0

theorem init_inv : Inv init where
  size := by decide
  dev d := ⟨fun c => Nat.zero_le _, fun _ _ => rfl, fun p hp => by simp [init, emptyDev] at hp, fun p hp => by simp [init, emptyDev] at hp⟩
  key k := Nat.zero_le _

theorem dropCount_fields (vs : List VM) (f : Nat → Dev) (d : Nat) :
    ((vs.foldl dropCount f) d).live = (f d).live ∧ ((vs.foldl dropCount f) d).mapped = (f d).mapped ∧ ((vs.foldl dropCount f) d).pcache = (f d).pcache := by
  induction vs generalizing f with
  | nil => exact ⟨rfl, rfl, rfl⟩
  | cons v vs ih =>
    simp only [List.foldl_cons]
    obtain ⟨a, b, c⟩ := ih (dropCount f v)
    rw [a, b, c]
    unfold dropCount
    split <;> exact ⟨rfl, rfl, rfl⟩

/-- `s'` arises from `s` without handing memory to clients: what clients hold is the same, what else is owned only shrinks. -/
structure Shrink (s s' : St) : Prop where
  size : s'.chunkSize = s.chunkSize
  nextMem : s'.nextMem = s.nextMem
  nextChunk : s'.nextChunk = s.nextChunk
  locked : s'.locked = s.locked
  live : ∀ d, (s'.dev d).live = (s.dev d).live
  mapped : ∀ d, (s'.dev d).mapped = (s.dev d).mapped ∨ (s'.dev d).mapped = []
  pcache : ∀ d, (s'.dev d).pcache = (s.dev d).pcache ∨ (s'.dev d).pcache = []
  key : ∀ k : Key, keys (s'.dev k.1) k + away s' k ≤ keys (s.dev k.1) k + away s k
  unb : ∀ k ∈ s'.unbound, k ∈ s.unbound ∨ s.locked k = false

theorem Shrink.refl (s : St) : Shrink s s :=
  ⟨rfl, rfl, rfl, rfl, fun _ => rfl, fun _ => Or.inl rfl, fun _ => Or.inl rfl, fun _ => Nat.le_refl _, fun _ h => Or.inl h⟩

theorem Shrink.trans {a b c : St} (h : Shrink a b) (g : Shrink b c) : Shrink a c where
  size := g.size.trans h.size
  nextMem := g.nextMem.trans h.nextMem
  nextChunk := g.nextChunk.trans h.nextChunk
  locked := g.locked.trans h.locked
  live d := (g.live d).trans (h.live d)
  mapped d := by
    rcases g.mapped d with e | e
    · rcases h.mapped d with e' | e'
      · exact Or.inl (e.trans e')
      · exact Or.inr (e.trans e')
    · exact Or.inr e
  pcache d := by
    rcases g.pcache d with e | e
    · rcases h.pcache d with e' | e'
      · exact Or.inl (e.trans e')
      · exact Or.inr (e.trans e')
    · exact Or.inr e
  key k := Nat.le_trans (g.key k) (h.key k)
  unb k hk := by
    rcases g.unb k hk with e | e
    · exact h.unb k e
    · exact Or.inr (by rw [← h.locked]; exact e)

theorem Shrink.own {s s' : St} (h : Shrink s s') (d : Nat) (c : Key) : own (s'.dev d) c ≤ own (s.dev d) c := by
  simp only [VAlloc.own, liveV, h.live d]
  have h1 : cc (mapV (s'.dev d).mapped) c ≤ cc (mapV (s.dev d).mapped) c := by
    rcases h.mapped d with e | e <;> rw [e] <;> simp
  have h2 : cn (s'.dev d).pcache c ≤ cn (s.dev d).pcache c := by
    rcases h.pcache d with e | e <;> rw [e] <;> simp
  omega

theorem Shrink.keys {s s' : St} (h : Shrink s s') (d : Nat) (k : Key) : keys (s'.dev d) k ≤ keys (s.dev d) k := by
  simp only [VAlloc.keys, liveV, h.live d]
  have h1 : kk (mapV (s'.dev d).mapped) k ≤ kk (mapV (s.dev d).mapped) k := by
    rcases h.mapped d with e | e <;> rw [e] <;> simp
  omega

theorem Shrink.inv {s s' : St} (h : Shrink s s') (i : Inv s) : Inv s' where
  size := by rw [h.size]; exact i.size
  dev d := {
    chunk := fun c => Nat.le_trans (h.own d c) (by rw [h.nextChunk]; exact (i.dev d).chunk c)
    dev := fun k hk => by have := h.keys d k; have := (i.dev d).dev k hk; omega
    live := fun p hp => (i.dev d).live p (by rw [← h.live d]; exact hp)
    mapped := fun e he => by
      rcases h.mapped d with e' | e'
      · exact (i.dev d).mapped e (by rw [← e']; exact he)
      · rw [e'] at he; simp at he }
  key k := Nat.le_trans (h.key k) (by rw [h.nextMem]; exact i.key k)

theorem sync_shrink (s : St) : Shrink s (sync s) where
  size := rfl
  nextMem := rfl
  nextChunk := rfl
  locked := rfl
  live d := (dropCount_fields _ _ d).1
  mapped d := Or.inl (dropCount_fields _ _ d).2.1
  pcache d := Or.inl (dropCount_fields _ _ d).2.2
  key k := by
    have h := syncList_split s.locked s.waiting
    have hk : kk (syncList s.locked s.waiting).2 k + kk (mapV (syncList s.locked s.waiting).1) k = kk (mapV s.waiting) k := by
      rw [← kk_append, h]
    simp only [VAlloc.keys, liveV, away, sync, (dropCount_fields _ _ _).1, (dropCount_fields _ _ _).2.1, List.count_append]
    unfold kk at hk ⊢
    omega
  unb k hk := by
    rcases List.mem_append.mp hk with h | h
    · obtain ⟨v, hv, rfl⟩ := List.mem_map.mp h
      exact Or.inr (syncList_unlocked _ _ _ hv)
    · exact Or.inl h

theorem dropPcache_shrink (s : St) (d : Nat) : Shrink s (setDev s d (fun x => { x with pcache := [] })) := by
  refine ⟨rfl, rfl, rfl, rfl, ?_, ?_, ?_, ?_, fun _ h => Or.inl h⟩
  · intro e; simp only [setDev]; split
    · rename_i h; rw [h]
    · rfl
  · intro e; simp only [setDev]; split
    · rename_i h; rw [h]; exact Or.inl rfl
    · exact Or.inl rfl
  · intro e; simp only [setDev]; split
    · exact Or.inr rfl
    · exact Or.inl rfl
  · intro k
    simp only [keys, liveV, away, setDev]
    split
    · rename_i h; rw [h]; exact Nat.le_refl _
    · exact Nat.le_refl _

theorem freeDev_shrink (s : St) (i : Inv s) (d : Nat) : Shrink s (freeDev s d) := by
  have h1 : Shrink s { setDev s d (fun x => { x with mapped := [] }) with waiting := pushAll (s.dev d).mapped s.waiting } := by
    refine ⟨rfl, rfl, rfl, rfl, ?_, ?_, ?_, ?_, fun _ h => Or.inl h⟩
    · intro e; simp only [setDev]; split
      · rename_i h; rw [h]
      · rfl
    · intro e; simp only [setDev]; split
      · exact Or.inr rfl
      · exact Or.inl rfl
    · intro e; simp only [setDev]; split
      · rename_i h; rw [h]; exact Or.inl rfl
      · exact Or.inl rfl
    · intro k
      have hp := kk_perm ((pushAll_perm (s.dev d).mapped s.waiting).map Ent.vm) k
      simp only [keys, liveV, away, setDev]
      change kk (mapV _) k = kk (mapV _) k at hp
      rw [mapV_append, kk_append] at hp
      split
      · rename_i h
        simp only [mapV_nil, kk_nil, h]
        omega
      · rename_i h
        have := (i.dev d).dev k h
        simp only [keys, liveV] at this
        omega
  have h2 := h1.trans (sync_shrink _)
  exact h2.trans (dropPcache_shrink _ d)

theorem freeList_shrink (ds : List Nat) (s : St) (i : Inv s) : Shrink s (ds.foldl freeDev s) := by
  induction ds generalizing s with
  | nil => exact .refl s
  | cons d ds ih =>
    have h := freeDev_shrink s i d
    exact h.trans (ih _ (h.inv i))

theorem freeAll_shrink (s : St) (i : Inv s) : Shrink s (freeAll s) := freeList_shrink _ s i

/-! ## Handing out memory -/

/-- A change that hands out memory on one device `d`: what is owned there grows by at most `fresh` new physical memories, and identities by one. -/
theorem inv_of_step' {s s' : St} (d : Nat) (i : Inv s) (hsz : s'.chunkSize = s.chunkSize) (hother : ∀ e, e ≠ d → DevOk e s.nextChunk (s'.dev e))
    (hn : s.nextChunk ≤ s'.nextChunk) (hm : s.nextMem ≤ s'.nextMem)
    (hc : ∀ c, own (s'.dev d) c ≤ own (s.dev d) c + if c.1 = d ∧ s.nextChunk ≤ c.2 ∧ c.2 < s'.nextChunk then 1 else 0)
    (hk : ∀ k : Key, keys (s'.dev k.1) k + away s' k ≤ keys (s.dev k.1) k + away s k + if k.1 = d ∧ s.nextMem ≤ k.2 ∧ k.2 < s'.nextMem then 1 else 0)
    (hd : ∀ k : Key, k.1 ≠ d → keys (s'.dev d) k = 0)
    (hl : ∀ p ∈ (s'.dev d).live, p.1 ≤ p.2.bytes ∧ p.2.bytes ≤ csum p.2.chunks)
    (hmp : ∀ e ∈ (s'.dev d).mapped, e.size = e.vm.bytes ∧ e.vm.bytes ≤ csum e.vm.chunks) : Inv s' where
  size := by rw [hsz]; exact i.size
  dev e := by
    by_cases he : e = d
    · subst he
      refine ⟨fun c => ?_, hd, hl, hmp⟩
      have h1 := hc c
      have h2 := (i.dev e).chunk c
      by_cases a : c.1 = e
      · by_cases b : c.2 < s.nextChunk
        · rw [if_neg (by omega)] at h1
          rw [if_pos ⟨a, b⟩] at h2
          rw [if_pos ⟨a, by omega⟩]; omega
        · rw [if_neg (by omega)] at h2
          by_cases b' : c.2 < s'.nextChunk
          · rw [if_pos ⟨a, by omega, b'⟩] at h1
            rw [if_pos ⟨a, b'⟩]; omega
          · rw [if_neg (by omega)] at h1; omega
      · rw [if_neg (fun h => a h.1)] at h1 h2; omega
    · have o := hother e he
      exact ⟨fun c => Nat.le_trans (o.chunk c) (by
        by_cases b : c.1 = e ∧ c.2 < s.nextChunk
        · rw [if_pos b, if_pos ⟨b.1, by omega⟩]; exact Nat.le_refl _
        · rw [if_neg b]; exact Nat.zero_le _), o.dev, o.live, o.mapped⟩
  key k := by
    have h1 := hk k
    have h2 := i.key k
    by_cases b : k.2 < s.nextMem
    · rw [if_neg (by omega)] at h1
      rw [if_pos b] at h2
      rw [if_pos (by omega)]; omega
    · rw [if_neg b] at h2
      by_cases b' : k.2 < s'.nextMem
      · rw [if_pos b']
        by_cases a : k.1 = d ∧ s.nextMem ≤ k.2 ∧ k.2 < s'.nextMem
        · rw [if_pos a] at h1; omega
        · rw [if_neg a] at h1; omega
      · rw [if_neg (by omega)] at h1; omega

/-- The same when the other devices are untouched. -/
theorem inv_of_step {s s' : St} (d : Nat) (i : Inv s) (hsz : s'.chunkSize = s.chunkSize) (hother : ∀ e, e ≠ d → s'.dev e = s.dev e)
    (hn : s.nextChunk ≤ s'.nextChunk) (hm : s.nextMem ≤ s'.nextMem)
    (hc : ∀ c, own (s'.dev d) c ≤ own (s.dev d) c + if c.1 = d ∧ s.nextChunk ≤ c.2 ∧ c.2 < s'.nextChunk then 1 else 0)
    (hk : ∀ k : Key, keys (s'.dev d) k + away s' k ≤ keys (s.dev d) k + away s k + if k.1 = d ∧ s.nextMem ≤ k.2 ∧ k.2 < s'.nextMem then 1 else 0)
    (hd : ∀ k : Key, k.1 ≠ d → keys (s'.dev d) k = 0)
    (hl : ∀ p ∈ (s'.dev d).live, p.1 ≤ p.2.bytes ∧ p.2.bytes ≤ csum p.2.chunks)
    (hmp : ∀ e ∈ (s'.dev d).mapped, e.size = e.vm.bytes ∧ e.vm.bytes ≤ csum e.vm.chunks) : Inv s' := by
  refine inv_of_step' d i hsz (fun e he => by rw [hother e he]; exact i.dev e) hn hm hc ?_ hd hl hmp
  intro k
  have h1 := hk k
  by_cases a : k.1 = d
  · rw [a] at h1 ⊢; exact h1
  · rw [if_neg (fun h => a h.1)] at h1 ⊢
    rw [hd k a, (i.dev d).dev k a] at h1
    rw [hother _ a]; omega

/-- give, field by field. -/
theorem give_dev (s : St) (d n : Nat) (v : VM) (a b : Int) :
    ((give s d n v a b).dev d).live = (n, v) :: (s.dev d).live ∧ ((give s d n v a b).dev d).mapped = (s.dev d).mapped ∧
      ((give s d n v a b).dev d).pcache = (s.dev d).pcache ∧ ∀ e, e ≠ d → (give s d n v a b).dev e = s.dev e := by
  refine ⟨by simp [give, setDev], by simp [give, setDev], by simp [give, setDev], fun e he => by simp [give, setDev, he]⟩

theorem give_away (s : St) (d n : Nat) (v : VM) (a b : Int) (k : Key) : away (give s d n v a b) k = away s k := rfl

/-- Handing out `v` after the allocator's own caches of the device went from those of `s` to those of `s1`. -/
theorem give_inv {s s1 : St} (d n : Nat) (v : VM) (a b : Int) (i : Inv s) (hsz : s1.chunkSize = s.chunkSize)
    (hother : ∀ e, e ≠ d → DevOk e s.nextChunk (s1.dev e)) (hn : s.nextChunk ≤ s1.nextChunk) (hm : s.nextMem ≤ s1.nextMem)
    (hlive : (s1.dev d).live = (s.dev d).live)
    (hc : ∀ c, cn v.chunks c + cc (mapV (s1.dev d).mapped) c + cn (s1.dev d).pcache c ≤
      cc (mapV (s.dev d).mapped) c + cn (s.dev d).pcache c + if c.1 = d ∧ s.nextChunk ≤ c.2 ∧ c.2 < s1.nextChunk then 1 else 0)
    (hk : ∀ k : Key, k.1 = d → (if v.key = k then 1 else 0) + kk (mapV (s1.dev d).mapped) k + away s1 k ≤
      kk (mapV (s.dev d).mapped) k + away s k + if k.1 = d ∧ s.nextMem ≤ k.2 ∧ k.2 < s1.nextMem then 1 else 0)
    (hk' : ∀ k : Key, k.1 ≠ d → keys (s1.dev k.1) k + away s1 k ≤ keys (s.dev k.1) k + away s k)
    (hmk : ∀ k : Key, k.1 ≠ d → kk (mapV (s1.dev d).mapped) k = 0)
    (hdev : v.dev = d) (hv : n ≤ v.bytes ∧ v.bytes ≤ csum v.chunks)
    (hmp : ∀ e ∈ (s1.dev d).mapped, e.size = e.vm.bytes ∧ e.vm.bytes ≤ csum e.vm.chunks) : Inv (give s1 d n v a b) := by
  obtain ⟨g1, g2, g3, g4⟩ := give_dev s1 d n v a b
  refine inv_of_step' d i hsz (fun e he => by rw [g4 e he]; exact hother e he) hn hm ?_ ?_ ?_ ?_ ?_
  · intro c
    have := hc c
    simp only [own, liveV, g1, g2, g3, hlive, List.map_cons, cc_cons]
    change _ ≤ _ + if c.1 = d ∧ s.nextChunk ≤ c.2 ∧ c.2 < s1.nextChunk then 1 else 0
    omega
  · intro k
    rw [give_away]
    change _ ≤ _ + if k.1 = d ∧ s.nextMem ≤ k.2 ∧ k.2 < s1.nextMem then 1 else 0
    by_cases h : k.1 = d
    · have := hk k h
      have e1 : keys ((give s1 d n v a b).dev k.1) k = keys ((give s1 d n v a b).dev d) k := by rw [h]
      have e2 : keys (s.dev k.1) k = keys (s.dev d) k := by rw [h]
      rw [e1, e2]
      simp only [keys, liveV, g1, g2, hlive, List.map_cons, kk_cons]
      omega
    · rw [g4 _ h]
      have := hk' k h
      omega
  · intro k h
    have h1 := (i.dev d).dev k h
    have h2 := hmk k h
    have h0 : ¬ (v.key = k) := fun e => h (by rw [← e]; exact hdev)
    simp only [keys, liveV, g1, g2, hlive, List.map_cons, kk_cons, if_neg h0] at h1 ⊢
    omega
  · intro p hp
    rw [g1, hlive] at hp
    rcases List.mem_cons.mp hp with rfl | h
    · exact hv
    · exact (i.dev d).live p h
  · intro e he
    rw [g2] at he
    exact hmp e he

end Verif.VAlloc
