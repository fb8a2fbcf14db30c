import Verif.VAlloc.Props

/-! What the virtual-memory caching allocator reports: C161. -/
namespace Verif.VAlloc

/-- Entries of a device in the waiting list. -/
def wlen (w : List Ent) (d : Nat) : Nat := w.countP (fun e => decide (e.vm.dev = d))

def total (s : St) (d : Nat) : Int := (s.dev d).live.length + (s.dev d).mapped.length + wlen s.waiting d

def Acct (s : St) : Prop := ∀ d, (s.dev d).counter = total s d

theorem wlen_perm {a b : List Ent} (h : a.Perm b) (d : Nat) : wlen a d = wlen b d := h.countP_eq _
theorem wlen_cons (e : Ent) (l : List Ent) (d : Nat) : wlen (e :: l) d = wlen l d + if e.vm.dev = d then 1 else 0 := by
  simp only [wlen, List.countP_cons, decide_eq_true_eq]
theorem wlen_append (a b : List Ent) (d : Nat) : wlen (a ++ b) d = wlen a d + wlen b d := by simp [wlen]

theorem wlen_all (l : List Ent) (d : Nat) (h : ∀ e ∈ l, e.vm.dev = d) (e : Nat) : wlen l e = if e = d then l.length else 0 := by
  induction l with
  | nil => simp [wlen]
  | cons x xs ih =>
    rw [wlen_cons, ih (fun y hy => h y (by simp [hy])), h x (by simp), List.length_cons]
    by_cases he : e = d
    · rw [if_pos he, if_pos he, if_pos he.symm]
    · rw [if_neg he, if_neg he, if_neg (fun g => he g.symm)]

theorem mapped_dev (s : St) (i : Inv s) (d : Nat) (e : Ent) (he : e ∈ (s.dev d).mapped) : e.vm.dev = d := by
  by_cases h : e.vm.key.1 = d
  · exact h
  · have h0 := (i.dev d).dev _ h
    have : 0 < kk (mapV (s.dev d).mapped) e.vm.key := by
      unfold kk
      rw [List.count_pos_iff]
      exact List.mem_map_of_mem (List.mem_map_of_mem he)
    simp only [keys] at h0
    omega

theorem dropCount_counter (vs : List VM) (f : Nat → Dev) (d : Nat) :
    ((vs.foldl dropCount f) d).counter = (f d).counter - (vs.countP (fun v => decide (v.dev = d)) : Nat) := by
  induction vs generalizing f with
  | nil => simp
  | cons v vs ih =>
    rw [List.foldl_cons, ih, List.countP_cons]
    simp only [dropCount, decide_eq_true_eq]
    by_cases h : d = v.dev
    · rw [if_pos h, if_pos h.symm]; simp only; omega
    · rw [if_neg h, if_neg (fun g => h g.symm)]; omega

theorem syncList_wlen (l : Key → Bool) (es : List Ent) (d : Nat) :
    (syncList l es).2.countP (fun v => decide (v.dev = d)) + wlen (syncList l es).1 d = wlen es d := by
  induction es with
  | nil => rfl
  | cons e es ih =>
    unfold syncList
    split
    · simp
    · rw [List.countP_cons, wlen_cons]
      simp only [decide_eq_true_eq]
      omega

theorem sync_acct (s : St) (h : Acct s) : Acct (sync s) := by
  intro d
  have h1 := h d
  have h2 := syncList_wlen s.locked s.waiting d
  obtain ⟨f1, f2, _⟩ := dropCount_fields (syncList s.locked s.waiting).2 s.dev d
  simp only [total, sync] at h1 ⊢
  rw [f1, f2, dropCount_counter]
  omega

theorem freeDev_acct (s : St) (i : Inv s) (h : Acct s) (d : Nat) : Acct (freeDev s d) := by
  have h1 : Acct { setDev s d (fun x => { x with mapped := [] }) with waiting := pushAll (s.dev d).mapped s.waiting } := by
    intro e
    have h0 := h e
    have hw := wlen_perm (pushAll_perm (s.dev d).mapped s.waiting) e
    rw [wlen_append, wlen_all _ d (mapped_dev s i d) e] at hw
    simp only [total, setDev] at h0 ⊢
    rw [hw]
    by_cases he : e = d
    · subst he
      simp only [if_true, List.length_nil]
      omega
    · simp only [if_neg he]
      omega
  have h2 := sync_acct _ h1
  intro e
  have h0 := h2 e
  simp only [freeDev]
  generalize sync _ = s2 at h0
  simp only [total, setDev] at h0 ⊢
  by_cases he : e = d
  · subst he; simp only [if_true]; exact h0
  · simp only [if_neg he]; exact h0

theorem freeList_acct (ds : List Nat) (s : St) (i : Inv s) (h : Acct s) : Acct (ds.foldl freeDev s) := by
  induction ds generalizing s with
  | nil => exact h
  | cons d ds ih => exact ih _ ((freeDev_shrink s i d).inv i) (freeDev_acct s i h d)

theorem give_acct (s1 : St) (d n : Nat) (v : VM) (a b : Int) (ho : ∀ e, e ≠ d → (s1.dev e).counter = total s1 e)
    (hd : (s1.dev d).counter + b = total s1 d + 1) : Acct (give s1 d n v a b) := by
  intro e
  simp only [total, give, setDev] at ho hd ⊢
  by_cases he : e = d
  · subst he; simp only [if_true, List.length_cons]; omega
  · simp only [if_neg he]; exact ho e he

theorem alloc1_acct (s : St) (i : Inv s) (h : Acct s) (n d b1 b2 : Nat) : Acct (alloc1 s n d b1 b2).1 := by
  have hs1 : Acct (setDev s d (fun x => { x with pcache := (takeUntil (roundUp s.chunkSize n) (s.dev d).pcache 0).2.1 })) := by
    intro e
    have h0 := h e
    simp only [total, setDev] at h0 ⊢
    by_cases he : e = d
    · subst he; simp only [if_true]; exact h0
    · simp only [if_neg he]; exact h0
  have i1 := takeP_inv s i d (roundUp s.chunkSize n)
  have fin : ∀ (s2 : St) (next : Nat) (v : VM) (a : Int), Acct s2 → Acct (give { s2 with nextMem := s2.nextMem + 1, nextChunk := next } d n v a 1) := by
    intro s2 next v a h2
    exact give_acct _ d n v a 1 (fun e _ => h2 e) (by have := h2 d; simp only [total] at this ⊢; omega)
  unfold alloc1
  simp only
  split
  · exact fin _ _ _ _ hs1
  · have h2 := freeList_acct (setDev s d (fun x => { x with pcache := (takeUntil (roundUp s.chunkSize n) (s.dev d).pcache 0).2.1 })).known _ i1 hs1
    split
    · exact fin _ _ _ _ h2
    · exact h2

theorem alloc2_acct (s : St) (h : Acct s) (n d : Nat) (lo hi : List Ent) (e : Ent) (hm : (s.dev d).mapped = lo ++ e :: hi) :
    Acct (alloc2 s n d lo hi e).1 := by
  refine give_acct _ d n e.vm 0 0 ?_ ?_
  · intro x hx
    have h0 := h x
    simp only [total, setDev, if_neg hx] at h0 ⊢; exact h0
  · have h0 := h d
    simp only [total, setDev, if_true, hm, List.length_append, List.length_cons] at h0 ⊢
    omega

theorem alloc4_acct (s : St) (i : Inv s) (h : Acct s) (n d : Nat) (rest : List Ent) (e : Ent) (hm : (s.dev d).mapped = e :: rest) :
    Acct (alloc4 s n d rest e).1 := by
  have hed := mapped_dev s i d e (by rw [hm]; simp)
  have hw : ∀ x, wlen (pushWait e s.waiting) x = wlen s.waiting x + if d = x then 1 else 0 := by
    intro x; rw [wlen_perm (pushWait_perm e s.waiting), wlen_cons, hed]
  refine give_acct _ d n _ _ 1 ?_ ?_
  · intro x hx
    have h0 := h x
    have h1 := hw x
    rw [if_neg (fun g => hx g.symm)] at h1
    simp only [total, setDev, if_neg hx] at h0 ⊢
    rw [h1]; omega
  · have h0 := h d
    have h1 := hw d
    rw [if_pos rfl] at h1
    simp only [total, setDev, if_true, hm, List.length_cons] at h0 ⊢
    rw [h1]; omega

theorem extend_len (sz alloc d b next : Nat) (rest : List Ent) (taken : List Chunk) (have_ : Nat) :
    (extend sz alloc d b next rest taken have_).mapped.length + (extend sz alloc d b next rest taken have_).unmapped.length = rest.length ∧
      ∀ e ∈ (extend sz alloc d b next rest taken have_).unmapped, e ∈ rest := by
  unfold extend
  split
  · have hspl := List.takeWhile_append_dropWhile (p := fun x : Ent => decide (x.size < alloc - have_)) (l := rest)
    split
    · rename_i x hi heq
      rw [heq] at hspl
      have h := congrArg List.length hspl
      simp at h
      refine ⟨by simp; omega, ?_⟩
      intro e he
      rw [← hspl]
      simp at he
      simp [he]
    · have hsp := transferDown_split alloc rest.reverse have_
      have h := congrArg List.length hsp
      simp at h
      refine ⟨by simp; omega, ?_⟩
      intro e he
      rw [← List.mem_reverse, ← hsp]
      exact List.mem_append_left _ he
  · exact ⟨by simp, fun e he => by simp at he⟩

theorem alloc3_acct (s : St) (i : Inv s) (h : Acct s) (n d : Nat) (grows : Bool) (b : Nat) (rest : List Ent) (e : Ent) (hm : (s.dev d).mapped.Perm (e :: rest))
    (hok : (alloc3 s n d grows b rest e).2.isSome = true) : Acct (alloc3 s n d grows b rest e).1 := by
  have hmem : ∀ x, x ∈ e :: rest → x ∈ (s.dev d).mapped := fun x hx => hm.symm.subset hx
  have hlen := hm.length_eq
  rw [List.length_cons] at hlen
  have hed := mapped_dev s i d e (hmem e (by simp))
  unfold alloc3 at hok ⊢
  simp only at hok ⊢
  have hE := extend_len s.chunkSize (roundUp s.chunkSize n) d b s.nextChunk rest (takeUntil (roundUp s.chunkSize n) (s.dev d).pcache e.vm.bytes).1
    (takeUntil (roundUp s.chunkSize n) (s.dev d).pcache e.vm.bytes).2.2
  generalize extend s.chunkSize (roundUp s.chunkSize n) d b s.nextChunk rest (takeUntil (roundUp s.chunkSize n) (s.dev d).pcache e.vm.bytes).1
    (takeUntil (roundUp s.chunkSize n) (s.dev d).pcache e.vm.bytes).2.2 = r at hE hok ⊢
  have hwa : ∀ x, wlen (pushAll r.unmapped s.waiting) x = (if x = d then r.unmapped.length else 0) + wlen s.waiting x := by
    intro x
    rw [wlen_perm (pushAll_perm r.unmapped s.waiting), wlen_append, wlen_all _ d (fun y hy => mapped_dev s i d y (hmem y (by simp [hE.2 y hy]))) x]
  split at hok
  · rename_i hd
    rw [if_pos hd]
    split
    · refine give_acct _ d n _ _ 0 ?_ ?_
      · intro x hx
        have h0 := h x
        have h1 := hwa x
        rw [if_neg hx] at h1
        simp only [total, setDev, if_neg hx] at h0 ⊢
        rw [h1]; omega
      · have h0 := h d
        have h1 := hwa d
        rw [if_pos rfl] at h1
        simp only [total, setDev, if_true] at h0 ⊢
        rw [h1]; omega
    · have hw : ∀ x, wlen (pushWait e (pushAll r.unmapped s.waiting)) x = wlen (pushAll r.unmapped s.waiting) x + if d = x then 1 else 0 := by
        intro x; rw [wlen_perm (pushWait_perm e _), wlen_cons, hed]
      refine give_acct _ d n _ _ 1 ?_ ?_
      · intro x hx
        have h0 := h x
        have h1 := hwa x
        have h2 := hw x
        rw [if_neg hx] at h1
        rw [if_neg (fun g => hx g.symm)] at h2
        simp only [total, setDev, if_neg hx] at h0 ⊢
        rw [h2, h1]; omega
      · have h0 := h d
        have h1 := hwa d
        have h2 := hw d
        rw [if_pos rfl] at h1 h2
        simp only [total, setDev, if_true] at h0 ⊢
        rw [h2, h1]; omega
  · simp at hok

theorem allocImpl_acct (s0 : St) (i0 : Inv s0) (h0 : Acct s0) (n d : Nat) (grows : Bool) (b1 b2 : Nat)
    (hok : (allocImpl s0 n d grows b1 b2).2.isSome = true) : Acct (allocImpl s0 n d grows b1 b2).1 := by
  have i := (sync_shrink s0).inv i0
  have h := sync_acct s0 h0
  unfold allocImpl at hok ⊢
  simp only at hok ⊢
  generalize sync s0 = s at i h hok ⊢
  have hspl := List.takeWhile_append_dropWhile (p := fun x : Ent => decide (x.size < roundUp s.chunkSize n)) (l := (s.dev d).mapped)
  have key3 : ∀ (l : Ent) (hi : List Ent), ((s.dev d).mapped.takeWhile (fun x => decide (x.size < roundUp s.chunkSize n))).getLast? = some l →
      (s.dev d).mapped.dropWhile (fun x => decide (x.size < roundUp s.chunkSize n)) = hi →
      (s.dev d).mapped.Perm (l :: (((s.dev d).mapped.takeWhile (fun x => decide (x.size < roundUp s.chunkSize n))).dropLast ++ hi)) := by
    intro l hi hl hh
    generalize (s.dev d).mapped.takeWhile (fun x => decide (x.size < roundUp s.chunkSize n)) = lo at hl hspl ⊢
    have hlo : lo = lo.dropLast ++ [l] := by
      obtain ⟨ne, e⟩ := List.getLast?_eq_some_iff.mp hl
      rw [e]; simp
    rw [hh] at hspl
    rw [← hspl]
    conv => lhs; rw [hlo]
    rw [List.append_assoc]
    exact List.perm_middle
  split at hok
  · rename_i hnil
    exact alloc1_acct s i h n d b1 b2
  · rename_i y ys hys
    split at hok
    · rename_i e hi heq
      split at hok
      · rename_i hsz
        simp only [heq, if_pos hsz]
        exact alloc2_acct s h n d _ hi e (by rw [heq] at hspl; exact hspl.symm)
      · rename_i hsz
        split at hok
        · rename_i l hl
          simp only [heq, if_neg hsz, hl]
          rw [heq] at hok
          exact alloc3_acct s i h n d grows b1 _ l (key3 l _ hl heq) hok
        · rename_i hl
          simp only [heq, if_neg hsz, hl]
          have hlo := List.getLast?_eq_none_iff.mp hl
          rw [hlo, heq] at hspl
          exact alloc4_acct s i h n d hi e hspl.symm
    · rename_i heq
      split at hok
      · rename_i l hl
        simp only [heq, hl]
        rw [heq] at hok
        exact alloc3_acct s i h n d grows b1 _ l (key3 l _ hl heq) hok
      · simp at hok

/-- Every allocation in the history succeeds. -/
def noFail : St → List Op → Prop
  | _, [] => True
  | s, op :: ops => (match op with | .alloc n d g b1 b2 => (alloc s n d g b1 b2).2.isSome = true | _ => True) ∧ noFail (step s op) ops

theorem free_acct (s : St) (h : Acct s) (d id : Nat) (busy : Bool) : Acct (free s d id busy) := by
  unfold free
  split
  · exact h
  · rename_i p hp
    have hmem : p ∈ (s.dev d).live := List.mem_of_find?_eq_some hp
    have h1 := (List.perm_cons_erase hmem).length_eq
    have h2 := (insMapped_perm ⟨p.2.bytes, s.clock, p.2⟩ (s.dev d).mapped).length_eq
    rw [List.length_cons] at h1 h2
    intro e
    have h0 := h e
    simp only [total, setDev] at h0 ⊢
    by_cases he : e = d
    · subst he
      simp only [if_true]
      omega
    · simp only [if_neg he]; exact h0

theorem run_acct (ops : List Op) (s : St) (i : Inv s) (h : Acct s) (hs : ∀ op ∈ ops, okOp op) (hn : noFail s ops) : Acct (run s ops) := by
  induction ops generalizing s with
  | nil => exact h
  | cons op ops ih =>
    refine ih (step s op) (step_inv s i op (hs op (by simp))) ?_ (fun o ho => hs o (by simp [ho])) hn.2
    cases op with
    | alloc n d g b1 b2 =>
      have hn1 : (alloc s n d g b1 b2).2.isSome = true := hn.1
      simp only [step]
      unfold alloc at hn1 ⊢
      simp only at hn1 ⊢
      split at hn1
      · rename_i v hv
        exact allocImpl_acct s i h (max n 1) d g b1 b2 (by rw [hv]; rfl)
      · simp at hn1
    | free d id busy => exact free_acct s h d id busy
    | done k => exact h
    | freeDev d => exact freeDev_acct s i h d
    | freeAll => exact freeList_acct s.known s i h
    | setChunk sz => exact h

/-- **C161.** While no allocation fails, the reported memory count of a device is the number of memory objects that exist for it: held by clients, cached, or waiting
to be unbound. (Missing: the full claim also covers failed allocations, the fragmentation and the available bytes; these are false, see below.) -/
theorem C161_count_partial (ops : List Op) (h : ∀ sz, Op.setChunk sz ∈ ops → 0 < sz) (hn : noFail init ops) (d : Nat) :
    usedCount (run init ops) d = ((run init ops).dev d).live.length + ((run init ops).dev d).mapped.length +
      ((run init ops).waiting.filter (fun e => decide (e.vm.dev = d))).length := by
  have := run_acct ops init init_inv (fun _ => rfl) (by
    intro op ho
    cases op with
    | setChunk sz => exact h sz ho
    | _ => trivial) hn d
  rw [usedCount, this, total, wlen, List.countP_eq_length_filter]

/-- **C161.** The reported available bytes never exceed what is cached for the device. -/
theorem C161_available_partial (ops : List Op) (h : ∀ sz, Op.setChunk sz ∈ ops → 0 < sz) (d : Nat) :
    maxAvailable (run init ops) d = (((run init ops).dev d).mapped.map (fun e => e.vm.bytes)).sum ∧
    maxAvailable (run init ops) d ≤ (((run init ops).dev d).mapped.map (fun e => e.vm.bytes)).sum + (((run init ops).dev d).pcache.map Chunk.bytes).sum := by
  have i := reach ops h
  generalize run init ops = s at i
  have e : ∀ l : List Nat, l.foldl (· + ·) 0 = l.sum := by
    intro l
    induction l with
    | nil => rfl
    | cons x xs ih => rw [List.foldl_cons, foldl_add, ih, List.sum_cons]; omega
  have e2 : (s.dev d).mapped.map (fun e => e.vm.bytes) = (s.dev d).mapped.map Ent.size :=
    List.map_congr_left (fun x hx => ((i.dev d).mapped x hx).1.symm)
  have : maxAvailable s d = ((s.dev d).mapped.map (fun e => e.vm.bytes)).sum := by
    unfold maxAvailable
    rw [e, e2]
    split
    · rename_i hp
      rw [List.isEmpty_iff.mp hp]; simp
    · simp
  exact ⟨this, by rw [this]; exact Nat.le_add_right _ _⟩

/-- A history of one allocation of three chunks, its free, and an allocation of one chunk. -/
def histSplit : List Op := [.setChunk 10, .alloc 30 0 true 9 9, .free 0 0 false, .alloc 10 0 true 9 9]

/-- **C161.** Refuted: bytes sit in the physical cache and can be allocated without any new physical memory, yet nothing is reported as available: the test on the
physical cache is inverted. -/
theorem C161_available_refuted :
    maxAvailable (run init histSplit) 0 = 0 ∧ (((run init histSplit).dev 0).pcache.map Chunk.bytes).sum = 20 ∧
      (alloc (run init histSplit) 20 0 true 0 0).2.isSome = true := by
  refine ⟨by decide, by decide, by decide⟩

/-- **C161.** Refuted: after a cached memory is reused for a request of its full size, the fragmentation of the earlier request is still reported. -/
theorem C161_fragmentation_refuted :
    fragmentation (run init [.setChunk 10, .alloc 1 0 true 9 9, .free 0 0 false, .alloc 10 0 true 9 9]) 0 = 9 ∧
      ((run init [.setChunk 10, .alloc 1 0 true 9 9, .free 0 0 false, .alloc 10 0 true 9 9]).dev 0).live.map (fun p => (p.1, p.2.bytes)) = [(10, 10)] ∧
      ((run init [.setChunk 10, .alloc 1 0 true 9 9, .free 0 0 false, .alloc 10 0 true 9 9]).dev 0).mapped = [] := by
  refine ⟨by decide, by decide, by decide⟩

/-- **C161.** Refuted: when growing a cached memory fails for want of physical memory, the memory is gone but still counted. -/
theorem C161_count_refuted :
    usedCount (run init [.setChunk 10, .alloc 10 0 true 9 9, .free 0 0 false, .alloc 20 0 true 0 0]) 0 = 1 ∧
      ((run init [.setChunk 10, .alloc 10 0 true 9 9, .free 0 0 false, .alloc 20 0 true 0 0]).dev 0).live = [] ∧
      ((run init [.setChunk 10, .alloc 10 0 true 9 9, .free 0 0 false, .alloc 20 0 true 0 0]).dev 0).mapped = [] ∧
      (run init [.setChunk 10, .alloc 10 0 true 9 9, .free 0 0 false, .alloc 20 0 true 0 0]).waiting = [] := by
  refine ⟨by decide, by decide, by decide, by decide⟩

/-! ## Histories that meet the hypotheses -/

/-- Two clients on one device and one on another; a freed memory still in use by the device is split, grown in place and grown by remapping. -/
def histMix : List Op :=
  [.setChunk 10, .alloc 25 0 true 9 9, .alloc 5 0 true 9 9, .alloc 7 1 true 9 9, .free 0 0 true, .alloc 12 0 true 9 9, .free 0 1 true, .alloc 40 0 false 9 9,
   .done (0, 0), .alloc 3 0 true 9 9]

example : (∀ sz, Op.setChunk sz ∈ histMix → 0 < sz) ∧ noFail init histMix := by
  refine ⟨by intro sz h; simp [histMix] at h; omega, ?_⟩
  simp only [noFail, histMix]
  decide

example : ((run init histMix).dev 0).live.map (fun p => (p.1, p.2.bytes, p.2.chunks.map Chunk.id)) =
    [(3, 10, [7]), (40, 40, [3, 2, 5, 6]), (12, 20, [0, 1])] ∧ usedCount (run init histMix) 0 = 4 ∧ (run init histMix).unbound = [(0, 0)] ∧
    (run init histMix).waiting.map (fun e => e.vm.key) = [(0, 1)] := by decide

/-- The request of C160 fits. -/
example : (max 20 1 + (run init histSplit).chunkSize - 1) / (run init histSplit).chunkSize * (run init histSplit).chunkSize ≤
    (((run init histSplit).dev 0).mapped.map (fun e => e.vm.bytes)).sum + (((run init histSplit).dev 0).pcache.map Chunk.bytes).sum := by decide

end Verif.VAlloc
