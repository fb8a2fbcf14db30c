import Verif.VAlloc.AllocInv

/-! Properties of the virtual-memory caching allocator: C159 (exclusive ownership), C160 (reuse). -/
namespace Verif.VAlloc

theorem csum_eq (cs : List Chunk) : csum cs = (cs.map Chunk.bytes).sum := by
  induction cs with
  | nil => rfl
  | cons c cs ih => simp [ih]

theorem reach (ops : List Op) (h : ∀ sz, Op.setChunk sz ∈ ops → 0 < sz) : Inv (run init ops) := by
  refine run_inv ops init init_inv ?_
  intro op ho
  cases op with
  | setChunk sz => exact h sz ho
  | _ => trivial

/-- **C159.** After any history of allocations (succeeding or failing), frees, device completions, cache drops and chunk size changes: no physical memory is
held twice, be it by two clients, twice by one, or by a client and the allocator's caches; and a client's physical memory is on its own device. -/
theorem C159_exclusive (ops : List Op) (h : ∀ sz, Op.setChunk sz ∈ ops → 0 < sz) (d : Nat) :
    ((((run init ops).dev d).live.flatMap (fun p => p.2.chunks) ++ ((run init ops).dev d).mapped.flatMap (fun e => e.vm.chunks) ++
      ((run init ops).dev d).pcache).map (fun c => (c.dev, c.id))).Nodup ∧
    ∀ p ∈ ((run init ops).dev d).live, ∀ c ∈ p.2.chunks, c.dev = d := by
  have i := reach ops h
  generalize run init ops = s at i
  have e : ∀ k : Key, (((s.dev d).live.flatMap (fun p => p.2.chunks) ++ (s.dev d).mapped.flatMap (fun e => e.vm.chunks) ++
      (s.dev d).pcache).map (fun c => (c.dev, c.id))).count k = own (s.dev d) k := by
    intro k
    simp only [own, cc, cn, liveV, mapV, List.map_append, List.count_append, List.flatMap_map]
    rfl
  constructor
  · rw [List.nodup_iff_count]
    intro k
    rw [e]
    have := (i.dev d).chunk k
    split at this <;> omega
  · intro p hp c hc
    have h1 := (i.dev d).chunk (c.dev, c.id)
    by_cases hd : c.dev = d
    · exact hd
    · rw [if_neg (fun g => hd g.1), ← e] at h1
      have : 0 < (((s.dev d).live.flatMap (fun p => p.2.chunks) ++ (s.dev d).mapped.flatMap (fun e => e.vm.chunks) ++
          (s.dev d).pcache).map (fun c => (c.dev, c.id))).count (c.dev, c.id) := by
        rw [List.count_pos_iff, List.mem_map]
        exact ⟨c, List.mem_append_left _ (List.mem_append_left _ (List.mem_flatMap.mpr ⟨p, hp, hc⟩)), rfl⟩
      omega

/-- **C159.** What a client holds is on the device it asked for and large enough, and so is the physical memory behind it. -/
theorem C159_size (ops : List Op) (h : ∀ sz, Op.setChunk sz ∈ ops → 0 < sz) (d : Nat) :
    ∀ p ∈ ((run init ops).dev d).live, p.2.dev = d ∧ p.1 ≤ p.2.bytes ∧ p.2.bytes ≤ (p.2.chunks.map Chunk.bytes).sum := by
  have i := reach ops h
  generalize run init ops = s at i
  intro p hp
  have := (i.dev d).live p hp
  rw [csum_eq] at this
  refine ⟨?_, this⟩
  by_cases hd : p.2.key.1 = d
  · exact hd
  · have h0 := (i.dev d).dev _ hd
    have : 0 < kk (liveV (s.dev d)) p.2.key := by
      unfold kk
      rw [List.count_pos_iff]
      exact List.mem_map_of_mem (List.mem_map_of_mem hp)
    simp only [keys] at h0
    omega

/-- **C159.** A memory object is held by one client at most; while held it has not been unbound, it is not queued for unbinding, and it is not in the cache. -/
theorem C159_identity (ops : List Op) (h : ∀ sz, Op.setChunk sz ∈ ops → 0 < sz) (d : Nat) :
    (((run init ops).dev d).live.map (fun p => (p.2.dev, p.2.id))).Nodup ∧
    ∀ p ∈ ((run init ops).dev d).live, (p.2.dev, p.2.id) ∉ (run init ops).unbound ∧
      (∀ e ∈ (run init ops).waiting, (e.vm.dev, e.vm.id) ≠ (p.2.dev, p.2.id)) ∧
      (∀ e ∈ ((run init ops).dev d).mapped, (e.vm.dev, e.vm.id) ≠ (p.2.dev, p.2.id)) := by
  have hdev := C159_size ops h d
  have i := reach ops h
  generalize run init ops = s at i hdev
  have e : ∀ k : Key, ((s.dev d).live.map (fun p => (p.2.dev, p.2.id))).count k = kk (liveV (s.dev d)) k := by
    intro k
    simp only [kk, liveV, List.map_map]
    rfl
  have key : ∀ k : Key, k.1 = d → kk (liveV (s.dev d)) k + kk (mapV (s.dev d).mapped) k + kk (mapV s.waiting) k + s.unbound.count k ≤ 1 := by
    intro k hk
    have h1 := i.key k
    rw [hk] at h1
    simp only [keys, away] at h1
    split at h1 <;> omega
  constructor
  · rw [List.nodup_iff_count]
    intro k
    rw [e]
    by_cases hk : k.1 = d
    · have := key k hk; omega
    · have := (i.dev d).dev k hk
      simp only [keys] at this
      omega
  · intro p hp
    have hk := key p.2.key (hdev p hp).1
    have hpos : 0 < kk (liveV (s.dev d)) p.2.key := by
      unfold kk
      rw [List.count_pos_iff]
      exact List.mem_map_of_mem (List.mem_map_of_mem hp)
    refine ⟨?_, ?_, ?_⟩
    · intro hin
      have : 0 < s.unbound.count p.2.key := List.count_pos_iff.mpr hin
      omega
    · intro x hx heq
      have : 0 < kk (mapV s.waiting) p.2.key := by
        unfold kk
        rw [List.count_pos_iff, List.mem_map]
        exact ⟨x.vm, List.mem_map_of_mem hx, heq⟩
      omega
    · intro x hx heq
      have : 0 < kk (mapV (s.dev d).mapped) p.2.key := by
        unfold kk
        rw [List.count_pos_iff, List.mem_map]
        exact ⟨x.vm, List.mem_map_of_mem hx, heq⟩
      omega

/-- **C159.** No step unbinds a memory the device still uses. -/
theorem C159_unbind (ops : List Op) (h : ∀ sz, Op.setChunk sz ∈ ops → 0 < sz) (op : Op) (k : Key) (hk : k ∈ (step (run init ops) op).unbound) :
    k ∈ (run init ops).unbound ∨ (run init ops).locked k = false := by
  have i := reach ops h
  generalize run init ops = s at i hk
  cases op with
  | alloc n d g b1 b2 => exact (alloc_inv s i n d g b1 b2).2.1.unb k hk
  | free d id busy =>
    left
    simp only [step, free] at hk
    split at hk <;> exact hk
  | done k' => exact Or.inl hk
  | freeDev d => exact (freeDev_shrink s i d).unb k hk
  | freeAll => exact (freeAll_shrink s i).unb k hk
  | setChunk sz => exact Or.inl hk

/-- **C159.** An allocation hands out one memory, of at least the bytes asked for, on the device asked for, or fails; either way every other memory held by a
client, on any device, stays exactly as it was. -/
theorem C159_alloc (ops : List Op) (h : ∀ sz, Op.setChunk sz ∈ ops → 0 < sz) (n d : Nat) (grows : Bool) (b1 b2 : Nat) :
    (∀ e, e ≠ d → ((alloc (run init ops) n d grows b1 b2).1.dev e).live = ((run init ops).dev e).live) ∧
    match (alloc (run init ops) n d grows b1 b2).2 with
    | some v => v.dev = d ∧ n ≤ v.bytes ∧ ((alloc (run init ops) n d grows b1 b2).1.dev d).live = (max n 1, v) :: ((run init ops).dev d).live
    | none => ((alloc (run init ops) n d grows b1 b2).1.dev d).live = ((run init ops).dev d).live := by
  have i := reach ops h
  generalize run init ops = s at i
  obtain ⟨_, h2, h3⟩ := alloc_inv s i n d grows b1 b2
  refine ⟨h2.live, ?_⟩
  rcases h3 with ⟨v, e, g⟩ | ⟨e, g⟩
  · rw [e]; exact ⟨g.dev, Nat.le_trans (Nat.le_max_left _ _) g.bytes, g.live⟩
  · rw [e]; exact g

/-- **C159.** Freeing takes exactly that memory from the client, and clearing caches takes nothing from clients. -/
theorem C159_free (ops : List Op) (h : ∀ sz, Op.setChunk sz ∈ ops → 0 < sz) (d : Nat) (busy : Bool) :
    (∀ p ∈ ((run init ops).dev d).live, ((free (run init ops) d p.2.id busy).dev d).live = ((run init ops).dev d).live.erase p ∧
      ∀ e, e ≠ d → ((free (run init ops) d p.2.id busy).dev e).live = ((run init ops).dev e).live) ∧
    (∀ e, ((freeDev (run init ops) d).dev e).live = ((run init ops).dev e).live) ∧
    (∀ e, ((freeAll (run init ops)).dev e).live = ((run init ops).dev e).live) := by
  have hid := (C159_identity ops h d).1
  have hdev := C159_size ops h d
  have i := reach ops h
  generalize run init ops = s at i hid hdev
  refine ⟨?_, (freeDev_shrink s i d).live, (freeAll_shrink s i).live⟩
  intro p hp
  have hf : (s.dev d).live.find? (fun q => q.2.id == p.2.id) = some p := by
    generalize (s.dev d).live = l at hp hid hdev
    induction l with
    | nil => simp at hp
    | cons x xs ih =>
      rcases List.mem_cons.mp hp with e | hx
      · rw [← e]; simp
      · have hne : ¬ (x.2.id = p.2.id) := by
          intro heq
          rw [List.map_cons, List.nodup_cons] at hid
          refine hid.1 (List.mem_map.mpr ⟨p, hx, ?_⟩)
          rw [(hdev p hp).1, (hdev x (by simp)).1, heq]
        rw [List.find?_cons_of_neg (by simpa using hne)]
        exact ih hx (by rw [List.map_cons, List.nodup_cons] at hid; exact hid.2) (fun q hq => hdev q (by simp [hq]))
  simp only [free, hf]
  exact ⟨by simp [setDev], fun e he => by simp [setDev, he]⟩

/-! ## Reuse -/

theorem transferDown_enough (t : Nat) (es : List Ent) (h : Nat) (he : t ≤ h + (es.map (fun e => csum e.vm.chunks)).sum) : t ≤ (transferDown t es h).2.2.2.2 := by
  induction es generalizing h with
  | nil => simpa [transferDown] using he
  | cons e es ih =>
    unfold transferDown
    split
    · simp only
      refine ih _ ?_
      simp only [List.map_cons, List.sum_cons] at he
      rcases takeUntil_all t e.vm.chunks h with hh | hh
      · omega
      · have h1 := takeUntil_bytes t e.vm.chunks h
        have h2 := takeUntil_split t e.vm.chunks h
        rw [hh, List.append_nil] at h2
        rw [h2] at h1
        omega
    · simp only; omega

theorem allocPhys_none (sz t d b h n : Nat) (he : t ≤ h) : allocPhys sz t d b h n = ([], h, n, true) := by
  cases b with
  | zero => simp [allocPhys]; omega
  | succ b => rw [allocPhys, if_neg (by omega)]

theorem takeUntil_rest (t : Nat) (cs : List Chunk) (h : Nat) (hlt : (takeUntil t cs h).2.2 < t) : (takeUntil t cs h).2.2 = h + csum cs := by
  rcases takeUntil_all t cs h with hh | hh
  · omega
  · have h1 := takeUntil_bytes t cs h
    have h2 := takeUntil_split t cs h
    rw [hh, List.append_nil] at h2
    rw [h2] at h1
    exact h1

theorem sum_perm {l l' : List Nat} (h : l.Perm l') : l.sum = l'.sum := by
  induction h with
  | nil => rfl
  | cons x _ ih => simp [ih]
  | swap x y l => simp only [List.sum_cons]; omega
  | trans _ _ a b => exact a.trans b

theorem sizes_le (es : List Ent) (h : ∀ e ∈ es, e.size = e.vm.bytes ∧ e.vm.bytes ≤ csum e.vm.chunks) :
    (es.map Ent.size).sum ≤ (es.map (fun e => csum e.vm.chunks)).sum := by
  induction es with
  | nil => simp
  | cons e es ih =>
    have h1 := h e (by simp)
    have h2 := ih (fun x hx => h x (by simp [hx]))
    simp only [List.map_cons, List.sum_cons]
    omega

theorem extend_reuse (sz alloc d b next : Nat) (rest : List Ent) (taken : List Chunk) (have_ : Nat)
    (hok : ∀ e ∈ rest, e.size = e.vm.bytes ∧ e.vm.bytes ≤ csum e.vm.chunks) (hs : alloc ≤ have_ + (rest.map Ent.size).sum) :
    (extend sz alloc d b next rest taken have_).next = next ∧ (extend sz alloc d b next rest taken have_).done = true := by
  unfold extend
  split
  · split
    · exact ⟨rfl, rfl⟩
    · have he := transferDown_enough alloc rest.reverse have_ (by
        have h1 := sizes_le rest hok
        have h2 : (rest.reverse.map (fun e => csum e.vm.chunks)).sum = (rest.map (fun e => csum e.vm.chunks)).sum := sum_perm ((List.reverse_perm _).map _)
        omega)
      simp only
      rw [allocPhys_none _ _ _ _ _ _ he]
      exact ⟨rfl, rfl⟩
  · exact ⟨rfl, rfl⟩

/-- **C160.** A request (rounded up to whole chunks) that fits in what is cached for the device succeeds whatever the device answers, and no physical memory is
created for it. -/
theorem C160_reuse (ops : List Op) (h : ∀ sz, Op.setChunk sz ∈ ops → 0 < sz) (n d : Nat) (grows : Bool) (b1 b2 : Nat)
    (hfit : (max n 1 + (run init ops).chunkSize - 1) / (run init ops).chunkSize * (run init ops).chunkSize ≤
      (((run init ops).dev d).mapped.map (fun e => e.vm.bytes)).sum + (((run init ops).dev d).pcache.map Chunk.bytes).sum) :
    (alloc (run init ops) n d grows b1 b2).2.isSome = true ∧
      (alloc (run init ops) n d grows b1 b2).1.nextChunk = (run init ops).nextChunk := by
  have i0 := reach ops h
  generalize run init ops = s0 at i0 hfit
  generalize hm : max n 1 = m at hfit
  have hsy := sync_shrink s0
  have i := hsy.inv i0
  suffices hh : (allocImpl s0 m d grows b1 b2).2.isSome = true ∧ (allocImpl s0 m d grows b1 b2).1.nextChunk = s0.nextChunk by
    unfold alloc
    rw [hm]
    obtain ⟨v, hv⟩ := Option.isSome_iff_exists.mp hh.1
    simp only [hv]
    exact ⟨rfl, hh.2⟩
  rw [← csum_eq] at hfit
  have hmapped : ((sync s0).dev d).mapped = (s0.dev d).mapped := (dropCount_fields _ _ d).2.1
  have hpc : ((sync s0).dev d).pcache = (s0.dev d).pcache := (dropCount_fields _ _ d).2.2
  have hnc : (sync s0).nextChunk = s0.nextChunk := rfl
  have hcs : (sync s0).chunkSize = s0.chunkSize := rfl
  rw [← hmapped, ← hpc, ← hcs] at hfit
  rw [← hnc]
  change roundUp (sync s0).chunkSize m ≤ _ at hfit
  unfold allocImpl
  simp only
  generalize sync s0 = s at i hfit
  have hr := roundUp_ge s.chunkSize m i.size
  have hbs : ∀ l : List Ent, (∀ e ∈ l, e ∈ (s.dev d).mapped) → (l.map (fun e => e.vm.bytes)).sum = (l.map Ent.size).sum := by
    intro l hl
    congr 1
    exact List.map_congr_left (fun e he => ((i.dev d).mapped e (hl e he)).1.symm)
  have case3 : ∀ (rest : List Ent) (e : Ent), (s.dev d).mapped.Perm (e :: rest) →
      (alloc3 s m d grows b1 rest e).2.isSome = true ∧ (alloc3 s m d grows b1 rest e).1.nextChunk = s.nextChunk := by
    intro rest e hp
    have hmem : ∀ x, x ∈ e :: rest → x ∈ (s.dev d).mapped := fun x hx => hp.symm.subset hx
    have hsum : ((s.dev d).mapped.map (fun e => e.vm.bytes)).sum = e.vm.bytes + (rest.map Ent.size).sum := by
      rw [sum_perm (hp.map _), List.map_cons, List.sum_cons, hbs rest (fun x hx => hmem x (by simp [hx]))]
    have hE := extend_reuse s.chunkSize (roundUp s.chunkSize m) d b1 s.nextChunk rest
      (takeUntil (roundUp s.chunkSize m) (s.dev d).pcache e.vm.bytes).1 (takeUntil (roundUp s.chunkSize m) (s.dev d).pcache e.vm.bytes).2.2
      (fun x hx => (i.dev d).mapped x (hmem x (by simp [hx]))) (by
        by_cases hlt : (takeUntil (roundUp s.chunkSize m) (s.dev d).pcache e.vm.bytes).2.2 < roundUp s.chunkSize m
        · rw [takeUntil_rest _ _ _ hlt]; omega
        · omega)
    unfold alloc3
    simp only
    rw [hE.2]
    cases grows
    · exact ⟨rfl, hE.1⟩
    · exact ⟨rfl, hE.1⟩
  split
  · rename_i hnil
    rw [hnil] at hfit
    have he := takeUntil_enough (roundUp s.chunkSize m) (s.dev d).pcache 0 (by simpa using hfit)
    unfold alloc1
    simp only
    rw [allocPhys_none _ _ _ _ _ _ (Nat.le_trans hr he)]
    exact ⟨rfl, rfl⟩
  · rename_i y0 ys0 hys0
    have hspl := List.takeWhile_append_dropWhile (p := fun x : Ent => decide (x.size < roundUp s.chunkSize m)) (l := (s.dev d).mapped)
    have key3 : ∀ (l : Ent) (hi : List Ent), ((s.dev d).mapped.takeWhile (fun x => decide (x.size < roundUp s.chunkSize m))).getLast? = some l →
        (s.dev d).mapped.dropWhile (fun x => decide (x.size < roundUp s.chunkSize m)) = hi →
        (s.dev d).mapped.Perm (l :: (((s.dev d).mapped.takeWhile (fun x => decide (x.size < roundUp s.chunkSize m))).dropLast ++ hi)) := by
      intro l hi hl hh
      generalize (s.dev d).mapped.takeWhile (fun x => decide (x.size < roundUp s.chunkSize m)) = lo at hl hspl ⊢
      have hlo : lo = lo.dropLast ++ [l] := by
        obtain ⟨ne, e⟩ := List.getLast?_eq_some_iff.mp hl
        rw [e]; simp
      rw [hh] at hspl
      rw [← hspl]
      conv => lhs; rw [hlo]
      rw [List.append_assoc]
      exact List.perm_middle
    split
    · rename_i e hi heq
      split
      · exact ⟨rfl, rfl⟩
      · split
        · rename_i l hl
          rw [heq]
          exact case3 _ l (key3 l _ hl heq)
        · exact ⟨rfl, rfl⟩
    · rename_i heq
      split
      · rename_i l hl
        rw [heq]
        exact case3 _ l (key3 l _ hl heq)
      · rename_i hl
        have hlo := List.getLast?_eq_none_iff.mp hl
        rw [hlo, heq, hys0] at hspl
        simp at hspl

end Verif.VAlloc
