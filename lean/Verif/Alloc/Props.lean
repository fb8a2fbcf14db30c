/-
C29: live allocations never overlap and never move.
C30: free neighbours are merged, accounting is exact, everything can be returned.
C50: the used-bytes counter of the allocator without caching.
-/
import Mathlib.Algebra.Order.BigOperators.Group.List
import Verif.Alloc.Inv

namespace Verif.Alloc

/-! ### specification -/

/-- Byte `x` of the device chunk `c` belongs to block `m`. -/
def Owns (s : St) (m c x : Nat) : Prop := (s.mem m).chunk = c ∧ (s.mem m).off ≤ x ∧ x < (s.mem m).off + (s.mem m).bytes

/-- The handles alive. -/
def handles (s : St) : List Nat := s.live.map (·.1)

/-- The blocks in the pools. -/
def Cached (s : St) (m : Nat) : Prop := ∃ b d k, k ∈ s.cache b d ∧ k.2 = m

/-- Bytes obtained from device `d` and not returned. -/
def heldBytes (s : St) (d : Nat) : Nat :=
  ((List.range s.chunks).map (fun c => if s.returned c = false ∧ s.chunkDev c = d then s.chunkSize c else 0)).sum

/-- Bytes of the handles on device `d`. -/
def liveBytes (s : St) (d : Nat) : Nat :=
  ((handles s).map (fun m => if (s.mem m).dev = d then (s.mem m).bytes else 0)).sum

/-- Handles on device `d` of at most / more than 1 MiB. -/
def liveCount (s : St) (small : Bool) (d : Nat) : Nat :=
  ((handles s).filter (fun m => decide ((s.mem m).dev = d) && (decide ((s.mem m).bytes ≤ 1048576) == small))).length

/-- Everything that can happen from a fresh allocator on. -/
def reach (addr : Nat → Nat) (ops : List Op) : St := run addr init ops

/-! ### helpers -/

theorem Full.placed {s lay x ρ} (h : Full s lay x ρ) {m} (hm : InLay lay m) :
    (s.mem m).chunk < s.chunks ∧ s.returned (s.mem m).chunk = false ∧ (s.mem m).dev = s.chunkDev (s.mem m).chunk ∧
      0 < (s.mem m).bytes ∧ (s.mem m).off + (s.mem m).bytes ≤ s.chunkSize (s.mem m).chunk := by
  obtain ⟨mc, g⟩ := h.st.good hm
  have al := (h.st.alive (s.mem m).chunk).1 (by intro hx; rw [hx] at mc; cases mc)
  exact ⟨al.1, al.2, g.dev, g.pos, (h.st.layout _).end_le mc⟩

theorem Full.disjoint {s lay x ρ} (h : Full s lay x ρ) {m m' c y} (hm : InLay lay m) (hm' : InLay lay m')
    (h1 : Owns s m c y) (h2 : Owns s m' c y) : m = m' := by
  obtain ⟨mc, _⟩ := h.st.good hm
  obtain ⟨mc', _⟩ := h.st.good hm'
  rw [h1.1] at mc; rw [h2.1] at mc'
  by_contra hne
  have o := (h.st.layout c).ordered
  obtain ⟨A, B, e⟩ := List.mem_iff_append.1 mc
  rw [e] at o mc'
  rw [List.pairwise_append, List.pairwise_cons] at o
  rw [List.mem_append, List.mem_cons] at mc'
  rcases mc' with hx | hx | hx
  · have := o.2.2 m' hx m (by simp)
    unfold Before at this; have := h1.2; have := h2.2; omega
  · exact hne hx.symm
  · have := o.2.1.1 m' hx
    unfold Before at this; have := h1.2; have := h2.2; omega

theorem Full.cached_iff {s lay ρ} (h : Full s lay none ρ) (m : Nat) : Cached s m ↔ InLay lay m ∧ (s.mem m).locked = false := by
  constructor
  · rintro ⟨b, d, k, hk, rfl⟩
    have := (h.st.cache b d k).1 hk
    refine ⟨this.1, ?_⟩
    have := this.2.1
    unfold busy at this
    simpa using this
  · rintro ⟨h1, h2⟩
    refine ⟨decide ((s.mem m).bytes ≤ smallAlloc), (s.mem m).dev, ((s.mem m).bytes, m), ?_, rfl⟩
    rw [h.st.cache]
    refine ⟨h1, ?_, rfl, rfl, rfl⟩
    unfold busy
    rw [h2]; simp

theorem layout_covers {s : St} {c : Nat} : ∀ {l : List Nat}, (∀ m ∈ l, (s.mem m).chunk = c) → l.IsChain (Adj s) →
    ∀ a z, l.head? = some a → l.getLast? = some z → ∀ x, (s.mem a).off ≤ x → x < (s.mem z).off + (s.mem z).bytes →
    ∃ m ∈ l, Owns s m c x := by
  intro l
  induction l with
  | nil => intro _ _ a z ha; cases ha
  | cons b l ih =>
    intro hch adj a z ha hz x h1 h2
    cases ha
    by_cases hx : x < (s.mem b).off + (s.mem b).bytes
    · exact ⟨b, by simp, hch b (by simp), h1, hx⟩
    · cases l with
      | nil => simp at hz; subst hz; exact absurd h2 hx
      | cons b' l =>
        rw [List.isChain_cons] at adj
        have := adj.1 b' rfl
        obtain ⟨m, hm, ho⟩ := ih (fun m hm => hch m (by simp only [List.mem_cons] at *; exact Or.inr hm)) adj.2 b' z rfl (by simpa using hz) x (by rw [this.2.2]; omega) h2
        exact ⟨m, by simp only [List.mem_cons] at *; exact Or.inr hm, ho⟩

/-! ### C29 -/

/-- After every history: each handle is inside memory obtained from its device and not returned, at least as
large as requested, and no byte belongs to two handles. -/
theorem C29_live_disjoint (addr : Nat → Nat) (ops : List Op) :
    let s := reach addr ops
    (handles s).Nodup ∧
    (∀ h ∈ s.live, (s.mem h.1).chunk < s.chunks ∧ s.returned (s.mem h.1).chunk = false ∧
      s.chunkDev (s.mem h.1).chunk = (s.mem h.1).dev ∧
      (s.mem h.1).off + (s.mem h.1).bytes ≤ s.chunkSize (s.mem h.1).chunk ∧ max h.2 1 ≤ (s.mem h.1).bytes) ∧
    (∀ m ∈ handles s, ∀ m' ∈ handles s, ∀ c x, Owns s m c x → Owns s m' c x → m = m') := by
  obtain ⟨lay, h⟩ := inv_run addr inv_init ops
  refine ⟨h.ids, ?_, ?_⟩
  · intro k hk
    have p := h.placed ((h.live k.1).1 (List.mem_map_of_mem hk)).1
    have r := h.req k hk
    exact ⟨p.1, p.2.1, p.2.2.1.symm, p.2.2.2.2, Nat.max_le.2 ⟨r, p.2.2.2.1⟩⟩
  · intro m hm m' hm' c x h1 h2
    exact h.disjoint ((h.live m).1 hm).1 ((h.live m').1 hm').1 h1 h2

/-- Which handles live: an allocation adds one (or raises and adds none), the end of a handle's life removes
it, the other calls change nothing. -/
theorem C29_handles (addr : Nat → Nat) (ops : List Op) (req d : Nat) (ok1 ok2 : Bool) :
    let s := reach addr ops
    (∀ m, (alloc addr s req d ok1 ok2).1 = some m → m ∉ handles s ∧
      (alloc addr s req d ok1 ok2).2.live = s.live ++ [(m, req)] ∧ ((alloc addr s req d ok1 ok2).2.mem m).dev = d) ∧
    ((alloc addr s req d ok1 ok2).1 = none → (alloc addr s req d ok1 ok2).2.live = s.live) ∧
    (∀ m, (step addr s (.free m)).live = s.live.filter (fun h => h.1 ≠ m)) ∧
    (step addr s (.freeUnused d)).live = s.live ∧ (step addr s .freeUnusedAll).live = s.live := by
  obtain ⟨lay, h⟩ := inv_run addr inv_init ops
  obtain ⟨lay', F, _, L, N⟩ := h.alloc addr req d ok1 ok2
  refine ⟨?_, N, ?_, ?_, ?_⟩
  · intro m hm
    refine ⟨?_, L m hm⟩
    intro hx
    have nd := F.ids
    have e := (L m hm).1
    unfold reach at hx
    unfold run at hx e nd
    rw [e, List.map_append, List.nodup_append] at nd
    exact nd.2.2 m hx m (by simp) rfl
  · intro m
    show (if m ∈ (reach addr ops).live.map (·.1) then Alloc.free (reach addr ops) m else reach addr ops).live = _
    split
    · rw [free_eq]
      simp only
      show (tryMerge (tryMerge (unlockSt (reach addr ops) m) m _) m _).live = _
      rw [(tryMerge_rest _ _ _).2.2.2.2.2.2.1, (tryMerge_rest _ _ _).2.2.2.2.2.2.1]
      rfl
    · rename_i hm
      symm
      rw [List.filter_eq_self]
      intro k hk
      simp only [decide_eq_true_eq]
      intro hx
      exact hm (List.mem_map.2 ⟨k, hk, hx⟩)
  · obtain ⟨_, _, K, _⟩ := h.freeUnused d; exact K.live
  · obtain ⟨_, _, K, _⟩ := Full.freeUnusedAll_go (reach addr ops).known h; exact K.live

/-- A handle stays at its place, with its size, through every call until it is freed. -/
theorem C29_never_moves (addr : Nat → Nat) (ops : List Op) (o : Op) (m : Nat) :
    let s := reach addr ops
    m ∈ handles s → m ∈ handles (step addr s o) →
    ((step addr s o).mem m).dev = (s.mem m).dev ∧ ((step addr s o).mem m).chunk = (s.mem m).chunk ∧
    ((step addr s o).mem m).off = (s.mem m).off ∧ ((step addr s o).mem m).bytes = (s.mem m).bytes := by
  intro s hm hm'
  obtain ⟨lay, h⟩ := inv_run addr inv_init ops
  have hl := (h.live m).1 hm
  suffices f : Fixed ((step addr s o).mem m) (s.mem m) from ⟨f.2.2.1, f.2.2.2.1, f.2.2.2.2, f.2.1⟩
  cases o with
  | alloc req d ok1 ok2 =>
    obtain ⟨_, _, X, _⟩ := h.alloc addr req d ok1 ok2
    exact X m hl.2 hl.1
  | free n =>
    have L := ((C29_handles addr ops 0 0 true true).2.2.1 n)
    have hne : m ≠ n := by
      intro hx
      subst hx
      unfold handles at hm'
      rw [L] at hm'
      obtain ⟨k, hk, e⟩ := List.mem_map.1 hm'
      have := (List.mem_filter.1 hk).2
      simp only [decide_eq_true_eq] at this
      exact this e
    show Fixed ((if n ∈ s.live.map (·.1) then Alloc.free s n else s).mem m) (s.mem m)
    split
    · rename_i hn
      obtain ⟨_, _, X⟩ := h.free hn
      exact X m hl.2 hne
    · exact ⟨rfl, rfl, rfl, rfl, rfl⟩
  | freeUnused d =>
    obtain ⟨_, _, K, _⟩ := h.freeUnused d
    show Fixed ((Alloc.freeUnused s d).mem m) (s.mem m)
    rw [show (Alloc.freeUnused s d).mem = s.mem from K.mem]; exact ⟨rfl, rfl, rfl, rfl, rfl⟩
  | freeUnusedAll =>
    obtain ⟨_, _, K, _⟩ := Full.freeUnusedAll_go (reach addr ops).known h
    show Fixed ((freeUnusedAll s).mem m) (s.mem m)
    rw [show (freeUnusedAll s).mem = s.mem from K.mem]; exact ⟨rfl, rfl, rfl, rfl, rfl⟩

/-! ### C30 -/

/-- No byte is lost: every byte obtained and not returned belongs to exactly one block, a handle or a cached
block. -/
theorem C30_no_byte_lost (addr : Nat → Nat) (ops : List Op) :
    let s := reach addr ops
    ∀ c x, c < s.chunks → s.returned c = false → x < s.chunkSize c →
      ∃ m, (m ∈ handles s ∨ Cached s m) ∧ Owns s m c x ∧
        ∀ m', (m' ∈ handles s ∨ Cached s m') → Owns s m' c x → m' = m := by
  intro s c x hc hr hx
  obtain ⟨lay, h⟩ := inv_run addr inv_init ops
  have ne := (h.st.alive c).2 ⟨hc, hr⟩
  have L := h.st.layout c
  obtain ⟨a, ha⟩ : ∃ a, (lay c).head? = some a := by
    cases hh : lay c with
    | nil => exact absurd hh ne
    | cons a l => exact ⟨a, rfl⟩
  obtain ⟨z, hz⟩ : ∃ z, (lay c).getLast? = some z := by
    cases hh : (lay c).getLast? with
    | none => exact absurd (List.getLast?_eq_none_iff.1 hh) ne
    | some z => exact ⟨z, rfl⟩
  have inl : ∀ m, m ∈ handles s ∨ Cached s m ↔ InLay lay m := by
    intro m
    rw [show (m ∈ handles s ↔ _) from h.live m, show (Cached s m ↔ _) from h.cached_iff m]
    constructor
    · rintro (a | a) <;> exact a.1
    · intro a
      cases hb : ((run addr init ops).mem m).locked with
      | true => exact Or.inl ⟨a, rfl⟩
      | false => exact Or.inr ⟨a, rfl⟩
  obtain ⟨m, hm, ho⟩ := layout_covers (fun m hm => (L.each m hm).chunk) L.adj a z ha hz x (by rw [(L.first a ha).2]; omega)
    (by rw [(L.last z hz).2]; exact hx)
  refine ⟨m, (inl m).2 ⟨c, hm⟩, ho, ?_⟩
  intro m' hm' ho'
  exact h.disjoint ((inl m').1 hm') ⟨c, hm⟩ ho' ho

/-- Free blocks are merged: no cached block ends where another one begins; and cached blocks are not handles. -/
theorem C30_coalesced (addr : Nat → Nat) (ops : List Op) :
    let s := reach addr ops
    (∀ m, Cached s m → m ∉ handles s) ∧
    ∀ m m', Cached s m → Cached s m' → (s.mem m).chunk = (s.mem m').chunk →
      (s.mem m).off + (s.mem m).bytes ≠ (s.mem m').off := by
  obtain ⟨lay, h⟩ := inv_run addr inv_init ops
  refine ⟨?_, ?_⟩
  · intro m hm hx
    have h1 := ((h.cached_iff m).1 hm).2
    have h2 := ((h.live m).1 hx).2
    rw [h1] at h2; cases h2
  · intro m m' hm hm' hc he
    have i1 := (h.cached_iff m).1 hm
    have i2 := (h.cached_iff m').1 hm'
    obtain ⟨c1, g1⟩ := h.st.good i1.1
    obtain ⟨c2, g2⟩ := h.st.good i2.1
    have hc' : ((run addr init ops).mem m).chunk = ((run addr init ops).mem m').chunk := hc
    have he' : ((run addr init ops).mem m).off + ((run addr init ops).mem m).bytes = ((run addr init ops).mem m').off := he
    rw [← hc'] at c2 g2
    generalize ((run addr init ops).mem m).chunk = c at *
    obtain ⟨A, B, e⟩ := List.mem_iff_append.1 c1
    have L := h.st.layout c
    have ch := h.st.nofree c
    rw [e] at L ch c2
    have o := L.ordered
    rw [List.pairwise_append, List.pairwise_cons] at o
    have p1 := g1.pos
    have p2 := g2.pos
    rw [List.mem_append, List.mem_cons] at c2
    rcases c2 with hx | hx | hx
    · have := o.2.2 m' hx m (by simp)
      unfold Before at this; omega
    · subst hx; omega
    · cases B with
      | nil => cases hx
      | cons b B =>
        have adj := (List.isChain_append.1 L.adj).2.1
        rw [List.isChain_cons] at adj
        have ob := (adj.1 b rfl).2.2
        rcases List.mem_cons.1 hx with hy | hy
        · subst hy
          rw [List.isChain_append, List.isChain_cons] at ch
          rcases ch.2.1.1 m' rfl with (q | q) | (q | q)
          · rw [i1.2] at q; cases q
          · cases q
          · rw [i2.2] at q; cases q
          · cases q
        · have := (List.pairwise_cons.1 o.2.1.2).1 m' hy
          have pb := (L.each b (by simp)).pos
          unfold Before at this; omega

/-- The counters are exact: used bytes = bytes obtained and not returned = bytes of handles + bytes in the
pools; the number of handles per device and size class. -/
theorem C30_accounting (addr : Nat → Nat) (ops : List Op) (d : Nat) :
    let s := reach addr ops
    s.used d = (heldBytes s d : Int) ∧ heldBytes s d = liveBytes s d + totalCacheBytes s d ∧
    ∀ small, s.cnt small d = (liveCount s small d : Int) := by
  obtain ⟨lay, h⟩ := inv_run addr inv_init ops
  have h1 := h.acct d
  have h2 := h.dev d
  refine ⟨h2, ?_, ?_⟩
  · rw [h2, handB_none] at h1
    have e1 : devB (run addr init ops) d = heldBytes (run addr init ops) d := rfl
    have e2 : liveB (run addr init ops) d = liveBytes (run addr init ops) d := by
      unfold liveB liveBytes handles; rw [List.map_map]; rfl
    have e3 : cs (run addr init ops) d = totalCacheBytes (run addr init ops) d := by
      unfold cs totalCacheBytes csum
      rw [List.map_append, List.sum_append]
      congr 1 <;> congr 1 <;> apply List.map_congr_left <;> intro k hk <;> exact ((h.st.cache _ d k).1 hk).2.2.1
    rw [e1, e2, e3] at h1
    have := Int.ofNat_inj.1 h1
    show heldBytes (run addr init ops) d = liveBytes (run addr init ops) d + totalCacheBytes (run addr init ops) d
    omega
  · intro small
    have := h.cnt small d
    refine this.trans ?_
    congr 1
    unfold liveCount handles
    rw [List.countP_eq_length_filter, List.filter_map, List.length_map]
    rfl

/-- `get_max_cache_bytes` is the size of a largest block in the pools of the device, 0 if they are empty. -/
theorem C30_max_cache (addr : Nat → Nat) (ops : List Op) (d : Nat) :
    let s := reach addr ops
    (∀ small, ∀ k ∈ s.cache small d, (s.mem k.2).bytes ≤ maxCacheBytes s d) ∧
    (maxCacheBytes s d = 0 ∧ (∀ small, s.cache small d = []) ∨
      ∃ small, ∃ k ∈ s.cache small d, (s.mem k.2).bytes = maxCacheBytes s d) := by
  intro s
  have key : ∀ (l : List Nat) (a : Nat), a ≤ l.foldl max a ∧ (∀ x ∈ l, x ≤ l.foldl max a) ∧ (l.foldl max a = a ∨ l.foldl max a ∈ l) ∧
      (∀ x ∈ l, a ≤ x → l.foldl max a ∈ l) := by
    intro l
    induction l with
    | nil => intro a; simp
    | cons x l ih =>
      intro a
      obtain ⟨h1, h2, h3, h4⟩ := ih (max a x)
      rw [List.foldl_cons]
      have hxa : x ≤ max a x := le_max_right _ _
      refine ⟨by omega, ?_, ?_, ?_⟩
      · intro y hy
        rcases List.mem_cons.1 hy with rfl | hy
        · omega
        · exact h2 y hy
      · rcases h3 with h3 | h3
        · rcases Nat.le_total a x with h | h
          · right; rw [h3, max_eq_right h]; exact List.mem_cons_self
          · left; rw [h3, max_eq_left h]
        · right; exact List.mem_cons_of_mem _ h3
      · intro y hy hay
        rcases h3 with h3 | h3
        · rcases Nat.le_total a x with h | h
          · rw [h3, max_eq_right h]; exact List.mem_cons_self
          · rcases List.mem_cons.1 hy with rfl | hy
            · rw [h3, show max a y = y by omega]; exact List.mem_cons_self
            · have := h2 y hy
              have e : y = l.foldl max (max a x) := by omega
              rw [← e]; exact List.mem_cons_of_mem _ hy
        · exact List.mem_cons_of_mem _ h3
  obtain ⟨_, h2, _, h4⟩ := key ((s.cache true d ++ s.cache false d).map (fun k => (s.mem k.2).bytes)) 0
  have hm : ∀ small, ∀ k ∈ s.cache small d, k ∈ s.cache true d ++ s.cache false d := by
    intro small k hk
    cases small
    · exact List.mem_append_right _ hk
    · exact List.mem_append_left _ hk
  refine ⟨fun small k hk => h2 _ (List.mem_map.2 ⟨k, hm small k hk, rfl⟩), ?_⟩
  cases hl : s.cache true d ++ s.cache false d with
  | nil =>
    left
    rw [List.append_eq_nil_iff] at hl
    refine ⟨by unfold maxCacheBytes; rw [hl.1, hl.2]; rfl, ?_⟩
    intro small
    cases small
    · exact hl.2
    · exact hl.1
  | cons k l =>
    right
    have := h4 (s.mem k.2).bytes (List.mem_map.2 ⟨k, by rw [hl]; exact List.mem_cons_self, rfl⟩) (Nat.zero_le _)
    obtain ⟨k', hk', e⟩ := List.mem_map.1 this
    rcases List.mem_append.1 hk' with h | h
    · exact ⟨true, k', h, e⟩
    · exact ⟨false, k', h, e⟩

theorem split_device (s : St) (m bytes d : Nat) (small : Bool) :
    (split s m bytes d small).chunks = s.chunks ∧ (split s m bytes d small).returned = s.returned := by
  unfold Alloc.split
  have r := divide_rest s m bytes
  by_cases h : (s.mem m).bytes - bytes ≥ (if small then roundSmall else smallAlloc + 1)
  · rw [if_pos h]; exact ⟨r.2.2.2.2.1, r.2.2.2.2.2.1⟩
  · rw [if_neg h]; exact ⟨rfl, rfl⟩

/-- A request that a cached block can serve never goes to the device, and takes a smallest such block. -/
theorem C30_reuses_cache (addr : Nat → Nat) (ops : List Op) (req d : Nat) (ok1 ok2 : Bool) :
    let s := reach addr ops
    let bytes := roundSize (max req 1)
    (∃ k ∈ s.cache (decide (bytes ≤ 1048576)) d, bytes ≤ k.1) →
    ∃ m, (alloc addr s req d ok1 ok2).1 = some m ∧ (∃ k ∈ s.cache (decide (bytes ≤ 1048576)) d, k.2 = m) ∧
      bytes ≤ (s.mem m).bytes ∧
      (∀ k ∈ s.cache (decide (bytes ≤ 1048576)) d, bytes ≤ k.1 → (s.mem m).bytes ≤ (s.mem k.2).bytes) ∧
      (alloc addr s req d ok1 ok2).2.chunks = s.chunks ∧ (alloc addr s req d ok1 ok2).2.returned = s.returned := by
  intro s bytes ⟨j, hj, hjb⟩
  obtain ⟨lay, h⟩ := inv_run addr inv_init ops
  have spec := lowerBound_spec addr bytes (s.cache (decide (bytes ≤ smallAlloc)) d)
  cases hl : lowerBound addr bytes (s.cache (decide (bytes ≤ smallAlloc)) d) with
  | none => exact absurd (spec.2 hl j hj) (by omega)
  | some k =>
    obtain ⟨h1, h2, h3⟩ := spec.1 k hl
    have key : ∀ b d' k', k' ∈ s.cache b d' → k'.1 = (s.mem k'.2).bytes := fun b d' k' hk' => ((h.st.cache b d' k').1 hk').2.2.1
    have ho : obtain addr s bytes d (decide (bytes ≤ smallAlloc)) ok1 ok2 =
        (some k.2, setCache s (decide (bytes ≤ smallAlloc)) d (erase k (s.cache (decide (bytes ≤ smallAlloc)) d))) := by
      unfold obtain; rw [hl]
    unfold alloc
    simp only
    rw [show roundSize (max req 1) = bytes from rfl, ho]
    refine ⟨k.2, rfl, ⟨k, h1, rfl⟩, by rw [← key _ _ _ h1]; exact h2, ?_, ?_, ?_⟩
    · intro k' hk' hb
      rw [← key _ _ _ h1, ← key _ _ _ hk']; exact h3 k' hk' hb
    · exact (split_device _ _ _ _ _).1
    · exact (split_device _ _ _ _ _).2

/-- An allocation raises only when no cached block fits and the device refuses twice, the second time after all
cached chunks of the device that are entirely free went back. -/
theorem C30_raises_only_if (addr : Nat → Nat) (ops : List Op) (req d : Nat) (ok1 ok2 : Bool) :
    let s := reach addr ops
    (alloc addr s req d ok1 ok2).1 = none → ok1 = false ∧ ok2 = false ∧ (alloc addr s req d ok1 ok2).2 = freeUnused s d ∧
      ∀ m, Cached (freeUnused s d) m → (s.mem m).dev = d → ¬ ((s.mem m).next = none ∧ (s.mem m).prev = none) := by
  intro s hn
  obtain ⟨lay, h⟩ := inv_run addr inv_init ops
  have : ok1 = false ∧ ok2 = false ∧ (alloc addr s req d ok1 ok2).2 = freeUnused s d := by
    unfold alloc obtain newMemory at hn ⊢
    simp only at hn ⊢
    cases hl : lowerBound addr (roundSize (max req 1)) (s.cache (decide (roundSize (max req 1) ≤ smallAlloc)) d) with
    | some k => rw [hl] at hn; cases hn
    | none =>
      rw [hl] at hn
      cases ok1 with
      | true => cases hn
      | false =>
        cases ok2 with
        | true => cases hn
        | false => exact ⟨rfl, rfl, rfl⟩
  refine ⟨this.1, this.2.1, this.2.2, ?_⟩
  rintro m ⟨b, e, k, hk, rfl⟩ hd hw
  obtain ⟨lay', F, K, C, _⟩ := h.freeUnused d
  have := (C b e k).1 hk
  have hke := ((h.st.cache b e k).1 this.1).2.2.2.1
  exact this.2 ⟨hke.symm.trans hd, hw⟩

/-- free_unused_device_caches returns exactly the chunks of that device in which no handle lies. -/
theorem C30_free_unused_returns (addr : Nat → Nat) (ops : List Op) (d : Nat) :
    let s := reach addr ops
    ∀ c, c < s.chunks → s.returned c = false →
      ((step addr s (.freeUnused d)).returned c = true ↔ s.chunkDev c = d ∧ ∀ m ∈ handles s, (s.mem m).chunk ≠ c) := by
  intro s c hc hr
  obtain ⟨lay, h⟩ := inv_run addr inv_init ops
  obtain ⟨lay', F, K, C, R, _⟩ := h.freeUnused d
  have hr' : (run addr init ops).returned c = false := hr
  refine (R c).trans ?_
  rw [hr']
  constructor
  · rintro (hx | ⟨b, k, hk, hw, hkc⟩)
    · cases hx
    · have c0 := (h.st.cache b d k).1 hk
      obtain ⟨_, _, hl, _⟩ : True ∧ True ∧ lay c = [k.2] ∧ True := by
        have := h.st.giveBack hk hw.1 hw.2
        rw [hkc] at this; exact ⟨trivial, trivial, this.1, trivial⟩
      have g := (h.st.good c0.1).2
      rw [hkc] at g
      refine ⟨g.dev.symm.trans c0.2.2.2.1, ?_⟩
      intro m hm hmc
      have i := (h.live m).1 hm
      have := (h.st.good i.1).1
      have hmc' : ((run addr init ops).mem m).chunk = c := hmc
      rw [hmc', hl, List.mem_singleton] at this
      rw [this] at i
      exact c0.2.1 (Or.inl i.2)
  · rintro ⟨hd, hno⟩
    right
    have ne := (h.st.alive c).2 ⟨hc, hr⟩
    have unl : ∀ m ∈ lay c, ((run addr init ops).mem m).locked = false := by
      intro m hm
      cases hb : ((run addr init ops).mem m).locked with
      | false => rfl
      | true => exact absurd ((h.st.layout c).each m hm).chunk (hno m ((h.live m).2 ⟨⟨c, hm⟩, hb⟩))
    obtain ⟨m, hl⟩ : ∃ m, lay c = [m] := by
      have ch := h.st.nofree c
      cases hlc : lay c with
      | nil => exact absurd hlc ne
      | cons y l =>
        rw [hlc] at ch unl
        cases l with
        | nil => exact ⟨y, rfl⟩
        | cons z l =>
          rw [List.isChain_cons] at ch
          rcases ch.1 z rfl with (q | q) | (q | q)
          · rw [unl y (by simp)] at q; cases q
          · cases q
          · rw [unl z (by simp)] at q; cases q
          · cases q
    have L := h.st.layout c
    rw [hl] at L
    have g := L.each m (by simp)
    refine ⟨decide (((run addr init ops).mem m).bytes ≤ smallAlloc), (((run addr init ops).mem m).bytes, m), ?_,
      ⟨(L.last m rfl).1, (L.first m rfl).1⟩, g.chunk⟩
    rw [h.st.cache]
    refine ⟨⟨c, by rw [hl]; simp⟩, ?_, rfl, g.dev.trans hd, rfl⟩
    rintro (q | q)
    · rw [unl m (by rw [hl]; simp)] at q; cases q
    · cases q

/-- When no handle is left, free_unused_caches returns everything. -/
theorem C30_all_returned (addr : Nat → Nat) (ops : List Op) :
    let s := reach addr ops
    s.live = [] →
    let s' := step addr s .freeUnusedAll
    (∀ b d, s'.cache b d = []) ∧ (∀ c, c < s'.chunks → s'.returned c = true) ∧ (∀ d, s'.used d = 0) := by
  intro s hl s'
  obtain ⟨lay, h⟩ := inv_run addr inv_init ops
  have hl' : (run addr init ops).live = [] := hl
  obtain ⟨lay', F, K, C⟩ := Full.freeUnusedAll_go (run addr init ops).known h
  have unl : ∀ m, InLay lay m → ((run addr init ops).mem m).locked = false := by
    intro m hm
    cases hb : ((run addr init ops).mem m).locked with
    | false => rfl
    | true =>
      have := (h.live m).2 ⟨hm, hb⟩
      rw [hl'] at this; cases this
  have single : ∀ c a, a ∈ lay c → lay c = [a] := by
    intro c a ha
    have ch := h.st.nofree c
    have hin : ∀ y ∈ lay c, InLay lay y := fun y hy => ⟨c, hy⟩
    cases hlc : lay c with
    | nil => rw [hlc] at ha; cases ha
    | cons y l =>
      rw [hlc] at ha ch hin
      cases l with
      | nil => simp at ha; rw [ha]
      | cons z l =>
        rw [List.isChain_cons] at ch
        rcases ch.1 z rfl with (q | q) | (q | q)
        · rw [unl y (hin y (by simp))] at q; cases q
        · cases q
        · rw [unl z (hin z (by simp))] at q; cases q
        · cases q
  have empty : ∀ b d, s'.cache b d = [] := by
    intro b d
    apply List.eq_nil_iff_forall_not_mem.2
    intro k hk
    have hk' : k ∈ ((run addr init ops).known.foldl Alloc.freeUnused (run addr init ops)).cache b d := hk
    rw [C b d k] at hk'
    have c0 := (h.st.cache b d k).1 hk'.1
    obtain ⟨kc, g⟩ := h.st.good c0.1
    have sg := single _ _ kc
    have L := h.st.layout ((run addr init ops).mem k.2).chunk
    rw [sg] at L
    have al := (h.st.alive ((run addr init ops).mem k.2).chunk).1 (by rw [sg]; simp)
    have kn := h.known _ al.1
    rw [← g.dev, c0.2.2.2.1] at kn
    exact hk'.2 ⟨kn, (L.last k.2 rfl).1, (L.first k.2 rfl).1⟩
  have ret : ∀ c, c < s'.chunks → s'.returned c = true := by
    intro c hc
    cases hr : s'.returned c with
    | true => rfl
    | false =>
      have := (F.st.alive c).2 ⟨hc, hr⟩
      cases hlc : lay' c with
      | nil => exact absurd hlc this
      | cons m l =>
        have hm : InLay lay' m := ⟨c, by rw [hlc]; simp⟩
        have hu : (s'.mem m).locked = false := by
          cases hb : (s'.mem m).locked with
          | false => rfl
          | true =>
            have := (F.live m).2 ⟨hm, hb⟩
            rw [K.live, hl'] at this; cases this
        obtain ⟨b, d, k, hk, _⟩ := (F.cached_iff m).2 ⟨hm, hu⟩
        have hk' : k ∈ s'.cache b d := hk
        rw [empty] at hk'; cases hk'
  refine ⟨empty, ret, ?_⟩
  intro d
  have := F.dev d
  refine this.trans ?_
  show ((devB s' d + 0 : Nat) : Int) = 0
  have : devB s' d = 0 := by
    unfold devB
    refine List.sum_eq_zero ?_
    intro x hx
    obtain ⟨c, hc, rfl⟩ := List.mem_map.1 hx
    rw [ret c (List.mem_range.1 hc)]; simp
  rw [this]; rfl

/-! ### C50 -/

/-- Bytes of live handles of the allocator without caching. -/
def naiveLive (s : Naive) (d : Nat) : Nat := ((s.live.filter (·.2 = d)).map (·.1)).sum

def naiveRun (ops : List NaiveOp) : Naive := ops.foldl naiveStep ⟨[], fun _ => 0⟩

/-- Bytes asked for on a device in a history. -/
def asked (d : Nat) : List NaiveOp → Nat
  | [] => 0
  | .alloc req e :: r => (if e = d then max req 1 else 0) + asked d r
  | _ :: r => asked d r

theorem naive_used (ops : List NaiveOp) (d : Nat) : ∀ s : Naive, (ops.foldl naiveStep s).used d = s.used d + (asked d ops : Int) := by
  induction ops with
  | nil => intro s; simp [asked]
  | cons o ops ih =>
    intro s
    rw [List.foldl_cons, ih]
    cases o with
    | alloc req e =>
      simp only [naiveStep, asked]
      by_cases h : e = d
      · subst h; simp; omega
      · have : ¬ d = e := fun hx => h hx.symm
        simp [h, this]
    | free i => rfl
    | freeUnusedAll => rfl

/-- Without caching the counter is the number of bytes ever asked for: exact as long as nothing is freed.
Missing: frees, for which the claim is false, see below. -/
theorem C50_naive_counter_partial (ops : List NaiveOp) (d : Nat) : (naiveRun ops).used d = (asked d ops : Int) := by
  unfold naiveRun; rw [naive_used]; simp

/-- The claim "the counter is the number of bytes held" fails for the allocator without caching: memory freed is
never subtracted. -/
theorem C50_naive_counter_refuted :
    ¬ ∀ (ops : List NaiveOp) (d : Nat), (naiveRun ops).used d = (naiveLive (naiveRun ops) d : Int) := by
  intro h
  have := h [.alloc 100 0, .free 0, .freeUnusedAll] 0
  simp [naiveRun, naiveStep, naiveLive] at this

/-! ### examples -/

namespace Ex

def addr : Nat → Nat := id

/-- Two small blocks and a large one on device 0, one on device 1, the first freed, and a new request. -/
def ops : List Op := [.alloc 1000 0 true true, .alloc 600 0 true true, .alloc 2000000 0 true true, .alloc 5 1 true true,
  .free 0, .alloc 100 0 true true]

/-- The new request (of 512 bytes rounded) took the smallest fitting block, the one freed (of 1024 bytes), and split it. -/
example : (reach addr ops).live = [(1, 600), (3, 2000000), (4, 5), (0, 100)] := by decide
example : ((reach addr ops).cache true 0) = [(1046528, 2), (512, 6)] := by decide
example : (reach addr ops).used 0 = 1048576 + 2097152 := by decide
/-- Freeing 1 merges it with both neighbours: block 2 and the rest (6) of block 0. -/
example : ((reach addr (ops ++ [.free 1])).cache true 0).map (fun k => ((reach addr (ops ++ [.free 1])).mem k.2).bytes) = [1048064] := by
  decide
/-- All freed: everything goes back. -/
example : (reach addr (ops ++ [.free 1, .free 0, .free 3, .free 4])).live = [] := by decide
example : (step addr (reach addr (ops ++ [.free 1, .free 0, .free 3, .free 4])) .freeUnusedAll).used 0 = 0 := by decide
/-- The device refuses: the entirely free chunk of 2 MiB is returned before the second attempt. -/
example : (alloc addr (reach addr (ops ++ [.free 3])) 9000000 0 false true).1 = some 7 := by decide
example : (alloc addr (reach addr (ops ++ [.free 3])) 9000000 0 false true).2.returned 1 = true := by decide
example : (alloc addr (reach addr (ops ++ [.free 3])) 9000000 0 false false).1 = none := by decide
example : ∃ k ∈ (reach addr (ops ++ [.free 3])).cache (decide (roundSize (max 2000000 1) ≤ 1048576)) 0,
    roundSize (max 2000000 1) ≤ k.1 := by decide

end Ex

/-- **C30 (rounding).** A request of `n` bytes is served from a block class of the least multiple of the rounding unit (512 bytes, or 128
KiB from 1 MiB on) that holds it and is not zero. -/
theorem C30_round_size (n : Nat) :
    let unit := if n < 1048576 then 512 else 131072
    unit ∣ roundSize n ∧ n ≤ roundSize n ∧ ∀ m, unit ∣ m → n ≤ m → 0 < m → roundSize n ≤ m := by
  intro unit
  have key : ∀ u, 0 < u → u ≤ n + u → (u ∣ ((n + u - 1) / u) * u) ∧ n ≤ ((n + u - 1) / u) * u ∧ ∀ m, u ∣ m → n ≤ m → ((n + u - 1) / u) * u ≤ m := by
    intro u hu _
    refine ⟨⟨_, Nat.mul_comm _ _⟩, ?_, ?_⟩
    · have h1 := Nat.div_add_mod (n + u - 1) u
      have h2 := Nat.mod_lt (n + u - 1) hu
      rw [Nat.mul_comm] at h1
      omega
    · rintro m ⟨k, rfl⟩ hm
      have : (n + u - 1) / u ≤ k := by
        rw [Nat.div_le_iff_le_mul_add_pred hu]
        omega
      rw [Nat.mul_comm u k]
      exact Nat.mul_le_mul_right _ this
  by_cases h1 : n < 512
  · have e : roundSize n = 512 := by simp [roundSize, roundSmall, h1]
    have eu : unit = 512 := by simp only [unit]; rw [if_pos (by omega)]
    rw [e, eu]
    exact ⟨Nat.dvd_refl _, by omega, fun m hm _ h0 => Nat.le_of_dvd h0 hm⟩
  · by_cases h2 : n < 1048576
    · have e : roundSize n = ((n + 512 - 1) / 512) * 512 := by simp [roundSize, roundSmall, smallAlloc, h1, h2]
      have eu : unit = 512 := by simp only [unit]; rw [if_pos h2]
      rw [e, eu]
      obtain ⟨a, b, c⟩ := key 512 (by omega) (by omega)
      exact ⟨a, b, fun m x y _ => c m x y⟩
    · have e : roundSize n = ((n + 131072 - 1) / 131072) * 131072 := by simp [roundSize, roundSmall, smallAlloc, roundLarge, h1, h2]
      have eu : unit = 131072 := by simp only [unit]; rw [if_neg h2]
      rw [e, eu]
      obtain ⟨a, b, c⟩ := key 131072 (by omega) (by omega)
      exact ⟨a, b, fun m x y _ => c m x y⟩

end Verif.Alloc
