import Verif.Data.Stream
/-
Properties C12 (memory cache), C13 (slices) and the Csv source.
-/
namespace Verif.Data
variable {S D : Type}

/-! ### C12 -/

/-- The order in which epoch `e` goes through the cached data: the first two epochs are in source
order (the code only shuffles from generation 1 on), epoch `e+2` uses permutation `e`. -/
def memOrder (m : MemCfg) : Nat → List Nat
  | 0 => List.range m.n
  | 1 => List.range m.n
  | e + 2 => if m.shuffle then m.perm e else List.range m.n

theorem memOrder_perm (m : MemCfg) (hp : ∀ k, (m.perm k).Perm (List.range m.n)) (e : Nat) :
    (memOrder m e).Perm (List.range m.n) := by
  match e with
  | 0 => exact .refl _
  | 1 => exact .refl _
  | e + 2 => rw [memOrder]; split; exact hp e; exact .refl _

structure MemInv (m : MemCfg) (f : Nat → D) (j : Nat) (t : Mem S D) : Prop where
  on : t.onMemory = true
  pos : t.pos = j % m.n
  order : t.order = memOrder m (j / m.n)
  gen : t.gen = (j / m.n : Int) - 1
  drawn : m.shuffle = true → t.drawn = j / m.n - 1
  cache : t.cache = (List.range (min j m.n)).map f

theorem range_getElem?_getD (n p : Nat) (h : p < n) : (List.range n)[p]?.getD 0 = p := by
  simp [h]

/-- Sample-level behaviour of the on-memory cache. -/
theorem mem_stream (m : MemCfg) (u : PSource S D) (s : S) (f : Nat → D)
    (hn : 0 < m.n) (hf : ∀ p < m.n, u.get p s = some (f p))
    (hp : ∀ k, (m.perm k).Perm (List.range m.n)) :
    ∃ st, st 0 = (memSource m u).reset (Mem.init m true s) ∧
      StreamOf (memSource m u) m.n m.n st
        (fun j => f ((memOrder m (j / m.n))[j % m.n]?.getD 0)) := by
  have key := iterate_stream (memSource m u) m.n m.n
    (fun j t => MemInv m f j t ∧ (j < m.n → t.s = s))
    (fun j => f ((memOrder m (j / m.n))[j % m.n]?.getD 0))
    ((memSource m u).reset (Mem.init m true s)) (fun _ => rfl) ?_ ?_
  · obtain ⟨st, h0, h1, -⟩ := key
    exact ⟨st, h0, h1⟩
  · -- initial state
    have : (memSource m u).reset (Mem.init m true s : Mem S D)
        = ⟨s, true, List.range m.n, [], 0, -1, 0⟩ := by
      simp [memSource, Mem.reset, Mem.init]
    rw [this]
    refine ⟨⟨rfl, by simp, ?_, by simp, by simp, by simp⟩, fun _ => rfl⟩
    simp [memOrder]
  · intro j t ⟨h, hs⟩
    have hlt := Nat.mod_lt j hn
    have hlen : (memOrder m (j / m.n)).length = m.n := by
      rw [(memOrder_perm m hp _).length_eq]; simp
    have hget : t.order[t.pos]? = some ((memOrder m (j / m.n))[j % m.n]?.getD 0) := by
      rw [h.order, h.pos, List.getElem?_eq_getElem (by omega)]; rfl
    have holt : (memOrder m (j / m.n))[j % m.n]?.getD 0 < m.n := by
      have : (memOrder m (j / m.n))[j % m.n]?.getD 0 ∈ memOrder m (j / m.n) := by
        rw [List.getElem?_eq_getElem (by omega)]; exact List.getElem_mem _
      have := (memOrder_perm m hp _).mem_iff.1 this
      simpa using this
    -- result of the read
    have hread : ∃ t1 : Mem S D, Mem.getData u t.pos t =
        (some (f ((memOrder m (j / m.n))[j % m.n]?.getD 0)), t1) ∧ t1.onMemory = true ∧
        t1.pos = j % m.n ∧ t1.order = t.order ∧ t1.gen = t.gen ∧ t1.drawn = t.drawn ∧ t1.s = t.s ∧
        t1.cache = (List.range (min (j + 1) m.n)).map f := by
      unfold Mem.getData
      rw [if_pos h.on, hget]
      simp only
      by_cases hj : j < m.n
      · -- first epoch: identity order, cache of length j
        have e0 : j / m.n = 0 := Nat.div_eq_of_lt hj
        have e1 : j % m.n = j := Nat.mod_eq_of_lt hj
        have ho : (memOrder m (j / m.n))[j % m.n]?.getD 0 = j := by
          rw [e0, e1]; exact range_getElem?_getD _ _ hj
        rw [ho]
        have hc : t.cache.length = j := by rw [h.cache]; simp; omega
        rw [if_neg (by omega), h.pos, e1, hs hj, hf j hj]
        refine ⟨_, rfl, h.on, rfl, rfl, rfl, rfl, (hs hj).symm ▸ rfl, ?_⟩
        show t.cache ++ [f j] = _
        rw [h.cache]
        have : min j m.n = j := by omega
        have e3 : min (j + 1) m.n = j + 1 := by omega
        rw [this, e3, List.range_succ, List.map_append]; rfl
      · have hc : t.cache = (List.range m.n).map f := by
          rw [h.cache]; congr 2; omega
        rw [if_pos (by rw [hc]; simpa using holt)]
        refine ⟨{ t with pos := t.pos }, ?_, h.on, h.pos, rfl, rfl, rfl, rfl, ?_⟩
        · simp only [Prod.mk.injEq, and_true]
          rw [hc]; simp [holt]
        · show t.cache = _
          rw [hc]; congr 2; omega
    obtain ⟨t1, hr, r1, r2, r3, r4, r5, r6, r7⟩ := hread
    refine ⟨{ t1 with pos := t1.pos + 1 }, ?_, ?_, ?_⟩
    · show ((Mem.getData u t.pos t).1, _) = _
      rw [hr]
    · show t1.pos + 1 ≥ m.n ↔ _
      rw [r2]; exact (dvd_succ_iff_mod hn).symm
    · have hsd := succ_mod_div (j := j) hn
      by_cases hd : m.n ∣ j + 1
      · rw [if_pos hd] at hsd ⊢
        obtain ⟨q1, q2, q3⟩ := hsd
        have hge : m.n ≤ j + 1 := Nat.le_of_dvd (by omega) hd
        show MemInv m f (j + 1) (Mem.reset m u { t1 with pos := t1.pos + 1 }) ∧ _
        have hp1 : t1.pos + 1 ≠ 0 := by omega
        refine ⟨?_, fun hh => by omega⟩
        unfold Mem.reset
        simp only [r1, if_true]
        by_cases hc : m.shuffle = true ∧ t1.gen + 1 > 0
        · rw [if_pos hc]
          simp only [hp1, if_false]
          have hgen : t1.gen + 1 = (j / m.n : Int) := by rw [r4, h.gen]; omega
          have hpos : 0 < j / m.n := by have := hc.2; rw [hgen] at this; omega
          obtain ⟨e, he⟩ : ∃ e, j / m.n = e + 1 := ⟨j / m.n - 1, by omega⟩
          have hdr := h.drawn hc.1
          refine ⟨rfl, by rw [q1], ?_, ?_, ?_, r7⟩
          · rw [q2, he, memOrder, if_pos hc.1]
            show m.perm t1.drawn = _
            rw [r5, hdr, he]; simp
          · show t1.gen + 1 = _
            rw [hgen]; omega
          · intro _
            show t1.drawn + 1 = _
            rw [r5, hdr]; omega
        · rw [if_neg hc]
          simp only [hp1, if_false]
          have hgen : t1.gen + 1 = (j / m.n : Int) := by rw [r4, h.gen]; omega
          refine ⟨rfl, by rw [q1], ?_, ?_, ?_, r7⟩
          · rw [q2]
            show List.range m.n = _
            match he : j / m.n with
            | 0 => rfl
            | e + 1 =>
              rw [memOrder]
              have : ¬ m.shuffle = true := by
                intro hsh
                apply hc
                refine ⟨hsh, ?_⟩
                rw [hgen]
                have : 0 < j / m.n := by omega
                omega
              rw [if_neg this]
          · show t1.gen + 1 = _
            rw [hgen]; omega
          · intro hsh
            show t1.drawn = _
            have : ¬ t1.gen + 1 > 0 := fun h' => hc ⟨hsh, h'⟩
            rw [hgen] at this
            rw [r5, h.drawn hsh]; omega
      · rw [if_neg hd] at hsd ⊢
        obtain ⟨q1, q2, q3⟩ := hsd
        refine ⟨⟨r1, ?_, ?_, ?_, ?_, r7⟩, ?_⟩
        · show t1.pos + 1 = _; rw [r2, q1]
        · show t1.order = _; rw [r3, h.order, q2]
        · show t1.gen = _; rw [r4, h.gen]; omega
        · intro hsh; show t1.drawn = _; rw [r5, h.drawn hsh, q2]
        · intro hh; show t1.s = s; rw [r6]; exact hs (by omega)

/-- The iterator over a memory cache just after construction. -/
def memIt (m : MemCfg) (u : PSource S D) (onMemory : Bool) (s : S) : It (Mem S D) :=
  initIt (memSource m u) (Mem.init m onMemory s)

/-- C12, data fits in memory: for every batch size, sample `j` of the stream (sample `j % n` of
epoch `j / n`) is element `(order of the epoch)[j % n]` of the wrapped dataset; each epoch's order
is a permutation, so no sample is lost or duplicated, also when batches cross epoch ends. -/
theorem C12_memory_cache (m : MemCfg) (u : PSource S D) (s : S) (f : Nat → D)
    (hn : 0 < m.n) (hf : ∀ p < m.n, u.get p s = some (f p))
    (hp : ∀ k, (m.perm k).Perm (List.range m.n)) (B : Nat) :
    ∃ (sample : Nat → D) (order : Nat → List Nat),
      (∀ k, nth (nextPlain (memSource m u) ⟨m.n, B, false⟩) k (memIt m u true s)
        = .batch ((List.range B).map fun i => sample (k * B + i))) ∧
      (∀ k, (after (nextPlain (memSource m u) ⟨m.n, B, false⟩) k (memIt m u true s)).epoch = k * B / m.n) ∧
      (∀ e p, p < m.n → sample (e * m.n + p) = f ((order e)[p]?.getD 0)) ∧
      (∀ e, (order e).Perm (List.range m.n)) ∧
      (∀ e, ((List.range m.n).map fun p => sample (e * m.n + p)).Perm ((List.range m.n).map f)) ∧
      (m.shuffle = false → ∀ e, order e = List.range m.n) ∧
      (m.shuffle = true → order 0 = List.range m.n ∧ order 1 = List.range m.n ∧
        ∀ e, order (e + 2) = m.perm e) := by
  obtain ⟨st, h0, hst⟩ := mem_stream m u s f hn hf hp
  have hdm : ∀ e p, p < m.n → (e * m.n + p) / m.n = e ∧ (e * m.n + p) % m.n = p := by
    intro e p hlt
    rw [Nat.mul_comm]
    exact ⟨by rw [Nat.mul_add_div hn, Nat.div_eq_of_lt hlt]; rfl,
      by rw [Nat.mul_add_mod, Nat.mod_eq_of_lt hlt]⟩
  have hval : ∀ e p, p < m.n →
      f ((memOrder m ((e * m.n + p) / m.n))[(e * m.n + p) % m.n]?.getD 0)
        = f ((memOrder m e)[p]?.getD 0) := by
    intro e p hlt
    rw [(hdm e p hlt).1, (hdm e p hlt).2]
  have hmi : memIt m u true s = ⟨st 0, 0, []⟩ := by rw [h0]; rfl
  refine ⟨fun j => f ((memOrder m (j / m.n))[j % m.n]?.getD 0), memOrder m, ?_, ?_, hval,
    memOrder_perm m hp, ?_, ?_, ?_⟩
  · intro k; rw [hmi]; exact (hst.after B k).2
  · intro k; rw [hmi, (hst.after B k).1]
  · intro e; exact window_perm f (memOrder m e) m.n (memOrder_perm m hp e) _ (hval e)
  · intro hs e
    match e with
    | 0 => rfl
    | 1 => rfl
    | e + 2 => rw [memOrder, if_neg (by simp [hs])]
  · intro hs
    refine ⟨rfl, rfl, fun e => ?_⟩
    rw [memOrder, if_pos hs]

/-- The hypotheses are met by a memory cache over a shuffled SimpleDataSource of 3 examples. -/
example : (iter (nextPlain (memSource ⟨3, true, fun k => if k = 0 then [2, 0, 1] else [0, 2, 1]⟩
      (simplePSource ⟨id, 3, true, fun _ => [1, 2, 0]⟩)) ⟨3, 2, false⟩) 5
    (memIt ⟨3, true, fun k => if k = 0 then [2, 0, 1] else [0, 2, 1]⟩
      (simplePSource ⟨id, 3, true, fun _ => [1, 2, 0]⟩) true (Simple.init ⟨id, 3, true, fun _ => [1, 2, 0]⟩))).1
    = [.batch [1, 2], .batch [0, 1], .batch [2, 0], .batch [0, 1], .batch [2, 1]] := by decide

/-- C12, data does not fit: the cache passes every read through to the wrapped source and resets it
at each epoch end, i.e. it behaves as a positional source whose orders are drawn in `reset`. -/
theorem C12_not_on_memory (m : MemCfg) (u : PSource S D) (s : S) (f : Nat → Nat → D)
    (hn : 0 < m.n) (ue : Nat → S) (h0 : ue 0 = u.reset s) (hue : ∀ e, ue (e + 1) = u.reset (ue e))
    (hf : ∀ e, ∀ p < m.n, u.get p (ue e) = some (f e p)) (B k : Nat) :
    nth (nextPlain (memSource m u) ⟨m.n, B, false⟩) k (memIt m u false s)
      = .batch ((List.range B).map fun i => f ((k * B + i) / m.n) ((k * B + i) % m.n)) ∧
    (after (nextPlain (memSource m u) ⟨m.n, B, false⟩) k (memIt m u false s)).epoch = k * B / m.n := by
  have key := iterate_stream (memSource m u) m.n m.n
    (fun j (t : Mem S D) => t.onMemory = false ∧ t.pos = j % m.n ∧ t.s = ue (j / m.n))
    (fun j => f (j / m.n) (j % m.n))
    ((memSource m u).reset (Mem.init m false s)) (fun _ => rfl) ?_ ?_
  · obtain ⟨st, hs0, hst, -⟩ := key
    have hmi : memIt m u false s = ⟨st 0, 0, []⟩ := by rw [hs0]; rfl
    rw [hmi]
    refine ⟨(hst.after B k).2, by rw [(hst.after B k).1]⟩
  · simp [memSource, Mem.reset, Mem.init, h0]
  · intro j t ⟨h1, h2, h3⟩
    have hlt := Nat.mod_lt j hn
    refine ⟨{ t with pos := t.pos + 1 }, ?_, ?_, ?_⟩
    · simp [memSource, Mem.getData, h1, h2, h3, hf _ _ hlt]
    · show t.pos + 1 ≥ m.n ↔ _
      rw [h2]; exact (dvd_succ_iff_mod hn).symm
    · have hsd := succ_mod_div (j := j) hn
      by_cases hd : m.n ∣ j + 1
      · rw [if_pos hd] at hsd ⊢
        simp [memSource, Mem.reset, h1, hsd.1, hsd.2.1, hue, h3]
      · rw [if_neg hd] at hsd ⊢
        simp [h1, h2, h3, hsd.1, hsd.2.1]

example : ∃ (ue : Nat → Simple), ue 0 = (simplePSource (⟨id, 2, true, fun _ => [1, 0]⟩ : SimpleCfg Nat)).reset
      (Simple.init ⟨id, 2, true, fun _ => [1, 0]⟩) ∧
    (∀ e, ue (e + 1) = (simplePSource (⟨id, 2, true, fun _ => [1, 0]⟩ : SimpleCfg Nat)).reset (ue e)) ∧
    ∀ e, ∀ p < 2, (simplePSource (⟨id, 2, true, fun _ => [1, 0]⟩ : SimpleCfg Nat)).get p (ue e) = some (1 - p) := by
  refine ⟨fun _ => Simple.init ⟨id, 2, true, fun _ => [1, 0]⟩, rfl, fun _ => rfl, ?_⟩
  intro e p hp
  match p with
  | 0 => rfl
  | 1 => rfl
  | p + 2 => omega

/-! ### Csv: sources that draw a permutation in `reset` -/

/-- An iterator over a CsvDataSource: every epoch, for any batch size, is a permutation of the
rows; epoch `e` uses the `e+1`-th permutation drawn (the first was drawn in the constructor). -/
theorem C38_csv_epochs (c : SimpleCfg D) (hp : ∀ k, (c.perm k).Perm (List.range c.n)) (hn : 0 < c.n)
    (B : Nat) :
    ∃ (sample : Nat → D),
      (∀ k, nth (nextPlain (csvSource c) ⟨c.n, B, false⟩) k (initIt (csvSource c) (Csv.init c))
        = .batch ((List.range B).map fun i => sample (k * B + i))) ∧
      (∀ k, (after (nextPlain (csvSource c) ⟨c.n, B, false⟩) k (initIt (csvSource c) (Csv.init c))).epoch
        = k * B / c.n) ∧
      (∀ e p, p < c.n → sample (e * c.n + p)
        = c.load ((if c.shuffle then c.perm (e + 1) else List.range c.n)[p]?.getD 0)) ∧
      (∀ e, ((List.range c.n).map fun p => sample (e * c.n + p)).Perm ((List.range c.n).map c.load)) := by
  let ord : Nat → List Nat := fun e => if c.shuffle then c.perm (e + 1) else List.range c.n
  have hord : ∀ e, (ord e).Perm (List.range c.n) := by
    intro e; show (if c.shuffle then _ else _ : List Nat).Perm _; split; exact hp _; exact .refl _
  have key := iterate_stream (csvSource c) c.n c.n
    (fun j (t : Csv) => t.pos = j % c.n ∧ t.order = ord (j / c.n) ∧ (c.shuffle = true → t.drawn = j / c.n + 2))
    (fun j => c.load ((ord (j / c.n))[j % c.n]?.getD 0))
    ((csvSource c).reset (Csv.init c)) (fun _ => rfl) ?_ ?_
  · obtain ⟨st, hs0, hst, -⟩ := key
    have hmi : initIt (csvSource c) (Csv.init c) = ⟨st 0, 0, []⟩ := by rw [hs0]; rfl
    have hval : ∀ e p, p < c.n → c.load ((ord ((e * c.n + p) / c.n))[(e * c.n + p) % c.n]?.getD 0)
        = c.load ((ord e)[p]?.getD 0) := by
      intro e p hlt
      rw [Nat.mul_comm, Nat.mul_add_div hn, Nat.div_eq_of_lt hlt, Nat.mul_add_mod,
        Nat.mod_eq_of_lt hlt]
    refine ⟨fun j => c.load ((ord (j / c.n))[j % c.n]?.getD 0), ?_, ?_, hval, ?_⟩
    · intro k; rw [hmi]; exact (hst.after B k).2
    · intro k; rw [hmi, (hst.after B k).1]
    · intro e; exact window_perm c.load (ord e) c.n (hord e) _ (hval e)
  · by_cases hs : c.shuffle = true <;> simp [csvSource, Csv.init, hs, ord]
  · intro j t ⟨h1, h2, h3⟩
    have hlt := Nat.mod_lt j hn
    have hlen : (ord (j / c.n)).length = c.n := by rw [(hord _).length_eq]; simp
    refine ⟨{ t with pos := t.pos + 1 }, ?_, ?_, ?_⟩
    · simp only [csvSource, h1, h2]
      rw [List.getElem?_eq_getElem (by omega)]; rfl
    · show t.pos + 1 ≥ c.n ↔ _
      rw [h1]; exact (dvd_succ_iff_mod hn).symm
    · have hsd := succ_mod_div (j := j) hn
      by_cases hd : c.n ∣ j + 1
      · rw [if_pos hd] at hsd ⊢
        by_cases hs : c.shuffle = true
        · have := h3 hs
          simp [csvSource, hs, hsd.1, hsd.2.1, ord, this]
        · simp [csvSource, hs, hsd.1, hsd.2.1, h2, ord]
      · rw [if_neg hd] at hsd ⊢
        rw [hsd.1, hsd.2.1]
        exact ⟨by simp [h1], h2, h3⟩

example : (iter (nextPlain (csvSource (⟨id, 3, true, fun k => if k = 1 then [2, 0, 1] else [0, 2, 1]⟩ : SimpleCfg Nat))
      ⟨3, 2, false⟩) 3 (initIt (csvSource ⟨id, 3, true, fun k => if k = 1 then [2, 0, 1] else [0, 2, 1]⟩)
        (Csv.init ⟨id, 3, true, fun k => if k = 1 then [2, 0, 1] else [0, 2, 1]⟩))).1
    = [.batch [2, 0], .batch [1, 0], .batch [2, 1]] := by decide

/-! ### C13 -/

/-- Largest generation of any slice. -/
def maxGen (t : Sliced) : Nat := (t.slices.map (·.gen)).foldr max 0

theorem foldr_max_le {l : List Nat} {x : Nat} (h : x ∈ l) : x ≤ l.foldr max 0 := by
  induction l with
  | nil => simp at h
  | cons a r ih =>
    rcases List.mem_cons.1 h with h | h
    · subst h; exact Nat.le_max_left _ _
    · exact Nat.le_trans (ih h) (Nat.le_max_right _ _)

theorem foldr_max_mem (l : List Nat) : l = [] ∨ l.foldr max 0 ∈ l := by
  induction l with
  | nil => exact .inl rfl
  | cons a r ih =>
    right
    rw [List.foldr_cons]
    rcases ih with h | h
    · subst h; simp
    · rcases Nat.le_total a (r.foldr max 0) with h' | h'
      · rw [Nat.max_eq_right h']; exact List.mem_cons_of_mem _ h
      · rw [Nat.max_eq_left h']; simp

/-- The orders kept by the shared source when the newest generation is `M`. -/
def keptOrders (c : SimpleCfg D) (M : Nat) : List (Nat × List Nat) :=
  ((List.range (M + 1)).map fun g => (g, ordOf c g)).drop (M + 1 - 15)

theorem keptOrders_find (c : SimpleCfg D) (M g : Nat) (hg : g ≤ M) (hl : M ≤ g + 14) :
    (keptOrders c M).find? (fun o => o.1 == g) = some (g, ordOf c g) := by
  unfold keptOrders
  rw [← List.map_drop, List.find?_map]
  have h1 : (List.range (M + 1)).drop (M + 1 - 15) = List.range' (M + 1 - 15) (M + 1 - (M + 1 - 15)) := by
    rw [List.range_eq_range', List.drop_range']
    simp
  have h2 : (List.drop (M + 1 - 15) (List.range (M + 1))).find? ((fun o : Nat × List Nat => o.1 == g) ∘ fun g => (g, ordOf c g))
      = some g := by
    rw [h1]
    have : g = (M + 1 - 15) + (g - (M + 1 - 15)) := by omega
    generalize M + 1 - 15 = a at *
    rw [List.find?_eq_some_iff_append]
    refine ⟨by simp, List.range' a (g - a), List.range' (g + 1) (M + 1 - a - (g - a) - 1), ?_, ?_⟩
    · have e : g :: List.range' (g + 1) (M + 1 - a - (g - a) - 1) = List.range' g (M + 1 - a - (g - a)) := by
        have : M + 1 - a - (g - a) = (M + 1 - a - (g - a) - 1) + 1 := by omega
        conv => rhs; rw [this, List.range'_succ]
      rw [e]
      have e2 : M + 1 - a = (g - a) + (M + 1 - a - (g - a)) := by omega
      conv => lhs; rw [e2]
      rw [← List.range'_append]
      congr 2; omega
    · intro x hx
      simp only [List.mem_range'_1] at hx
      simp; omega
  rw [h2]; rfl

theorem keptOrders_mem_le (c : SimpleCfg D) (M : Nat) : ∀ o ∈ keptOrders c M, o.1 ≤ M := by
  intro o ho
  have := List.mem_of_mem_drop ho
  simp only [List.mem_map, List.mem_range] at this
  obtain ⟨g, hg, rfl⟩ := this
  simp; omega

theorem keptOrders_succ (c : SimpleCfg D) (M : Nat) :
    dequeAppend (keptOrders c M) (M + 1, ordOf c (M + 1)) = keptOrders c (M + 1) := by
  unfold dequeAppend keptOrders
  have h1 : ((List.range (M + 1 + 1)).map fun g => (g, ordOf c g))
      = ((List.range (M + 1)).map fun g => (g, ordOf c g)) ++ [(M + 1, ordOf c (M + 1))] := by
    rw [List.range_succ, List.map_append]; rfl
  rw [h1]
  have hlen : ((List.range (M + 1)).map fun g => (g, ordOf c g)).length = M + 1 := by simp
  generalize ((List.range (M + 1)).map fun g => (g, ordOf c g)) = L at *
  simp only [List.length_append, List.length_drop, List.length_singleton, hlen]
  rw [List.drop_append_of_le_length (by simp [hlen]),
    List.drop_append_of_le_length (by omega), List.drop_drop]
  congr 2
  omega

structure SlInv (c : SimpleCfg D) (t : Sliced) : Prop where
  orders : t.base.orders = keptOrders c (maxGen t)
  drawn : c.shuffle = true → t.base.drawn = maxGen t + 1

/-- All slices are within 14 generations of each other. -/
def InSync (t : Sliced) : Prop := ∀ x ∈ t.slices, maxGen t ≤ x.gen + 14

instance (t : Sliced) : Decidable (InSync t) := by unfold InSync; infer_instance

/-- Freshly made slices of a fresh source, starting at the given positions. -/
def slicedInit (c : SimpleCfg D) (starts : List Nat) : Sliced :=
  ⟨Simple.init c, starts.map fun s => ⟨s, 0, 0⟩⟩

theorem slInv_init (c : SimpleCfg D) (starts : List Nat) : SlInv c (slicedInit c starts) := by
  have hm : maxGen (slicedInit c starts) = 0 := by
    unfold maxGen slicedInit
    simp only [List.map_map]
    induction starts with
    | nil => rfl
    | cons a r ih => simp [ih]
  constructor
  · rw [hm]
    show (Simple.init c).orders = _
    unfold Simple.init Simple.generateOrder
    by_cases h : c.shuffle = true <;> simp [h, dequeAppend, keptOrders, ordOf]
  · intro h
    rw [hm]
    show (Simple.init c).drawn = _
    simp [Simple.init, Simple.generateOrder, h]

theorem maxGen_set_same (t : Sliced) (r : Nat) (x y : Slice) (hx : t.slices[r]? = some x)
    (hy : y.gen = x.gen) (b : Simple) : maxGen ⟨b, t.slices.set r y⟩ = maxGen t := by
  unfold maxGen
  simp only [List.map_set]
  congr 1
  apply List.ext_getElem?
  intro i
  rw [List.getElem?_set]
  by_cases h : r = i
  · subst h
    rw [if_pos rfl]
    have hl : r < t.slices.length := by
      rcases Nat.lt_or_ge r t.slices.length with h | h
      · exact h
      · rw [List.getElem?_eq_none h] at hx; cases hx
    have : t.slices[r] = x := by rw [List.getElem?_eq_getElem hl] at hx; exact Option.some.inj hx
    simp [hy, hl, this]
  · rw [if_neg h]

theorem maxGen_set_succ (t : Sliced) (r : Nat) (x y : Slice) (hx : t.slices[r]? = some x)
    (hy : y.gen = x.gen + 1) (b : Simple) :
    maxGen ⟨b, t.slices.set r y⟩ = max (maxGen t) (x.gen + 1) := by
  unfold maxGen
  simp only [List.map_set, hy]
  have hx' : (t.slices.map (·.gen))[r]? = some x.gen := by simp [hx]
  generalize t.slices.map (·.gen) = l at hx'
  clear hx
  induction l generalizing r with
  | nil => simp at hx'
  | cons a l ih =>
    cases r with
    | zero =>
      simp at hx'
      subst hx'
      simp only [List.set_cons_zero, List.foldr_cons]
      omega
    | succ r =>
      simp only [List.set_cons_succ, List.foldr_cons]
      rw [ih r (by simpa using hx')]
      omega

theorem slInv_step (c : SimpleCfg D) (t : Sliced) (h : SlInv c t) (hs : InSync t) (o : SOp) :
    SlInv c (Sliced.step c o t).2 := by
  unfold Sliced.step
  split
  · rename_i r
    split
    · exact h
    · rename_i x hx
      have hm := maxGen_set_same t r x { x with pos := x.pos + 1 } hx rfl t.base
      exact ⟨by rw [hm]; exact h.orders, by rw [hm]; exact h.drawn⟩
  · rename_i r
    split
    · exact h
    · rename_i x hx
      have hm := maxGen_set_same t r x { x with pos := 0 } hx rfl { t.base with pos := x.start }
      exact ⟨by rw [hm]; exact h.orders, by rw [hm]; exact h.drawn⟩
  · rename_i r
    split
    · exact h
    · rename_i x hx
      have hm := maxGen_set_succ t r x { x with gen := x.gen + 1 } hx rfl
        (Simple.generateOrder c (x.gen + 1) t.base)
      have hxm : x ∈ t.slices := List.mem_of_getElem? hx
      have hle : x.gen ≤ maxGen t := foldr_max_le (List.mem_map_of_mem hxm)
      have hsx := hs x hxm
      by_cases hlt : x.gen < maxGen t
      · -- the order already exists
        have hfind := keptOrders_find c (maxGen t) (x.gen + 1) (by omega) (by omega)
        have hany : t.base.orders.any (fun o => o.1 == x.gen + 1) = true := by
          rw [h.orders, List.any_eq_true]
          have := List.mem_of_find?_eq_some hfind
          exact ⟨_, this, by simp⟩
        have hg : Simple.generateOrder c (x.gen + 1) t.base = t.base := by
          unfold Simple.generateOrder; rw [if_pos hany]
        have hmax : max (maxGen t) (x.gen + 1) = maxGen t := by omega
        rw [hmax] at hm
        exact ⟨by rw [hm]; simp only [hg]; exact h.orders, by rw [hm]; simp only [hg]; exact h.drawn⟩
      · have hx1 : x.gen = maxGen t := by omega
        have hmax : max (maxGen t) (x.gen + 1) = maxGen t + 1 := by omega
        rw [hmax] at hm
        have hany : ¬ t.base.orders.any (fun o => o.1 == x.gen + 1) = true := by
          rw [h.orders, List.any_eq_true]
          rintro ⟨o, ho, he⟩
          have := keptOrders_mem_le c _ o ho
          simp at he; omega
        refine ⟨?_, ?_⟩
        · rw [hm, ← keptOrders_succ]
          show (Simple.generateOrder c (x.gen + 1) t.base).orders = _
          unfold Simple.generateOrder
          rw [if_neg hany]
          by_cases hsh : c.shuffle = true
          · rw [if_pos hsh]
            simp only [h.orders, hx1, h.drawn hsh]
            rw [ordOf, if_pos hsh]
          · rw [if_neg hsh]
            simp only [h.orders, hx1]
            rw [ordOf, if_neg hsh]
        · intro hsh
          rw [hm]
          show (Simple.generateOrder c (x.gen + 1) t.base).drawn = _
          unfold Simple.generateOrder
          rw [if_neg hany, if_pos hsh]
          simp [h.drawn hsh]

/-- Every prefix of the run keeps the slices within 14 generations. -/
def SyncRun (c : SimpleCfg D) : List SOp → Sliced → Prop
  | [], t => InSync t
  | o :: r, t => InSync t ∧ SyncRun c r (Sliced.step c o t).2

theorem slInv_run (c : SimpleCfg D) (ops : List SOp) (t : Sliced) (h : SlInv c t)
    (hs : SyncRun c ops t) : SlInv c (Sliced.run c ops t) ∧ InSync (Sliced.run c ops t) := by
  induction ops generalizing t with
  | nil => exact ⟨h, hs⟩
  | cons o r ih => exact ih _ (slInv_step c t h hs.1 o) hs.2

/-- C13 over a (shuffled or not) SimpleDataSource: whatever the interleaving of any number of sliced
iterators, as long as none runs more than 14 epochs ahead of another, slice `r` in its epoch `g`
reads at its position `p` exactly example `order_g[start_r + p]`, with one order per epoch `g`
common to all slices. -/
theorem C13_slices_partial (c : SimpleCfg D) (hp : ∀ g, (c.perm g).Perm (List.range c.n))
    (starts : List Nat) (ops : List SOp) (hs : SyncRun c ops (slicedInit c starts))
    (r : Nat) (x : Slice) (hx : (Sliced.run c ops (slicedInit c starts)).slices[r]? = some x)
    (hlt : x.start + x.pos < c.n) :
    (Sliced.step c (.next r) (Sliced.run c ops (slicedInit c starts))).1
      = some (some (c.load ((if c.shuffle then c.perm x.gen else List.range c.n)[x.start + x.pos]?.getD 0))) := by
  obtain ⟨hI, hS⟩ := slInv_run c ops _ (slInv_init c starts) hs
  have hxm := List.mem_of_getElem? hx
  have hle : x.gen ≤ maxGen (Sliced.run c ops (slicedInit c starts)) :=
    foldr_max_le (List.mem_map_of_mem hxm)
  have hfind := keptOrders_find c _ x.gen hle (hS x hxm)
  unfold Sliced.step
  simp only [hx]
  unfold Simple.getOfGen
  rw [hI.orders, hfind]
  have hl : x.start + x.pos < (ordOf c x.gen).length := by rw [ordOf_length hp]; exact hlt
  simp only [Option.some.injEq]
  rw [List.getElem?_eq_getElem hl]
  simp only [Option.map_some]
  congr 2
  show _ = (ordOf c x.gen)[x.start + x.pos]?.getD 0
  rw [List.getElem?_eq_getElem hl]; rfl

/-- Two slices of 4 examples, the first one an epoch ahead: both read their parts. -/
example :
    let c : SimpleCfg Nat := ⟨id, 4, true, fun g => if g = 0 then [3, 1, 2, 0] else [0, 2, 1, 3]⟩
    let ops : List SOp := [.next 0, .next 0, .reset 0, .applyOrder 0, .next 1]
    SyncRun c ops (slicedInit c [0, 2]) ∧
    (Sliced.step c (.next 0) (Sliced.run c ops (slicedInit c [0, 2]))).1 = some (some 0) ∧
    (Sliced.step c (.next 1) (Sliced.run c ops (slicedInit c [0, 2]))).1 = some (some 0) := by
  refine ⟨?_, by decide, by decide⟩
  simp only [SyncRun]
  refine ⟨?_, ?_, ?_, ?_, ?_, ?_⟩ <;> decide

/-- C13 fails 15 epochs apart: the slow slice cannot read any more (the shared source has dropped
its order; the code raises ValueError "not synchronized"). -/
theorem C13_refutation_lag : ∃ (ops : List SOp),
    let c : SimpleCfg Nat := ⟨id, 4, false, fun _ => []⟩
    (Sliced.step c (.next 1) (Sliced.run c ops (slicedInit c [0, 2]))).1 = some none :=
  ⟨List.replicate 15 (.applyOrder 0), by decide⟩

/-- C13 fails over an on-memory DataSourceWithMemoryCache: 4 examples, slice [1,4), batches of 3.
The second batch is (2, 3, 3) instead of (1, 2, 3): example 1 is lost, 3 is duplicated. -/
theorem C13_refutation_memory_cache :
    let u := simplePSource (⟨id, 4, false, fun _ => []⟩ : SimpleCfg Nat)
    let m : MemCfg := ⟨4, false, fun _ => []⟩
    (iter (nextPlain (slicedMemSource m u 1) ⟨3, 3, false⟩) 2
      (initIt (slicedMemSource m u 1) (Mem.init m true (Simple.init ⟨id, 4, false, fun _ => []⟩), 0))).1
      = [.batch [1, 2, 3], .batch [2, 3, 3]] := by decide

end Verif.Data
