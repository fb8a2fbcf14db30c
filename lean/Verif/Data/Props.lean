import Verif.Data.Thread
/-
Properties C07-C11: DataIterator over a SimpleDataSource, slicing arithmetic, prefetch thread.
-/
namespace Verif.Data
variable {D : Type}

/-- An un-threaded `data_iterator_simple(load, n, B, shuffle=..)` just after construction. -/
def freshIt (c : SimpleCfg D) : It Simple := initIt (simpleSource c) (Simple.init c)

/-- Its `next()`. -/
def simpleNext (c : SimpleCfg D) (B : Nat) (stop : Bool) : It Simple → Out D × It Simple :=
  nextPlain (simpleSource c) ⟨c.n, B, stop⟩

/-! ### C07 -/

/-- C07: without shuffling, call number `k` of `next()` returns the samples `k*B .. (k+1)*B-1`
modulo `n`, in order; afterwards the reported epoch is `(k+1)*B/n` and exactly the callbacks of the
completed epochs have run, in order (end of `e`, then begin of `e+1`). -/
theorem C07_unshuffled (load : Nat → D) (n B k : Nat) (hn : 0 < n) (perm : Nat → List Nat) :
    let c : SimpleCfg D := ⟨load, n, false, perm⟩
    nth (simpleNext c B false) k (freshIt c)
        = .batch ((List.range B).map fun i => load ((k * B + i) % n)) ∧
    (after (simpleNext c B false) k (freshIt c)).epoch = k * B / n ∧
    (after (simpleNext c B false) k (freshIt c)).log
        = (List.range (k * B / n)).flatMap fun e => [.epochEnd e, .epochBegin (e + 1)] := by
  intro c
  have hord : ∀ g, ordOf c g = List.range n := fun g => by simp [ordOf, c]
  -- an order for the unused permutation stream
  let c' : SimpleCfg D := ⟨load, n, false, fun _ => List.range n⟩
  have hp' : PermOK c' := fun _ => List.Perm.refl _
  have hsrc : simpleSource c = simpleSource c' := by
    have h1 : ∀ g (s : Simple), Simple.generateOrder c g s = Simple.generateOrder c' g s := by
      intro g s; simp [Simple.generateOrder, c, c']
    have h2 : ∀ p g (s : Simple), Simple.getOfGen c p g s = Simple.getOfGen c' p g s := by
      intro p g s; rfl
    simp only [simpleSource, h1, h2]
  have hinit : Simple.init c = Simple.init c' := by simp [Simple.init, Simple.generateOrder, c, c']
  have h := after_simple hp' ⟨n, B, false⟩ rfl rfl hn k
  obtain ⟨-, -, -, hep, hlog, hout⟩ := h
  have hf : freshIt c = initIt (simpleSource c') (Simple.init c') := by
    unfold freshIt; rw [hsrc, hinit]
  have hnx : simpleNext c B false = nextPlain (simpleSource c') ⟨n, B, false⟩ := by
    unfold simpleNext; rw [hsrc]
  rw [hf, hnx]
  refine ⟨?_, hep, ?_⟩
  · rw [hout]
    congr 1
    unfold samples
    apply List.map_congr_left
    intro i _
    have hlt : (k * B + i) % n < n := Nat.mod_lt _ hn
    have : ordOf c' (genAt c'.n B k) = List.range n := by simp [ordOf, c']
    simp only [this]
    show load _ = _
    congr 1
    show (List.range n)[(k * B + i) % n]?.getD 0 = _
    rw [List.getElem?_range hlt]; rfl
  · rw [hlog]; simp [events, c']

example : nth (simpleNext ⟨id, 3, false, fun _ => []⟩ 2 false) 1 (freshIt ⟨id, 3, false, fun _ => []⟩)
    = .batch [2, 0] := (C07_unshuffled id 3 2 1 (by omega) _).1

/-! ### C08 -/

/-- Closed form for every `n`, `B`: sample `i` of batch `k` is element `(k*B+i) % n` of the order of
the generation, the generation being the number of earlier batches that touched an epoch end. -/
theorem C08_closed_form (c : SimpleCfg D) (hs : c.shuffle = true)
    (hp : ∀ g, (c.perm g).Perm (List.range c.n)) (hn : 0 < c.n) (B k : Nat) :
    nth (simpleNext c B false) k (freshIt c) = .batch ((List.range B).map fun i =>
      c.load ((c.perm ((List.range k).filter fun j => decide ((j + 1) * B / c.n ≠ j * B / c.n)).length)[
        (k * B + i) % c.n]?.getD 0)) ∧
    (after (simpleNext c B false) k (freshIt c)).epoch = k * B / c.n := by
  have h := after_simple (c := c) hp ⟨c.n, B, false⟩ rfl rfl hn k
  refine ⟨?_, h.2.2.2.1⟩
  have h := h.2.2.2.2.2
  show nth (nextPlain (simpleSource c) ⟨c.n, B, false⟩) k (initIt (simpleSource c) (Simple.init c)) = _
  rw [h]
  simp only [samples, ordOf, hs, if_true, genAt]

theorem genAt_dvd (m B : Nat) (hB : 0 < B) (k : Nat) : genAt (m * B) B k = k / m := by
  induction k with
  | zero => simp [genAt]
  | succ k ih =>
    rw [genAt_succ, ih, Nat.mul_div_mul_right _ _ hB, Nat.mul_div_mul_right _ _ hB]
    have : (k + 1) / m = k / m + if m ∣ k + 1 then 1 else 0 := Nat.succ_div ..
    rw [this]
    split <;> simp

theorem flatMap_range_mul {α : Type} (f : Nat → α) (m B : Nat) :
    ((List.range m).flatMap fun j => (List.range B).map fun i => f (j * B + i))
      = (List.range (m * B)).map f := by
  induction m with
  | zero => simp
  | succ m ih =>
    rw [List.range_succ, List.flatMap_append, ih, Nat.succ_mul, List.range_add]
    simp [List.map_append]

theorem map_getD_range (l : List Nat) (n : Nat) (h : l.length = n) :
    ((List.range n).map fun x => l[x]?.getD 0) = l := by
  subst h
  apply List.ext_getElem
  · simp
  · intro i h1 h2; simp [h2]

/-- C08 when the batch size divides the dataset size: the `n/B` batches of epoch `e` together
contain every example exactly once, for every stream of permutations and every epoch. -/
theorem C08_epoch_is_permutation_partial (c : SimpleCfg D) (hs : c.shuffle = true)
    (hp : ∀ g, (c.perm g).Perm (List.range c.n)) (hn : 0 < c.n) (B : Nat) (hB : B ∣ c.n) (e : Nat) :
    ∃ batches : List (List D),
      ((List.range (c.n / B)).map fun j => nth (simpleNext c B false) (e * (c.n / B) + j) (freshIt c))
        = batches.map .batch ∧
      batches.flatten.Perm ((List.range c.n).map c.load) := by
  obtain ⟨m, hm⟩ := hB
  have hBpos : 0 < B := by rcases Nat.eq_zero_or_pos B with h | h; (subst h; omega); exact h
  have hmpos : 0 < m := by rcases Nat.eq_zero_or_pos m with h | h; (subst h; omega); exact h
  have hm' : c.n / B = m := by rw [hm, Nat.mul_div_cancel_left _ hBpos]
  have hmn : m * B = c.n := by rw [hm, Nat.mul_comm]
  rw [hm']
  refine ⟨(List.range m).map fun j => (List.range B).map fun i =>
    c.load ((c.perm e)[j * B + i]?.getD 0), ?_, ?_⟩
  · rw [List.map_map]
    apply List.map_congr_left
    intro j hj
    rw [List.mem_range] at hj
    rw [(C08_closed_form c hs hp hn B _).1]
    simp only [Function.comp]
    congr 1
    apply List.map_congr_left
    intro i hi
    rw [List.mem_range] at hi
    have hg : genAt c.n B (e * m + j) = e := by
      rw [← hmn, genAt_dvd m B hBpos, Nat.mul_comm, Nat.mul_add_div hmpos, Nat.div_eq_of_lt hj]
      rfl
    have hlt : j * B + i < c.n := by
      have : (j + 1) * B ≤ m * B := Nat.mul_le_mul_right _ hj
      rw [Nat.succ_mul] at this; omega
    have hmod : ((e * m + j) * B + i) % c.n = j * B + i := by
      have : (e * m + j) * B + i = j * B + i + c.n * e := by
        rw [Nat.add_mul, Nat.mul_assoc, hmn, Nat.mul_comm e]; omega
      rw [this, Nat.add_mul_mod_self_left, Nat.mod_eq_of_lt hlt]
    unfold genAt at hg
    rw [hg, hmod]
  · have h1 := flatMap_range_mul (fun x => c.load ((c.perm e)[x]?.getD 0)) m B
    rw [List.flatMap_def] at h1
    rw [h1, hmn]
    have h2 : ((List.range c.n).map fun x => c.load ((c.perm e)[x]?.getD 0))
        = (c.perm e).map c.load := by
      have := map_getD_range (c.perm e) c.n (by rw [(hp e).length_eq]; simp)
      conv => rhs; rw [← this]
      rw [List.map_map]; rfl
    rw [h2]
    exact (hp e).map c.load

example : ∃ c : SimpleCfg Nat, c.shuffle = true ∧ (∀ g, (c.perm g).Perm (List.range c.n)) ∧ 0 < c.n ∧ 2 ∣ c.n ∧
    c.perm 0 ≠ c.perm 1 :=
  ⟨⟨id, 4, true, fun g => if g = 0 then [3, 1, 2, 0] else [0, 2, 1, 3]⟩, rfl,
    by intro g; dsimp only; split <;> decide, by decide, by decide, by decide⟩

/-- C08 fails in general: 3 examples, batches of 2; the batch crossing the end of the first epoch
takes its tail from the old order, so the second epoch contains example 0 twice and misses 1. -/
theorem C08_refutation : ∃ c : SimpleCfg Nat, c.shuffle = true ∧
    (∀ g, (c.perm g).Perm (List.range c.n)) ∧ c.n = 3 ∧ c.load = id ∧
    (iter (simpleNext c 2 false) 3 (freshIt c)).1 = [.batch [0, 1], .batch [2, 0], .batch [0, 2]] ∧
    (after (simpleNext c 2 false) 3 (freshIt c)).epoch = 2 :=
  ⟨⟨id, 3, true, fun g => if g = 0 then [0, 1, 2] else [1, 0, 2]⟩, rfl,
    by intro g; dsimp only; split <;> decide, rfl, rfl, by decide, by decide⟩

/-! ### C10 -/

theorem batchLoop_stop {c : SimpleCfg D} (hp : PermOK c) (d : Cfg)
    (hst : d.stop = true) (b : Nat) (s : Simple) (acc : List D)
    (h : SInv c s) (hle : s.pos + b ≤ c.n) :
    batchLoop (simpleSource c) d b s acc 0 =
      (some (acc ++ (List.range b).map (fun i => c.load ((ordOf c s.gen)[s.pos + i]?.getD 0)), 0),
        { s with pos := s.pos + b }) := by
  induction b generalizing s acc with
  | zero => simp [batchLoop]
  | succ b ih =>
    rw [batchLoop]
    have hn : (simpleSource c).next s =
        (some (c.load ((ordOf c s.gen)[s.pos]?.getD 0)), { s with pos := s.pos + 1 }) := by
      show (s.getOfGen c s.pos s.gen, _) = _
      rw [getOfGen_eq h hp (by omega)]
    rw [hn]
    simp only
    rw [if_neg (by simp [hst]), ih _ _ (h.setPos _) (by simp; omega)]
    rw [List.range_succ_eq_map]
    have e : ∀ i, s.pos + 1 + i = s.pos + (i + 1) := fun i => by omega
    simp [e, Function.comp_def]

theorem after_stop {c : SimpleCfg D} (hp : PermOK c) (B : Nat) (hB : 0 < B) (k : Nat) :
    let it := after (simpleNext c B true) k (freshIt c)
    SInv c it.s ∧ it.s.gen = 0 ∧ it.epoch = 0 ∧ it.log = [] ∧ it.s.pos = (min k (c.n / B)) * B ∧
    nth (simpleNext c B true) k (freshIt c) =
      if k < c.n / B then
        .batch ((List.range B).map fun i => c.load ((ordOf c 0)[k * B + i]?.getD 0))
      else .stopIteration := by
  have step : ∀ (k : Nat) (it : It Simple), SInv c it.s → it.s.gen = 0 → it.s.pos = (min k (c.n / B)) * B →
      simpleNext c B true it = if k < c.n / B then
        (.batch ((List.range B).map fun i => c.load ((ordOf c 0)[k * B + i]?.getD 0)),
          ⟨{ it.s with pos := it.s.pos + B }, it.epoch, it.log⟩)
        else (.stopIteration, it) := by
    intro k it hI hg hpos
    unfold simpleNext nextPlain fetch
    by_cases hk : k < c.n / B
    · rw [if_pos hk]
      have hmin : min k (c.n / B) = k := by omega
      rw [hmin] at hpos
      have hle : it.s.pos + B ≤ c.n := by
        rw [hpos]
        have h1 : (k + 1) * B ≤ (c.n / B) * B := Nat.mul_le_mul_right _ hk
        have h2 := Nat.div_mul_le_self c.n B
        rw [Nat.succ_mul] at h1; omega
      have hpp : (simpleSource c).pos it.s = it.s.pos := rfl
      rw [if_neg (by rw [hpp]; simp only; omega)]
      rw [batchLoop_stop hp _ rfl _ _ _ hI hle]
      simp [runCallbacks, hg, hpos]
    · rw [if_neg hk]
      have hmin : min k (c.n / B) = c.n / B := by omega
      rw [hmin] at hpos
      have hgt : it.s.pos + B > c.n := by
        rw [hpos]
        have h1 := Nat.mod_add_div c.n B
        have h2 := Nat.mod_lt c.n hB
        rw [Nat.mul_comm] at h1; omega
      have hpp : (simpleSource c).pos it.s = it.s.pos := rfl
      rw [if_pos (by rw [hpp]; exact ⟨hgt, rfl⟩)]
      simp only
      rw [if_pos ⟨trivial, by rw [hpp]; omega⟩]
  have inv : ∀ k, let it := after (simpleNext c B true) k (freshIt c)
      SInv c it.s ∧ it.s.gen = 0 ∧ it.epoch = 0 ∧ it.log = [] ∧ it.s.pos = (min k (c.n / B)) * B := by
    intro k
    induction k with
    | zero =>
      exact ⟨(SInv.init c).setPos 0, (generateOrder_pos c 0 ⟨0, 0, [], 0⟩).2, rfl, rfl,
        by rw [after_zero]; show 0 = _; simp⟩
    | succ k ih =>
      simp only [after_succ]
      generalize after (simpleNext c B true) k (freshIt c) = it at ih
      obtain ⟨h1, h2, h3, h4, h5⟩ := ih
      rw [step k it h1 h2 h5]
      by_cases hk : k < c.n / B
      · rw [if_pos hk]
        refine ⟨h1.setPos _, h2, h3, h4, ?_⟩
        show it.s.pos + B = _
        have e1 : min k (c.n / B) = k := by omega
        have e2 : min (k + 1) (c.n / B) = k + 1 := by omega
        rw [h5, e1, e2, Nat.succ_mul]
      · rw [if_neg hk]
        refine ⟨h1, h2, h3, h4, ?_⟩
        show it.s.pos = _
        have e1 : min k (c.n / B) = c.n / B := by omega
        have e2 : min (k + 1) (c.n / B) = c.n / B := by omega
        rw [h5, e1, e2]
  obtain ⟨h1, h2, h3, h4, h5⟩ := inv k
  refine ⟨h1, h2, h3, h4, h5, ?_⟩
  unfold nth
  rw [step k _ h1 h2 h5]
  split <;> rfl

/-- C10 (use_thread=False): with stop_exhausted, call `k` returns batch `k` of consecutive samples
while `k < n/B`; from then on every call raises StopIteration.  The epoch stays 0. -/
theorem C10_stop_exhausted (c : SimpleCfg D) (hp : ∀ g, (c.perm g).Perm (List.range c.n))
    (B : Nat) (hB : 0 < B) (k : Nat) :
    (nth (simpleNext c B true) k (freshIt c) =
      if k < c.n / B then
        .batch ((List.range B).map fun i =>
          c.load ((if c.shuffle then c.perm 0 else List.range c.n)[k * B + i]?.getD 0))
      else .stopIteration) ∧
    (after (simpleNext c B true) k (freshIt c)).epoch = 0 := by
  have h := after_stop (c := c) hp B hB k
  exact ⟨h.2.2.2.2.2, h.2.2.1⟩

/-- C10 for an unshuffled source, in terms of the loader only. -/
theorem C10_stop_exhausted_unshuffled (load : Nat → D) (n B : Nat) (hB : 0 < B) (k : Nat) :
    let c : SimpleCfg D := ⟨load, n, false, fun _ => List.range n⟩
    nth (simpleNext c B true) k (freshIt c) =
      if k < n / B then .batch ((List.range B).map fun i => load (k * B + i)) else .stopIteration := by
  intro c
  have h := (C10_stop_exhausted c (fun _ => List.Perm.refl _) B hB k).1
  rw [h]
  by_cases hk : k < n / B
  · rw [if_pos hk, if_pos hk]
    congr 1
    apply List.map_congr_left
    intro i hi
    rw [List.mem_range] at hi
    have hlt : k * B + i < n := by
      have h1 : (k + 1) * B ≤ (n / B) * B := Nat.mul_le_mul_right _ hk
      have h2 := Nat.div_mul_le_self n B
      rw [Nat.succ_mul] at h1; omega
    show load ((if false = true then _ else List.range n)[k * B + i]?.getD 0) = _
    simp [hlt]
  · rw [if_neg hk, if_neg hk]

example : (iter (simpleNext ⟨id, 5, false, fun _ => List.range 5⟩ 2 true) 4
    (freshIt ⟨id, 5, false, fun _ => List.range 5⟩)).1
    = [.batch [0, 1], .batch [2, 3], .stopIteration, .stopIteration] := by decide

/-! ### C11 -/

variable {S : Type}

/-- C11, for any source and every interleaving: what the threaded iterator has delivered (outputs,
epoch counter, callback log) is what the sequential iterator `nextRetry` delivers. -/
theorem C11_thread_sequential (src : Source S D) (c : Cfg) (s : S) (sch : List Bool) :
    let t := runSched src c sch (tInit src s)
    t.outs = (iter (nextRetry src c) t.outs.length (initIt src s)).1 ∧
    t.epoch = (after (nextRetry src c) t.outs.length (initIt src s)).epoch ∧
    t.log = (after (nextRetry src c) t.outs.length (initIt src s)).log := by
  intro t
  obtain ⟨m, ha, -⟩ := reach_run sch (reach_init src c s)
  have hm : t.outs.length = m := by
    show (runSched src c sch (tInit src s)).outs.length = m
    rw [ha.outs, iter_length]
  rw [hm]
  exact ⟨ha.outs, ha.epoch, ha.log⟩

/-- One call: `nextRetry` agrees with the un-threaded `next()` unless the latter returns None. -/
theorem nextRetry_eq (src : Source S D) (c : Cfg) (it : It S)
    (h : (nextPlain src c it).1 ≠ .noneData) : nextRetry src c it = nextPlain src c it := by
  unfold nextRetry nextPlain at *
  generalize fetch src c it.s = f at *
  obtain ⟨o, s⟩ := f
  cases o with
  | none =>
    simp only at h ⊢
    split
    · rfl
    · rename_i hc; rw [if_neg hc] at h; exact absurd rfl h
  | some x => rfl

theorem iter_congr_prefix {St O : Type} (f g : St → O × St) (it : St) (m : Nat)
    (h : ∀ k < m, f (after g k it) = g (after g k it)) :
    iter f m it = iter g m it := by
  induction m with
  | zero => rfl
  | succ m ih =>
    have ih := ih (fun k hk => h k (by omega))
    have ha : after f m it = after g m it := by unfold after; rw [ih]
    rw [iter_succ, iter_succ, ih, nth, nth, ha, h m (by omega)]

/-- C11: if the un-threaded iterator never returns None (its source never fails), the threaded
iterator delivers the same batches, epochs and callbacks, for every interleaving. -/
theorem C11_thread_transparent_partial (src : Source S D) (c : Cfg) (s : S) (sch : List Bool)
    (hnn : ∀ k, nth (nextPlain src c) k (initIt src s) ≠ .noneData) :
    let t := runSched src c sch (tInit src s)
    t.outs = (iter (nextPlain src c) t.outs.length (initIt src s)).1 ∧
    t.epoch = (after (nextPlain src c) t.outs.length (initIt src s)).epoch ∧
    t.log = (after (nextPlain src c) t.outs.length (initIt src s)).log := by
  intro t
  have h := C11_thread_sequential src c s sch
  have he : ∀ m, iter (nextRetry src c) m (initIt src s) = iter (nextPlain src c) m (initIt src s) :=
    fun m => iter_congr_prefix _ _ _ _ (fun k _ => nextRetry_eq src c _ (hnn k))
  unfold after at *
  simp only [he] at h
  exact h

/-- No deadlock: while StopIteration has not been raised, every schedule that lets both threads move
`2*B+9` times (in any order) completes at least one more `next()`. -/
theorem C11_thread_progress (src : Source S D) (c : Cfg) (s : S) (sch : List Bool)
    (blocks : List (List Bool)) (hb : ∀ x ∈ blocks, true ∈ x ∧ false ∈ x)
    (hlen : 2 * c.batch + 9 ≤ blocks.length)
    (hns : Out.stopIteration ∉ (runSched src c sch (tInit src s)).outs) :
    (runSched src c sch (tInit src s)).outs.length
      < (runSched src c (sch ++ blocks.flatten) (tInit src s)).outs.length := by
  rw [runSched_append]
  have hr := reach_run sch (reach_init src c s)
  have hm : measure c (runSched src c sch (tInit src s)) ≤ 2 * c.batch + 8 := by
    obtain ⟨m, -, h⟩ := hr
    rcases h with ⟨h, -⟩ | ⟨-, l, hl⟩
    · exact h.measure_le
    · rw [hl] at hns; simp at hns
  exact blocks_progress blocks hb hr hns (by omega)

/-- After StopIteration the threaded iterator is dead: whatever the schedule, a further `next()`
never returns (it waits for an empty queue and no worker exists), unlike the un-threaded one. -/
theorem C11_blocks_after_stop (src : Source S D) (c : Cfg) (s : S) (sch more : List Bool)
    (hst : Out.stopIteration ∈ (runSched src c sch (tInit src s)).outs) :
    runSched src c (sch ++ more) (tInit src s) = runSched src c sch (tInit src s) := by
  rw [runSched_append]
  obtain ⟨m, ha, h⟩ := reach_run sch (reach_init src c s)
  rcases h with ⟨-, h⟩ | ⟨h, -⟩
  · exact absurd hst h
  · exact h.step more

/-- The threaded iterator over an unshuffled SimpleDataSource with stop_exhausted, n=3, B=2: it
does raise StopIteration after one batch (so the previous theorem's hypothesis is met). -/
example : (runSched (simpleSource (⟨id, 3, false, fun _ => []⟩ : SimpleCfg Nat)) ⟨3, 2, true⟩
    [false, false, false, false, true, true, false, true, true]
    (tInit (simpleSource ⟨id, 3, false, fun _ => []⟩) (Simple.init ⟨id, 3, false, fun _ => []⟩))).outs
    = [.batch [0, 1], .stopIteration] := by decide

/-- A source whose first fetch fails and which then works. -/
def flaky : Source (Nat × Nat) Nat where
  pos s := s.1
  next s := if s.2 = 0 then (none, (s.1, 1)) else (some s.1, (s.1 + 1, s.2))
  reset s := (0, s.2)
  applyOrder s := s

/-- C11 is false as stated for every source: when the source fails once, the un-threaded iterator
returns None to the caller and the threaded one silently retries. -/
theorem C11_refutation : ∃ sch : List Bool,
    (runSched flaky ⟨2, 1, false⟩ sch (tInit flaky (0, 0))).outs = [.batch [0]] ∧
    (iter (nextPlain flaky ⟨2, 1, false⟩) 1 (initIt flaky (0, 0))).1 = [.noneData] :=
  ⟨[false, false, true, true, false, false, false, true, true], by decide, by decide⟩

/-- The hypothesis of `C11_thread_transparent_partial` holds for every SimpleDataSource. -/
theorem C11_simple_never_none (c : SimpleCfg D) (hp : ∀ g, (c.perm g).Perm (List.range c.n))
    (hn : 0 < c.n) (B : Nat) (hB : 0 < B) (stop : Bool) (k : Nat) :
    nth (simpleNext c B stop) k (freshIt c) ≠ .noneData := by
  cases stop with
  | true =>
    rw [(C10_stop_exhausted c hp B hB k).1]
    split <;> simp
  | false =>
    have h := (after_simple (c := c) hp ⟨c.n, B, false⟩ rfl rfl hn k).2.2.2.2.2
    show nth (nextPlain (simpleSource c) ⟨c.n, B, false⟩) k (initIt (simpleSource c) (Simple.init c)) ≠ _
    rw [h]; simp

/-! ### C09 -/

/-- C09, drop_last=False: all slices have size ⌈size/n⌉, lie inside the dataset and cover it. -/
theorem C09_cover (size n : Nat) (hs : 0 < size) (hn : 0 < n) :
    (∀ r < n, ∃ a : Nat, sliceStartEnd size n r false
        = ((a : Int), ((a + (size + n - 1) / n : Nat) : Int)) ∧ a + (size + n - 1) / n ≤ size) ∧
    ∀ x < size, ∃ r < n, (sliceStartEnd size n r false).1 ≤ x ∧
      (x : Int) < (sliceStartEnd size n r false).2 := by
  have hq0 : 0 < (size + n - 1) / n := Nat.div_pos (by omega) hn
  have hqn : size ≤ (size + n - 1) / n * n := by
    have h1 := Nat.mod_add_div (size + n - 1) n
    have h2 := Nat.mod_lt (size + n - 1) hn
    rw [Nat.mul_comm] at h1; omega
  have hqs : (size + n - 1) / n ≤ size := by
    apply Nat.div_le_of_le_mul
    have : n * 1 ≤ n * size := Nat.mul_le_mul_left n hs
    have h3 : size * 1 ≤ size * n := Nat.mul_le_mul_left size hn
    rcases Nat.lt_or_ge size 2 with h | h
    · have : size = 1 := by omega
      subst this; omega
    · rcases Nat.lt_or_ge n 2 with h' | h'
      · have : n = 1 := by omega
        subst this; omega
      · -- n*size ≥ n + size
        obtain ⟨a, rfl⟩ : ∃ a, size = a + 2 := ⟨size - 2, by omega⟩
        obtain ⟨b, rfl⟩ : ∃ b, n = b + 2 := ⟨n - 2, by omega⟩
        have : (b + 2) * (a + 2) = b * a + 2 * b + 2 * a + 4 := by
          rw [Nat.add_mul, Nat.mul_add, Nat.mul_add]; omega
        omega
  have hval : ∀ r, sliceStartEnd size n r false =
      let q := (size + n - 1) / n
      let a := q * r % size
      if a + q > size then (((size - q : Nat) : Int), ((size : Nat) : Int))
      else ((a : Int), ((a + q : Nat) : Int)) := by
    intro r
    have hc : (((size : Int) + (n : Int) - 1) / (n : Int)) = (((size + n - 1) / n : Nat) : Int) := by
      have : (size : Int) + (n : Int) - 1 = ((size + n - 1 : Nat) : Int) := by omega
      rw [this]; norm_cast
    simp only [sliceStartEnd, Bool.false_eq_true, if_false, hc]
    generalize (size + n - 1) / n = q at *
    have hm : ((q : Int) * (r : Int) % (size : Int)) = ((q * r % size : Nat) : Int) := by norm_cast
    rw [hm]
    have hlt : q * r % size < size := Nat.mod_lt _ hs
    generalize q * r % size = a at *
    by_cases h : a + q > size
    · rw [if_pos (by omega), if_pos h]
      simp only [Prod.mk.injEq]; omega
    · rw [if_neg (by omega), if_neg h]
      simp
  constructor
  · intro r hr
    rw [hval]
    simp only
    generalize (size + n - 1) / n = q at *
    generalize q * r % size = a at *
    by_cases h : a + q > size
    · exact ⟨size - q, by rw [if_pos h]; simp; omega, by omega⟩
    · exact ⟨a, by rw [if_neg h], by omega⟩
  · intro x hx
    refine ⟨x / ((size + n - 1) / n), ?_, ?_⟩
    · rw [Nat.div_lt_iff_lt_mul hq0, Nat.mul_comm]; omega
    · rw [hval]
      simp only
      generalize (size + n - 1) / n = q at *
      have h1 := Nat.mod_add_div x q
      have h2 := Nat.mod_lt x hq0
      have h3 : q * (x / q) % size = q * (x / q) := Nat.mod_eq_of_lt (by omega)
      rw [h3]
      generalize q * (x / q) = a at *
      by_cases h : a + q > size
      · rw [if_pos h]; simp only; omega
      · rw [if_neg h]; simp only; omega

/-- C09, drop_last=True: slices are consecutive disjoint blocks of ⌊size/n⌋ samples and together
miss fewer than `n` samples, at the end. -/
theorem C09_drop_last (size n r : Nat) (hn : 0 < n) :
    sliceStartEnd size n r true = (((size / n * r : Nat) : Int), ((size / n * (r + 1) : Nat) : Int)) ∧
    (∀ r', r < r' → (sliceStartEnd size n r true).2 ≤ (sliceStartEnd size n r' true).1) ∧
    size / n * n ≤ size ∧ size < size / n * n + n := by
  have hv : ∀ r, sliceStartEnd size n r true
      = (((size / n * r : Nat) : Int), ((size / n * (r + 1) : Nat) : Int)) := by
    intro r
    have e : ((size : Int) / (n : Int)) * (r : Int) = ((size / n * r : Nat) : Int) := by norm_cast
    have e2 : ((size : Int) / (n : Int)) = ((size / n : Nat) : Int) := by norm_cast
    simp only [sliceStartEnd, if_true, e2, Nat.mul_succ]
    simp
  refine ⟨hv r, ?_, Nat.div_mul_le_self _ _, ?_⟩
  · intro r' hr
    rw [hv, hv]
    exact Int.ofNat_le.mpr (Nat.mul_le_mul_left _ hr)
  · have h1 := Nat.mod_add_div size n
    have h2 := Nat.mod_lt size hn
    rw [Nat.mul_comm] at h1; omega

example : (List.range 4).map (fun r => sliceStartEnd 5 4 r false) = [(0, 2), (2, 4), (3, 5), (1, 3)] := by
  decide
example : (List.range 2).map (fun r => sliceStartEnd 5 2 r true) = [(0, 2), (2, 4)] := by decide

end Verif.Data
