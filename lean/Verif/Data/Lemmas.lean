import Verif.Data.Simple
namespace Verif.Data

section
variable {St O : Type}

theorem iter_succ (nxt : St → O × St) (k : Nat) (it : St) :
    iter nxt (k + 1) it = ((iter nxt k it).1 ++ [nth nxt k it], (nxt (after nxt k it)).2) := by
  induction k generalizing it with
  | zero => simp [iter, nth, after]
  | succ k ih =>
    rw [iter]
    simp only [ih (nxt it).2]
    simp only [nth, after, iter, List.cons_append]

theorem after_zero (nxt : St → O × St) (it : St) : after nxt 0 it = it := rfl

theorem after_succ (nxt : St → O × St) (k : Nat) (it : St) :
    after nxt (k + 1) it = (nxt (after nxt k it)).2 := by
  rw [after, iter_succ]

theorem iter_length (nxt : St → O × St) (k : Nat) (it : St) : (iter nxt k it).1.length = k := by
  induction k generalizing it with
  | zero => rfl
  | succ k ih => rw [iter_succ]; simp [ih]

theorem iter_eq_map (nxt : St → O × St) (k : Nat) (it : St) :
    (iter nxt k it).1 = (List.range k).map (fun i => nth nxt i it) := by
  induction k generalizing it with
  | zero => rfl
  | succ k ih => rw [iter_succ, List.range_succ]; simp [ih]
end

/-- The order used by generation `g`. -/
def ordOf {D : Type} (c : SimpleCfg D) (g : Nat) : List Nat :=
  if c.shuffle then c.perm g else List.range c.n

variable {D : Type}

structure SInv (c : SimpleCfg D) (s : Simple) : Prop where
  drawn : c.shuffle = true → s.drawn = s.gen + 1
  le : ∀ o ∈ s.orders, o.1 ≤ s.gen
  find : s.orders.find? (fun o => o.1 == s.gen) = some (s.gen, ordOf c s.gen)

theorem find_drop_append {α : Type} (p : α → Bool) (l : List α) (x : α) (k : Nat) (hk : k ≤ l.length)
    (hp : p x = true) (hl : ∀ y ∈ l, p y = false) :
    ((l ++ [x]).drop k).find? p = some x := by
  rw [List.drop_append_of_le_length hk, List.find?_append]
  have : (l.drop k).find? p = none := by
    rw [List.find?_eq_none]
    intro y hy
    simp [hl y (List.mem_of_mem_drop hy)]
  simp [this, hp]

theorem SInv.init (c : SimpleCfg D) : SInv c (Simple.init c) := by
  unfold Simple.init Simple.generateOrder
  by_cases h : c.shuffle = true
  · simp [h, dequeAppend]; constructor <;> simp [h, ordOf]
  · simp [h, dequeAppend]; constructor <;> simp [h, ordOf]

theorem generateOrder_pos (c : SimpleCfg D) (g : Nat) (s : Simple) :
    (Simple.generateOrder c g s).pos = s.pos ∧ (Simple.generateOrder c g s).gen = s.gen := by
  unfold Simple.generateOrder
  split
  · simp
  · split <;> simp

theorem SInv.applyOrder {c : SimpleCfg D} {s : Simple} (h : SInv c s) :
    SInv c ((simpleSource c).applyOrder s) := by
  have hno : (s.orders.any fun o => o.1 == s.gen + 1) = false := by
    rw [List.any_eq_false]
    intro o ho
    have := h.le o ho
    simp; omega
  have hno' : ∀ o ∈ s.orders, (o.1 == s.gen + 1) = false := by
    intro o ho; have := h.le o ho; simp; omega
  show SInv c (Simple.generateOrder c (s.gen + 1) { s with gen := s.gen + 1 })
  unfold Simple.generateOrder
  simp only [hno]
  by_cases hs : c.shuffle = true
  · simp only [hs, if_true, Bool.false_eq_true, if_false]
    have hd := h.drawn hs
    constructor
    · intro _; simp [hd]
    · intro o ho
      have ho := List.mem_of_mem_drop ho
      simp only [List.mem_append, List.mem_singleton] at ho
      rcases ho with ho | ho
      · have := h.le o ho; simp; omega
      · subst ho; simp
    · simp only [dequeAppend]
      rw [find_drop_append]
      · simp [ordOf, hs, hd]
      · simp
      · simp
      · simpa using hno'
  · simp only [hs, Bool.false_eq_true, if_false]
    constructor
    · intro h'; exact absurd h' hs
    · intro o ho
      have ho := List.mem_of_mem_drop ho
      simp only [List.mem_append, List.mem_singleton] at ho
      rcases ho with ho | ho
      · have := h.le o ho; simp; omega
      · subst ho; simp
    · simp only [dequeAppend]
      rw [find_drop_append]
      · simp [ordOf, hs]
      · simp
      · simp
      · simpa using hno'

theorem SInv.setPos {c : SimpleCfg D} {s : Simple} (h : SInv c s) (p : Nat) :
    SInv c { s with pos := p } := ⟨h.drawn, h.le, h.find⟩

theorem applyOrder_pos (c : SimpleCfg D) (s : Simple) :
    ((simpleSource c).applyOrder s).pos = s.pos ∧ ((simpleSource c).applyOrder s).gen = s.gen + 1 := by
  simp [simpleSource, generateOrder_pos]

/-- Every permutation of the stream is a permutation of the index set. -/
def PermOK (c : SimpleCfg D) : Prop := ∀ g, (c.perm g).Perm (List.range c.n)

theorem ordOf_length {c : SimpleCfg D} (h : PermOK c) (g : Nat) : (ordOf c g).length = c.n := by
  unfold ordOf
  split
  · rw [(h g).length_eq]; simp
  · simp

theorem getOfGen_eq {c : SimpleCfg D} {s : Simple} (h : SInv c s) (hp : PermOK c)
    (hlt : s.pos < c.n) :
    s.getOfGen c s.pos s.gen = some (c.load ((ordOf c s.gen)[s.pos]?.getD 0)) := by
  unfold Simple.getOfGen
  rw [h.find]
  have : s.pos < (ordOf c s.gen).length := by rw [ordOf_length hp]; exact hlt
  simp [this]

/-- Samples read by a batch from position `p` on, generation `g`, wrapping at `n`. -/
def samples (c : SimpleCfg D) (g p b : Nat) : List D :=
  (List.range b).map fun i => c.load ((ordOf c g)[(p + i) % c.n]?.getD 0)

theorem samples_succ (c : SimpleCfg D) (g p b : Nat) (h : p < c.n) :
    samples c g p (b + 1) = c.load ((ordOf c g)[p]?.getD 0) :: samples c g ((p + 1) % c.n) b := by
  unfold samples
  rw [List.range_succ_eq_map]
  simp only [List.map_cons, List.map_map, Nat.add_zero, Nat.mod_eq_of_lt h]
  congr 1
  apply List.map_congr_left
  intro i _
  simp only [Function.comp]
  have : (p + i.succ) % c.n = ((p + 1) % c.n + i) % c.n := by
    rw [Nat.mod_add_mod]; congr 1; omega
  rw [this]

theorem batchLoop_simple {c : SimpleCfg D} (hp : PermOK c) (d : Cfg) (hd : d.size = c.n)
    (hst : d.stop = false) (b : Nat) (s : Simple) (acc : List D) (r : Nat)
    (h : SInv c s) (hlt : s.pos < c.n) :
    batchLoop (simpleSource c) d b s acc r =
      (some (acc ++ samples c s.gen s.pos b, r + (s.pos + b) / c.n),
        if r + (s.pos + b) / c.n ≠ 0 then (simpleSource c).applyOrder { s with pos := (s.pos + b) % c.n }
        else { s with pos := (s.pos + b) % c.n }) := by
  induction b generalizing s acc r with
  | zero =>
    rw [batchLoop]
    have h1 : s.pos / c.n = 0 := Nat.div_eq_of_lt hlt
    have h2 : s.pos % c.n = s.pos := Nat.mod_eq_of_lt hlt
    simp [samples, h1, h2]
  | succ b ih =>
    rw [batchLoop]
    have hn : (simpleSource c).next s =
        (some (c.load ((ordOf c s.gen)[s.pos]?.getD 0)), { s with pos := s.pos + 1 }) := by
      show (s.getOfGen c s.pos s.gen, _) = _
      rw [getOfGen_eq h hp hlt]
    rw [hn]
    simp only
    rw [samples_succ c s.gen s.pos b hlt]
    by_cases hge : s.pos + 1 ≥ c.n
    · have he : s.pos + 1 = c.n := by omega
      have hpos : (simpleSource c).pos { s with pos := s.pos + 1 } = s.pos + 1 := rfl
      rw [if_pos ⟨by rw [hpos, hd]; exact hge, hst⟩]
      have hr : (simpleSource c).reset { s with pos := s.pos + 1 } = { s with pos := 0 } := rfl
      rw [hr, ih { s with pos := 0 } _ _ (h.setPos 0) (by simp; omega)]
      have e1 : (s.pos + (b + 1)) / c.n = b / c.n + 1 := by
        have : s.pos + (b + 1) = b + c.n := by omega
        rw [this, Nat.add_div_right _ (by omega)]
      have e2 : (s.pos + (b + 1)) % c.n = b % c.n := by
        have : s.pos + (b + 1) = b + c.n := by omega
        rw [this, Nat.add_mod_right]
      have e3 : (s.pos + 1) % c.n = 0 := by rw [he]; simp
      have e4 : r + 1 + b / c.n = r + (b / c.n + 1) := by omega
      simp [e1, e2, e3, e4]
    · have hpos : (simpleSource c).pos { s with pos := s.pos + 1 } = s.pos + 1 := rfl
      rw [if_neg (by rw [hpos, hd]; intro h; omega)]
      rw [ih { s with pos := s.pos + 1 } _ _ (h.setPos _) (by simp; omega)]
      have e3 : (s.pos + 1) % c.n = s.pos + 1 := Nat.mod_eq_of_lt (by omega)
      have e5 : s.pos + 1 + b = s.pos + (b + 1) := by omega
      simp [e3, e5]

/-- Number of batches before batch `k` that hit an epoch boundary. -/
def genAt (n b k : Nat) : Nat :=
  ((List.range k).filter fun j => decide ((j + 1) * b / n ≠ j * b / n)).length

theorem genAt_succ (n b k : Nat) :
    genAt n b (k + 1) = genAt n b k + if (k + 1) * b / n ≠ k * b / n then 1 else 0 := by
  unfold genAt
  rw [List.range_succ, List.filter_append, List.length_append]
  by_cases h : (k + 1) * b / n ≠ k * b / n <;> simp [h]

theorem mod_add_div_sub (x b n : Nat) (hn : 0 < n) : (x % n + b) / n = (x + b) / n - x / n := by
  have h1 : x + b = (x % n + b) + n * (x / n) := by
    have := Nat.mod_add_div x n; omega
  have h2 : (x + b) / n = (x % n + b) / n + x / n := by
    rw [h1, Nat.add_mul_div_left _ _ hn]
  rw [h2, Nat.add_sub_cancel]

theorem mul_div_mono (k b n : Nat) : k * b / n ≤ (k + 1) * b / n :=
  Nat.div_le_div_right (Nat.mul_le_mul_right _ (by omega))

/-- Events logged when the epoch counter goes from `e` on, `m` times. -/
def events (e m : Nat) : List Event :=
  (List.range m).flatMap fun i => [.epochEnd (e + i), .epochBegin (e + i + 1)]

theorem runCallbacks_eq (m e : Nat) (log : List Event) :
    runCallbacks m e log = (e + m, log ++ events e m) := by
  induction m generalizing e log with
  | zero => simp [runCallbacks, events]
  | succ m ih =>
    rw [runCallbacks, ih]
    unfold events
    rw [List.range_succ_eq_map]
    simp only [List.flatMap_cons, List.flatMap_map]
    simp only [Prod.mk.injEq, Nat.add_zero]
    refine ⟨by omega, ?_⟩
    rw [List.append_assoc]
    congr 2
    congr 1
    funext i
    simp; omega

theorem events_add (e a b : Nat) : events e (a + b) = events e a ++ events (e + a) b := by
  induction b with
  | zero => simp [events]
  | succ b ih =>
    have key : ∀ e m, events e (m + 1) = events e m ++ [.epochEnd (e + m), .epochBegin (e + m + 1)] := by
      intro e m; unfold events; rw [List.range_succ, List.flatMap_append]; simp
    rw [← Nat.add_assoc, key, ih, key]
    simp [Nat.add_assoc]

/-- State of the un-threaded iterator over a SimpleDataSource after `k` batches. -/
theorem after_simple {c : SimpleCfg D} (hp : PermOK c) (d : Cfg) (hd : d.size = c.n)
    (hst : d.stop = false) (hn : 0 < c.n) (k : Nat) :
    let it := after (nextPlain (simpleSource c) d) k (initIt (simpleSource c) (Simple.init c))
    SInv c it.s ∧ it.s.pos = k * d.batch % c.n ∧ it.s.gen = genAt c.n d.batch k ∧
      it.epoch = k * d.batch / c.n ∧ it.log = events 0 (k * d.batch / c.n) ∧
      nth (nextPlain (simpleSource c) d) k (initIt (simpleSource c) (Simple.init c)) =
        .batch (samples c (genAt c.n d.batch k) (k * d.batch) d.batch) := by
  induction k with
  | zero =>
    have hI : SInv c (initIt (simpleSource c) (Simple.init c)).s := (SInv.init c).setPos 0
    have hg : (Simple.init c).gen = 0 := (generateOrder_pos c 0 ⟨0, 0, [], 0⟩).2
    refine ⟨hI, ?_, ?_, ?_, ?_, ?_⟩
    · simp [after_zero, initIt, simpleSource]
    · simp [after_zero, initIt, simpleSource, hg, genAt]
    · simp [after_zero, initIt]
    · simp [after_zero, initIt, events]
    · rw [nth, after_zero, nextPlain, fetch, if_neg (by simp [hst])]
      have hg' : (initIt (simpleSource c) (Simple.init c)).s.gen = 0 := hg
      have hpos : (initIt (simpleSource c) (Simple.init c)).s.pos = 0 := rfl
      rw [batchLoop_simple hp d hd hst _ _ _ _ hI (by rw [hpos]; exact hn)]
      simp [hg', hpos, genAt]
  | succ k ih =>
    obtain ⟨hI, hpos, hgen, hep, hlog, _⟩ := ih
    generalize hit : after (nextPlain (simpleSource c) d) k (initIt (simpleSource c) (Simple.init c)) = it at *
    have hlt : it.s.pos < c.n := by rw [hpos]; exact Nat.mod_lt _ hn
    have hfetch := batchLoop_simple hp d hd hst d.batch it.s [] 0 hI hlt
    have hdiv : (it.s.pos + d.batch) / c.n = (k + 1) * d.batch / c.n - k * d.batch / c.n := by
      rw [hpos, mod_add_div_sub _ _ _ hn, Nat.succ_mul]
    have hmod : (it.s.pos + d.batch) % c.n = (k + 1) * d.batch % c.n := by
      rw [hpos, Nat.mod_add_mod, Nat.succ_mul]
    have hmono := mul_div_mono k d.batch c.n
    rw [hdiv, hmod, Nat.zero_add] at hfetch
    have hstep : (nextPlain (simpleSource c) d it).2 =
        ⟨if (k + 1) * d.batch / c.n - k * d.batch / c.n ≠ 0 then
            (simpleSource c).applyOrder { it.s with pos := (k + 1) * d.batch % c.n }
          else { it.s with pos := (k + 1) * d.batch % c.n },
          (k + 1) * d.batch / c.n, events 0 ((k + 1) * d.batch / c.n)⟩ := by
      rw [nextPlain, fetch, if_neg (by simp [hst]), hfetch]
      simp only [runCallbacks_eq, hep, hlog]
      have e : (k + 1) * d.batch / c.n = k * d.batch / c.n + ((k + 1) * d.batch / c.n - k * d.batch / c.n) := by
        omega
      congr 1
      · omega
      · conv => rhs; rw [e]
        rw [events_add, Nat.zero_add]
    have key : SInv c (nextPlain (simpleSource c) d it).2.s ∧
        (nextPlain (simpleSource c) d it).2.s.pos = (k + 1) * d.batch % c.n ∧
        (nextPlain (simpleSource c) d it).2.s.gen = genAt c.n d.batch (k + 1) := by
      rw [hstep, genAt_succ]
      by_cases hz : (k + 1) * d.batch / c.n - k * d.batch / c.n ≠ 0
      · rw [if_pos hz]
        have hne : (k + 1) * d.batch / c.n ≠ k * d.batch / c.n := by omega
        rw [if_pos hne]
        refine ⟨(hI.setPos _).applyOrder, (applyOrder_pos c _).1, ?_⟩
        rw [(applyOrder_pos c _).2, ← hgen]
      · rw [if_neg hz]
        have hne : ¬ (k + 1) * d.batch / c.n ≠ k * d.batch / c.n := by omega
        rw [if_neg hne]
        exact ⟨hI.setPos _, rfl, hgen⟩
    obtain ⟨k1, k2, k3⟩ := key
    simp only [after_succ, hit]
    refine ⟨k1, k2, k3, ?_, ?_, ?_⟩
    · rw [hstep]
    · rw [hstep]
    · rw [nth, after_succ, hit, nextPlain, fetch, if_neg (by simp [hst])]
      have hlt' : (nextPlain (simpleSource c) d it).2.s.pos < c.n := by
        rw [k2]; exact Nat.mod_lt _ hn
      rw [batchLoop_simple hp d hd hst _ _ _ _ k1 hlt', k2, k3]
      simp only [List.nil_append]
      congr 1
      unfold samples
      apply List.map_congr_left
      intro i _
      rw [Nat.mod_add_mod]

end Verif.Data
