import Verif.Monitor.Model
/-
C17: MonitorSeries accounts for every value exactly once. C39: MonitorTimeElapsed accounts for all
the time.
-/
namespace Verif.Monitor

/-- Specification: a list of groups of `add` calls, each closed by the first call whose index is at
least `interval` past the index that closed the previous group (`f`; −1 at the beginning). -/
def GoodGroups (interval : Int) : Int → List (List (Int × Rat)) → Prop
  | _, [] => True
  | f, g :: gs => ∃ pre i v, g = pre ++ [(i, v)] ∧ (∀ a ∈ pre, a.1 - f < interval) ∧
      interval ≤ i - f ∧ GoodGroups interval i gs

/-- Specification: index that closed the last group. -/
def lastClosed : Int → List (List (Int × Rat)) → Int
  | f, [] => f
  | _, g :: gs => lastClosed ((g.getLast?.map (·.1)).getD 0) gs

/-- Specification: the line that stands for a group: the index of its last call and the average of
its values. -/
def lineOf (g : List (Int × Rat)) : Int × Rat :=
  ((g.getLast?.map (·.1)).getD 0, (g.map (·.2)).sum / (g.length : Rat))

theorem good_snoc (I : Int) (f : Int) (gs : List (List (Int × Rat))) (pre : List (Int × Rat)) (i : Int)
    (v : Rat) (h : GoodGroups I f gs) (hp : ∀ a ∈ pre, a.1 - lastClosed f gs < I)
    (hi : I ≤ i - lastClosed f gs) : GoodGroups I f (gs ++ [pre ++ [(i, v)]]) := by
  induction gs generalizing f with
  | nil => exact ⟨pre, i, v, rfl, hp, hi, trivial⟩
  | cons g gs ih =>
    obtain ⟨p, j, w, e, h1, h2, h3⟩ := h
    refine ⟨p, j, w, e, h1, h2, ?_⟩
    have : (g.getLast?.map (·.1)).getD 0 = j := by rw [e]; simp
    simp only [lastClosed, this] at hp hi
    exact ih j h3 hp hi

theorem lastClosed_snoc (f : Int) (gs : List (List (Int × Rat))) (g : List (Int × Rat)) :
    lastClosed f (gs ++ [g]) = (g.getLast?.map (·.1)).getD 0 := by
  induction gs generalizing f with
  | nil => rfl
  | cons a t ih => exact ih _

theorem run_inv (I : Int) (adds done : List (Int × Rat)) (m : Series) (gs : List (List (Int × Rat)))
    (rest : List (Int × Rat)) (hI : m.interval = I)
    (h1 : done = gs.flatten ++ rest) (h2 : GoodGroups I (-1) gs)
    (h3 : ∀ a ∈ rest, a.1 - lastClosed (-1) gs < I) (h4 : m.flushAt = lastClosed (-1) gs)
    (h5 : m.buf = rest.map (·.2)) (h6 : m.lines = gs.map lineOf) :
    ∃ gs' rest', done ++ adds = gs'.flatten ++ rest' ∧ GoodGroups I (-1) gs' ∧
      (∀ a ∈ rest', a.1 - lastClosed (-1) gs' < I) ∧
      (m.run adds).buf = rest'.map (·.2) ∧ (m.run adds).lines = gs'.map lineOf := by
  induction adds generalizing done m gs rest with
  | nil => exact ⟨gs, rest, by simpa using h1, h2, h3, h5, h6⟩
  | cons a t ih =>
    obtain ⟨i, v⟩ := a
    rw [List.append_cons]
    by_cases hc : i - m.flushAt < m.interval
    · have e : m.add i v = { m with buf := m.buf ++ [v] } := by simp [Series.add, hc]
      simp only [Series.run, e]
      refine ih (done ++ [(i, v)]) { m with buf := m.buf ++ [v] } gs (rest ++ [(i, v)]) hI ?_ h2 ?_ h4 ?_ h6
      · simp [h1]
      · intro a ha
        rcases List.mem_append.mp ha with ha | ha
        · exact h3 a ha
        · rw [List.mem_singleton] at ha
          subst ha
          rw [← h4, ← hI]; exact hc
      · simp [h5]
    · have e : m.add i v = (⟨m.interval, i, [], m.lines ++ [(i, mean (m.buf ++ [v]))]⟩ : Series) := by simp [Series.add, hc]
      simp only [Series.run, e]
      refine ih (done ++ [(i, v)]) _ (gs ++ [rest ++ [(i, v)]]) [] hI ?_ ?_ ?_ ?_ ?_ ?_
      · simp [h1]
      · apply good_snoc _ _ _ _ _ _ h2 h3
        rw [← h4, ← hI]; omega
      · intro a ha; cases ha
      · rw [lastClosed_snoc]; simp
      · rfl
      · simp [h6, lineOf, mean, h5]

/-- **C17.** The sequence of `add` calls splits, in order and without loss or repetition, into groups
followed by the values still buffered; there is exactly one line per group, carrying the index of the
group's last call and the mean of the group's values; a group is closed by the first call whose index
is at least `interval` past the previous line's index, and by no other. -/
theorem C17_accounting (interval : Int) (adds : List (Int × Rat)) :
    ∃ groups rest, adds = groups.flatten ++ rest ∧
      GoodGroups interval (-1) groups ∧
      (∀ a ∈ rest, a.1 - lastClosed (-1) groups < interval) ∧
      ((Series.new interval).run adds).buf = rest.map (·.2) ∧
      ((Series.new interval).run adds).lines = groups.map lineOf := by
  have := run_inv interval adds [] (Series.new interval) [] [] rfl rfl trivial (by simp) rfl rfl rfl
  simpa using this

/-- Specification: consecutive elements of `f :: l` are at least `I` apart, increasing. -/
def Spaced (I : Int) : Int → List Int → Prop
  | _, [] => True
  | f, i :: r => f + I ≤ i ∧ Spaced I i r

/-- Lines are at least `interval` apart. -/
theorem good_spaced (I : Int) (f : Int) (gs : List (List (Int × Rat))) (h : GoodGroups I f gs) :
    Spaced I f ((gs.map lineOf).map (·.1)) := by
  induction gs generalizing f with
  | nil => trivial
  | cons g gs ih =>
    obtain ⟨p, j, w, e, _, h2, h3⟩ := h
    have hj : (lineOf g).1 = j := by simp [lineOf, e]
    simp only [List.map_cons, hj]
    exact ⟨by omega, ih j h3⟩

/-- **C17.** Emitted indices are at least `interval` apart (the first one at least `interval − 1`). -/
theorem C17_spacing (interval : Int) (adds : List (Int × Rat)) :
    Spaced interval (-1) (((Series.new interval).run adds).lines.map (·.1)) := by
  obtain ⟨gs, rest, _, h, _, _, e⟩ := C17_accounting interval adds
  rw [e]; exact good_spaced interval (-1) gs h

theorem run_append (m : Series) (a b : List (Int × Rat)) : m.run (a ++ b) = (m.run a).run b := by
  induction a generalizing m with
  | nil => rfl
  | cons x t ih => exact ih _

/-- The calls `add(0, v 0), …, add(n-1, v (n-1))`. -/
def regular (v : Nat → Rat) (n : Nat) : List (Int × Rat) := (List.range n).map fun i : Nat => ((i : Int), v i)

theorem regular_state (I : Nat) (hI : 0 < I) (v : Nat → Rat) (n : Nat) :
    ((Series.new I).run (regular v n)).interval = I ∧
    ((Series.new I).run (regular v n)).flushAt = ((n / I * I : Nat) : Int) - 1 ∧
    ((Series.new I).run (regular v n)).buf = (List.range' (n / I * I) (n % I)).map v ∧
    ((Series.new I).run (regular v n)).lines =
      (List.range (n / I)).map (fun k => ((((k + 1) * I : Nat) : Int) - 1, mean ((List.range' (k * I) I).map v))) := by
  induction n with
  | zero => simp [regular, Series.run, Series.new]
  | succ n ih =>
    obtain ⟨h1, h2, h3, h4⟩ := ih
    have e : regular v (n + 1) = regular v n ++ [((n : Int), v n)] := by
      simp [regular, List.range_succ]
    rw [e, run_append]
    generalize (Series.new ↑I).run (regular v n) = m at *
    have hd := Nat.div_add_mod n I
    rw [Nat.mul_comm] at hd
    have hlt := Nat.mod_lt n hI
    simp only [Series.run]
    by_cases hc : n % I + 1 < I
    · have hq : (n + 1) / I = n / I := by
        apply Nat.div_eq_of_lt_le
        · omega
        · rw [Nat.add_mul]; omega
      have hr : (n + 1) % I = n % I + 1 := by
        have := Nat.div_add_mod (n + 1) I
        rw [hq, Nat.mul_comm] at this; omega
      have hcond : (n : Int) - m.flushAt < m.interval := by rw [h1, h2]; omega
      rw [hq, hr]
      simp only [Series.add, hcond, if_pos]
      refine ⟨h1, h2, ?_, h4⟩
      rw [h3, List.range'_concat, List.map_append]
      simp [hd]
    · have hq : (n + 1) / I = n / I + 1 := by
        apply Nat.div_eq_of_lt_le
        · rw [Nat.add_mul]; omega
        · rw [Nat.add_mul, Nat.add_mul]; omega
      have hr : (n + 1) % I = 0 := by
        have := Nat.div_add_mod (n + 1) I
        rw [hq, Nat.mul_comm, Nat.add_mul] at this; omega
      have hcond : ¬ (n : Int) - m.flushAt < m.interval := by rw [h1, h2]; omega
      rw [hq, hr]
      simp only [Series.add, hcond, if_false]
      refine ⟨h1, ?_, rfl, ?_⟩
      · rw [Nat.add_mul]; omega
      · rw [h4, List.range_succ, List.map_append, List.map_singleton]
        congr 2
        have hb : m.buf ++ [v n] = (List.range' (n / I * I) I).map v := by
          have : I = n % I + 1 := by omega
          conv => rhs; rw [show List.range' (n / I * I) I = List.range' (n / I * I) (n % I + 1) from by rw [← this]]
          rw [h3, List.range'_concat, List.map_append]
          simp [hd]
        rw [hb]
        congr 1
        rw [Nat.add_mul]; omega

/-- **C17, regular use.** When `add` is called with indices 0, 1, …, n−1, there is one line for each
full window of `interval` calls, with index `(k+1)*interval − 1` and the mean of exactly the values of
that window; the values of the unfinished window are still buffered. -/
theorem C17_regular (I : Nat) (hI : 0 < I) (v : Nat → Rat) (n : Nat) :
    ((Series.new I).run (regular v n)).lines =
      (List.range (n / I)).map (fun k =>
        ((((k + 1) * I : Nat) : Int) - 1, ((List.range' (k * I) I).map v).sum / (I : Rat))) ∧
    ((Series.new I).run (regular v n)).buf = (List.range' (n / I * I) (n % I)).map v := by
  obtain ⟨_, _, h3, h4⟩ := regular_state I hI v n
  refine ⟨?_, h3⟩
  rw [h4]; simp [mean]

/-! ### C39 -/

/-- Sum of a field over the lines. -/
theorem time_inv (adds : List (Int × Rat)) (m : TimeMonitor)
    (h1 : (m.lines.map (·.it)).sum = m.flushAt + 1)
    (h2 : (m.lines.map (·.elapsed)).sum = m.lap - m.start)
    (h3 : ∀ l, m.lines.getLast? = some l → l.total = m.lap - m.start ∧ l.index = m.flushAt) :
    ((m.run adds).lines.map (·.it)).sum = (m.run adds).flushAt + 1 ∧
    ((m.run adds).lines.map (·.elapsed)).sum = (m.run adds).lap - (m.run adds).start ∧
    (∀ l, (m.run adds).lines.getLast? = some l →
      l.total = (m.run adds).lap - (m.run adds).start ∧ l.index = (m.run adds).flushAt) := by
  induction adds generalizing m with
  | nil => exact ⟨h1, h2, h3⟩
  | cons a t ih =>
    obtain ⟨i, now⟩ := a
    simp only [TimeMonitor.run]
    by_cases hc : i - m.flushAt < m.interval
    · have : m.add i now = m := by simp [TimeMonitor.add, hc]
      rw [this]; exact ih m h1 h2 h3
    · apply ih
      · simp only [TimeMonitor.add, hc, if_false, List.map_append, List.sum_append, h1]
        simp; omega
      · simp only [TimeMonitor.add, hc, if_false, List.map_append, List.sum_append, h2]
        simp; grind
      · intro l hl
        simp only [TimeMonitor.add, hc, if_false] at hl ⊢
        rw [List.getLast?_concat] at hl
        injection hl with hl
        subst hl
        exact ⟨rfl, rfl⟩

/-- **C39.** After any sequence of `add` calls the elapsed times of the printed lines add up to the
total time of the last line, and their iteration counts to the last line's index plus one. -/
theorem C39_time_accounting (interval : Int) (t0 : Rat) (adds : List (Int × Rat)) (l : TimeLine)
    (h : ((TimeMonitor.new interval t0).run adds).lines.getLast? = some l) :
    (((TimeMonitor.new interval t0).run adds).lines.map (·.elapsed)).sum = l.total ∧
    (((TimeMonitor.new interval t0).run adds).lines.map (·.it)).sum = l.index + 1 := by
  have := time_inv adds (TimeMonitor.new interval t0) (by simp [TimeMonitor.new])
    (by simp [TimeMonitor.new]; grind) (by simp [TimeMonitor.new])
  obtain ⟨a, b, c⟩ := this
  obtain ⟨c1, c2⟩ := c l h
  exact ⟨by rw [b, c1], by rw [a, c2]⟩

theorem time_lines (adds : List (Int × Rat)) (m : TimeMonitor)
    (h : ∀ l ∈ m.lines, ∃ t, l.total = t - m.start ∧ m.interval ≤ l.it) :
    (m.run adds).start = m.start ∧ (m.run adds).interval = m.interval ∧
    ∀ l ∈ (m.run adds).lines, l ∈ m.lines ∨
      ∃ a ∈ adds, l.index = a.1 ∧ l.total = a.2 - m.start ∧ m.interval ≤ l.it := by
  induction adds generalizing m with
  | nil => exact ⟨rfl, rfl, fun l hl => Or.inl hl⟩
  | cons a t ih =>
    obtain ⟨i, now⟩ := a
    simp only [TimeMonitor.run]
    by_cases hc : i - m.flushAt < m.interval
    · have e : m.add i now = m := by simp [TimeMonitor.add, hc]
      rw [e]
      obtain ⟨x, y, z⟩ := ih m h
      refine ⟨x, y, fun l hl => ?_⟩
      rcases z l hl with z | ⟨a, ha, z⟩
      · exact Or.inl z
      · exact Or.inr ⟨a, List.mem_cons_of_mem _ ha, z⟩
    · have hs : (m.add i now).start = m.start := by simp [TimeMonitor.add, hc]
      have hI : (m.add i now).interval = m.interval := by simp [TimeMonitor.add, hc]
      have hl' : (m.add i now).lines = m.lines ++ [⟨i, now - m.lap, i - m.flushAt, now - m.start⟩] := by
        simp [TimeMonitor.add, hc]
      obtain ⟨x, y, z⟩ := ih (m.add i now) (by
        intro l hl
        rw [hl'] at hl
        rw [hs, hI]
        rcases List.mem_append.mp hl with hl | hl
        · exact h l hl
        · rw [List.mem_singleton] at hl; subst hl
          exact ⟨now, rfl, by show m.interval ≤ i - m.flushAt; omega⟩)
      rw [hs] at x; rw [hI] at y
      refine ⟨x, y, fun l hl => ?_⟩
      rw [hs, hI] at z
      rcases z l hl with z | ⟨a, ha, z⟩
      · rw [hl'] at z
        rcases List.mem_append.mp z with z | z
        · exact Or.inl z
        · rw [List.mem_singleton] at z; subst z
          exact Or.inr ⟨(i, now), List.mem_cons_self, rfl, rfl, by show m.interval ≤ i - m.flushAt; omega⟩
      · exact Or.inr ⟨a, List.mem_cons_of_mem _ ha, z⟩

/-- **C39.** Every line belongs to an `add` call, its total is the time of that call since the
monitor was created, and it covers at least `interval` iterations. -/
theorem C39_time_lines (interval : Int) (t0 : Rat) (adds : List (Int × Rat)) (l : TimeLine)
    (h : l ∈ ((TimeMonitor.new interval t0).run adds).lines) :
    ∃ a ∈ adds, l.index = a.1 ∧ l.total = a.2 - t0 ∧ interval ≤ l.it := by
  rcases (time_lines adds (TimeMonitor.new interval t0) (by simp [TimeMonitor.new])).2.2 l h with h | h
  · simp [TimeMonitor.new] at h
  · exact h

/-- **C39.** An image is saved at the first index and at the last index of each window of `interval`
indices, and at no other. -/
theorem C39_image_saved (interval index : Nat) :
    imageSaved interval index = true ↔ index = 0 ∨ ∃ k, index + 1 = (k + 1) * interval := by
  unfold imageSaved
  by_cases h0 : index = 0
  · simp [h0]
  · simp only [bne, Bool.not_and, Bool.not_not, Bool.or_eq_true, beq_iff_eq, h0, false_or]
    constructor
    · intro h
      obtain ⟨k, hk⟩ := Nat.dvd_of_mod_eq_zero h
      refine ⟨k - 1, ?_⟩
      have : k ≠ 0 := by rintro rfl; omega
      rw [Nat.sub_add_cancel (by omega), hk, Nat.mul_comm]
    · rintro ⟨k, hk⟩
      rw [hk]; exact Nat.mul_mod_left _ _

/-! ### Non-vacuity -/

example : ((Series.new 2).run (regular (fun i => i) 5)).lines = [(1, 1 / 2), (3, 5 / 2)] := by decide +kernel
example : ((Series.new 2).run (regular (fun i => i) 5)).buf = [4] := by decide +kernel
example : ((TimeMonitor.new 2 10).run [(0, 11), (1, 13), (2, 14), (5, 20)]).lines.map (·.elapsed) = [3, 7] := by
  decide +kernel
example : (List.range 10).filter (imageSaved 3) = [0, 2, 5, 8] := by decide

end Verif.Monitor
