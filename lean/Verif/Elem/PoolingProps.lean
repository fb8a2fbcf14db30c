import Verif.Elem.Pooling
/-
C90: pooling computes the maximum, sum or average over each window, and its gradient.
-/
namespace Verif.Elem
open Verif.Fn Verif.ND

theorem vjp_of_adjoint (m n : Nat) (F : Mem ℝ → Mem ℝ) (x : Mem ℝ) (B : Mem ℝ → Mem ℝ) (h : ∀ dy x, dot n dy (F x) = dot m x (B dy)) : IsVJP m n F x B := by
  intro c v hc dy
  simp only [h]
  have := hasDerivAt_dot m (B dy) c v fun k hk => (hc k hk).2
  refine (this.congr_deriv (dot_congr fun i _ => mul_comm _ _)).congr_of_eventuallyEq (Filter.Eventually.of_forall fun t => ?_)
  exact dot_congr fun i _ => mul_comm _ _

theorem dot_block (N A : Nat) (u v : Mem ℝ) : dot (N * A) u v = ∑ n ∈ Finset.range N, ∑ k ∈ Finset.range A, u (n * A + k) * v (n * A + k) := by
  unfold dot
  rw [sum_mul_range]

/-- A sum of scattered values against v. -/
theorem scatter_dot (N : Nat) (v : Mem ℝ) (l : List Nat) (off : Nat) (g : ℝ) (h : ∀ i ∈ l, off + i < N) :
    ∑ j ∈ Finset.range N, v j * (l.map fun i => if off + i = j then g else 0).sum = (l.map fun i => v (off + i)).sum * g := by
  induction l with
  | nil => simp
  | cons i l ih =>
    simp only [List.map_cons, List.sum_cons, mul_add, Finset.sum_add_distrib, add_mul]
    rw [ih fun i hi => h i (List.mem_cons_of_mem _ hi)]
    congr 1
    simp only [mul_ite, mul_zero]
    rw [Finset.sum_ite_eq (Finset.range N) (off + i), if_pos (Finset.mem_range.mpr (h i (List.mem_cons_self ..)))]

/-- Writing every element of every block. -/
theorem blocks_put {R} (N Y : Nat) (g : Nat → Nat → R) (y : Mem R) :
    (∀ n k, n < N → k < Y → (List.range N).foldl (fun y n => forPut Y (fun k => n * Y + k) (fun k _ => g n k) y) y (n * Y + k) = g n k) ∧
    ∀ k, N * Y ≤ k → (List.range N).foldl (fun y n => forPut Y (fun k => n * Y + k) (fun k _ => g n k) y) y k = y k := by
  have hp := fun n (m : Mem R) => forPut_spec Y (fun k => n * Y + k) (fun k _ => g n k) m (fun i j _ _ e => by omega)
  exact loop_blocks (σ := Mem R) id N Y (fun n y => forPut Y (fun k => n * Y + k) (fun k _ => g n k) y) (fun n k _ => g n k)
    (fun n _ s i hi => (hp n s).1 i hi) (fun n _ s k hk => (hp n s).2 k fun i hi e => by omega) y

namespace Pool

structure WF (c : Pool) : Prop where
  len : c.outs.length = c.axes.length
  pad : ∀ a ∈ c.axes, 0 ≤ a.pad

theorem cells_eq (c : Pool) (h : c.WF) (pos : List Nat) (hp : InBounds c.outs pos) :
    c.cells (ravel c.outs pos) = (window c.axes pos).map (ravel c.inps) := by
  unfold cells Pool.pos
  rw [posAt c.outs pos hp, loops_eq c.axes pos (hp.length.trans h.len) h.pad]
  refine List.map_congr_left fun i _ => nd2flat_eq _ _

theorem cells_lt (c : Pool) (h : c.WF) (k : Nat) (hk : k < c.Y) : ∀ i ∈ c.cells k, i < c.X := by
  obtain ⟨pos, hp, rfl⟩ := exists_index c.outs k hk
  intro i hi
  rw [c.cells_eq h pos hp] at hi
  obtain ⟨j, hj, rfl⟩ := List.mem_map.mp hi
  exact ravel_lt ((mem_indices _ _).mp (List.mem_filter.mp hj).1)

theorem foldl_sum (l : List Nat) (f : Nat → ℝ) (s : ℝ) : l.foldl (fun s i => s + f i) s = s + (l.map f).sum := by
  induction l generalizing s with
  | nil => simp
  | cons i l ih => rw [List.foldl_cons, ih, List.map_cons, List.sum_cons]; ring

theorem sumForward_spec (c : Pool) (mode : Option Bool) (x y : Mem ℝ) :
    (∀ n k, n < c.nmap → k < c.Y → c.sumForward mode x y (n * c.Y + k) = ((c.cells k).map fun i => x (n * c.X + i)).sum / c.divisor mode k) ∧
    ∀ k, c.nmap * c.Y ≤ k → c.sumForward mode x y k = y k := by
  have := blocks_put c.nmap c.Y (fun n k => ((c.cells k).foldl (fun s i => s + x (n * c.X + i)) 0) / c.divisor mode k) y
  refine ⟨?_, this.2⟩
  intro n k hn hk
  refine (this.1 n k hn hk).trans ?_
  rw [foldl_sum, zero_add]

theorem add_loop {τ} (l : List τ) (p : τ → Nat) (g : τ → ℝ) (d : Mem ℝ) (j : Nat) :
    l.foldl (fun d t => put d (p t) (d (p t) + g t)) d j = d j + (l.map fun t => if p t = j then g t else 0).sum := by
  refine loop_add (σ := Mem ℝ) id l (fun t d => put d (p t) (d (p t) + g t)) (fun t j => if p t = j then g t else 0) j ?_ d
  intro t _ d
  simp only [id, put]
  by_cases h : p t = j
  · rw [if_pos h, if_pos h.symm, h]
  · rw [if_neg h, if_neg fun e => h e.symm, add_zero]

theorem sumBackward_spec (c : Pool) (mode : Option Bool) (accum : Bool) (dy dx : Mem ℝ) (j : Nat) :
    c.sumBackward mode accum dy dx j = startGrad (c.nmap * c.X) accum dx j + ∑ n ∈ Finset.range c.nmap, ∑ k ∈ Finset.range c.Y,
      ((c.cells k).map fun i => if n * c.X + i = j then dy (n * c.Y + k) / c.divisor mode k else 0).sum := by
  have h1 : ∀ n k (d : Mem ℝ), (c.cells k).foldl (fun d i => put d (n * c.X + i) (d (n * c.X + i) + dy (n * c.Y + k) / c.divisor mode k)) d j =
      d j + ((c.cells k).map fun i => if n * c.X + i = j then dy (n * c.Y + k) / c.divisor mode k else 0).sum :=
    fun n k d => add_loop (c.cells k) (fun i => n * c.X + i) (fun _ => dy (n * c.Y + k) / c.divisor mode k) d j
  have h2 : ∀ n (d : Mem ℝ), (List.range c.Y).foldl (fun d k =>
      (c.cells k).foldl (fun d i => put d (n * c.X + i) (d (n * c.X + i) + dy (n * c.Y + k) / c.divisor mode k)) d) d j =
      d j + ∑ k ∈ Finset.range c.Y, ((c.cells k).map fun i => if n * c.X + i = j then dy (n * c.Y + k) / c.divisor mode k else 0).sum := by
    intro n d
    rw [← map_range_sum]
    exact loop_add (σ := Mem ℝ) id (List.range c.Y) (fun k d =>
      (c.cells k).foldl (fun d i => put d (n * c.X + i) (d (n * c.X + i) + dy (n * c.Y + k) / c.divisor mode k)) d)
      (fun k j => ((c.cells k).map fun i => if n * c.X + i = j then dy (n * c.Y + k) / c.divisor mode k else 0).sum) j (fun k _ d => h1 n k d) d
  rw [← map_range_sum]
  exact loop_add (σ := Mem ℝ) id (List.range c.nmap) (fun n d => (List.range c.Y).foldl (fun d k =>
      (c.cells k).foldl (fun d i => put d (n * c.X + i) (d (n * c.X + i) + dy (n * c.Y + k) / c.divisor mode k)) d) d)
    (fun n j => ∑ k ∈ Finset.range c.Y, ((c.cells k).map fun i => if n * c.X + i = j then dy (n * c.Y + k) / c.divisor mode k else 0).sum) j
    (fun n _ d => h2 n d) _

theorem block_in {N Y n i : Nat} (hn : n < N) (hi : i < Y) : n * Y + i < N * Y := row_lt hn hi

/-! ### The maximum of a list of cells -/

theorem loops_head (b : List (Int × Int)) (i : List Nat) (l : List (List Nat)) (h : loops b = i :: l) : i = b.map fun q => q.1.toNat := by
  induction b generalizing i l with
  | nil => simp [loops] at h; rw [h.1]; rfl
  | cons q b ih =>
    obtain ⟨s, e⟩ := q
    rw [loops] at h
    cases hr : (e - s).toNat with
    | zero => rw [hr] at h; simp at h
    | succ r =>
      rw [hr] at h
      cases hl : loops b with
      | nil =>
        rw [hl] at h
        have h0 : ∀ m : List Nat, m.flatMap (fun i => List.map (fun x => i :: x) ([] : List (List Nat))) = [] := fun m => by
          induction m with
          | nil => rfl
          | cons _ _ ihm => rw [List.flatMap_cons, ihm]; rfl
        rw [h0] at h
        cases h
      | cons i' l' =>
        rw [hl, List.range_succ_eq_map] at h
        simp at h
        rw [← h.1, ih i' l' hl]
        rfl

theorem max_fold (xn : Mem ℝ) (l : List Nat) (s : Nat) :
    let r := l.foldl (fun s i => if s.2 < xn i then (i, xn i) else s) (s, xn s)
    r.2 = xn r.1 ∧ ∃ l1 l2, s :: l = l1 ++ r.1 :: l2 ∧ (∀ i ∈ l1, xn i < xn r.1) ∧ ∀ i ∈ l2, xn i ≤ xn r.1 := by
  induction l using List.reverseRecOn with
  | nil => exact ⟨rfl, [], [], rfl, by simp, by simp⟩
  | append_singleton l a ih =>
    obtain ⟨h1, l1, l2, h2, h3, h4⟩ := ih
    simp only [List.foldl_append, List.foldl_cons, List.foldl_nil]
    generalize hr : l.foldl (fun s i => if s.2 < xn i then (i, xn i) else s) (s, xn s) = r at h1 h2 h3 h4 ⊢
    by_cases h : r.2 < xn a
    · rw [if_pos h]
      refine ⟨rfl, s :: l, [], by simp, ?_, by simp⟩
      intro i hi
      rw [h2] at hi
      rw [h1] at h
      rcases List.mem_append.mp hi with hi | hi
      · exact lt_trans (h3 i hi) h
      · rcases List.mem_cons.mp hi with rfl | hi
        · exact h
        · exact lt_of_le_of_lt (h4 i hi) h
    · rw [if_neg h]
      refine ⟨h1, l1, l2 ++ [a], by rw [← List.cons_append, h2]; simp, h3, ?_⟩
      intro i hi
      rcases List.mem_append.mp hi with hi | hi
      · exact h4 i hi
      · rw [List.mem_singleton.mp hi, ← h1]
        exact not_lt.mp h

/-- The loop finds the first greatest of the cells it visits. -/
theorem maxAt_spec (c : Pool) (xn : Mem ℝ) (k : Nat) (hne : c.cells k ≠ []) :
    (c.maxAt xn k).2 = xn (c.maxAt xn k).1 ∧ ∃ l1 l2, c.cells k = l1 ++ (c.maxAt xn k).1 :: l2 ∧
      (∀ i ∈ l1, xn i < xn (c.maxAt xn k).1) ∧ ∀ i ∈ l2, xn i ≤ xn (c.maxAt xn k).1 := by
  cases hl : loops (clips c.axes (c.pos k)) with
  | nil => exact absurd (by unfold cells; rw [hl]; rfl) hne
  | cons i l =>
    have hcells : c.cells k = nd2flat i (cStrides c.inps) :: l.map fun i => nd2flat i (cStrides c.inps) := by unfold cells; rw [hl]; rfl
    have hst : nd2flat ((clips c.axes (c.pos k)).map fun b => b.1.toNat) (cStrides c.inps) = nd2flat i (cStrides c.inps) := by rw [loops_head _ i l hl]
    have e : c.maxAt xn k = (l.map fun i => nd2flat i (cStrides c.inps)).foldl (fun s i => if s.2 < xn i then (i, xn i) else s)
        (nd2flat i (cStrides c.inps), xn (nd2flat i (cStrides c.inps))) := by
      unfold maxAt
      simp only [hst, hcells, List.foldl_cons, lt_irrefl, if_false]
    rw [e, hcells]
    exact max_fold xn _ _

theorem maxForward_spec (c : Pool) (x y : Mem ℝ) (m : Mem Nat) :
    (∀ n k, n < c.nmap → k < c.Y → (c.maxForward x y m).1 (n * c.Y + k) = (c.maxAt (fun i => x (n * c.X + i)) k).2 ∧
      (c.maxForward x y m).2 (n * c.Y + k) = (c.maxAt (fun i => x (n * c.X + i)) k).1) ∧
    ∀ k, c.nmap * c.Y ≤ k → (c.maxForward x y m).1 k = y k ∧ (c.maxForward x y m).2 k = m k := by
  have hp1 := fun n (mm : Mem ℝ) => forPut_spec c.Y (fun k => n * c.Y + k) (fun k _ => (c.maxAt (fun i => x (n * c.X + i)) k).2) mm (fun i j _ _ e => by omega)
  have hp2 := fun n (mm : Mem Nat) => forPut_spec c.Y (fun k => n * c.Y + k) (fun k _ => (c.maxAt (fun i => x (n * c.X + i)) k).1) mm (fun i j _ _ e => by omega)
  have b1 := loop_blocks (σ := Mem ℝ × Mem Nat) Prod.fst c.nmap c.Y (fun n s => (forPut c.Y (fun k => n * c.Y + k) (fun k _ => (c.maxAt (fun i => x (n * c.X + i)) k).2) s.1,
      forPut c.Y (fun k => n * c.Y + k) (fun k _ => (c.maxAt (fun i => x (n * c.X + i)) k).1) s.2)) (fun n k _ => (c.maxAt (fun i => x (n * c.X + i)) k).2)
    (fun n _ s i hi => (hp1 n s.1).1 i hi) (fun n _ s k hk => (hp1 n s.1).2 k fun i hi e => by omega) (y, m)
  have b2 := loop_blocks (σ := Mem ℝ × Mem Nat) Prod.snd c.nmap c.Y (fun n s => (forPut c.Y (fun k => n * c.Y + k) (fun k _ => (c.maxAt (fun i => x (n * c.X + i)) k).2) s.1,
      forPut c.Y (fun k => n * c.Y + k) (fun k _ => (c.maxAt (fun i => x (n * c.X + i)) k).1) s.2)) (fun n k _ => (c.maxAt (fun i => x (n * c.X + i)) k).1)
    (fun n _ s i hi => (hp2 n s.2).1 i hi) (fun n _ s k hk => (hp2 n s.2).2 k fun i hi e => by omega) (y, m)
  exact ⟨fun n k hn hk => ⟨b1.1 n k hn hk, b2.1 n k hn hk⟩, fun k hk => ⟨b1.2 k hk, b2.2 k hk⟩⟩

theorem maxBackward_spec (c : Pool) (m : Mem Nat) (accum : Bool) (dy dx : Mem ℝ) (j : Nat) :
    c.maxBackward m accum dy dx j = startGrad (c.nmap * c.X) accum dx j + ∑ n ∈ Finset.range c.nmap, ∑ k ∈ Finset.range c.Y,
      if n * c.X + m (n * c.Y + k) = j then dy (n * c.Y + k) else 0 := by
  have h2 : ∀ n (d : Mem ℝ), (List.range c.Y).foldl (fun d k =>
      put d (n * c.X + m (n * c.Y + k)) (d (n * c.X + m (n * c.Y + k)) + dy (n * c.Y + k))) d j =
      d j + ∑ k ∈ Finset.range c.Y, if n * c.X + m (n * c.Y + k) = j then dy (n * c.Y + k) else 0 := by
    intro n d
    rw [← map_range_sum]
    exact add_loop (List.range c.Y) (fun k => n * c.X + m (n * c.Y + k)) (fun k => dy (n * c.Y + k)) d j
  rw [← map_range_sum]
  exact loop_add (σ := Mem ℝ) id (List.range c.nmap) (fun n d => (List.range c.Y).foldl (fun d k =>
      put d (n * c.X + m (n * c.Y + k)) (d (n * c.X + m (n * c.Y + k)) + dy (n * c.Y + k))) d)
    (fun n j => ∑ k ∈ Finset.range c.Y, if n * c.X + m (n * c.Y + k) = j then dy (n * c.Y + k) else 0) j (fun n _ d => h2 n d) _

/-! ### C90: values -/

theorem out_pos (c : Pool) (A : Shape) (a pos : List Nat) (ha : InBounds A a) : ravel (A ++ c.outs) (a ++ pos) = ravel A a * c.Y + ravel c.outs pos := by
  rw [ravel_append _ _ _ _ ha.length]; rfl

theorem in_pos (c : Pool) (A : Shape) (a i : List Nat) (ha : InBounds A a) : ravel (A ++ c.inps) (a ++ i) = ravel A a * c.X + ravel c.inps i := by
  rw [ravel_append _ _ _ _ ha.length]; rfl

/-- **C90 (partial: windows that contain an element).** Element (a, pos) of max pooling is the greatest element of the window
at pos of map a, and max_idx remembers the first of the greatest. A window that lies in the padding is missing: see
C90_padding_window. -/
theorem C90_max_partial (c : Pool) (h : c.WF) (A : Shape) (hA : c.nmap = prod A) (x y : Mem ℝ) (m : Mem Nat) (a pos : List Nat) (ha : InBounds A a)
    (hp : InBounds c.outs pos) (hne : window c.axes pos ≠ []) :
    ∃ i l1 l2, window c.axes pos = l1 ++ i :: l2 ∧ (c.maxForward x y m).1 (ravel (A ++ c.outs) (a ++ pos)) = x (ravel (A ++ c.inps) (a ++ i)) ∧
      (c.maxForward x y m).2 (ravel (A ++ c.outs) (a ++ pos)) = ravel c.inps i ∧
      (∀ i' ∈ l1, x (ravel (A ++ c.inps) (a ++ i')) < x (ravel (A ++ c.inps) (a ++ i))) ∧
      ∀ i' ∈ l2, x (ravel (A ++ c.inps) (a ++ i')) ≤ x (ravel (A ++ c.inps) (a ++ i)) := by
  rw [c.out_pos A a pos ha]
  obtain ⟨e1, e2⟩ := (c.maxForward_spec x y m).1 (ravel A a) (ravel c.outs pos) (by rw [hA]; exact ravel_lt ha) (ravel_lt hp)
  have hcells := c.cells_eq h pos hp
  have hne' : c.cells (ravel c.outs pos) ≠ [] := by rw [hcells]; simpa using hne
  obtain ⟨g1, l1, l2, g2, g3, g4⟩ := c.maxAt_spec (fun i => x (ravel A a * c.X + i)) _ hne'
  rw [hcells] at g2
  obtain ⟨w1, w2, hw, hw1, hw2⟩ := List.map_eq_append_iff.mp g2
  obtain ⟨i, w3, rfl, hi, hw3⟩ := List.map_eq_cons_iff.mp hw2
  refine ⟨i, w1, w3, hw, ?_, by rw [e2, hi], ?_, ?_⟩
  · rw [e1, g1, c.in_pos A a i ha, hi]
  · intro i' hi'
    rw [c.in_pos A a i ha, c.in_pos A a i' ha, hi]
    exact g3 _ (by rw [← hw1]; exact List.mem_map_of_mem hi')
  · intro i' hi'
    rw [c.in_pos A a i ha, c.in_pos A a i' ha, hi]
    exact g4 _ (by rw [← hw3]; exact List.mem_map_of_mem hi')

/-- **C90.** Element (a, pos) of sum pooling is the sum of the elements of the window at pos of map a. -/
theorem C90_sum (c : Pool) (h : c.WF) (A : Shape) (hA : c.nmap = prod A) (x y : Mem ℝ) (a pos : List Nat) (ha : InBounds A a) (hp : InBounds c.outs pos) :
    c.sumForward none x y (ravel (A ++ c.outs) (a ++ pos)) = ((window c.axes pos).map fun i => x (ravel (A ++ c.inps) (a ++ i))).sum := by
  rw [c.out_pos A a pos ha, (c.sumForward_spec none x y).1 _ _ (by rw [hA]; exact ravel_lt ha) (ravel_lt hp), c.cells_eq h pos hp, List.map_map]
  simp only [divisor, Option.elim_none, div_one]
  congr 1
  exact List.map_congr_left fun i _ => by simp only [Function.comp]; rw [c.in_pos A a i ha]

theorem loops_length (b : List (Int × Int)) (h : ∀ q ∈ b, q.1 ≤ q.2) : ((loops b).length : ℝ) = (b.map fun q => ((q.2 - q.1 : Int) : ℝ)).prod := by
  induction b with
  | nil => simp [loops]
  | cons q b ih =>
    obtain ⟨s, e⟩ := q
    have hle := h (s, e) (List.mem_cons_self ..)
    rw [loops, List.map_cons, List.prod_cons, ← ih fun q hq => h q (List.mem_cons_of_mem _ hq), List.length_flatMap]
    have : (List.map (fun i => (List.map (fun x => i :: x) (loops b)).length) (List.map (fun x => s.toNat + x) (List.range (e - s).toNat))).sum =
        (e - s).toNat * (loops b).length := by
      simp [List.map_map, Function.comp_def]
    rw [this]
    push_cast
    congr 1
    have h2 : (((e - s).toNat : Int) : ℝ) = ((e - s : Int) : ℝ) := by rw [Int.toNat_of_nonneg (by simp only at hle; omega)]
    push_cast at h2
    exact_mod_cast h2

theorem loops_ne (b : List (Int × Int)) (h : loops b ≠ []) : ∀ q ∈ b, q.1 ≤ q.2 := by
  induction b with
  | nil => simp
  | cons q b ih =>
    obtain ⟨s, e⟩ := q
    rw [loops] at h
    intro q hq
    rcases List.mem_cons.mp hq with rfl | hq
    · by_contra hlt
      simp only at hlt
      rw [show (e - s).toNat = 0 by omega] at h
      exact h (by simp)
    · refine ih (fun e' => h ?_) q hq
      rw [e']; simp

/-- **C90 (partial: windows that contain an element).** Element (a, pos) of average pooling is the sum of the window's elements
divided by their number, or, with including_pad, by the number of elements of the window cut to the padded axes
[-pad, extent + pad). -/
theorem C90_average_partial (c : Pool) (h : c.WF) (A : Shape) (hA : c.nmap = prod A) (x y : Mem ℝ) (a pos : List Nat) (ha : InBounds A a)
    (hp : InBounds c.outs pos) (hne : window c.axes pos ≠ []) :
    c.sumForward (some false) x y (ravel (A ++ c.outs) (a ++ pos)) =
      ((window c.axes pos).map fun i => x (ravel (A ++ c.inps) (a ++ i))).sum / (window c.axes pos).length ∧
    c.sumForward (some true) x y (ravel (A ++ c.outs) (a ++ pos)) =
      ((window c.axes pos).map fun i => x (ravel (A ++ c.inps) (a ++ i))).sum /
        ((c.axes.zip pos).map fun q => ((min ((q.2 : Int) * q.1.stride - q.1.pad + q.1.ker) (q.1.inp + q.1.pad) - (q.2 * q.1.stride - q.1.pad) : Int) : ℝ)).prod := by
  have hl := loops_eq c.axes pos (hp.length.trans h.len) h.pad
  have hsum : ((c.cells (ravel c.outs pos)).map fun i => x (ravel A a * c.X + i)).sum =
      ((window c.axes pos).map fun i => x (ravel (A ++ c.inps) (a ++ i))).sum := by
    rw [c.cells_eq h pos hp, List.map_map]
    congr 1
    exact List.map_congr_left fun i _ => by simp only [Function.comp]; rw [c.in_pos A a i ha]
  rw [c.out_pos A a pos ha]
  refine ⟨?_, ?_⟩
  · rw [(c.sumForward_spec (some false) x y).1 _ _ (by rw [hA]; exact ravel_lt ha) (ravel_lt hp), hsum]
    congr 1
    simp only [divisor, Option.elim_some, poolSize, Bool.false_eq_true, if_false, Pool.pos]
    rw [posAt c.outs pos hp, ← loops_length _ (loops_ne _ (by rw [hl]; exact hne)), hl]
  · rw [(c.sumForward_spec (some true) x y).1 _ _ (by rw [hA]; exact ravel_lt ha) (ravel_lt hp), hsum]
    congr 1
    simp only [divisor, Option.elim_some, poolSize, if_true, Pool.pos]
    rw [posAt c.outs pos hp]
    rfl

/-! ### C90: gradients -/

/-- **C90.** Backward of sum pooling (mode none) and average pooling is the vector-Jacobian product at every input, added to the old
gradient when accumulating; nothing outside is touched. (For average pooling over a window without elements C++ divides by zero,
here read as 0.) -/
theorem C90_sum_average_grad (c : Pool) (h : c.WF) (mode : Option Bool) (x y dx : Mem ℝ) :
    IsVJP (c.nmap * c.X) (c.nmap * c.Y) (fun x => c.sumForward mode x y) x (fun dy => c.sumBackward mode false dy dx) ∧
    (∀ dy dx' j, j < c.nmap * c.X → c.sumBackward mode true dy dx j = dx j + c.sumBackward mode false dy dx' j) ∧
    ∀ accum dy j, c.nmap * c.X ≤ j → c.sumBackward mode accum dy dx j = dx j := by
  refine ⟨?_, ?_, ?_⟩
  · refine vjp_of_adjoint _ _ _ x _ fun dy x => ?_
    rw [dot_block]
    have e : dot (c.nmap * c.X) x (c.sumBackward mode false dy dx) = ∑ j ∈ Finset.range (c.nmap * c.X), x j *
        ∑ n ∈ Finset.range c.nmap, ∑ k ∈ Finset.range c.Y, ((c.cells k).map fun i => if n * c.X + i = j then dy (n * c.Y + k) / c.divisor mode k else 0).sum :=
      Finset.sum_congr rfl fun j hj => by
        rw [c.sumBackward_spec]
        simp [startGrad, Finset.mem_range.mp hj]
    rw [e, Conv.sum_push]
    refine Finset.sum_congr rfl fun n hn => ?_
    rw [Conv.sum_push]
    refine Finset.sum_congr rfl fun k hk => ?_
    rw [scatter_dot _ _ _ _ _ fun i hi => block_in (Finset.mem_range.mp hn) (c.cells_lt h k (Finset.mem_range.mp hk) i hi),
      (c.sumForward_spec mode x y).1 n k (Finset.mem_range.mp hn) (Finset.mem_range.mp hk)]
    ring
  · intro dy dx' j hj
    rw [c.sumBackward_spec, c.sumBackward_spec]
    simp [startGrad, hj]
  · intro accum dy j hj
    rw [c.sumBackward_spec]
    have hz : ∑ n ∈ Finset.range c.nmap, ∑ k ∈ Finset.range c.Y, ((c.cells k).map fun i => if n * c.X + i = j then dy (n * c.Y + k) / c.divisor mode k else 0).sum = 0 := by
      refine Finset.sum_eq_zero fun n hn => Finset.sum_eq_zero fun k hk => list_sum_zero _ _ fun i hi => if_neg ?_
      have := block_in (Finset.mem_range.mp hn) (c.cells_lt h k (Finset.mem_range.mp hk) i hi)
      omega
    have hnj : ¬ j < c.nmap * c.X := by omega
    rw [hz]
    cases accum <;> simp [startGrad, hnj]

/-- A strict maximum of the window is where the loop ends. -/
theorem maxAt_strict (c : Pool) (xn : Mem ℝ) (k i : Nat) (hi : i ∈ c.cells k) (hst : ∀ i' ∈ c.cells k, i' ≠ i → xn i' < xn i) :
    c.maxAt xn k = (i, xn i) := by
  obtain ⟨h1, l1, l2, h2, h3, h4⟩ := c.maxAt_spec xn k (List.ne_nil_of_mem hi)
  have e : (c.maxAt xn k).1 = i := by
    by_contra hne
    have hlt := hst _ (by rw [h2]; simp) hne
    rw [h2] at hi
    rcases List.mem_append.mp hi with hi | hi
    · exact absurd (h3 i hi) (not_lt.mpr (le_of_lt hlt))
    · rcases List.mem_cons.mp hi with hi | hi
      · exact hne hi.symm
      · exact absurd (h4 i hi) (not_le.mpr hlt)
  exact Prod.ext e (by rw [h1, e])

/-- **C90 (partial: one greatest element in every window).** Backward of max pooling, with the positions remembered by forward,
is the vector-Jacobian product; added to the old gradient when accumulating; nothing outside is touched. At ties there is no
derivative. -/
theorem C90_max_grad_partial (c : Pool) (h : c.WF) (x y dx : Mem ℝ) (m : Mem Nat)
    (hx : ∀ n, n < c.nmap → ∀ pos, InBounds c.outs pos → ∃ i ∈ window c.axes pos, ∀ i' ∈ window c.axes pos, i' ≠ i →
      x (n * c.X + ravel c.inps i') < x (n * c.X + ravel c.inps i)) :
    IsVJP (c.nmap * c.X) (c.nmap * c.Y) (fun x => (c.maxForward x y m).1) x (fun dy => c.maxBackward (c.maxForward x y m).2 false dy dx) ∧
    (∀ dy dx' j, j < c.nmap * c.X → c.maxBackward (c.maxForward x y m).2 true dy dx j = dx j + c.maxBackward (c.maxForward x y m).2 false dy dx' j) ∧
    ∀ accum dy j, c.nmap * c.X ≤ j → c.maxBackward (c.maxForward x y m).2 accum dy dx j = dx j := by
  have hs : ∀ n, n < c.nmap → ∀ k, k < c.Y → ∃ i ∈ c.cells k, ∀ i' ∈ c.cells k, i' ≠ i → x (n * c.X + i') < x (n * c.X + i) := by
    intro n hn k hk
    obtain ⟨pos, hp, rfl⟩ := exists_index c.outs k hk
    obtain ⟨i, hi, hst⟩ := hx n hn pos hp
    rw [c.cells_eq h pos hp]
    refine ⟨ravel c.inps i, List.mem_map_of_mem hi, ?_⟩
    intro i' hi' hne
    obtain ⟨j, hj, rfl⟩ := List.mem_map.mp hi'
    exact hst j hj fun e => hne (by rw [e])
  have hm : ∀ n k, n < c.nmap → k < c.Y → (c.maxForward x y m).2 (n * c.Y + k) ∈ c.cells k ∧
      ∀ i' ∈ c.cells k, i' ≠ (c.maxForward x y m).2 (n * c.Y + k) → x (n * c.X + i') < x (n * c.X + (c.maxForward x y m).2 (n * c.Y + k)) := by
    intro n k hn hk
    obtain ⟨i, hi, hst⟩ := hs n hn k hk
    have e := ((c.maxForward_spec x y m).1 n k hn hk).2
    rw [c.maxAt_strict (fun i => x (n * c.X + i)) k i hi hst] at e
    simp only at e
    rw [e]
    exact ⟨hi, hst⟩
  refine ⟨?_, ?_, ?_⟩
  · intro cv v hc dy
    have e1 : dot (c.nmap * c.X) v (c.maxBackward (c.maxForward x y m).2 false dy dx) =
        ∑ n ∈ Finset.range c.nmap, ∑ k ∈ Finset.range c.Y, dy (n * c.Y + k) * v (n * c.X + (c.maxForward x y m).2 (n * c.Y + k)) := by
      have e : dot (c.nmap * c.X) v (c.maxBackward (c.maxForward x y m).2 false dy dx) = ∑ j ∈ Finset.range (c.nmap * c.X), v j *
          ∑ n ∈ Finset.range c.nmap, ∑ k ∈ Finset.range c.Y, if n * c.X + (c.maxForward x y m).2 (n * c.Y + k) = j then dy (n * c.Y + k) else 0 :=
        Finset.sum_congr rfl fun j hj => by
          rw [c.maxBackward_spec]
          simp [startGrad, Finset.mem_range.mp hj]
      rw [e, Conv.sum_push]
      refine Finset.sum_congr rfl fun n hn => ?_
      rw [Conv.sum_push]
      refine Finset.sum_congr rfl fun k hk => ?_
      have hn := Finset.mem_range.mp hn
      have hk := Finset.mem_range.mp hk
      simp only [mul_ite, mul_zero]
      rw [Finset.sum_ite_eq (Finset.range (c.nmap * c.X)), if_pos (Finset.mem_range.mpr (block_in hn (c.cells_lt h k hk _ (hm n k hn hk).1))), mul_comm]
    have e2 : ∀ t, dot (c.nmap * c.Y) dy (c.maxForward (cv t) y m).1 =
        ∑ n ∈ Finset.range c.nmap, ∑ k ∈ Finset.range c.Y, dy (n * c.Y + k) * (c.maxForward (cv t) y m).1 (n * c.Y + k) := fun t => dot_block _ _ _ _
    rw [e1]
    simp only [e2]
    refine HasDerivAt.fun_sum fun n hn => HasDerivAt.fun_sum fun k hk => HasDerivAt.const_mul _ ?_
    have hn := Finset.mem_range.mp hn
    have hk := Finset.mem_range.mp hk
    obtain ⟨hi, hst⟩ := hm n k hn hk
    generalize (c.maxForward x y m).2 (n * c.Y + k) = i at hi hst
    have hin : ∀ i ∈ c.cells k, n * c.X + i < c.nmap * c.X := fun i hi => block_in hn (c.cells_lt h k hk i hi)
    refine (hc _ (hin i hi)).2.congr_of_eventuallyEq ?_
    have ev : ∀ᶠ t in nhds (0 : ℝ), ∀ i' ∈ (c.cells k).toFinset.erase i, cv t (n * c.X + i') < cv t (n * c.X + i) := by
      rw [Filter.eventually_all_finset]
      intro i' hi'
      have hi'' := List.mem_toFinset.mp (Finset.mem_of_mem_erase hi')
      refine (hc _ (hin i' hi'')).2.continuousAt.eventually_lt (hc _ (hin i hi)).2.continuousAt ?_
      rw [(hc _ (hin i' hi'')).1, (hc _ (hin i hi)).1]
      exact hst i' hi'' (Finset.ne_of_mem_erase hi')
    filter_upwards [ev] with t ht
    rw [((c.maxForward_spec (cv t) y m).1 n k hn hk).1, c.maxAt_strict (fun j => cv t (n * c.X + j)) k i hi fun i' hi' hne =>
      ht i' (Finset.mem_erase.mpr ⟨hne, List.mem_toFinset.mpr hi'⟩)]
  · intro dy dx' j hj
    rw [c.maxBackward_spec, c.maxBackward_spec]
    simp [startGrad, hj]
  · intro accum dy j hj
    rw [c.maxBackward_spec]
    have hz : ∑ n ∈ Finset.range c.nmap, ∑ k ∈ Finset.range c.Y, (if n * c.X + (c.maxForward x y m).2 (n * c.Y + k) = j then dy (n * c.Y + k) else 0) = 0 := by
      refine Finset.sum_eq_zero fun n hn => Finset.sum_eq_zero fun k hk => if_neg ?_
      have hn := Finset.mem_range.mp hn
      have hk := Finset.mem_range.mp hk
      have := block_in hn (c.cells_lt h k hk _ (hm n k hn hk).1)
      omega
    have hnj : ¬ j < c.nmap * c.X := by omega
    rw [hz]
    cases accum <;> simp [startGrad, hnj]

end Pool

/-! ### C90: setup -/

theorem mkAxes_len (is ks : List Nat) (ps : List Int) (ss : List Nat) (h1 : ks.length = is.length) (h2 : ps.length = is.length) (h3 : ss.length = is.length) :
    (mkAxes is ks ps ss).map (·.inp) = is := by
  induction is generalizing ks ps ss with
  | nil => rw [mkAxes]; rfl; simp
  | cons i is ih => cases ks with
    | nil => simp at h1
    | cons k ks => cases ps with
      | nil => simp at h2
      | cons p ps => cases ss with
        | nil => simp at h3
        | cons s ss => rw [mkAxes, List.map_cons, ih ks ps ss (by simpa using h1) (by simpa using h2) (by simpa using h3)]

/-- **C90.** Setup accepts exactly data A ++ I and 2 or 3 kernel extents, one pad and stride per extent (no strides meaning the
kernel), strides not zero; the output has shape A ++ extents. -/
theorem C90_setup (xs : Shape) (kernel stride : List Nat) (pad : List Int) (ib : Bool) (r : Pool × Shape) :
    poolSetup xs kernel stride pad ib = .ok r ↔ ∃ (A I : Shape) (st : List Nat), xs = A ++ I ∧ (I.length = 2 ∨ I.length = 3) ∧ kernel.length = I.length ∧
      pad.length = I.length ∧ st.length = I.length ∧ (st = if stride = [] then kernel else stride) ∧
      (∀ a ∈ mkAxes I kernel pad st, 0 < a.stride ∧ 0 ≤ a.outInt ib) ∧
      r = (⟨prod A, mkAxes I kernel pad st, (mkAxes I kernel pad st).map fun a => (a.outInt ib).toNat⟩,
        A ++ (mkAxes I kernel pad st).map fun a => (a.outInt ib).toNat) := by
  have hst : (if stride.isEmpty then kernel else stride) = if stride = [] then kernel else stride := by cases stride <;> simp
  rw [poolSetup]
  simp only [hst]
  generalize hs' : (if stride = [] then kernel else stride) = st'
  constructor
  · intro h
    by_cases h1 : kernel.length ≠ st'.length
    · rw [if_pos h1] at h; cases h
    rw [if_neg h1] at h
    by_cases h2 : ¬ kernel.length ≤ xs.length
    · rw [if_pos h2] at h; cases h
    rw [if_neg h2] at h
    by_cases h3 : ¬ (kernel.length ≥ 2 ∧ kernel.length ≤ 3)
    · rw [if_pos h3] at h; cases h
    rw [if_neg h3] at h
    by_cases h4 : kernel.length ≠ pad.length
    · rw [if_pos h4] at h; cases h
    rw [if_neg h4] at h
    by_cases h5 : (mkAxes (xs.drop (xs.length - kernel.length)) kernel pad st').any (fun a => a.stride == 0) = true
    · rw [if_pos h5] at h; cases h
    rw [if_neg h5] at h
    by_cases h6 : (mkAxes (xs.drop (xs.length - kernel.length)) kernel pad st').any (fun a => decide (a.outInt ib < 0)) = true
    · rw [if_pos h6] at h; cases h
    rw [if_neg h6] at h
    injection h with h
    have hl : (xs.drop (xs.length - kernel.length)).length = kernel.length := by
      rw [List.length_drop]; omega
    refine ⟨xs.take (xs.length - kernel.length), xs.drop (xs.length - kernel.length), st', (List.take_append_drop _ _).symm, by omega, hl.symm, by omega, by omega,
      rfl, ?_, h.symm⟩
    intro a ha
    simp only [List.any_eq_true, not_exists, not_and, beq_iff_eq, decide_eq_true_eq] at h5 h6
    have := h5 a ha
    have := h6 a ha
    omega
  · rintro ⟨A, I, st, rfl, hI, hk, hp, hsl, rfl, hax, rfl⟩
    have hl : (A ++ I).length = A.length + I.length := List.length_append
    have e : (A ++ I).length - kernel.length = A.length := by omega
    rw [if_neg (by omega), if_neg (by omega), if_neg (by omega), if_neg (by omega), e]
    simp only [List.drop_left, List.take_left]
    rw [if_neg, if_neg]
    · simp only [List.any_eq_true, not_exists, not_and, decide_eq_true_eq]
      intro a ha
      have := (hax a ha).2
      omega
    · simp only [List.any_eq_true, not_exists, not_and, beq_iff_eq]
      intro a ha
      have := (hax a ha).1
      omega

/-- **C90.** What setup leaves meets the hypotheses of the other theorems when no pad is negative. -/
theorem C90_setup_wf (xs : Shape) (kernel stride : List Nat) (pad : List Int) (ib : Bool) (c : Pool) (out : Shape)
    (h : poolSetup xs kernel stride pad ib = .ok (c, out)) (hpad : ∀ p ∈ pad, 0 ≤ p) :
    c.WF ∧ ∃ A, c.nmap = prod A ∧ xs = A ++ c.inps ∧ out = A ++ c.outs := by
  obtain ⟨A, I, st, rfl, hI, hk, hp, hsl, rfl, hax, e⟩ := (C90_setup _ _ _ _ _ _).mp h
  injection e with e1 e2
  subst e1 e2
  refine ⟨⟨by simp, ?_⟩, A, rfl, ?_, rfl⟩
  · clear h hax
    intro a ha
    simp only at ha
    suffices ∀ (is ks : List Nat) (ps : List Int) (ss : List Nat), (∀ p ∈ ps, 0 ≤ p) → a ∈ mkAxes is ks ps ss → 0 ≤ a.pad from this _ _ _ _ hpad ha
    intro is ks ps ss hps ha
    fun_induction mkAxes is ks ps ss with
    | case1 i is k ks p ps s ss ih =>
      rcases List.mem_cons.mp ha with rfl | ha
      · exact hps p (List.mem_cons_self ..)
      · exact ih (fun q hq => hps q (List.mem_cons_of_mem _ hq)) ha
    | case2 => simp at ha
  · simp only [Pool.inps]
    rw [mkAxes_len I kernel pad _ hk hp hsl]

/-- **C90.** Output extents: with ignore_border the number of positions at which the whole window fits in the padded axis
(when it fits at all); without it the number of positions at which the window starts before the end of the data. -/
theorem C90_out_size (a : PAxis) (hs : 0 < a.stride) (p : Nat) :
    ((a.ker : Int) ≤ a.inp + 2 * a.pad → (p < (a.outInt true).toNat ↔ (p : Int) * a.stride + a.ker ≤ a.inp + 2 * a.pad)) ∧
    (1 ≤ (a.inp : Int) + a.pad → (p < (a.outInt false).toNat ↔ (p : Int) * a.stride - a.pad < a.inp)) := by
  have hs' : (0 : Int) < a.stride := by exact_mod_cast hs
  have key : ∀ X : Int, 0 ≤ X → (p < (X.tdiv a.stride + 1).toNat ↔ (p : Int) * a.stride ≤ X) := by
    intro X hX
    rw [Int.tdiv_eq_ediv_of_nonneg hX]
    have := Int.ediv_nonneg hX (Int.le_of_lt hs')
    rw [← Int.le_ediv_iff_mul_le hs']
    omega
  refine ⟨?_, ?_⟩
  · intro h
    unfold PAxis.outInt
    rw [if_pos rfl, key _ (by omega)]
    omega
  · intro h
    unfold PAxis.outInt
    simp only [Bool.false_eq_true, if_false]
    rw [key _ (by omega)]
    omega

/-- **C90.** With 0 ≤ pad < kernel and no empty axis every window contains an element. -/
theorem C90_windows (as : List PAxis) (ib : Bool) (pos : List Nat) (hs : ∀ a ∈ as, 0 < a.stride ∧ 0 ≤ a.pad ∧ a.pad < a.ker ∧ 0 < a.inp)
    (hp : InBounds (as.map fun a => (a.outInt ib).toNat) pos) : window as pos ≠ [] := by
  have : ∃ i ∈ indices (as.map (·.inp)), inWin as pos i = true := by
    induction as generalizing pos with
    | nil => cases pos with
      | nil => exact ⟨[], by simp [indices], rfl⟩
      | cons _ _ => cases hp
    | cons a as ih => cases pos with
      | nil => cases hp
      | cons p pos =>
        obtain ⟨i, hi, hw⟩ := ih pos (fun b hb => hs b (List.mem_cons_of_mem _ hb)) hp.2
        obtain ⟨h1, h2, h3, h4⟩ := hs a (List.mem_cons_self ..)
        have hlt : p < (a.outInt ib).toNat := hp.1
        have hstart : (p : Int) * a.stride - a.pad < a.inp := by
          cases ib
          · exact ((C90_out_size a h1 p).2 (by omega)).mp hlt
          · by_cases hf : (a.ker : Int) ≤ a.inp + 2 * a.pad
            · have := ((C90_out_size a h1 p).1 hf).mp hlt
              omega
            · have hs' : (0 : Int) < a.stride := by exact_mod_cast h1
              have : p = 0 := by
                unfold PAxis.outInt at hlt
                rw [if_pos rfl] at hlt
                have : ((a.inp : Int) + a.pad - (a.ker - a.pad)).tdiv a.stride ≤ 0 := by
                  have hn := Int.neg_tdiv (a := -((a.inp : Int) + a.pad - (a.ker - a.pad))) (b := a.stride)
                  rw [neg_neg] at hn
                  have := Int.tdiv_nonneg (a := -((a.inp : Int) + a.pad - (a.ker - a.pad))) (b := a.stride) (by omega) (by omega)
                  omega
                omega
              subst this
              omega
        refine ⟨(max ((p : Int) * a.stride - a.pad) 0).toNat :: i, ?_, ?_⟩
        · rw [mem_indices]
          refine ⟨?_, (mem_indices _ _).mp hi⟩
          show (max ((p : Int) * a.stride - a.pad) 0).toNat < a.inp
          omega
        · simp only [inWin, hw, Bool.and_true, PAxis.sees, decide_eq_true_eq]
          have : 0 ≤ (p : Int) * a.stride := Int.mul_nonneg (by omega) (by omega)
          omega
  obtain ⟨i, hi, hw⟩ := this
  exact List.ne_nil_of_mem (List.mem_filter.mpr ⟨hi, hw⟩)

/-- **C90 (refuted part).** A pad as large as the kernel is accepted, and max pooling then returns an element outside the window:
for data 5 with kernel 1 and pad 1 the first window holds no element, but the result is 5. -/
theorem C90_padding_window : ∃ c out, poolSetup [1, 1] [1, 1] [1, 1] [1, 1] true = .ok (c, out) ∧ window c.axes [0, 0] = [] ∧
    ∀ (x y : Mem ℝ) (m : Mem Nat), (c.maxForward x y m).1 0 = x 0 := by
  refine ⟨⟨1, [⟨1, 1, 1, 1⟩, ⟨1, 1, 1, 1⟩], [3, 3]⟩, [3, 3], by rfl, by rfl, ?_⟩
  intro x y m
  have := ((Pool.maxForward_spec ⟨1, [⟨1, 1, 1, 1⟩, ⟨1, 1, 1, 1⟩], [3, 3]⟩ x y m).1 0 0 (by decide) (by decide)).1
  simp only [Nat.zero_mul, Nat.add_zero, Nat.zero_add] at this
  rw [this]
  have hc : Pool.cells ⟨1, [⟨1, 1, 1, 1⟩, ⟨1, 1, 1, 1⟩], [3, 3]⟩ 0 = [] := by rfl
  have hs : nd2flat ((clips [⟨1, 1, 1, 1⟩, ⟨1, 1, 1, 1⟩] (Pool.pos ⟨1, [⟨1, 1, 1, 1⟩, ⟨1, 1, 1, 1⟩], [3, 3]⟩ 0)).map fun b => b.1.toNat) (cStrides [1, 1]) = 0 := by rfl
  simp only [Pool.maxAt, hc, List.foldl_nil]
  exact congrArg x hs

/-- **C90 (refuted part).** Worse, the last window of the same pooling starts after the data: its value is read beyond the end of the
data. -/
theorem C90_padding_window_reads_outside : ∃ c out, poolSetup [1, 1] [1, 1] [1, 1] [1, 1] true = .ok (c, out) ∧ prod [1, 1] = 1 ∧
    ∀ (x y : Mem ℝ) (m : Mem Nat), (c.maxForward x y m).1 8 = x 2 := by
  refine ⟨⟨1, [⟨1, 1, 1, 1⟩, ⟨1, 1, 1, 1⟩], [3, 3]⟩, [3, 3], by rfl, by rfl, ?_⟩
  intro x y m
  have := ((Pool.maxForward_spec ⟨1, [⟨1, 1, 1, 1⟩, ⟨1, 1, 1, 1⟩], [3, 3]⟩ x y m).1 0 8 (by decide) (by decide)).1
  simp only [Nat.zero_mul, Nat.zero_add] at this
  rw [this]
  have hc : Pool.cells ⟨1, [⟨1, 1, 1, 1⟩, ⟨1, 1, 1, 1⟩], [3, 3]⟩ 8 = [] := by rfl
  have hs : nd2flat ((clips [⟨1, 1, 1, 1⟩, ⟨1, 1, 1, 1⟩] (Pool.pos ⟨1, [⟨1, 1, 1, 1⟩, ⟨1, 1, 1, 1⟩], [3, 3]⟩ 8)).map fun b => b.1.toNat) (cStrides [1, 1]) = 2 := by rfl
  simp only [Pool.maxAt, hc, List.foldl_nil]
  exact congrArg x hs

example : poolSetup [5, 4, 7, 6] [3, 2] [] [1, 0] false = .ok (⟨20, [⟨7, 3, 1, 3⟩, ⟨6, 2, 0, 2⟩], [3, 3]⟩, [5, 4, 3, 3]) := by rfl
example : window [⟨7, 3, 1, 3⟩, ⟨6, 2, 0, 2⟩] [0, 2] = [[0, 4], [0, 5], [1, 4], [1, 5]] := by rfl
example : (∀ a ∈ [(⟨7, 3, 1, 3⟩ : PAxis), ⟨6, 2, 0, 2⟩], 0 < a.stride ∧ 0 ≤ a.pad ∧ a.pad < a.ker ∧ 0 < a.inp) ∧ InBounds [5, 4] [4, 3] := by decide

/-- The hypothesis of C90_max_grad_partial is met by increasing data. -/
example : ∀ n, n < 3 → ∀ pos, InBounds (Pool.outs ⟨3, [⟨4, 2, 0, 2⟩], [2]⟩) pos → ∃ i ∈ window [⟨4, 2, 0, 2⟩] pos, ∀ i' ∈ window [⟨4, 2, 0, 2⟩] pos, i' ≠ i →
    (fun j : Nat => (j : ℝ)) (n * 4 + ravel [4] i') < (fun j : Nat => (j : ℝ)) (n * 4 + ravel [4] i) := by
  intro n _ pos hp
  have hm : pos ∈ indices [2] := (mem_indices _ _).mpr hp
  have hi : indices [2] = [[0], [1]] := by rfl
  rw [hi] at hm
  simp only [List.mem_cons, List.not_mem_nil, or_false] at hm
  rcases hm with rfl | rfl
  · have hw : window [⟨4, 2, 0, 2⟩] [0] = [[0], [1]] := by rfl
    rw [hw]
    refine ⟨[1], by simp, fun i' hi' hne => ?_⟩
    simp only [List.mem_cons, List.not_mem_nil, or_false] at hi'
    rcases hi' with rfl | rfl
    · have : ravel [4] [0] = 0 ∧ ravel [4] [1] = 1 := by decide
      rw [this.1, this.2]; simp
    · exact absurd rfl hne
  · have hw : window [⟨4, 2, 0, 2⟩] [1] = [[2], [3]] := by rfl
    rw [hw]
    refine ⟨[3], by simp, fun i' hi' hne => ?_⟩
    simp only [List.mem_cons, List.not_mem_nil, or_false] at hi'
    rcases hi' with rfl | rfl
    · have : ravel [4] [2] = 2 ∧ ravel [4] [3] = 3 := by decide
      rw [this.1, this.2]; simp; norm_num
    · exact absurd rfl hne

end Verif.Elem
