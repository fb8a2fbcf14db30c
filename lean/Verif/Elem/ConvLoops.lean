import Verif.Elem.Conv
/-
What the sample loops of Convolution and Deconvolution compute, element by element.
-/
namespace Verif.Elem
open Verif.Fn Verif.ND

theorem sum_mul_range (G M : Nat) (f : Nat → ℝ) :
    ∑ j ∈ Finset.range (G * M), f j = ∑ g ∈ Finset.range G, ∑ i ∈ Finset.range M, f (g * M + i) := by
  induction G with
  | zero => simp
  | succ G ih => rw [Nat.succ_mul, Finset.sum_range_add, ih, Finset.sum_range_succ]

/-- Every index below P * Q is i * Q + j. -/
theorem cover {P Q k : Nat} (h : k < P * Q) : ∃ i j, i < P ∧ j < Q ∧ k = i * Q + j := by
  have hQ : 0 < Q := Nat.pos_of_ne_zero fun e => by rw [e] at h; simp at h
  refine ⟨k / Q, k % Q, Nat.div_lt_of_lt_mul (by rwa [Nat.mul_comm]), Nat.mod_lt _ hQ, ?_⟩
  rw [Nat.mul_comm, Nat.div_add_mod]

theorem block_disjoint (N Y : Nat) : (List.range N).Pairwise fun t u => ∀ k, (t * Y ≤ k ∧ k < t * Y + Y) → ¬ (u * Y ≤ k ∧ k < u * Y + Y) :=
  range_disjoint _ _ (by
    intro i j hi hj k hk hk'
    by_contra hne
    rcases Nat.lt_or_gt_of_ne hne with h | h
    · have := Nat.mul_le_mul_right Y (show i + 1 ≤ j by omega)
      rw [Nat.succ_mul] at this; omega
    · have := Nat.mul_le_mul_right Y (show j + 1 ≤ i by omega)
      rw [Nat.succ_mul] at this; omega)

theorem not_block {N Y n k : Nat} (hn : n < N) (h : N * Y ≤ k) : ¬ (n * Y ≤ k ∧ k < n * Y + Y) := by
  have := Nat.mul_le_mul_right Y (show n + 1 ≤ N by omega)
  rw [Nat.succ_mul] at this; omega

/-- A loop over samples each of which rewrites its own block of Y elements. -/
theorem loop_blocks {σ R} (π : σ → Mem R) (N Y : Nat) (body : Nat → σ → σ) (F : Nat → Nat → R → R)
    (hin : ∀ n, n < N → ∀ s i, i < Y → π (body n s) (n * Y + i) = F n i (π s (n * Y + i)))
    (hout : ∀ n, n < N → ∀ s k, (k < n * Y ∨ n * Y + Y ≤ k) → π (body n s) k = π s k) (s : σ) :
    (∀ n i, n < N → i < Y → π ((List.range N).foldl (fun s t => body t s) s) (n * Y + i) = F n i (π s (n * Y + i))) ∧
    ∀ k, N * Y ≤ k → π ((List.range N).foldl (fun s t => body t s) s) k = π s k := by
  have h := loop_write π (List.range N) body (fun n k => n * Y ≤ k ∧ k < n * Y + Y) (fun n k old => F n (k - n * Y) old)
    (by
      intro n hn s k hk
      have := hin n (List.mem_range.mp hn) s (k - n * Y) (by omega)
      rw [show n * Y + (k - n * Y) = k by omega] at this
      exact this)
    (by
      intro n hn s k hk
      exact hout n (List.mem_range.mp hn) s k (by omega))
    (block_disjoint N Y) s
  refine ⟨?_, ?_⟩
  · intro n i hn hi
    have := h.1 n (List.mem_range.mpr hn) (n * Y + i) ⟨by omega, by omega⟩
    rw [Nat.add_sub_cancel_left] at this
    exact this
  · intro k hk
    exact h.2 k fun n hn => not_block (List.mem_range.mp hn) hk

namespace Conv

/-- Element (k, o) of the column matrix of sample n. -/
def cval (c : Conv) (x : Mem ℝ) (n k o : Nat) : ℝ := (src c.chI c.ws k o).elim 0 fun s => x (n * c.I + s)

/-- Element (g * R + r, o) of wᵀ times sample n. -/
noncomputable def colv (c : Conv) (w y : Mem ℝ) (n g r o : Nat) : ℝ :=
  ∑ i ∈ Finset.range c.M, w ((g * c.M + i) * c.R + r) * y (n * c.Y + ((g * c.M + i) * c.O + o))

theorem row_lt' (c : Conv) (h : c.WF) {j r : Nat} (hj : j < c.chO) (hr : r < c.R) : j / c.M * c.R + r < c.chI * prod (kers c.ws) := by
  rw [h.rows]; exact row_lt (c.row_of h hj).1 hr

theorem unfold_cval (c : Conv) (h : c.WF) (x col : Mem ℝ) (n : Nat) {j r o : Nat} (hj : j < c.chO) (hr : r < c.R) (ho : o < c.O) :
    unfold c.chI c.ws x (n * c.I) col ((j / c.M * c.R + r) * c.O + o) = c.cval x n (j / c.M * c.R + r) o :=
  (unfold_spec c.chI c.ws h.ne x (n * c.I) col).1 _ o (c.row_lt' h hj hr) ho

theorem forward_spec (c : Conv) (h : c.WF) (x w : Mem ℝ) (b : Option (Mem ℝ)) (col y : Mem ℝ) :
    (∀ n j o, n < c.outer → j < c.chO → o < c.O → c.forward x w b col y (n * c.Y + (j * c.O + o)) =
      ∑ r ∈ Finset.range c.R, w (j * c.R + r) * c.cval x n (j / c.M * c.R + r) o + b.elim 0 (· j)) ∧
    ∀ k, c.outer * c.Y ≤ k → c.forward x w b col y k = y k := by
  have hl := loop_blocks (σ := Mem ℝ × Mem ℝ) Prod.snd c.outer c.Y (fun n s => c.fwdStep x w b n s)
    (fun n i _ => ∑ r ∈ Finset.range c.R, w (i / c.O * c.R + r) * c.cval x n (i / c.O / c.M * c.R + r) (i % c.O) + b.elim 0 (· (i / c.O)))
    (by
      intro n _ s i hi
      obtain ⟨j, o, hj, ho, rfl⟩ := cover hi
      have e1 : (j * c.O + o) / c.O = j := by
        rw [Nat.mul_comm, Nat.mul_add_div (by omega), Nat.div_eq_of_lt ho, Nat.add_zero]
      have e2 : (j * c.O + o) % c.O = o := by rw [Nat.mul_comm, Nat.mul_add_mod, Nat.mod_eq_of_lt ho]
      simp only [fwdStep, e1, e2]
      refine ((addBias_spec c.chO c.O b n _).1 j o hj ho).trans ?_
      congr 1
      refine ((c.yOfCol_spec h false w _ n s.2).1 j o hj ho).trans ?_
      simp only [Bool.false_eq_true, if_false, zero_add]
      refine Finset.sum_congr rfl fun r hr => ?_
      rw [c.unfold_cval h x s.1 n hj (Finset.mem_range.mp hr) ho])
    (by
      intro n _ s k hk
      simp only [fwdStep]
      rw [(addBias_spec c.chO c.O b n _).2 k hk, (c.yOfCol_spec h false w _ n s.2).2 k hk]) (col, y)
  refine ⟨?_, hl.2⟩
  intro n j o hn hj ho
  refine (hl.1 n (j * c.O + o) hn (row_lt hj ho)).trans ?_
  rw [show (j * c.O + o) / c.O = j by rw [Nat.mul_comm, Nat.mul_add_div (by omega), Nat.div_eq_of_lt ho, Nat.add_zero],
    show (j * c.O + o) % c.O = o by rw [Nat.mul_comm, Nat.mul_add_mod, Nat.mod_eq_of_lt ho]]

/-- What the fold of wᵀ times sample n adds to element i. -/
noncomputable def foldInc (c : Conv) (w y : Mem ℝ) (n i : Nat) : ℝ :=
  ∑ g ∈ Finset.range c.group, ∑ r ∈ Finset.range c.R, ∑ o ∈ Finset.range c.O,
    (src c.chI c.ws (g * c.R + r) o).elim 0 fun s => if n * c.I + s = i then c.colv w y n g r o else 0

theorem fold_colOfY (c : Conv) (h : c.WF) (w y col d : Mem ℝ) (n i : Nat) :
    foldPatches c.chI c.ws (c.colOfY w y n col) (n * c.I) d i = d i + c.foldInc w y n i := by
  rw [fold_spec c.chI c.ws h.ne, h.rows, sum_mul_range]
  congr 1
  refine Finset.sum_congr rfl fun g hg => Finset.sum_congr rfl fun r hr => Finset.sum_congr rfl fun o ho => ?_
  rw [show (g * c.R + r) * prod (outs c.ws) + o = (g * c.R + r) * c.O + o from rfl,
    c.colOfY_spec h w y n col g r o (Finset.mem_range.mp hg) (Finset.mem_range.mp hr) (Finset.mem_range.mp ho)]
  rfl

theorem src_in (c : Conv) (h : c.WF) {g r o s : Nat} (hg : g < c.group) (hr : r < c.R) (ho : o < c.O)
    (hs : src c.chI c.ws (g * c.R + r) o = some s) : s < c.I :=
  src_lt c.chI c.ws _ o s (by rw [h.rows]; exact row_lt hg hr) ho hs

/-- A sample's fold stays inside the sample. -/
theorem foldInc_out (c : Conv) (h : c.WF) (w y : Mem ℝ) (n i : Nat) (hi : i < n * c.I ∨ n * c.I + c.I ≤ i) : c.foldInc w y n i = 0 := by
  refine Finset.sum_eq_zero fun g hg => Finset.sum_eq_zero fun r hr => Finset.sum_eq_zero fun o ho => ?_
  cases hs : src c.chI c.ws (g * c.R + r) o with
  | none => rfl
  | some s =>
    have := c.src_in h (Finset.mem_range.mp hg) (Finset.mem_range.mp hr) (Finset.mem_range.mp ho) hs
    simp only [Option.elim_some]
    rw [if_neg (by omega)]

theorem backward_dx (c : Conv) (h : c.WF) (p0 p1 p2 a0 a1 a2 : Bool) (x w dy : Mem ℝ) (s : CState) (i : Nat) :
    (c.backward p0 p1 p2 a0 a1 a2 x w dy s).dx i = if p0 then startGrad (c.outer * c.I) a0 s.dx i +
      ∑ n ∈ Finset.range c.outer, c.foldInc w dy n i else s.dx i := by
  have hl := loop_add (σ := CState) CState.dx (List.range c.outer) (fun n s => c.bwdStep p0 p1 p2 x w dy n s)
    (fun n i => if p0 then c.foldInc w dy n i else 0) i
    (by
      intro n _ s
      cases p0
      · cases p1 <;> cases p2 <;> simp [bwdStep]
      · have e : (c.bwdStep true p1 p2 x w dy n s).dx = foldPatches c.chI c.ws (c.colOfY w dy n s.col) (n * c.I) s.dx := by
          cases p1 <;> cases p2 <;> rfl
        rw [e, c.fold_colOfY h]; rfl)
    { s with
      dx := if p0 then startGrad (c.outer * c.I) a0 s.dx else s.dx
      dw := if p1 then startGrad (c.chO * c.R) a1 s.dw else s.dw
      db := if p2 then startGrad c.chO a2 s.db else s.db }
  refine Eq.trans hl ?_
  rw [map_range_sum]
  cases p0 <;> simp

/-- What sample n adds to element (j, r) of the weights' gradient. -/
noncomputable def dwInc (c : Conv) (x y : Mem ℝ) (n j r : Nat) : ℝ :=
  ∑ o ∈ Finset.range c.O, y (n * c.Y + (j * c.O + o)) * c.cval x n (j / c.M * c.R + r) o

theorem dw_step (c : Conv) (h : c.WF) (x y col dw : Mem ℝ) (n j r : Nat) (hj : j < c.chO) (hr : r < c.R) :
    c.dwOfCol (unfold c.chI c.ws x (n * c.I) col) y n dw (j * c.R + r) = dw (j * c.R + r) + c.dwInc x y n j r := by
  rw [(c.dwOfCol_spec h _ y n dw).1 j r hj hr]
  congr 1
  refine Finset.sum_congr rfl fun o ho => ?_
  rw [c.unfold_cval h x col n hj hr (Finset.mem_range.mp ho)]

theorem backward_dw (c : Conv) (h : c.WF) (p0 p1 p2 a0 a1 a2 : Bool) (x w dy : Mem ℝ) (s : CState) :
    (∀ j r, j < c.chO → r < c.R → (c.backward p0 p1 p2 a0 a1 a2 x w dy s).dw (j * c.R + r) =
      if p1 then startGrad (c.chO * c.R) a1 s.dw (j * c.R + r) + ∑ n ∈ Finset.range c.outer, c.dwInc x dy n j r else s.dw (j * c.R + r)) ∧
    ∀ k, c.chO * c.R ≤ k → (c.backward p0 p1 p2 a0 a1 a2 x w dy s).dw k = s.dw k := by
  have e : ∀ n s, (c.bwdStep p0 true p2 x w dy n s).dw = c.dwOfCol (unfold c.chI c.ws x (n * c.I) (if p0 then c.colOfY w dy n s.col else s.col)) dy n s.dw := by
    intro n s
    cases p0 <;> cases p2 <;> rfl
  have e' : ∀ n s, (c.bwdStep p0 false p2 x w dy n s).dw = s.dw := by
    intro n s
    cases p0 <;> cases p2 <;> rfl
  refine ⟨?_, ?_⟩
  · intro j r hj hr
    have hl := loop_add (σ := CState) CState.dw (List.range c.outer) (fun n s => c.bwdStep p0 p1 p2 x w dy n s)
      (fun n _ => if p1 then c.dwInc x dy n j r else 0) (j * c.R + r)
      (by
        intro n _ s
        cases p1
        · simp [e']
        · rw [e, c.dw_step h x dy _ _ n j r hj hr]; rfl)
      { s with
        dx := if p0 then startGrad (c.outer * c.I) a0 s.dx else s.dx
        dw := if p1 then startGrad (c.chO * c.R) a1 s.dw else s.dw
        db := if p2 then startGrad c.chO a2 s.db else s.db }
    refine Eq.trans hl ?_
    rw [map_range_sum]
    cases p1 <;> simp
  · intro k hk
    have hl := loop_add (σ := CState) CState.dw (List.range c.outer) (fun n s => c.bwdStep p0 p1 p2 x w dy n s) (fun _ _ => 0) k
      (by
        intro n _ s
        cases p1
        · simp [e']
        · rw [e, (c.dwOfCol_spec h _ dy n s.dw).2 k hk, add_zero])
      { s with
        dx := if p0 then startGrad (c.outer * c.I) a0 s.dx else s.dx
        dw := if p1 then startGrad (c.chO * c.R) a1 s.dw else s.dw
        db := if p2 then startGrad c.chO a2 s.db else s.db }
    refine Eq.trans hl ?_
    rw [map_range_sum]
    have : ¬ k < c.chO * c.R := by omega
    cases p1 <;> cases a1 <;> simp [startGrad, this]

theorem backward_db (c : Conv) (p0 p1 p2 a0 a1 a2 : Bool) (x w dy : Mem ℝ) (s : CState) (k : Nat) :
    (c.backward p0 p1 p2 a0 a1 a2 x w dy s).db k = if p2 then startGrad c.chO a2 s.db k + ∑ n ∈ Finset.range c.outer,
      (if k < c.chO then ∑ o ∈ Finset.range c.O, dy (n * c.Y + (k * c.O + o)) else 0) else s.db k := by
  have hl := loop_add (σ := CState) CState.db (List.range c.outer) (fun n s => c.bwdStep p0 p1 p2 x w dy n s)
    (fun n k => if p2 then (if k < c.chO then ∑ o ∈ Finset.range c.O, dy (n * c.Y + (k * c.O + o)) else 0) else 0) k
    (by
      intro n _ s
      cases p2
      · cases p0 <;> cases p1 <;> simp [bwdStep]
      · have e : (c.bwdStep p0 p1 true x w dy n s).db = rowSums c.chO c.O dy n s.db := by
          cases p0 <;> cases p1 <;> rfl
        rw [e, rowSums_spec]; rfl)
    { s with
      dx := if p0 then startGrad (c.outer * c.I) a0 s.dx else s.dx
      dw := if p1 then startGrad (c.chO * c.R) a1 s.dw else s.dw
      db := if p2 then startGrad c.chO a2 s.db else s.db }
  refine Eq.trans hl ?_
  rw [map_range_sum]
  cases p2 <;> simp

/-! ### Deconvolution -/

theorem deForward_spec (c : Conv) (h : c.WF) (y w : Mem ℝ) (b : Option (Mem ℝ)) (col x : Mem ℝ) :
    (∀ n j q, n < c.outer → j < c.chI → q < c.P → c.deForward y w b col x (n * c.I + (j * c.P + q)) =
      c.foldInc w y n (n * c.I + (j * c.P + q)) + b.elim 0 (· j)) ∧
    ∀ k, c.outer * c.I ≤ k → c.deForward y w b col x k = x k := by
  have hput := fun (n : Nat) (m : Mem ℝ) => forPut_spec c.I (fun i => n * c.I + i) (fun _ _ => (0 : ℝ)) m (fun i j _ _ e => by omega)
  have hl := loop_blocks (σ := Mem ℝ × Mem ℝ) Prod.snd c.outer c.I (fun n s => c.deStep y w b n s)
    (fun n i _ => c.foldInc w y n (n * c.I + i) + b.elim 0 (· (i / c.P)))
    (by
      intro n _ s i hi
      obtain ⟨j, q, hj, hq, rfl⟩ := cover hi
      have e1 : (j * c.P + q) / c.P = j := by
        rw [Nat.mul_comm, Nat.mul_add_div (by omega), Nat.div_eq_of_lt hq, Nat.add_zero]
      simp only [deStep, e1]
      refine ((addBias_spec c.chI c.P b n _).1 j q hj hq).trans ?_
      congr 1
      rw [c.fold_colOfY h, show n * (c.chI * c.P) + (j * c.P + q) = n * c.I + (j * c.P + q) from rfl, (hput n s.2).1 (j * c.P + q) hi, zero_add])
    (by
      intro n _ s k hk
      simp only [deStep]
      rw [(addBias_spec c.chI c.P b n _).2 k hk, c.fold_colOfY h, c.foldInc_out h w y n k hk, add_zero]
      exact (hput n s.2).2 k fun i hi e => by omega) (col, x)
  refine ⟨?_, hl.2⟩
  intro n j q hn hj hq
  refine (hl.1 n (j * c.P + q) hn (row_lt hj hq)).trans ?_
  rw [show (j * c.P + q) / c.P = j by rw [Nat.mul_comm, Nat.mul_add_div (by omega), Nat.div_eq_of_lt hq, Nat.add_zero]]

theorem deBackward_dx (c : Conv) (h : c.WF) (p0 p1 p2 a0 a1 a2 : Bool) (y w dx : Mem ℝ) (s : CState) :
    (∀ n j o, n < c.outer → j < c.chO → o < c.O → (c.deBackward p0 p1 p2 a0 a1 a2 y w dx s).dx (n * c.Y + (j * c.O + o)) =
      if p0 then (if a0 then s.dx (n * c.Y + (j * c.O + o)) else 0) + ∑ r ∈ Finset.range c.R, w (j * c.R + r) * c.cval dx n (j / c.M * c.R + r) o
      else s.dx (n * c.Y + (j * c.O + o))) ∧
    ∀ k, c.outer * c.Y ≤ k → (c.deBackward p0 p1 p2 a0 a1 a2 y w dx s).dx k = s.dx k := by
  have e : ∀ n s, (c.deBwdStep true p1 p2 a0 y w dx n s).dx = c.yOfCol a0 w (unfold c.chI c.ws dx (n * c.I) s.col) n s.dx := by
    intro n s
    cases p1 <;> cases p2 <;> rfl
  have e' : ∀ n s, (c.deBwdStep false p1 p2 a0 y w dx n s).dx = s.dx := by
    intro n s
    cases p1 <;> cases p2 <;> rfl
  have hl := loop_blocks (σ := CState) CState.dx c.outer c.Y (fun n s => c.deBwdStep p0 p1 p2 a0 y w dx n s)
    (fun n i old => if p0 then (if a0 then old else 0) + ∑ r ∈ Finset.range c.R, w (i / c.O * c.R + r) * c.cval dx n (i / c.O / c.M * c.R + r) (i % c.O) else old)
    (by
      intro n _ s i hi
      cases p0
      · simp [e']
      obtain ⟨j, o, hj, ho, rfl⟩ := cover hi
      have e1 : (j * c.O + o) / c.O = j := by
        rw [Nat.mul_comm, Nat.mul_add_div (by omega), Nat.div_eq_of_lt ho, Nat.add_zero]
      have e2 : (j * c.O + o) % c.O = o := by rw [Nat.mul_comm, Nat.mul_add_mod, Nat.mod_eq_of_lt ho]
      rw [e, e1, e2, if_pos rfl]
      refine ((c.yOfCol_spec h a0 w _ n s.dx).1 j o hj ho).trans ?_
      congr 1
      refine Finset.sum_congr rfl fun r hr => ?_
      rw [c.unfold_cval h dx s.col n hj (Finset.mem_range.mp hr) ho])
    (by
      intro n _ s k hk
      cases p0
      · rw [e']
      · rw [e, (c.yOfCol_spec h a0 w _ n s.dx).2 k hk])
    { s with
      dw := if p1 then startGrad (c.chO * c.R) a1 s.dw else s.dw
      db := if p2 then startGrad c.chI a2 s.db else s.db }
  refine ⟨?_, hl.2⟩
  intro n j o hn hj ho
  refine (hl.1 n (j * c.O + o) hn (row_lt hj ho)).trans ?_
  rw [show (j * c.O + o) / c.O = j by rw [Nat.mul_comm, Nat.mul_add_div (by omega), Nat.div_eq_of_lt ho, Nat.add_zero],
    show (j * c.O + o) % c.O = o by rw [Nat.mul_comm, Nat.mul_add_mod, Nat.mod_eq_of_lt ho]]

theorem deBackward_dw (c : Conv) (h : c.WF) (p0 p1 p2 a0 a1 a2 : Bool) (y w dx : Mem ℝ) (s : CState) :
    (∀ j r, j < c.chO → r < c.R → (c.deBackward p0 p1 p2 a0 a1 a2 y w dx s).dw (j * c.R + r) =
      if p1 then startGrad (c.chO * c.R) a1 s.dw (j * c.R + r) + ∑ n ∈ Finset.range c.outer, c.dwInc dx y n j r else s.dw (j * c.R + r)) ∧
    ∀ k, c.chO * c.R ≤ k → (c.deBackward p0 p1 p2 a0 a1 a2 y w dx s).dw k = s.dw k := by
  have e : ∀ n s, (c.deBwdStep p0 true p2 a0 y w dx n s).dw = c.dwOfCol (unfold c.chI c.ws dx (n * c.I) s.col) y n s.dw := by
    intro n s
    cases p0 <;> cases p2 <;> rfl
  have e' : ∀ n s, (c.deBwdStep p0 false p2 a0 y w dx n s).dw = s.dw := by
    intro n s
    cases p0 <;> cases p2 <;> rfl
  refine ⟨?_, ?_⟩
  · intro j r hj hr
    have hl := loop_add (σ := CState) CState.dw (List.range c.outer) (fun n s => c.deBwdStep p0 p1 p2 a0 y w dx n s)
      (fun n _ => if p1 then c.dwInc dx y n j r else 0) (j * c.R + r)
      (by
        intro n _ s
        cases p1
        · simp [e']
        · rw [e, c.dw_step h dx y _ _ n j r hj hr]; rfl)
      { s with
        dw := if p1 then startGrad (c.chO * c.R) a1 s.dw else s.dw
        db := if p2 then startGrad c.chI a2 s.db else s.db }
    refine Eq.trans hl ?_
    rw [map_range_sum]
    cases p1 <;> simp
  · intro k hk
    have hl := loop_add (σ := CState) CState.dw (List.range c.outer) (fun n s => c.deBwdStep p0 p1 p2 a0 y w dx n s) (fun _ _ => 0) k
      (by
        intro n _ s
        cases p1
        · simp [e']
        · rw [e, (c.dwOfCol_spec h _ y n s.dw).2 k hk, add_zero])
      { s with
        dw := if p1 then startGrad (c.chO * c.R) a1 s.dw else s.dw
        db := if p2 then startGrad c.chI a2 s.db else s.db }
    refine Eq.trans hl ?_
    rw [map_range_sum]
    have : ¬ k < c.chO * c.R := by omega
    cases p1 <;> cases a1 <;> simp [startGrad, this]

theorem deBackward_db (c : Conv) (p0 p1 p2 a0 a1 a2 : Bool) (y w dx : Mem ℝ) (s : CState) (k : Nat) :
    (c.deBackward p0 p1 p2 a0 a1 a2 y w dx s).db k = if p2 then startGrad c.chI a2 s.db k + ∑ n ∈ Finset.range c.outer,
      (if k < c.chI then ∑ q ∈ Finset.range c.P, dx (n * c.I + (k * c.P + q)) else 0) else s.db k := by
  have hl := loop_add (σ := CState) CState.db (List.range c.outer) (fun n s => c.deBwdStep p0 p1 p2 a0 y w dx n s)
    (fun n k => if p2 then (if k < c.chI then ∑ q ∈ Finset.range c.P, dx (n * c.I + (k * c.P + q)) else 0) else 0) k
    (by
      intro n _ s
      cases p2
      · cases p0 <;> cases p1 <;> simp [deBwdStep]
      · have e : (c.deBwdStep p0 p1 true a0 y w dx n s).db = rowSums c.chI c.P dx n s.db := by
          cases p0 <;> cases p1 <;> rfl
        rw [e, rowSums_spec]; rfl)
    { s with
      dw := if p1 then startGrad (c.chO * c.R) a1 s.dw else s.dw
      db := if p2 then startGrad c.chI a2 s.db else s.db }
  refine Eq.trans hl ?_
  rw [map_range_sum]
  cases p2 <;> simp

end Conv
end Verif.Elem
