import Verif.Elem.Softmax
import Mathlib.Analysis.Calculus.Deriv.Mul
import Mathlib.Algebra.BigOperators.Field
/-
CumSum and CumProd over the real numbers: models
/repo/src/nbla/function/generic/{cumsum,cumprod}.cpp.
Simplifications: exact reals, AccumType = T; `int` / Size_t offsets are unbounded naturals (cumsum.cpp indexes with `int`).
-/
namespace Verif.Elem
open Verif.Fn Verif.ND

/-! ### Model -/

/-- setup_impl (cumsum.cpp:27-51, cumprod.cpp:28-50): sizes before, on and after the axis. An integer division by zero,
undefined in C++, is an error here. -/
def cumSetup (axis : Int) (s : Shape) : Except String (Nat × Nat × Nat) :=
  match refineAxis axis s.length with
  | .error e => .error e
  | .ok a =>
    if sizeFrom s a = 0 ∨ size s / sizeFrom s a = 0 ∨ s.getD a 0 = 0 then .error "division by zero"
    else
      let size0 := size s / sizeFrom s a
      let size1 := s.getD a 0
      .ok (size0, size1, size s / size0 / size1)

/-- `reverse_ ? size1_ - idx - 1 : idx` (cumsum.cpp:68, cumprod.cpp:66, 165, 180). -/
def seqPos (rev : Bool) (n1 idx : Nat) : Nat := if rev then n1 - idx - 1 else idx

/-- The innermost loop of CumSum::forward_impl (cumsum.cpp:66-80) and CumProd::forward_impl (cumprod.cpp:64-78), which differ
in the operation and its unit. `j` is the offset of the slice. -/
def cumBody {R} (op : R → R → R) (unit : R) (n1 n2 j : Nat) (rev excl : Bool) (x y : Mem R) : Mem R :=
  (List.range n1).foldl (fun y idx =>
    let yk := seqPos rev n1 idx * n2 + j
    if idx = 0 then put y yk (if excl then unit else x yk)
    else
      let prev := if rev then yk + n2 else yk - n2
      put y yk (op (y prev) (x (if excl then prev else yk)))) y

/-- CumSum::forward_impl (cumsum.cpp:54-84). -/
noncomputable def cumsumForward (n0 n1 n2 : Nat) (rev excl : Bool) (x y : Mem ℝ) : Mem ℝ :=
  forSlices n0 n2 (fun i0 i2 => cumBody (· + ·) 0 n1 n2 (i0 * n1 * n2 + i2) rev excl x) y

/-- CumProd::forward_impl (cumprod.cpp:53-82). -/
noncomputable def cumprodForward (n0 n1 n2 : Nat) (rev excl : Bool) (x y : Mem ℝ) : Mem ℝ :=
  forSlices n0 n2 (fun i0 i2 => cumBody (· * ·) 1 n1 n2 (i0 * n1 * n2 + i2) rev excl x) y

/-- A loop that carries a scalar state `s` and updates one element per step: `m[q i] = f i s m[q i]; s = nx i s`. -/
def forScan {R S} (n : Nat) (q : Nat → Nat) (f : Nat → S → R → R) (nx : Nat → S → S) (s0 : S) (m : Mem R) : Mem R × S :=
  (List.range n).foldl (fun st i => (put st.1 (q i) (f i st.2 (st.1 (q i))), nx i st.2)) (m, s0)

/-- The innermost loop of CumSum::backward_impl (cumsum.cpp:103-118); the state is `cum_sum`. Here
`i1 = reverse_ ? idx : size1_ - idx - 1`. -/
noncomputable def cumsumBwdBody (n1 n2 j : Nat) (rev excl accum : Bool) (dy dx : Mem ℝ) : Mem ℝ :=
  (forScan n1 (fun idx => seqPos (!rev) n1 idx * n2 + j)
    (fun idx s old =>
      let g := dy (seqPos (!rev) n1 idx * n2 + j)
      let cum_sum := s + g
      let cur := if excl then cum_sum - g else cum_sum
      if accum then old + cur else cur)
    (fun idx s => s + dy (seqPos (!rev) n1 idx * n2 + j)) 0 dx).1

/-- CumSum::backward_impl (cumsum.cpp:87-122). -/
noncomputable def cumsumBackward (n0 n1 n2 : Nat) (rev excl accum : Bool) (dy dx : Mem ℝ) : Mem ℝ :=
  forSlices n0 n2 (fun i0 i2 => cumsumBwdBody n1 n2 (i0 * n1 * n2 + i2) rev excl accum dy) dx

open Classical in
/-- The loop that creates `masked_cumprod` (cumprod.cpp:160-173); the state is (first_zero_pos, prod), the array starts with
whatever the buffer held (`buf`). -/
noncomputable def maskedLoop (n1 n2 j : Nat) (rev : Bool) (x buf : Mem ℝ) : Mem ℝ × (Nat × ℝ) :=
  forScan n1 id
    (fun k s _ =>
      let v := x (seqPos rev n1 k * n2 + j)
      if v = 0 ∧ s.1 = n1 then s.2 else s.2 * v)
    (fun k s =>
      let v := x (seqPos rev n1 k * n2 + j)
      if v = 0 ∧ s.1 = n1 then (k, s.2) else (s.1, s.2 * v)) (n1, 1) buf

/-- The loop that calculates the gradient (cumprod.cpp:176-203), `for (k = size1_ - 1; k >= 0; k--)`; the state is `sum`. -/
noncomputable def cumprodBwdBody (n1 n2 j : Nat) (rev excl accum : Bool) (buf x dy dx : Mem ℝ) : Mem ℝ :=
  let M := (maskedLoop n1 n2 j rev x buf).1
  let z := (maskedLoop n1 n2 j rev x buf).2.1
  (forScan n1 (fun t => seqPos rev n1 (n1 - 1 - t) * n2 + j)
    (fun t s old =>
      let k := n1 - 1 - t
      let idx := seqPos rev n1 k * n2 + j
      let sum := if excl then s else s + M k * dy idx
      let grad := if k = z then sum else if k > z then 0 else sum / x idx
      grad + (if accum then old else 0))
    (fun t s =>
      let k := n1 - 1 - t
      let idx := seqPos rev n1 k * n2 + j
      let sum := if excl then s else s + M k * dy idx
      let sum := if k = z then 0 else sum
      if excl && k ≠ 0 then sum + M (k - 1) * dy idx else sum) 0 dx).1

/-- CumProd::backward_impl (cumprod.cpp:138-206). The buffer of `masked_cumprod` is shared by all slices; every element read
is written before, so its initial content `buf` per slice is arbitrary. -/
noncomputable def cumprodBackward (n0 n1 n2 : Nat) (rev excl accum : Bool) (buf : Nat → Nat → Mem ℝ) (x dy dx : Mem ℝ) : Mem ℝ :=
  forSlices n0 n2 (fun i0 i2 => cumprodBwdBody n1 n2 (i0 * n1 * n2 + i2) rev excl accum (buf i0 i2) x dy) dx

/-! ### Specification -/

/-- The positions along the axis whose elements are combined into position i: those up to i, without i when exclusive; with
reverse, those from i on. -/
def cumSet (n : Nat) (rev excl : Bool) (i : Nat) : Finset Nat :=
  (Finset.range n).filter fun k => if rev then (if excl then i < k else i ≤ k) else (if excl then k < i else k ≤ i)

/-! ### Proofs -/

theorem seqPos_lt {rev : Bool} {n k : Nat} (h : k < n) : seqPos rev n k < n := by
  unfold seqPos; cases rev <;> simp <;> omega

theorem seqPos_invol {rev : Bool} {n k : Nat} (h : k < n) : seqPos rev n (seqPos rev n k) = k := by
  unfold seqPos; cases rev <;> simp; omega

theorem seqPos_inj {rev : Bool} {n k l : Nat} (hk : k < n) (hl : l < n) (e : seqPos rev n k = seqPos rev n l) : k = l := by
  rw [← seqPos_invol (rev := rev) hk, e, seqPos_invol hl]

theorem off_eq (n1 n2 i0 i1 i2 : Nat) : off n1 n2 i0 i1 i2 = i1 * n2 + (i0 * n1 * n2 + i2) := by
  unfold off; omega

/-- State of the scan before step k. -/
def scanState {S} (nx : Nat → S → S) (s0 : S) : Nat → S
  | 0 => s0
  | k + 1 => nx k (scanState nx s0 k)

theorem forScan_succ {R S} (n : Nat) (q : Nat → Nat) (f : Nat → S → R → R) (nx : Nat → S → S) (s0 : S) (m : Mem R) :
    forScan (n + 1) q f nx s0 m = (put (forScan n q f nx s0 m).1 (q n) (f n (forScan n q f nx s0 m).2 ((forScan n q f nx s0 m).1 (q n))),
      nx n (forScan n q f nx s0 m).2) := by
  simp only [forScan, List.range_succ, List.foldl_append, List.foldl_cons, List.foldl_nil]

theorem forScan_spec {R S} (n : Nat) (q : Nat → Nat) (f : Nat → S → R → R) (nx : Nat → S → S) (s0 : S) (m : Mem R)
    (hinj : ∀ i j, i < n → j < n → q i = q j → i = j) :
    (forScan n q f nx s0 m).2 = scanState nx s0 n ∧
    (∀ i, i < n → (forScan n q f nx s0 m).1 (q i) = f i (scanState nx s0 i) (m (q i))) ∧
    ∀ k, (∀ i, i < n → q i ≠ k) → (forScan n q f nx s0 m).1 k = m k := by
  induction n with
  | zero => exact ⟨rfl, fun i hi => absurd hi (by omega), fun k _ => rfl⟩
  | succ n ih =>
    obtain ⟨ih0, ih1, ih2⟩ := ih (fun i j hi hj => hinj i j (by omega) (by omega))
    have hn : (forScan n q f nx s0 m).1 (q n) = m (q n) := ih2 _ fun i hi he => by
      have := hinj i n (by omega) (by omega) he
      omega
    rw [forScan_succ]
    refine ⟨by rw [ih0]; rfl, ?_, ?_⟩
    · intro i hi
      by_cases h : i = n
      · subst h; simp only; rw [put_same, hn, ih0]
      · simp only; rw [put_other _ _ (fun he => h (hinj i n hi (by omega) he)), ih1 i (by omega)]
    · intro k hk
      simp only
      rw [put_other _ _ (fun he => hk n (by omega) he.symm), ih2 k fun i hi => hk i (by omega)]

/-- What the forward loop leaves at sequence position k. -/
def cumSeq {R} (op : R → R → R) (unit : R) (excl : Bool) (u : Nat → R) : Nat → R
  | 0 => if excl then unit else u 0
  | k + 1 => op (cumSeq op unit excl u k) (u (if excl then k else k + 1))

theorem mulAdd_inj {n2 i j c : Nat} (h2 : 0 < n2) (e : i * n2 + c = j * n2 + c) : i = j :=
  Nat.eq_of_mul_eq_mul_right h2 (by omega)

theorem cumBody_spec {R} (op : R → R → R) (unit : R) (n1 n2 j : Nat) (rev excl : Bool) (x y : Mem R) (h2 : 0 < n2) :
    (∀ k, k < n1 → cumBody op unit n1 n2 j rev excl x y (seqPos rev n1 k * n2 + j) =
      cumSeq op unit excl (fun k => x (seqPos rev n1 k * n2 + j)) k) ∧
    ∀ i, (∀ k, k < n1 → seqPos rev n1 k * n2 + j ≠ i) → cumBody op unit n1 n2 j rev excl x y i = y i := by
  suffices H : ∀ c, c ≤ n1 → (∀ k, k < c → ((List.range c).foldl (fun y idx =>
      let yk := seqPos rev n1 idx * n2 + j
      if idx = 0 then put y yk (if excl then unit else x yk)
      else
        let prev := if rev then yk + n2 else yk - n2
        put y yk (op (y prev) (x (if excl then prev else yk)))) y) (seqPos rev n1 k * n2 + j) =
      cumSeq op unit excl (fun k => x (seqPos rev n1 k * n2 + j)) k) ∧
    ∀ i, (∀ k, k < c → seqPos rev n1 k * n2 + j ≠ i) → ((List.range c).foldl (fun y idx =>
      let yk := seqPos rev n1 idx * n2 + j
      if idx = 0 then put y yk (if excl then unit else x yk)
      else
        let prev := if rev then yk + n2 else yk - n2
        put y yk (op (y prev) (x (if excl then prev else yk)))) y) i = y i from H n1 (le_refl _)
  intro c
  induction c with
  | zero => intro _; exact ⟨fun i hi => absurd hi (by omega), fun k _ => rfl⟩
  | succ c ih =>
    intro hc
    obtain ⟨a, b⟩ := ih (by omega)
    rw [List.range_succ, List.foldl_append]
    simp only [List.foldl_cons, List.foldl_nil]
    generalize List.foldl _ y (List.range c) = m at a b ⊢
    have hval : (if c = 0 then put m (seqPos rev n1 c * n2 + j) (if excl then unit else x (seqPos rev n1 c * n2 + j))
        else put m (seqPos rev n1 c * n2 + j) (op (m (if rev then seqPos rev n1 c * n2 + j + n2 else seqPos rev n1 c * n2 + j - n2))
          (x (if excl then (if rev then seqPos rev n1 c * n2 + j + n2 else seqPos rev n1 c * n2 + j - n2) else seqPos rev n1 c * n2 + j)))) =
        put m (seqPos rev n1 c * n2 + j) (cumSeq op unit excl (fun k => x (seqPos rev n1 k * n2 + j)) c) := by
      cases c with
      | zero => rw [if_pos rfl]; rfl
      | succ d =>
        rw [if_neg (by omega)]
        have hp : (if rev then seqPos rev n1 (d + 1) * n2 + j + n2 else seqPos rev n1 (d + 1) * n2 + j - n2) = seqPos rev n1 d * n2 + j := by
          cases rev with
          | false =>
            simp only [seqPos, Bool.false_eq_true, if_false]
            rw [Nat.succ_mul]; omega
          | true =>
            simp only [seqPos, if_true]
            have : n1 - d - 1 = (n1 - (d + 1) - 1) + 1 := by omega
            rw [this, Nat.succ_mul]; omega
        rw [hp, a d (by omega)]
        congr 1
        show op _ _ = op _ _
        congr 1
        cases excl <;> simp
    rw [hval]
    refine ⟨?_, ?_⟩
    · intro k hk
      by_cases e : k = c
      · subst e; rw [put_same]
      · rw [put_other, a k (by omega)]
        intro he
        exact e (seqPos_inj (by omega) (by omega) (mulAdd_inj h2 he))
    · intro i hi
      rw [put_other _ _ (fun he => hi c (by omega) he.symm), b i fun k hk => hi k (by omega)]

/-- Sequence positions combined into sequence position k. -/
def seqSet (excl : Bool) (k : Nat) : Finset Nat := Finset.range (if excl then k else k + 1)

theorem cumSeq_sum (excl : Bool) (u : Nat → ℝ) (k : Nat) : cumSeq (· + ·) 0 excl u k = ∑ l ∈ seqSet excl k, u l := by
  unfold seqSet
  induction k with
  | zero => cases excl <;> simp [cumSeq]
  | succ k ih =>
    rw [cumSeq, ih]
    cases excl with
    | false => simp only [Bool.false_eq_true, if_false]; exact (Finset.sum_range_succ _ _).symm
    | true => simp only [if_true]; exact (Finset.sum_range_succ _ _).symm

theorem cumSeq_prod (excl : Bool) (u : Nat → ℝ) (k : Nat) : cumSeq (· * ·) 1 excl u k = ∏ l ∈ seqSet excl k, u l := by
  unfold seqSet
  induction k with
  | zero => cases excl <;> simp [cumSeq]
  | succ k ih =>
    rw [cumSeq, ih]
    cases excl with
    | false => simp only [Bool.false_eq_true, if_false]; exact (Finset.prod_range_succ _ _).symm
    | true => simp only [if_true]; exact (Finset.prod_range_succ _ _).symm

theorem mem_seqSet {excl : Bool} {k l : Nat} : l ∈ seqSet excl k ↔ if excl then l < k else l ≤ k := by
  unfold seqSet; cases excl <;> simp [Nat.lt_succ_iff]

theorem mem_cumSet {n : Nat} {rev excl : Bool} {i k : Nat} : k ∈ cumSet n rev excl i ↔
    k < n ∧ if rev then (if excl then i < k else i ≤ k) else (if excl then k < i else k ≤ i) := by
  simp [cumSet]

/-- Positions and sequence positions correspond. -/
theorem mem_seq_iff {n : Nat} {rev excl : Bool} {k l : Nat} (hk : k < n) (hl : l < n) :
    seqPos rev n l ∈ cumSet n rev excl (seqPos rev n k) ↔ l ∈ seqSet excl k := by
  rw [mem_cumSet, mem_seqSet]
  cases rev <;> cases excl <;> simp [seqPos] <;> omega

theorem seqSet_image {n : Nat} {rev excl : Bool} {k : Nat} (hk : k < n) :
    (seqSet excl k).image (seqPos rev n) = cumSet n rev excl (seqPos rev n k) := by
  have hlt : ∀ l ∈ seqSet excl k, l < n := by
    intro l hl; rw [mem_seqSet] at hl; cases excl <;> simp at hl <;> omega
  ext i
  rw [Finset.mem_image]
  constructor
  · rintro ⟨l, hl, rfl⟩; exact (mem_seq_iff hk (hlt l hl)).mpr hl
  · intro hi
    have hin := (mem_cumSet.mp hi).1
    refine ⟨seqPos rev n i, ?_, seqPos_invol hin⟩
    rw [← mem_seq_iff (rev := rev) hk (seqPos_lt hin), seqPos_invol hin]; exact hi

theorem seq_injOn {n : Nat} {rev : Bool} (s : Finset Nat) (h : ∀ l ∈ s, l < n) : Set.InjOn (seqPos rev n) s := by
  intro a ha b hb e; exact seqPos_inj (h a ha) (h b hb) e

theorem seqSet_lt {n : Nat} {excl : Bool} {k : Nat} (hk : k < n) : ∀ l ∈ seqSet excl k, l < n := by
  intro l hl; rw [mem_seqSet] at hl; cases excl <;> simp at hl <;> omega

theorem sum_seqSet {n : Nat} {rev excl : Bool} {k : Nat} (hk : k < n) (f : Nat → ℝ) :
    ∑ l ∈ seqSet excl k, f (seqPos rev n l) = ∑ i ∈ cumSet n rev excl (seqPos rev n k), f i := by
  rw [← seqSet_image hk, Finset.sum_image (seq_injOn _ (seqSet_lt hk))]

theorem prod_seqSet {n : Nat} {rev excl : Bool} {k : Nat} (hk : k < n) (f : Nat → ℝ) :
    ∏ l ∈ seqSet excl k, f (seqPos rev n l) = ∏ i ∈ cumSet n rev excl (seqPos rev n k), f i := by
  rw [← seqSet_image hk, Finset.prod_image (seq_injOn _ (seqSet_lt hk))]

theorem prod_seqSet_erase {n : Nat} {rev excl : Bool} {k l : Nat} (hk : k < n) (hl : l < n) (f : Nat → ℝ) :
    ∏ m ∈ (seqSet excl k).erase l, f (seqPos rev n m) = ∏ i ∈ (cumSet n rev excl (seqPos rev n k)).erase (seqPos rev n l), f i := by
  have e : (cumSet n rev excl (seqPos rev n k)).erase (seqPos rev n l) = ((seqSet excl k).erase l).image (seqPos rev n) := by
    rw [← seqSet_image hk]
    ext i
    simp only [Finset.mem_erase, Finset.mem_image]
    constructor
    · rintro ⟨h1, m, hm, rfl⟩
      exact ⟨m, ⟨fun e => h1 (by rw [e]), hm⟩, rfl⟩
    · rintro ⟨m, ⟨h1, hm⟩, rfl⟩
      exact ⟨fun e => h1 (seqPos_inj (seqSet_lt hk m hm) hl e), m, hm, rfl⟩
  rw [e, Finset.prod_image (seq_injOn _ fun m hm => seqSet_lt hk m (Finset.mem_of_mem_erase hm))]

/-- A body that sets sequence position k of its slice to `v k` and leaves all else alone, in the form needed by the loops. -/
theorem slice_of_seq {R} {n1 n2 i0 i2 : Nat} {rev : Bool} {b : Mem R} {m : Mem R} {v : Nat → R → R}
    (h : ∀ k, k < n1 → b (seqPos rev n1 k * n2 + (i0 * n1 * n2 + i2)) = v (seqPos rev n1 k) (m (seqPos rev n1 k * n2 + (i0 * n1 * n2 + i2)))) (i1 : Nat) (h1 : i1 < n1) :
    b (off n1 n2 i0 i1 i2) = v i1 (m (off n1 n2 i0 i1 i2)) := by
  have := h (seqPos rev n1 i1) (seqPos_lt h1)
  rw [seqPos_invol h1] at this
  rw [off_eq]; exact this

theorem untouched_of_seq {n1 n2 i0 i2 k : Nat} {rev : Bool} (h : ∀ i1, i1 < n1 → off n1 n2 i0 i1 i2 ≠ k) (c : Nat) (hc : c < n1) :
    seqPos rev n1 c * n2 + (i0 * n1 * n2 + i2) ≠ k := by
  have := h (seqPos rev n1 c) (seqPos_lt hc)
  rwa [off_eq] at this

theorem cumsumForward_spec (n0 n1 n2 : Nat) (rev excl : Bool) (x y : Mem ℝ) :
    (∀ i0 i1 i2, i0 < n0 → i1 < n1 → i2 < n2 → cumsumForward n0 n1 n2 rev excl x y (off n1 n2 i0 i1 i2) =
      ∑ k ∈ cumSet n1 rev excl i1, x (off n1 n2 i0 k i2)) ∧
    ∀ k, (∀ i0 i1 i2, i0 < n0 → i1 < n1 → i2 < n2 → off n1 n2 i0 i1 i2 ≠ k) → cumsumForward n0 n1 n2 rev excl x y k = y k := by
  refine forSlices_spec n0 n1 n2 _ (fun i0 i1 i2 _ => ∑ k ∈ cumSet n1 rev excl i1, x (off n1 n2 i0 k i2)) y ?_ ?_
  · intro i0 i2 h0 h2 m i1 h1
    refine slice_of_seq (rev := rev) (m := m) (v := fun i1 _ => ∑ k ∈ cumSet n1 rev excl i1, x (off n1 n2 i0 k i2)) ?_ i1 h1
    intro k hk
    rw [(cumBody_spec _ _ _ _ _ _ _ _ _ (by omega)).1 k hk, cumSeq_sum]
    simp only [off_eq]
    exact sum_seqSet hk fun i => x (i * n2 + (i0 * n1 * n2 + i2))
  · intro i0 i2 h0 h2 m k hk
    exact (cumBody_spec _ _ _ _ _ _ _ _ _ (by omega)).2 k (untouched_of_seq hk)

theorem cumprodForward_spec (n0 n1 n2 : Nat) (rev excl : Bool) (x y : Mem ℝ) :
    (∀ i0 i1 i2, i0 < n0 → i1 < n1 → i2 < n2 → cumprodForward n0 n1 n2 rev excl x y (off n1 n2 i0 i1 i2) =
      ∏ k ∈ cumSet n1 rev excl i1, x (off n1 n2 i0 k i2)) ∧
    ∀ k, (∀ i0 i1 i2, i0 < n0 → i1 < n1 → i2 < n2 → off n1 n2 i0 i1 i2 ≠ k) → cumprodForward n0 n1 n2 rev excl x y k = y k := by
  refine forSlices_spec n0 n1 n2 _ (fun i0 i1 i2 _ => ∏ k ∈ cumSet n1 rev excl i1, x (off n1 n2 i0 k i2)) y ?_ ?_
  · intro i0 i2 h0 h2 m i1 h1
    refine slice_of_seq (rev := rev) (m := m) (v := fun i1 _ => ∏ k ∈ cumSet n1 rev excl i1, x (off n1 n2 i0 k i2)) ?_ i1 h1
    intro k hk
    rw [(cumBody_spec _ _ _ _ _ _ _ _ _ (by omega)).1 k hk, cumSeq_prod]
    simp only [off_eq]
    exact prod_seqSet hk fun i => x (i * n2 + (i0 * n1 * n2 + i2))
  · intro i0 i2 h0 h2 m k hk
    exact (cumBody_spec _ _ _ _ _ _ _ _ _ (by omega)).2 k (untouched_of_seq hk)

/-! #### CumSum backward -/

theorem cumsumBwd_state (u : Nat → ℝ) (k : Nat) : scanState (fun i s => s + u i) (0 : ℝ) k = ∑ l ∈ Finset.range k, u l := by
  induction k with
  | zero => rfl
  | succ k ih => rw [scanState, ih, Finset.sum_range_succ]

theorem cumsumBackward_spec (n0 n1 n2 : Nat) (rev excl accum : Bool) (dy dx : Mem ℝ) :
    (∀ i0 i1 i2, i0 < n0 → i1 < n1 → i2 < n2 → cumsumBackward n0 n1 n2 rev excl accum dy dx (off n1 n2 i0 i1 i2) =
      (if accum then dx (off n1 n2 i0 i1 i2) else 0) + ∑ k ∈ cumSet n1 (!rev) excl i1, dy (off n1 n2 i0 k i2)) ∧
    ∀ k, (∀ i0 i1 i2, i0 < n0 → i1 < n1 → i2 < n2 → off n1 n2 i0 i1 i2 ≠ k) → cumsumBackward n0 n1 n2 rev excl accum dy dx k = dx k := by
  have inj : ∀ i0 i2, i2 < n2 → ∀ i j, i < n1 → j < n1 →
      seqPos (!rev) n1 i * n2 + (i0 * n1 * n2 + i2) = seqPos (!rev) n1 j * n2 + (i0 * n1 * n2 + i2) → i = j :=
    fun i0 i2 h2 i j hi hj e => seqPos_inj hi hj (mulAdd_inj (by omega) e)
  refine forSlices_spec n0 n1 n2 _ (fun i0 i1 i2 old => (if accum then old else 0) + ∑ k ∈ cumSet n1 (!rev) excl i1, dy (off n1 n2 i0 k i2)) dx ?_ ?_
  · intro i0 i2 h0 h2 m i1 h1
    refine slice_of_seq (rev := !rev) (m := m) (v := fun i1 old => (if accum then old else 0) + ∑ k ∈ cumSet n1 (!rev) excl i1, dy (off n1 n2 i0 k i2)) ?_ i1 h1
    intro k hk
    rw [cumsumBwdBody, (forScan_spec n1 _ _ _ _ m (inj i0 i2 h2)).2.1 k hk, cumsumBwd_state (fun i => dy (seqPos (!rev) n1 i * n2 + (i0 * n1 * n2 + i2)))]
    simp only [off_eq]
    rw [← sum_seqSet hk fun i => dy (i * n2 + (i0 * n1 * n2 + i2))]
    have e : ∑ l ∈ seqSet excl k, dy (seqPos (!rev) n1 l * n2 + (i0 * n1 * n2 + i2)) =
        if excl then (∑ l ∈ Finset.range k, dy (seqPos (!rev) n1 l * n2 + (i0 * n1 * n2 + i2)))
        else (∑ l ∈ Finset.range k, dy (seqPos (!rev) n1 l * n2 + (i0 * n1 * n2 + i2))) + dy (seqPos (!rev) n1 k * n2 + (i0 * n1 * n2 + i2)) := by
      cases excl with
      | false => simp only [seqSet, Bool.false_eq_true, if_false]; exact Finset.sum_range_succ _ _
      | true => rfl
    rw [e]
    cases excl <;> cases accum <;> simp
  · intro i0 i2 h0 h2 m k hk
    exact (forScan_spec n1 _ _ _ _ m (inj i0 i2 h2)).2.2 k (untouched_of_seq hk)

/-! #### CumProd backward -/

/-- The first zero among the first k elements, or n. -/
def IsFirstZero (n : Nat) (u : Nat → ℝ) (k z : Nat) : Prop :=
  (z = n ∧ ∀ l, l < k → u l ≠ 0) ∨ (z < k ∧ u z = 0 ∧ ∀ l, l < z → u l ≠ 0)

open Classical in
theorem masked_state (n : Nat) (u : Nat → ℝ) (k : Nat) (hk : k ≤ n) :
    ∃ z, IsFirstZero n u k z ∧ scanState (fun k (s : Nat × ℝ) => if u k = 0 ∧ s.1 = n then (k, s.2) else (s.1, s.2 * u k)) (n, 1) k =
      (z, ∏ l ∈ (Finset.range k).erase z, u l) := by
  induction k with
  | zero => exact ⟨n, Or.inl ⟨rfl, fun l hl => absurd hl (by omega)⟩, by simp [scanState]⟩
  | succ k ih =>
    obtain ⟨z, hz, e⟩ := ih (by omega)
    rw [scanState, e]
    simp only
    rcases hz with ⟨rfl, hnz⟩ | ⟨h1, h2, h3⟩
    · by_cases hu : u k = 0
      · refine ⟨k, Or.inr ⟨by omega, hu, hnz⟩, ?_⟩
        rw [if_pos ⟨hu, rfl⟩, Finset.range_add_one, Finset.erase_insert (by simp), Finset.erase_eq_of_notMem (by simp; omega)]
      · refine ⟨z, Or.inl ⟨rfl, ?_⟩, ?_⟩
        · intro l hl
          rcases Nat.lt_succ_iff_lt_or_eq.mp hl with h | h
          · exact hnz l h
          · rw [h]; exact hu
        · rw [if_neg (fun h => hu h.1), Finset.erase_eq_of_notMem (by simp; omega), Finset.erase_eq_of_notMem (by simp; omega), Finset.prod_range_succ]
    · refine ⟨z, Or.inr ⟨by omega, h2, h3⟩, ?_⟩
      rw [if_neg (fun h => by omega), Finset.range_add_one, Finset.erase_insert_of_ne (by omega), Finset.prod_insert (by simp), mul_comm]

/-- If z is the first zero among k elements and k ≤ k', it still is the first zero of the longer prefix or none was found. -/
theorem isFirstZero_unique {n : Nat} {u : Nat → ℝ} {k k' z z' : Nat} (hk : k ≤ k') (hn : k' ≤ n) (h : IsFirstZero n u k z) (h' : IsFirstZero n u k' z') :
    (∏ l ∈ (Finset.range k).erase z, u l) = ∏ l ∈ (Finset.range k).erase z', u l := by
  have case1 : ∀ {a b : Nat}, k ≤ a → k ≤ b → (Finset.range k).erase a = (Finset.range k).erase b := by
    intro a b ha hb
    rw [Finset.erase_eq_of_notMem (by simp; omega), Finset.erase_eq_of_notMem (by simp; omega)]
  rcases h with ⟨rfl, a⟩ | ⟨a1, a2, a3⟩ <;> rcases h' with ⟨rfl, b⟩ | ⟨b1, b2, b3⟩
  · rfl
  · have : k ≤ z' := by
      by_contra hc
      exact a z' (by omega) b2
    rw [case1 (by omega) this]
  · exact absurd a2 (b z (by omega))
  · have : z = z' := by
      rcases Nat.lt_trichotomy z z' with h | h | h
      · exact absurd a2 (b3 z h)
      · exact h
      · exact absurd b2 (a3 z' h)
    rw [this]

/-- What masked_cumprod holds: the product of the prefix without the first zero of the whole slice. -/
theorem maskedLoop_spec (n1 n2 j : Nat) (rev : Bool) (x buf : Mem ℝ) :
    let u := fun k => x (seqPos rev n1 k * n2 + j)
    let z := (maskedLoop n1 n2 j rev x buf).2.1
    IsFirstZero n1 u n1 z ∧ ∀ k, k < n1 → (maskedLoop n1 n2 j rev x buf).1 k = ∏ l ∈ (Finset.range (k + 1)).erase z, u l := by
  classical
  intro u z
  obtain ⟨z0, hz0, e0⟩ := masked_state n1 u n1 (le_refl _)
  obtain ⟨p1, p2, _⟩ := forScan_spec n1 id (fun k (s : Nat × ℝ) (_ : ℝ) => if u k = 0 ∧ s.1 = n1 then s.2 else s.2 * u k)
    (fun k (s : Nat × ℝ) => if u k = 0 ∧ s.1 = n1 then (k, s.2) else (s.1, s.2 * u k)) (n1, 1) buf (fun i j _ _ h => h)
  have hm : ∀ k, (maskedLoop n1 n2 j rev x buf).1 k = (forScan n1 id (fun k (s : Nat × ℝ) (_ : ℝ) => if u k = 0 ∧ s.1 = n1 then s.2 else s.2 * u k)
    (fun k (s : Nat × ℝ) => if u k = 0 ∧ s.1 = n1 then (k, s.2) else (s.1, s.2 * u k)) (n1, 1) buf).1 k := by
    intro k; simp only [maskedLoop, u]
  have hz : z = z0 := by
    have : (maskedLoop n1 n2 j rev x buf).2 = (forScan n1 id (fun k (s : Nat × ℝ) (_ : ℝ) => if u k = 0 ∧ s.1 = n1 then s.2 else s.2 * u k)
      (fun k (s : Nat × ℝ) => if u k = 0 ∧ s.1 = n1 then (k, s.2) else (s.1, s.2 * u k)) (n1, 1) buf).2 := by
      simp only [maskedLoop, u]
    show (maskedLoop n1 n2 j rev x buf).2.1 = z0
    rw [this, p1, e0]
  refine ⟨hz ▸ hz0, ?_⟩
  intro k hk
  obtain ⟨z1, hz1, e1⟩ := masked_state n1 u (k + 1) (by omega)
  have hv := p2 k hk
  simp only [id] at hv
  rw [hm, hv, hz, ← isFirstZero_unique (show k + 1 ≤ n1 by omega) (le_refl _) hz1 hz0]
  rw [scanState] at e1
  by_cases hc : u k = 0 ∧ (scanState (fun k (s : Nat × ℝ) => if u k = 0 ∧ s.1 = n1 then (k, s.2) else (s.1, s.2 * u k)) (n1, 1) k).1 = n1
  · rw [if_pos hc] at e1 ⊢
    exact congrArg Prod.snd e1
  · rw [if_neg hc] at e1 ⊢
    exact congrArg Prod.snd e1

/-- The terms of the sum held before element c - 1 is processed. -/
def cumTerms (n z : Nat) (excl : Bool) (c : Nat) : Finset Nat :=
  (Finset.range n).filter fun i => c ≤ i ∧ (z < c ∨ if excl then i ≤ z else i < z)

/-- Sum before processing element c - 1. -/
noncomputable def cumSumBefore (n z : Nat) (excl : Bool) (u g : Nat → ℝ) (c : Nat) : ℝ :=
  ∑ i ∈ cumTerms n z excl c, (∏ l ∈ (seqSet excl i).erase z, u l) * g i

theorem cumTerms_step (n z : Nat) (excl : Bool) (k : Nat) (hk : k < n) :
    cumTerms n z excl k = (if k = z then ∅ else cumTerms n z excl (k + 1)) ∪ (if k = z ∧ excl = false then ∅ else {k}) := by
  ext i
  by_cases h : k = z
  · subst h
    cases excl <;> simp [cumTerms] <;> omega
  · have h' : ¬(k = z ∧ excl = false) := fun hh => h hh.1
    rw [if_neg h, if_neg h']
    cases excl <;> simp [cumTerms] <;> omega

/-- True gradient in sequence coordinates. -/
noncomputable def cumprodGrad (n : Nat) (excl : Bool) (u g : Nat → ℝ) (k : Nat) : ℝ :=
  ∑ i ∈ (Finset.range n).filter (fun i => k ∈ seqSet excl i), g i * ∏ l ∈ (seqSet excl i).erase k, u l

/-- Value of one product in the true gradient, by the position of the first zero. -/
theorem cumprod_term (n : Nat) (excl : Bool) (u : Nat → ℝ) (z k i : Nat) (hk : k < n) (hi : i < n) (hz : IsFirstZero n u n z) (hm : k ∈ seqSet excl i) :
    ∏ l ∈ (seqSet excl i).erase k, u l =
      if k = z then ∏ l ∈ (seqSet excl i).erase z, u l else if k > z then 0
      else if (if excl then i ≤ z else i < z) then (∏ l ∈ (seqSet excl i).erase z, u l) / u k else 0 := by
  by_cases h : k = z
  · rw [if_pos h, h]
  rw [if_neg h]
  rw [mem_seqSet] at hm
  rcases hz with ⟨rfl, hnz⟩ | ⟨h1, h2, h3⟩
  · rw [if_neg (by omega), if_pos (by cases excl <;> simp at hm ⊢ <;> omega), Finset.erase_eq_of_notMem (s := seqSet excl i) (a := z), ← Finset.mul_prod_erase _ u (mem_seqSet.mpr hm),
      mul_div_cancel_left₀ _ (hnz k hk)]
    rw [mem_seqSet]; cases excl <;> simp <;> omega
  · by_cases hkz : k > z
    · rw [if_pos hkz]
      refine Finset.prod_eq_zero (i := z) ?_ h2
      rw [Finset.mem_erase, mem_seqSet]
      refine ⟨by omega, ?_⟩
      cases excl <;> simp at hm ⊢ <;> omega
    · rw [if_neg hkz]
      by_cases hin : (if excl then i ≤ z else i < z)
      · rw [if_pos hin, Finset.erase_eq_of_notMem (s := seqSet excl i) (a := z), ← Finset.mul_prod_erase _ u (mem_seqSet.mpr hm), mul_div_cancel_left₀ _ (h3 k (by omega))]
        rw [mem_seqSet]; cases excl <;> simp at hin ⊢ <;> omega
      · rw [if_neg hin]
        refine Finset.prod_eq_zero (i := z) ?_ h2
        rw [Finset.mem_erase, mem_seqSet]
        refine ⟨by omega, ?_⟩
        cases excl <;> simp at hin ⊢ <;> omega

/-- The algorithm's value at element k is the true gradient. -/
theorem cumprod_algo (n : Nat) (excl : Bool) (u g : Nat → ℝ) (z k : Nat) (hk : k < n) (hz : IsFirstZero n u n z) :
    (let s := cumSumBefore n z excl u g (k + 1)
     let sum := if excl then s else s + (∏ l ∈ (Finset.range (k + 1)).erase z, u l) * g k
     if k = z then sum else if k > z then 0 else sum / u k) = cumprodGrad n excl u g k := by
  have hsum : (if excl then cumSumBefore n z excl u g (k + 1) else cumSumBefore n z excl u g (k + 1) + (∏ l ∈ (Finset.range (k + 1)).erase z, u l) * g k) =
      ∑ i ∈ (Finset.range n).filter (fun i => k ∈ seqSet excl i ∧ (z ≤ k ∨ if excl then i ≤ z else i < z)), (∏ l ∈ (seqSet excl i).erase z, u l) * g i := by
    cases excl with
    | true =>
      simp only [if_true]
      unfold cumSumBefore
      refine Finset.sum_congr ?_ fun _ _ => rfl
      ext i
      simp only [cumTerms, Finset.mem_filter, Finset.mem_range, mem_seqSet, if_true]
      omega
    | false =>
      simp only [Bool.false_eq_true, if_false]
      unfold cumSumBefore
      have e : (Finset.range n).filter (fun i => k ∈ seqSet false i ∧ (z ≤ k ∨ i < z)) = insert k (cumTerms n z false (k + 1)) := by
        ext i
        simp only [cumTerms, Finset.mem_filter, Finset.mem_range, mem_seqSet, Finset.mem_insert, Bool.false_eq_true, if_false]
        omega
      rw [e, Finset.sum_insert (by simp [cumTerms]), add_comm]
      rfl
  show (if k = z then (if excl then cumSumBefore n z excl u g (k + 1) else cumSumBefore n z excl u g (k + 1) + (∏ l ∈ (Finset.range (k + 1)).erase z, u l) * g k)
    else if k > z then 0 else (if excl then cumSumBefore n z excl u g (k + 1) else cumSumBefore n z excl u g (k + 1) + (∏ l ∈ (Finset.range (k + 1)).erase z, u l) * g k) / u k) = _
  rw [hsum]
  unfold cumprodGrad
  have hterm : ∀ i ∈ (Finset.range n).filter (fun i => k ∈ seqSet excl i), g i * ∏ l ∈ (seqSet excl i).erase k, u l = g i * (if k = z then ∏ l ∈ (seqSet excl i).erase z, u l else if k > z then 0
      else if (if excl then i ≤ z else i < z) then (∏ l ∈ (seqSet excl i).erase z, u l) / u k else 0) := by
    intro i hi
    rw [Finset.mem_filter, Finset.mem_range] at hi
    rw [cumprod_term n excl u z k i hk hi.1 hz hi.2]
  rw [Finset.sum_congr rfl hterm]
  by_cases h : k = z
  · subst h
    simp only [if_true, le_refl, true_or, and_true]
    exact Finset.sum_congr rfl fun i _ => mul_comm _ _
  by_cases h' : k > z
  · simp only [if_neg h, if_pos h', mul_zero, Finset.sum_const_zero]
  · simp only [if_neg h, if_neg h']
    rw [Finset.sum_div, ← Finset.filter_filter, Finset.sum_filter]
    refine Finset.sum_congr rfl fun i _ => ?_
    by_cases hc : (if excl then i ≤ z else i < z)
    · rw [if_pos (Or.inr hc), if_pos hc]; ring
    · rw [if_neg (by rintro (h'' | h'') <;> [omega; exact hc h'']), if_neg hc, mul_zero]

/-- State of the gradient loop before step t. -/
theorem cumprod_state (n z : Nat) (excl : Bool) (u g M : Nat → ℝ) (hM : ∀ k, k < n → M k = ∏ l ∈ (Finset.range (k + 1)).erase z, u l) (t : Nat) (ht : t < n) :
    scanState (fun t s =>
      let k := n - 1 - t
      let sum := if excl then s else s + M k * g k
      let sum := if k = z then 0 else sum
      if excl && k ≠ 0 then sum + M (k - 1) * g k else sum) 0 t = cumSumBefore n z excl u g (n - t) := by
  induction t with
  | zero =>
    have e : cumTerms n z excl (n - 0) = ∅ := by
      rw [Finset.eq_empty_iff_forall_notMem]
      intro i hi
      simp only [cumTerms, Finset.mem_filter, Finset.mem_range] at hi
      omega
    rw [scanState, cumSumBefore, e, Finset.sum_empty]
  | succ t ih =>
    rw [scanState, ih (by omega)]
    have hk : n - 1 - t + 1 = n - t := by omega
    have hk' : n - (t + 1) = n - 1 - t := by omega
    have hkn : n - 1 - t < n := by omega
    rw [hk']
    have hk0 : n - 1 - t ≠ 0 := by omega
    rw [← hk]
    generalize n - 1 - t = k at hkn hk0
    simp only
    have hstep := cumTerms_step n z excl k hkn
    have hnot : k ∉ cumTerms n z excl (k + 1) := by simp [cumTerms]
    unfold cumSumBefore
    rw [hstep]
    cases excl with
    | false =>
      simp only [Bool.false_eq_true, if_false, Bool.false_and, and_true]
      by_cases h : k = z
      · simp [h]
      · simp only [if_neg h]
        rw [Finset.union_comm, Finset.singleton_union, Finset.sum_insert hnot, add_comm, hM k hkn]
        rfl
    | true =>
      simp only [if_true, Bool.true_and, Bool.true_eq_false, and_false, if_false]
      rw [if_pos (by simpa using hk0)]
      have hM' := hM (k - 1) (by omega)
      rw [show k - 1 + 1 = k by omega] at hM'
      by_cases h : k = z
      · simp only [if_pos h, Finset.empty_union, Finset.sum_singleton, zero_add, hM']
        rfl
      · simp only [if_neg h]
        rw [Finset.union_comm, Finset.singleton_union, Finset.sum_insert hnot, add_comm, hM']
        rfl

/-- What the backward loop stores: the derivative. -/
noncomputable def cumprodVjp (n : Nat) (rev excl : Bool) (x dy : Mem ℝ) (i : Nat) : ℝ :=
  ∑ k ∈ (Finset.range n).filter (fun k => i ∈ cumSet n rev excl k), dy k * ∏ l ∈ (cumSet n rev excl k).erase i, x l

theorem cumprodGrad_eq (n : Nat) (rev excl : Bool) (x dy : Mem ℝ) (k : Nat) (hk : k < n) :
    cumprodGrad n excl (fun k => x (seqPos rev n k)) (fun k => dy (seqPos rev n k)) k = cumprodVjp n rev excl x dy (seqPos rev n k) := by
  unfold cumprodGrad cumprodVjp
  have e : (Finset.range n).filter (fun i => seqPos rev n k ∈ cumSet n rev excl i) = ((Finset.range n).filter (fun i => k ∈ seqSet excl i)).image (seqPos rev n) := by
    ext i
    simp only [Finset.mem_image, Finset.mem_filter, Finset.mem_range]
    constructor
    · rintro ⟨h1, h2⟩
      refine ⟨seqPos rev n i, ⟨seqPos_lt h1, ?_⟩, seqPos_invol h1⟩
      rw [← mem_seq_iff (rev := rev) (seqPos_lt h1) hk, seqPos_invol h1]; exact h2
    · rintro ⟨l, ⟨h1, h2⟩, rfl⟩
      exact ⟨seqPos_lt h1, (mem_seq_iff h1 hk).mpr h2⟩
  rw [e, Finset.sum_image (seq_injOn _ fun m hm => by simp at hm; exact hm.1)]
  refine Finset.sum_congr rfl fun i hi => ?_
  rw [Finset.mem_filter, Finset.mem_range] at hi
  rw [prod_seqSet_erase hi.1 hk]

theorem cumprodBackward_spec (n0 n1 n2 : Nat) (rev excl accum : Bool) (buf : Nat → Nat → Mem ℝ) (x dy dx : Mem ℝ) :
    (∀ i0 i1 i2, i0 < n0 → i1 < n1 → i2 < n2 → cumprodBackward n0 n1 n2 rev excl accum buf x dy dx (off n1 n2 i0 i1 i2) =
      cumprodVjp n1 rev excl (fun k => x (off n1 n2 i0 k i2)) (fun k => dy (off n1 n2 i0 k i2)) i1 + (if accum then dx (off n1 n2 i0 i1 i2) else 0)) ∧
    ∀ k, (∀ i0 i1 i2, i0 < n0 → i1 < n1 → i2 < n2 → off n1 n2 i0 i1 i2 ≠ k) → cumprodBackward n0 n1 n2 rev excl accum buf x dy dx k = dx k := by
  have inj : ∀ i0 i2, i2 < n2 → ∀ i j, i < n1 → j < n1 →
      seqPos rev n1 (n1 - 1 - i) * n2 + (i0 * n1 * n2 + i2) = seqPos rev n1 (n1 - 1 - j) * n2 + (i0 * n1 * n2 + i2) → i = j := by
    intro i0 i2 h2 i j hi hj e
    have := seqPos_inj (show n1 - 1 - i < n1 by omega) (show n1 - 1 - j < n1 by omega) (mulAdd_inj (show 0 < n2 by omega) e)
    omega
  refine forSlices_spec n0 n1 n2 _ (fun i0 i1 i2 old => cumprodVjp n1 rev excl (fun k => x (off n1 n2 i0 k i2)) (fun k => dy (off n1 n2 i0 k i2)) i1 + (if accum then old else 0)) dx ?_ ?_
  · intro i0 i2 h0 h2 m i1 h1
    refine slice_of_seq (rev := rev) (m := m) (v := fun i1 old => cumprodVjp n1 rev excl (fun k => x (off n1 n2 i0 k i2)) (fun k => dy (off n1 n2 i0 k i2)) i1 + (if accum then old else 0)) ?_ i1 h1
    intro k hk
    obtain ⟨hz, hM⟩ := maskedLoop_spec n1 n2 (i0 * n1 * n2 + i2) rev x (buf i0 i2)
    simp only at hz hM
    have hscan := (forScan_spec n1 _ (fun t s old =>
      let k := n1 - 1 - t
      let idx := seqPos rev n1 k * n2 + (i0 * n1 * n2 + i2)
      let sum := if excl then s else s + (maskedLoop n1 n2 (i0 * n1 * n2 + i2) rev x (buf i0 i2)).1 k * dy idx
      let grad := if k = (maskedLoop n1 n2 (i0 * n1 * n2 + i2) rev x (buf i0 i2)).2.1 then sum else if k > (maskedLoop n1 n2 (i0 * n1 * n2 + i2) rev x (buf i0 i2)).2.1 then 0 else sum / x idx
      grad + (if accum then old else 0)) (fun t s =>
      let k := n1 - 1 - t
      let idx := seqPos rev n1 k * n2 + (i0 * n1 * n2 + i2)
      let sum := if excl then s else s + (maskedLoop n1 n2 (i0 * n1 * n2 + i2) rev x (buf i0 i2)).1 k * dy idx
      let sum := if k = (maskedLoop n1 n2 (i0 * n1 * n2 + i2) rev x (buf i0 i2)).2.1 then 0 else sum
      if excl && k ≠ 0 then sum + (maskedLoop n1 n2 (i0 * n1 * n2 + i2) rev x (buf i0 i2)).1 (k - 1) * dy idx else sum) (0 : ℝ) m (inj i0 i2 h2)).2.1 (n1 - 1 - k) (by omega)
    have hkk : n1 - 1 - (n1 - 1 - k) = k := by omega
    rw [hkk] at hscan
    have hst := cumprod_state n1 _ excl (fun k => x (seqPos rev n1 k * n2 + (i0 * n1 * n2 + i2))) (fun k => dy (seqPos rev n1 k * n2 + (i0 * n1 * n2 + i2))) _ hM (n1 - 1 - k) (by omega)
    have hnk : n1 - (n1 - 1 - k) = k + 1 := by omega
    rw [hnk] at hst
    simp only [cumprodBwdBody]
    rw [hscan]
    simp only [] at hst ⊢
    rw [hst, hM k hk]
    have halgo := cumprod_algo n1 excl (fun k => x (seqPos rev n1 k * n2 + (i0 * n1 * n2 + i2))) (fun k => dy (seqPos rev n1 k * n2 + (i0 * n1 * n2 + i2))) _ k hk hz
    simp only at halgo
    rw [halgo]
    simp only [off_eq]
    rw [← cumprodGrad_eq n1 rev excl (fun k => x (k * n2 + (i0 * n1 * n2 + i2))) (fun k => dy (k * n2 + (i0 * n1 * n2 + i2))) k hk]
  · intro i0 i2 h0 h2 m k hk
    exact (forScan_spec n1 _ _ _ _ m (inj i0 i2 h2)).2.2 k (fun i hi => untouched_of_seq hk (n1 - 1 - i) (by omega))

end Verif.Elem
