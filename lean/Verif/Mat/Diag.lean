import Verif.Fn.ChunkProps
import Verif.Fn.Masked
/-
C138: matrix_diag and matrix_diag_part. C139: trilu.
Models /repo/src/nbla/function/generic/{matrix_diag,matrix_diag_part,trilu}.cpp.
Simplifications: `int` and sizes are unbounded; elements are any commutative semiring.
-/
namespace Verif.Mat
open Verif.ND Verif.Fn

/-! ### Model -/

/-- MatrixDiag::setup_impl (matrix_diag.cpp:29-40): `last_ndim_` and the shape of y. (For an empty shape the C++ code reads before
the start of the vector.) -/
def diagSetup (xsh : Shape) : Except String (Nat × Shape) :=
  if xsh.length = 0 then .error "undefined behaviour" else
  let last := xsh.getD (xsh.length - 1) 0
  .ok (last, xsh ++ [last])

/-- The loops of MatrixDiag::forward_impl (matrix_diag.cpp:43-56); `none` is the constant 0. -/
def diagPairs (size last : Nat) : CPairs :=
  (List.range size).flatMap fun i => (List.range last).map fun j => (i * last + j, if i % last = j then some i else none)

/-- MatrixDiag::forward_impl. -/
def diagForward {R} [Zero R] (size last : Nat) (x y : Mem R) : Mem R := fwdC (diagPairs size last) 0 x y

/-- MatrixDiag::backward_impl (matrix_diag.cpp:58-84). -/
def diagBackward {R} [Add R] (size last : Nat) (accum : Bool) (dy dx : Mem R) : Mem R :=
  (List.range size).foldl (fun dx i =>
    if accum then put dx i (dx i + dy (i * last + i % last)) else put dx i (dy (i * last + i % last))) dx

/-- MatrixDiagPart::setup_impl (matrix_diag_part.cpp:29-50). The second check is an assignment (`=`): it overwrites the second last
dimension of the local copy of the shape, and fails only when the last dimension is 0. -/
def partSetup (xsh : Shape) : Except String (Nat × Shape) :=
  if ¬ xsh.length > 1 then .error "Input dimensions must be greater than 1."
  else
    let last := xsh.getD (xsh.length - 1) 0
    let xsh' := xsh.set (xsh.length - 2) last
    if last = 0 then .error "Last and second last dimensions must be the same."
    else .ok (last, xsh'.take (xsh'.length - 1))

/-- The loop of MatrixDiagPart::forward_impl (matrix_diag_part.cpp:53-61). -/
def partPairs (size last : Nat) : Pairs := (List.range size).map fun i => (i, i * last + i % last)

/-- MatrixDiagPart::forward_impl. -/
def partForward {R} (size last : Nat) (x y : Mem R) : Mem R := fwd (partPairs size last) x y

/-- MatrixDiagPart::backward_impl (matrix_diag_part.cpp:63-98). -/
def partBackward {R} [Zero R] [Add R] (size last : Nat) (accum : Bool) (dy dx : Mem R) : Mem R :=
  (List.range size).foldl (fun dx i =>
    if accum then put dx (i * last + i % last) (dx (i * last + i % last) + dy i)
    else (List.range last).foldl (fun dx j => put dx (i * last + j) (if i % last = j then dy i else 0)) dx) dx

/-! ### Lemmas -/

theorem split1 (S : Shape) (L : Nat) (j : List Nat) (hj : InBounds (S ++ [L]) j) :
    ∃ s a, j = s ++ [a] ∧ InBounds S s ∧ a < L := by
  have hl := hj.length
  simp only [List.length_append, List.length_cons, List.length_nil] at hl
  have e : j = j.take S.length ++ j.drop S.length := (List.take_append_drop _ _).symm
  rw [e] at hj
  obtain ⟨h1, h2⟩ := (inBounds_append S [L] _ _ (by simp; omega)).mp hj
  cases hd : j.drop S.length with
  | nil => rw [hd] at h2; exact h2.elim
  | cons a r =>
    rw [hd] at h2
    cases r with
    | cons _ _ => exact h2.2.elim
    | nil => exact ⟨j.take S.length, a, by rw [← hd]; exact e, h1, h2.1⟩

theorem split2 (S : Shape) (K L : Nat) (j : List Nat) (hj : InBounds (S ++ [K, L]) j) :
    ∃ s a b, j = s ++ [a, b] ∧ InBounds S s ∧ a < K ∧ b < L := by
  have e : S ++ [K, L] = (S ++ [K]) ++ [L] := by simp
  rw [e] at hj
  obtain ⟨s', b, rfl, h1, hb⟩ := split1 _ _ _ hj
  obtain ⟨s, a, rfl, h2, ha⟩ := split1 _ _ _ h1
  exact ⟨s, a, b, by simp, h2, ha, hb⟩

theorem ravel1 (S : Shape) (L : Nat) (s : List Nat) (a : Nat) (hs : InBounds S s) :
    ravel (S ++ [L]) (s ++ [a]) = ravel S s * L + a := by
  rw [ravel_append _ _ _ _ hs.length]; simp [ravel, prod]

theorem ravel2 (S : Shape) (K L : Nat) (s : List Nat) (a b : Nat) (hs : InBounds S s) :
    ravel (S ++ [K, L]) (s ++ [a, b]) = (ravel S s * K + a) * L + b := by
  rw [ravel_append _ _ _ _ hs.length]; simp [ravel, prod, Nat.add_mul, Nat.mul_assoc, Nat.add_assoc]

theorem inb1 (S : Shape) (L : Nat) (s : List Nat) (a : Nat) (hs : InBounds S s) (ha : a < L) : InBounds (S ++ [L]) (s ++ [a]) :=
  (inBounds_append _ _ _ _ hs.length).mpr ⟨hs, ha, trivial⟩

theorem inb2 (S : Shape) (K L : Nat) (s : List Nat) (a b : Nat) (hs : InBounds S s) (ha : a < K) (hb : b < L) :
    InBounds (S ++ [K, L]) (s ++ [a, b]) :=
  (inBounds_append _ _ _ _ hs.length).mpr ⟨hs, ha, hb, trivial⟩

/-- A kernel that runs over the flat output positions. -/
theorem GathersC.of_range {ysh xsh : Shape} {f : List Nat → Option (List Nat)} (φ : Nat → Option Nat)
    (h : ∀ j, InBounds ysh j → φ (ravel ysh j) = (f j).map (ravel xsh) ∧ ∀ k, f j = some k → InBounds xsh k) :
    GathersC ysh xsh f ((List.range (prod ysh)).map fun i => (i, φ i)) where
  perm := by
    rw [← indices_ravel, List.map_map]
    apply List.Perm.of_eq
    apply List.map_congr_left
    intro j hj
    simp only [Function.comp, (h j ((mem_indices _ _).mp hj)).1]
  bound := fun j k hj hk => (h j hj).2 k hk

theorem flat_pairs {α} (n m : Nat) (g : Nat → α) :
    ((List.range n).flatMap fun i => (List.range m).map fun j => g (i * m + j)) = (List.range (n * m)).map g := by
  rw [← range_mul, List.map_flatMap]
  simp only [List.map_map]
  rfl

/-- Elementwise loops with independent positions. -/
theorem foldl_put1 {R} (n : Nat) (f : Nat → R → R) (y : Mem R) (k : Nat) :
    (List.range n).foldl (fun y s => put y s (f s (y s))) y k = if k < n then f k (y k) else y k := by
  induction n with
  | zero => simp
  | succ n ih =>
    rw [List.range_succ, List.foldl_append]
    simp only [List.foldl_cons, List.foldl_nil]
    by_cases e : k = n
    · subst e
      rw [put_same, if_pos (by omega), ih, if_neg (by omega)]
    · rw [put_other _ _ e, ih]
      by_cases h : k < n
      · rw [if_pos h, if_pos (by omega)]
      · rw [if_neg h, if_neg (by omega)]

/-! ### matrix_diag -/

/-- Where element `j` of the matrix comes from: element `s ++ [a]` of x for `j = s ++ [a, a]`, nothing elsewhere. -/
def diagSrc (n : Nat) (j : List Nat) : Option (List Nat) :=
  if j.getD n 0 = j.getD (n + 1) 0 then some (j.take (n + 1)) else none

theorem diag_gathers (S : Shape) (L : Nat) :
    GathersC (S ++ [L, L]) (S ++ [L]) (diagSrc S.length) (diagPairs (prod (S ++ [L])) L) := by
  have e : diagPairs (prod (S ++ [L])) L = (List.range (prod (S ++ [L, L]))).map fun t =>
      (t, if t / L % L = t % L then some (t / L) else none) := by
    have : prod (S ++ [L, L]) = prod (S ++ [L]) * L := by simp [prod_append, prod, Nat.mul_assoc]
    rw [this, ← flat_pairs (prod (S ++ [L])) L (fun t => (t, if t / L % L = t % L then some (t / L) else none)), diagPairs]
    apply List.flatMap_congr
    intro i _
    apply List.map_congr_left
    intro j hj
    rw [List.mem_range] at hj
    have h1 : (i * L + j) / L = i := by rw [Nat.mul_comm, Nat.mul_add_div (by omega), Nat.div_eq_of_lt hj, Nat.add_zero]
    have h2 : (i * L + j) % L = j := by rw [Nat.mul_comm, Nat.mul_add_mod, Nat.mod_eq_of_lt hj]
    rw [h1, h2]
  rw [e]
  apply GathersC.of_range
  intro j hj
  obtain ⟨s, a, b, rfl, hs, ha, hb⟩ := split2 S L L j hj
  have hlen := hs.length
  have g1 : (s ++ [a, b]).getD S.length 0 = a := by simp [List.getD_eq_getElem?_getD, ← hlen]
  have g2 : (s ++ [a, b]).getD (S.length + 1) 0 = b := by simp [List.getD_eq_getElem?_getD, ← hlen]
  have g3 : (s ++ [a, b]).take (S.length + 1) = s ++ [a] := by
    rw [← hlen, List.take_length_add_append]; simp
  have h1 : ((ravel S s * L + a) * L + b) / L = ravel S s * L + a := by
    rw [Nat.mul_comm, Nat.mul_add_div (by omega), Nat.div_eq_of_lt hb, Nat.add_zero]
  have h2 : ((ravel S s * L + a) * L + b) % L = b := by rw [Nat.mul_comm, Nat.mul_add_mod, Nat.mod_eq_of_lt hb]
  have h3 : (ravel S s * L + a) % L = a := by rw [Nat.mul_comm, Nat.mul_add_mod, Nat.mod_eq_of_lt ha]
  rw [ravel2 S L L s a b hs]
  simp only [diagSrc, g1, g2, g3, h1, h2, h3]
  by_cases hab : a = b
  · rw [if_pos hab, if_pos hab]
    exact ⟨by simp [ravel1 S L s a hs], fun k hk => by injection hk with hk; subst hk; exact inb1 S L s a hs ha⟩
  · rw [if_neg hab, if_neg hab]
    exact ⟨rfl, fun k hk => by cases hk⟩

/-- **C138 (matrix_diag, forward).** For x of shape `S × L` the result has shape `S × L × L`, with x on the diagonals and zeros
elsewhere. -/
theorem C138_diag {R} [Zero R] (S : Shape) (L : Nat) (x y : Mem R) :
    diagSetup (S ++ [L]) = .ok (L, S ++ [L, L]) ∧
    ∀ s a b, InBounds S s → a < L → b < L →
      diagForward (prod (S ++ [L])) L x y (ravel (S ++ [L, L]) (s ++ [a, b])) =
        if a = b then x (ravel (S ++ [L]) (s ++ [a])) else 0 := by
  constructor
  · simp [diagSetup]
  · intro s a b hs ha hb
    have hlen := hs.length
    rw [diagForward, (diag_gathers S L).forward 0 x y _ (inb2 S L L s a b hs ha hb)]
    have g1 : (s ++ [a, b]).getD S.length 0 = a := by simp [List.getD_eq_getElem?_getD, ← hlen]
    have g2 : (s ++ [a, b]).getD (S.length + 1) 0 = b := by simp [List.getD_eq_getElem?_getD, ← hlen]
    have g3 : (s ++ [a, b]).take (S.length + 1) = s ++ [a] := by
      rw [← hlen, List.take_length_add_append]; simp
    simp only [diagSrc, g1, g2, g3]
    by_cases hab : a = b
    · rw [if_pos hab, if_pos hab]; rfl
    · rw [if_neg hab, if_neg hab]; rfl

/-- **C138 (matrix_diag, gradient).** The gradient of `x[s, a]` is the output gradient at `[s, a, a]`, added to what is there when
accumulating. -/
theorem C138_diag_grad {R} [Add R] (S : Shape) (L : Nat) (accum : Bool) (dy dx : Mem R) (s : List Nat) (a : Nat)
    (hs : InBounds S s) (ha : a < L) :
    diagBackward (prod (S ++ [L])) L accum dy dx (ravel (S ++ [L]) (s ++ [a])) =
      if accum then dx (ravel (S ++ [L]) (s ++ [a])) + dy (ravel (S ++ [L, L]) (s ++ [a, a])) else dy (ravel (S ++ [L, L]) (s ++ [a, a])) := by
  have hlt : ravel (S ++ [L]) (s ++ [a]) < prod (S ++ [L]) := ravel_lt (inb1 S L s a hs ha)
  have h3 : (ravel S s * L + a) % L = a := by rw [Nat.mul_comm, Nat.mul_add_mod, Nat.mod_eq_of_lt ha]
  have e : diagBackward (prod (S ++ [L])) L accum dy dx = (List.range (prod (S ++ [L]))).foldl (fun y i => put y i
      ((fun i v => if accum then v + dy (i * L + i % L) else dy (i * L + i % L)) i (y i))) dx := by
    unfold diagBackward
    cases accum <;> rfl
  rw [e, foldl_put1 _ (fun i v => if accum then v + dy (i * L + i % L) else dy (i * L + i % L)), if_pos hlt]
  rw [ravel2 S L L s a a hs, ravel1 S L s a hs, h3]

/-! ### matrix_diag_part -/

theorem part_gathers (S : Shape) (L : Nat) :
    Gathers (S ++ [L]) (S ++ [L, L]) (fun j => j ++ [j.getD S.length 0]) (partPairs (prod (S ++ [L])) L) := by
  unfold partPairs
  apply Gathers.of_range (fun i => i * L + i % L)
  intro j hj
  obtain ⟨s, a, rfl, hs, ha⟩ := split1 S L j hj
  have hlen := hs.length
  have g1 : (s ++ [a]).getD S.length 0 = a := by simp [List.getD_eq_getElem?_getD, ← hlen]
  have h3 : (ravel S s * L + a) % L = a := by rw [Nat.mul_comm, Nat.mul_add_mod, Nat.mod_eq_of_lt ha]
  rw [g1, show s ++ [a] ++ [a] = s ++ [a, a] by simp, ravel2 S L L s a a hs, ravel1 S L s a hs, h3]
  exact ⟨rfl, inb2 S L L s a a hs ha ha⟩

/-- **C138 (matrix_diag_part, forward), partial**: for square matrices (`S × L × L`, `L ≠ 0`) the result has shape `S × L` and holds
the diagonals. Missing: rejection of matrices that are not square and acceptance of empty ones, which fail
(`C138_part_not_square_wrong`). -/
theorem C138_part_partial {R} (S : Shape) (L : Nat) (hL : L ≠ 0) (x y : Mem R) :
    partSetup (S ++ [L, L]) = .ok (L, S ++ [L]) ∧
    ∀ s a, InBounds S s → a < L →
      partForward (prod (S ++ [L])) L x y (ravel (S ++ [L]) (s ++ [a])) = x (ravel (S ++ [L, L]) (s ++ [a, a])) := by
  constructor
  · have e1 : (S ++ [L, L]).getD (S.length + 2 - 1) 0 = L := by simp [List.getD_eq_getElem?_getD]
    have e2 : (S ++ [L, L]).set (S.length + 2 - 2) L = S ++ [L, L] := by simp [List.set_append]
    unfold partSetup
    simp only [List.length_append, List.length_cons, List.length_nil, Nat.zero_add, Nat.reduceAdd, e1, e2]
    rw [if_neg (by omega), if_neg hL]
    congr 2
    rw [show S.length + 2 - 1 = S.length + 1 from rfl, List.take_length_add_append]
    simp
  · intro s a hs ha
    have hlen := hs.length
    rw [partForward, (part_gathers S L).forward x y _ (inb1 S L s a hs ha)]
    have g1 : (s ++ [a]).getD S.length 0 = a := by simp [List.getD_eq_getElem?_getD, ← hlen]
    rw [g1]
    simp

/-- Inner loop of the backward without accumulation. -/
theorem foldl_row {R} (L o : Nat) (v : Nat → R) (y : Mem R) (k : Nat) :
    (List.range L).foldl (fun y j => put y (o + j) (v j)) y k = if o ≤ k ∧ k < o + L then v (k - o) else y k := by
  induction L with
  | zero => rw [if_neg (by omega)]; rfl
  | succ n ih =>
    rw [List.range_succ, List.foldl_append]
    simp only [List.foldl_cons, List.foldl_nil]
    by_cases e : k = o + n
    · subst e
      rw [put_same, if_pos (by omega)]; congr 1; omega
    · rw [put_other _ _ e, ih]
      by_cases h : o ≤ k ∧ k < o + n
      · rw [if_pos h, if_pos (by omega)]
      · rw [if_neg h, if_neg (by omega)]

theorem partBackward_set {R} [Zero R] [Add R] (size L : Nat) (dy dx : Mem R) (k : Nat) (hL : 0 < L) :
    partBackward size L false dy dx k = if k < size * L then (if k / L % L = k % L then dy (k / L) else 0) else dx k := by
  unfold partBackward
  simp only [Bool.false_eq_true, if_false]
  induction size with
  | zero => simp
  | succ n ih =>
    rw [List.range_succ, List.foldl_append]
    simp only [List.foldl_cons, List.foldl_nil]
    rw [foldl_row L (n * L) (fun j => if n % L = j then dy n else 0)]
    rw [ih]
    by_cases h : n * L ≤ k ∧ k < n * L + L
    · have e1 : k / L = n := by
        rw [Nat.div_eq_iff hL]; constructor
        · have := h.1; rw [Nat.mul_comm] at this; rw [Nat.mul_comm]; omega
        · have := h.2; omega
      have e2 : k - n * L = k % L := by
        have := Nat.div_add_mod k L
        rw [e1, Nat.mul_comm] at this; omega
      have h3 : k < (n + 1) * L := by rw [Nat.add_mul]; omega
      simp only [h, and_self, if_true, h3, e1, e2]
    · have h3 : k < (n + 1) * L ↔ k < n * L := by rw [Nat.add_mul]; omega
      simp only [h, if_false, h3]

theorem partBackward_add {R} [Zero R] [Add R] (size L : Nat) (dy dx : Mem R) :
    partBackward size L true dy dx = bwdAdd (partPairs size L) dy dx := by
  unfold partBackward partPairs bwdAdd
  rw [List.foldl_map]
  rfl

/-- **C138 (matrix_diag_part, gradient).** The gradient is the output gradient on the diagonals and zero (nothing added, when
accumulating) elsewhere. -/
theorem C138_part_grad {R} [AddCommMonoid R] (S : Shape) (L : Nat) (accum : Bool) (dy dx : Mem R) (s : List Nat) (a b : Nat)
    (hs : InBounds S s) (ha : a < L) (hb : b < L) :
    partBackward (prod (S ++ [L])) L accum dy dx (ravel (S ++ [L, L]) (s ++ [a, b])) =
      (if accum then dx (ravel (S ++ [L, L]) (s ++ [a, b])) else 0) + (if a = b then dy (ravel (S ++ [L]) (s ++ [a])) else 0) := by
  have hlt : ravel (S ++ [L, L]) (s ++ [a, b]) < prod (S ++ [L]) * L := by
    have := ravel_lt (inb2 S L L s a b hs ha hb)
    simpa [prod_append, prod, Nat.mul_assoc] using this
  have h1 : ((ravel S s * L + a) * L + b) / L = ravel S s * L + a := by
    rw [Nat.mul_comm, Nat.mul_add_div (by omega), Nat.div_eq_of_lt hb, Nat.add_zero]
  have h2 : ((ravel S s * L + a) * L + b) % L = b := by rw [Nat.mul_comm, Nat.mul_add_mod, Nat.mod_eq_of_lt hb]
  have h3 : (ravel S s * L + a) % L = a := by rw [Nat.mul_comm, Nat.mul_add_mod, Nat.mod_eq_of_lt ha]
  have key : ∀ dx : Mem R, partBackward (prod (S ++ [L])) L false dy dx (ravel (S ++ [L, L]) (s ++ [a, b])) =
      if a = b then dy (ravel (S ++ [L]) (s ++ [a])) else 0 := by
    intro dx
    rw [partBackward_set _ _ _ _ _ (by omega), if_pos hlt, ravel2 S L L s a b hs, ravel1 S L s a hs, h1, h2, h3]
  cases accum with
  | false => rw [key]; simp
  | true =>
    rw [partBackward_add, bwdAdd_accum]
    simp only [if_true]
    congr 1
    have hg := part_gathers S L
    have hinj : ∀ j j', InBounds (S ++ [L]) j → InBounds (S ++ [L]) j' →
        (fun j : List Nat => j ++ [j.getD S.length 0]) j = (fun j : List Nat => j ++ [j.getD S.length 0]) j' → j = j' := by
      intro j j' _ _ e
      exact (List.append_inj' e rfl).1
    rw [hg.backward]
    simp only [zeros, zero_add]
    by_cases hab : a = b
    · subst hab
      rw [if_pos rfl]
      have e : ((indices (S ++ [L])).map fun j => if ravel (S ++ [L, L]) (j ++ [j.getD S.length 0]) = ravel (S ++ [L, L]) (s ++ [a, a]) then dy (ravel (S ++ [L]) j) else 0)
          = ((indices (S ++ [L])).map (ravel (S ++ [L]))).map fun i => if ravel (S ++ [L]) (s ++ [a]) = i then dy i else 0 := by
        rw [List.map_map]
        apply List.map_congr_left
        intro j hj
        have hj := (mem_indices _ _).mp hj
        obtain ⟨s', a', rfl, hs', ha'⟩ := split1 S L j hj
        have g1 : (s' ++ [a']).getD S.length 0 = a' := by simp [List.getD_eq_getElem?_getD, ← hs'.length]
        simp only [Function.comp, g1]
        rw [show s' ++ [a'] ++ [a'] = s' ++ [a', a'] by simp]
        by_cases e : s' ++ [a'] = s ++ [a]
        · have e' := List.append_inj' e rfl
          obtain ⟨e1, e2⟩ := e'
          injection e2 with e2
          subst e1; subst e2; simp
        · rw [if_neg, if_neg]
          · intro h; exact e (ravel_inj _ _ _ (inb1 S L s a hs ha) hj h).symm
          · intro h
            have h := ravel_inj _ _ _ (inb2 S L L s' a' a' hs' ha' ha') (inb2 S L L s a a hs ha ha) h
            have h' := List.append_inj' h rfl
            apply e
            rw [h'.1]
            injection h'.2 with h''
            rw [h'']
      rw [e, indices_ravel, ← sum_range_list, sum_range_ite _ _ (ravel_lt (inb1 S L s a hs ha))]
    · rw [if_neg hab]
      apply List.sum_eq_zero
      intro v hv
      obtain ⟨j, hj, rfl⟩ := List.mem_map.mp hv
      have hj := (mem_indices _ _).mp hj
      obtain ⟨s', a', rfl, hs', ha'⟩ := split1 S L j hj
      have g1 : (s' ++ [a']).getD S.length 0 = a' := by simp [List.getD_eq_getElem?_getD, ← hs'.length]
      rw [if_neg]
      rw [g1, show s' ++ [a'] ++ [a'] = s' ++ [a', a'] by simp]
      intro h
      have h := ravel_inj _ _ _ (inb2 S L L s' a' a' hs' ha' ha') (inb2 S L L s a b hs ha hb) h
      have h' := (List.append_inj' h rfl).2
      injection h' with e1 e2
      injection e2 with e2
      omega

/-- **C138, refuted part.** `matrix_diag_part` of a 2 × 3 matrix is accepted, its result has 3 elements and the last one is read at
offset 8, behind the 6 elements of x; of two 3 × 2 matrices (shape 2 × 3 × 2) the second diagonal starts at offset 4, inside the
first matrix (it should be 6); an empty matrix is rejected. -/
theorem C138_part_not_square_wrong :
    partSetup [2, 3] = .ok (3, [3]) ∧ (2, 8) ∈ partPairs (prod [3]) 3 ∧
    partSetup [2, 3, 2] = .ok (2, [2, 2]) ∧ (2, 4) ∈ partPairs (prod [2, 2]) 2 ∧
    partSetup [0, 0] = .error "Last and second last dimensions must be the same." := by
  decide

example : (List.range 8).map (diagForward (prod [2, 2]) 2 (fun i => (i : Int) + 1) (fun _ => 9)) = [1, 0, 0, 2, 3, 0, 0, 4] ∧
    (List.range 4).map (partForward (prod [2, 2]) 2 (fun i => (i : Int)) (fun _ => 9)) = [0, 3, 4, 7] := by decide

end Verif.Mat
