import Verif.Fn.SelectNd
/-
Embed, OneHot, Where: models /repo/src/nbla/function/generic/{embed,one_hot,where}.cpp.
Simplifications: unbounded integers; index arrays hold integers.
-/
namespace Verif.Fn
open Verif.ND

instance (d : Nat) (v : Int) : Decidable (validIdx d v) := inferInstanceAs (Decidable (_ ∧ _))

/-! ### Embed -/

/-- Embed::setup_impl (embed.cpp:28-36): output shape. A 0-dimensional w (undefined behaviour) is excluded by the
pattern. -/
def embedSetup (xsh : Shape) : Shape → Shape
  | [] => []
  | _ :: W => xsh ++ W

/-- The offsets as naturals (only meaningful when they are not negative). -/
def natPairs (ps : List (Nat × Int)) : Pairs := ps.map fun p => (p.1, p.2.toNat)

/-- Embed::forward_impl (embed.cpp:38-50): `n` indices, rows of `stride` elements. -/
def embedForward {R} (n stride : Nat) (x : Nat → Int) (w y : Mem R) : Mem R := fwd (natPairs (embedPairs n stride x)) w y

/-- Embed::backward_impl (embed.cpp:62-79); `m` elements in w. -/
def embedBackward {R} [Zero R] [Add R] (m n stride : Nat) (x : Nat → Int) (accum : Bool) (dy dw : Mem R) : Mem R :=
  bwdAdd (natPairs (embedPairs n stride x)) dy (if accum then dw else fun i => if i < m then 0 else dw i)

theorem embed_gathers (X W : Shape) (n : Nat) (x : Nat → Int) (hx : ∀ i, i < prod X → 0 ≤ x i ∧ x i < n) :
    Gathers [prod X, prod W] [n, prod W] (fun j => [(x (j.getD 0 0)).toNat, j.getD 1 0]) (natPairs (embedPairs (prod X) (prod W) x)) where
  perm := by
    apply List.Perm.of_eq
    rw [indices2, natPairs, embedPairs, List.map_flatMap]
    apply List.flatMap_congr
    intro i hi
    rw [List.map_map]
    apply List.map_congr_left
    intro k _
    have := hx i (List.mem_range.mp hi)
    obtain ⟨v, hv⟩ := Int.eq_ofNat_of_zero_le this.1
    simp only [Function.comp, hv, List.getD_cons_zero, List.getD_cons_succ, ravel, prod, Nat.mul_one, Nat.add_zero, Int.toNat_natCast]
    congr 1
  bound := by
    intro j hj
    match j, hj with
    | [a, b], ⟨h1, h2, _⟩ =>
      have := hx a h1
      simp only [List.getD_cons_zero, List.getD_cons_succ]
      exact ⟨by omega, h2, trivial⟩

/-- **C80.** `embed(x, w)` for w of shape `n × W` and all entries of x in `0 … n-1`: the result has shape `X × W` and
element `(i, j)` is `w[x[i], j]`; the gradient of w is the transpose of that map (repeated indices add up). -/
theorem C80_embed {R} [CommSemiring R] (X W : Shape) (n : Nat) (x : Nat → Int) (hx : ∀ i, InBounds X i → 0 ≤ x (ravel X i) ∧ x (ravel X i) < n) :
    embedSetup X (n :: W) = X ++ W ∧
    (∀ (w y : Mem R) i j, InBounds X i → InBounds W j →
      embedForward (prod X) (prod W) x w y (ravel (X ++ W) (i ++ j)) = w (ravel (n :: W) ((x (ravel X i)).toNat :: j))) ∧
    ∀ y : Mem R, GradOK (prod (n :: W)) (prod (X ++ W)) (fun w => embedForward (prod X) (prod W) x w y)
      (callBackward (embedBackward (prod (n :: W)) (prod X) (prod W) x)) := by
  have hx' : ∀ i, i < prod X → 0 ≤ x i ∧ x i < n := by
    intro t ht
    obtain ⟨i, hi, rfl⟩ := exists_ravel X t ht
    exact hx i hi
  have hg := embed_gathers X W n x hx'
  refine ⟨rfl, ?_, ?_⟩
  · intro w y i j hi hj
    have := hg.forward w y [ravel X i, ravel W j] ⟨ravel_lt hi, ravel_lt hj, trivial⟩
    rw [ravel2 _ _ _ _ hi] at this
    rw [embedForward, this]
    simp [ravel, prod]
  · intro y
    have e : prod (n :: W) = prod [n, prod W] := by simp [prod]
    rw [← prod2 X W, e]
    refine hg.gradOK_add y _ ?_
    intro accum dy dw
    cases accum
    · simp only [callBackward, embedBackward, Bool.false_eq_true, if_false]
      congr 1
      funext i
      split <;> rfl
    · rfl

/-- **C80, refuted part.** The entries of x are not checked: for every table and every entry outside of `0 … n-1`,
forward reads (and backward writes) outside of the table. -/
theorem C80_refuted_embed_unchecked (X W : Shape) (n : Nat) (x : Nat → Int) (i : List Nat) (hi : InBounds X i) (hW : 0 < prod W)
    (hbad : x (ravel X i) < 0 ∨ (n : Int) ≤ x (ravel X i)) :
    ∃ p ∈ embedPairs (prod X) (prod W) x, p.2 < 0 ∨ (prod (n :: W) : Int) ≤ p.2 := by
  rcases hbad with h | h
  · refine ⟨(ravel X i * prod W + 0, x (ravel X i) * (prod W : Int) + (0 : Nat)), ?_, .inl ?_⟩
    · exact List.mem_flatMap.mpr ⟨_, List.mem_range.mpr (ravel_lt hi), List.mem_map.mpr ⟨0, List.mem_range.mpr hW, rfl⟩⟩
    · have h1 : x (ravel X i) * (prod W : Int) ≤ -1 * (prod W : Int) := Int.mul_le_mul_of_nonneg_right (by omega) (by omega)
      simp only [Int.natCast_zero, Int.add_zero]
      omega
  · refine ⟨(ravel X i * prod W + 0, x (ravel X i) * (prod W : Int) + (0 : Nat)), ?_, .inr ?_⟩
    · exact List.mem_flatMap.mpr ⟨_, List.mem_range.mpr (ravel_lt hi), List.mem_map.mpr ⟨0, List.mem_range.mpr hW, rfl⟩⟩
    · simp only [prod, Int.natCast_mul, Int.natCast_zero, Int.add_zero]
      exact Int.mul_le_mul_of_nonneg_right h (by omega)

example : (List.range 6).map (embedForward 3 2 (fun i => [1, 0, 1].getD i 0) (fun i => i + 10) (fun _ => (0 : Nat))) = [12, 13, 10, 11, 12, 13] := by decide

/-! ### OneHot -/

/-- OneHot::setup_impl (one_hot.cpp:28-50): number of positions, output shape. -/
def oneHotSetup (xsh shape : Shape) : Except String (Nat × Shape) :=
  match xsh.getLast? with
  | none => .error "assert"
  | some dim =>
    if ¬ shape.length = dim then .error "Shape size does not match last dimension of inputs[0]."
    else if dim = 0 then .error "division by zero"
    else .ok (prod xsh / dim, xsh.dropLast ++ shape)

/-- The inner loop of OneHot::forward_impl (one_hot.cpp:60-78), over the (number of classes, entry) pairs from the last
axis to the first. -/
def oneHotScan : List (Nat × Int) → Nat → Nat → Option Nat
  | [], addr, _ => some addr
  | (n, c) :: r, addr, size =>
    let c := if c < 0 then c + n else c
    if c < 0 ∨ (n : Int) ≤ c then none else oneHotScan r (addr + c.toNat * size) (size * n)

/-- OneHot::forward_impl (one_hot.cpp:52-83). -/
def oneHotForward {R} [Zero R] [One R] (shape : Shape) (num : Nat) (x : Nat → Int) (y : Mem R) : Mem R :=
  let size := prod shape
  let y := fun i => if i < num * size then 0 else y i
  (List.range num).foldl (fun m i =>
    match oneHotScan ((List.range shape.length).map fun a => (shape.getD a 0, x (i * shape.length + a))).reverse 0 1 with
    | some addr => put m (i * size + addr) 1
    | none => m) y

theorem oneHotScan_spec (S : Shape) (c : List Int) (hl : c.length = S.length) (a s : Nat) :
    oneHotScan (S.zip c).reverse a s =
      if ∀ p ∈ S.zip c, validIdx p.1 p.2 then some (a + s * ravel S ((S.zip c).map fun p => resolveIdx p.1 p.2)) else none := by
  have happ : ∀ (l l' : List (Nat × Int)) a s, oneHotScan (l ++ l') a s =
      (oneHotScan l a s).bind fun a' => oneHotScan l' a' (s * (l.map (·.1)).prod) := by
    intro l
    induction l with
    | nil => intro l' a s; simp [oneHotScan]
    | cons p l ih =>
      intro l' a s
      obtain ⟨n, v⟩ := p
      simp only [List.cons_append, oneHotScan, List.map_cons, List.prod_cons]
      by_cases hc : (if v < 0 then v + n else v) < 0 ∨ (n : Int) ≤ (if v < 0 then v + n else v)
      · rw [if_pos hc, if_pos hc]; rfl
      · rw [if_neg hc, if_neg hc, ih, Nat.mul_assoc]
  have hprod : ∀ l : List Nat, l.prod = prod l := by
    intro l; induction l with
    | nil => rfl
    | cons d l ih => simp [prod, ih]
  induction S generalizing c a s with
  | nil => cases c <;> simp [oneHotScan, ravel] at *
  | cons d S ih =>
    cases c with
    | nil => simp at hl
    | cons v c =>
      have hl : c.length = S.length := by simpa using hl
      rw [List.zip_cons_cons, List.reverse_cons, happ, ih c hl]
      by_cases h : ∀ p ∈ S.zip c, validIdx p.1 p.2
      · rw [if_pos h]
        simp only [Option.bind_some]
        have e : ((S.zip c).reverse.map (·.1)).prod = prod S := by
          rw [List.map_reverse, List.prod_reverse, List.map_fst_zip (by omega), hprod]
        rw [e]
        simp only [oneHotScan]
        have hcond : ((if v < 0 then v + d else v) < 0 ∨ (d : Int) ≤ (if v < 0 then v + d else v)) ↔ ¬ validIdx d v := by
          unfold validIdx
          split <;> omega
        rw [if_congr hcond rfl rfl]
        by_cases hv : validIdx d v
        · have hall : ∀ p ∈ (d, v) :: S.zip c, validIdx p.1 p.2 := by
            intro p hp
            rcases List.mem_cons.mp hp with rfl | hp
            · exact hv
            · exact h p hp
          rw [if_neg (not_not.mpr hv), if_pos hall]
          congr 1
          have : (if v < 0 then v + d else v).toNat = resolveIdx d v := by
            unfold resolveIdx
            split
            · rw [Int.add_comm]
            · rfl
          rw [this]
          simp only [List.map_cons, ravel]
          ring
        · have hall : ¬ ∀ p ∈ (d, v) :: S.zip c, validIdx p.1 p.2 := fun h' => hv (h' _ List.mem_cons_self)
          rw [if_pos hv, if_neg hall]
      · rw [if_neg h, if_neg]
        · rfl
        · intro h'
          exact h fun p hp => h' p (List.mem_cons_of_mem _ hp)

/-- **C80.** `one_hot(x, shape)` for x of shape `N × d` with `d = |shape| ≥ 1`: the result has shape `N × shape`, and
row n of it is one at the position that the entries `x[n, ·]` denote (negative entries count from the end) and zero
elsewhere; if any entry of the row is out of range, the whole row is zero. -/
theorem C80_one_hot {R} [Zero R] [One R] (N S : Shape) (hS : S ≠ []) (x : Nat → Int) (y : Mem R) :
    oneHotSetup (N ++ [S.length]) S = .ok (prod N, N ++ S) ∧
    ∀ n s, InBounds N n → InBounds S s →
      oneHotForward S (prod N) x y (ravel (N ++ S) (n ++ s)) =
        if ∀ a, a < S.length → validIdx (S.getD a 0) (x (ravel (N ++ [S.length]) (n ++ [a]))) ∧
            resolveIdx (S.getD a 0) (x (ravel (N ++ [S.length]) (n ++ [a]))) = s.getD a 0
        then 1 else 0 := by
  have hSl : 0 < S.length := List.length_pos_iff.mpr hS
  constructor
  · simp only [oneHotSetup, List.getLast?_append, List.getLast?_singleton, Option.some_or]
    rw [if_neg (by simp), if_neg (by omega), prod_append]
    simp [prod, Nat.mul_div_cancel _ hSl]
  · intro n s hn hs
    -- the scan of row i
    let row := fun i : Nat => (List.range S.length).map fun a => x (i * S.length + a)
    have hzip : ∀ i, ((List.range S.length).map fun a => (S.getD a 0, x (i * S.length + a))) = S.zip (row i) := by
      intro i
      apply List.ext_getElem
      · simp [row]
      · intro a h1 h2
        simp only [List.length_map, List.length_range] at h1
        simp [row, List.getD_eq_getElem?_getD, List.getElem?_eq_getElem h1]
    have hscan : ∀ i, oneHotScan ((List.range S.length).map fun a => (S.getD a 0, x (i * S.length + a))).reverse 0 1 =
        if ∀ a, a < S.length → validIdx (S.getD a 0) (x (i * S.length + a)) then
          some (ravel S ((List.range S.length).map fun a => resolveIdx (S.getD a 0) (x (i * S.length + a)))) else none := by
      intro i
      have := oneHotScan_spec S (row i) (by simp [row]) 0 1
      rw [← hzip] at this
      rw [this]
      simp only [Nat.zero_add, Nat.one_mul, List.map_map, Function.comp_def]
      refine if_congr ?_ rfl rfl
      simp [List.mem_map]
    rw [oneHotForward]
    simp only [hscan]
    have hlt : ∀ i, (∀ a, a < S.length → validIdx (S.getD a 0) (x (i * S.length + a))) →
        InBounds S ((List.range S.length).map fun a => resolveIdx (S.getD a 0) (x (i * S.length + a))) := by
      intro i h
      rw [inBounds_iff]
      refine ⟨by simp, ?_⟩
      intro a ha
      rw [getD_range_map _ _ _ ha]
      exact resolveIdx_lt _ _ (h a ha)
    have hgen : ∀ (m : Nat) (y0 : Mem R) (i r : Nat), r < prod S →
        (List.range m).foldl (fun m i =>
          match (if ∀ a, a < S.length → validIdx (S.getD a 0) (x (i * S.length + a)) then
            some (ravel S ((List.range S.length).map fun a => resolveIdx (S.getD a 0) (x (i * S.length + a)))) else none : Option Nat) with
          | some addr => put m (i * prod S + addr) 1
          | none => m) y0 (i * prod S + r) =
        if i < m ∧ (∀ a, a < S.length → validIdx (S.getD a 0) (x (i * S.length + a))) ∧
          ravel S ((List.range S.length).map fun a => resolveIdx (S.getD a 0) (x (i * S.length + a))) = r
        then 1 else y0 (i * prod S + r) := by
      intro m
      induction m with
      | zero => intro y0 i r _; simp
      | succ m ih =>
        intro y0 i r hr
        rw [List.range_succ, List.foldl_append]
        simp only [List.foldl_cons, List.foldl_nil]
        by_cases hv : ∀ a, a < S.length → validIdx (S.getD a 0) (x (m * S.length + a))
        · rw [if_pos hv]
          simp only
          by_cases e : i = m ∧ ravel S ((List.range S.length).map fun a => resolveIdx (S.getD a 0) (x (i * S.length + a))) = r
          · obtain ⟨rfl, e2⟩ := e
            rw [e2, put_same, if_pos ⟨by omega, hv, rfl⟩]
          · rw [put_other, ih _ _ _ hr]
            · refine if_congr ?_ rfl rfl
              constructor
              · rintro ⟨h1, h2, h3⟩; exact ⟨by omega, h2, h3⟩
              · rintro ⟨h1, h2, h3⟩
                refine ⟨?_, h2, h3⟩
                rcases Nat.lt_succ_iff_lt_or_eq.mp h1 with h | h
                · exact h
                · exact absurd ⟨h, h3⟩ e
            · intro e'
              have := divmod_unique (prod S) _ _ _ _ hr (ravel_lt (hlt m hv)) e'
              exact e ⟨this.1, by rw [this.2, this.1]⟩
        · rw [if_neg hv]
          simp only
          rw [ih _ _ _ hr]
          refine if_congr ?_ rfl rfl
          constructor
          · rintro ⟨h1, h2, h3⟩; exact ⟨by omega, h2, h3⟩
          · rintro ⟨h1, h2, h3⟩
            refine ⟨?_, h2, h3⟩
            rcases Nat.lt_succ_iff_lt_or_eq.mp h1 with h | h
            · exact h
            · subst h; exact absurd h2 hv
    rw [ravel_append _ _ _ _ hn.length, hgen _ _ _ _ (ravel_lt hs)]
    have hi : ravel N n < prod N := ravel_lt hn
    have hz : ravel N n * prod S + ravel S s < prod N * prod S := by
      have := Nat.mul_le_mul_right (prod S) hi
      rw [Nat.succ_mul] at this
      have := ravel_lt hs
      omega
    have hpos : ∀ a, ravel (N ++ [S.length]) (n ++ [a]) = ravel N n * S.length + a := by
      intro a
      rw [ravel_append _ _ _ _ hn.length]; simp [ravel, prod]
    simp only [hpos, if_pos hz]
    refine if_congr ?_ rfl rfl
    constructor
    · rintro ⟨_, h2, h3⟩ a ha
      refine ⟨h2 a ha, ?_⟩
      have := ravel_inj S _ _ (hlt _ h2) hs h3
      rw [← this, getD_range_map _ _ _ ha]
    · intro h
      refine ⟨hi, fun a ha => (h a ha).1, ?_⟩
      congr 1
      apply List.ext_getElem
      · simp [hs.length]
      · intro a h1 h2
        simp only [List.length_map, List.length_range] at h1
        have := (h a h1).2
        simp only [List.getElem_map, List.getElem_range]
        rw [this, List.getD_eq_getElem?_getD, List.getElem?_eq_getElem h2]
        rfl

example : (List.range 12).map (oneHotForward (R := Int) [2, 2] 3 (fun i => [1, -1, 0, 2, -2, 0].getD i 0) (fun _ => 7)) =
    [0, 0, 0, 1, 0, 0, 0, 0, 1, 0, 0, 0] := by decide

/-! ### Where -/

/-- Where::setup_impl (where.cpp:24-39). -/
def whereSetup (csh tsh fsh : Shape) : Except String Shape :=
  if ¬ tsh = fsh then .error "x_true and x_false must have same dimensions."
  else if ¬ csh.length ≤ tsh.length then .error "Rank of condition must be less than or equal to that of x_true or x_false."
  else if ∃ d, d < csh.length ∧ csh.getD d 0 ≠ tsh.getD d 0 then
    .error "The first dimensions of x_true and x_false must be the same as the shape of condition."
  else .ok tsh

/-- Where::forward_impl (where.cpp:41-55); `csize`, `xsize` elements. -/
def whereForward {R} [Zero R] [DecidableEq R] (csize xsize : Nat) (c t f y : Mem R) : Except String (Mem R) :=
  if csize = 0 then .error "division by zero"
  else .ok fun s => if s < xsize then (if c (s / (xsize / csize)) ≠ 0 then t s else f s) else y s

/-- Where::backward_impl (where.cpp:57-90): gradient of x_true (`side = true`) or x_false. -/
def whereBackward {R} [Zero R] [Add R] [DecidableEq R] (csize xsize : Nat) (c : Mem R) (side accum : Bool) (dy dx : Mem R) : Mem R :=
  fun s => if s < xsize then
    (if accum then dx s else 0) + (if (decide (c (s / (xsize / csize)) ≠ 0)) = side then dy s else 0) else dx s

/-- **C80.** `where(c, t, f)` for c of shape `C` (not empty) and t, f of shape `C × T`: element `(i, j)` is `t[i, j]` where
`c[i]` is not zero and `f[i, j]` elsewhere; each gradient is the part of the output gradient whose elements came from
that input, also when gradients accumulate; c gets none. -/
theorem C80_where {R} [CommSemiring R] [DecidableEq R] (C T : Shape) (c y : Mem R) (hC : 0 < prod C) :
    whereSetup C (C ++ T) (C ++ T) = .ok (C ++ T) ∧
    ∃ F : Mem R → Mem R → Mem R, (∀ t f, whereForward (prod C) (prod (C ++ T)) c t f y = .ok (F t f)) ∧
      (∀ t f i j, InBounds C i → InBounds T j → F t f (ravel (C ++ T) (i ++ j)) =
        if c (ravel C i) ≠ 0 then t (ravel (C ++ T) (i ++ j)) else f (ravel (C ++ T) (i ++ j))) ∧
      (∀ t f dy g1 g2, dot (prod (C ++ T)) dy (F t f) =
        dot (prod (C ++ T)) (callBackward (whereBackward (prod C) (prod (C ++ T)) c true) false dy g1) t +
        dot (prod (C ++ T)) (callBackward (whereBackward (prod C) (prod (C ++ T)) c false) false dy g2) f) ∧
      ∀ side dy dx dx' k, callBackward (whereBackward (prod C) (prod (C ++ T)) c side) true dy dx k =
        dx k + callBackward (whereBackward (prod C) (prod (C ++ T)) c side) false dy dx' k := by
  constructor
  · rw [whereSetup, if_neg (by simp), if_neg (by simp), if_neg]
    rintro ⟨d, hd, hne⟩
    exact hne (by rw [getD_append_lt _ _ _ _ hd])
  · refine ⟨_, fun t f => by rw [whereForward, if_neg (by omega)], ?_, ?_, ?_⟩
    · intro t f i j hi hj
      have hij : InBounds (C ++ T) (i ++ j) := (inBounds_append _ _ _ _ hi.length).mpr ⟨hi, hj⟩
      rw [if_pos (ravel_lt hij)]
      have hT := ravel_lt hj
      have e : ravel (C ++ T) (i ++ j) / (prod (C ++ T) / prod C) = ravel C i := by
        rw [prod_append, Nat.mul_div_cancel_left _ hC, ravel_append _ _ _ _ hi.length, Nat.add_comm,
          Nat.add_mul_div_right _ _ (by omega), Nat.div_eq_of_lt hT, Nat.zero_add]
      rw [e]
    · intro t f dy g1 g2
      simp only [dot]
      rw [← Finset.sum_add_distrib]
      apply Finset.sum_congr rfl
      intro k hk
      have hk := Finset.mem_range.mp hk
      simp only [callBackward, whereBackward, if_pos hk, Bool.false_eq_true, if_false, zero_add]
      by_cases h : c (k / (prod (C ++ T) / prod C)) = 0 <;> simp [h]
    · intro side dy dx dx' k
      simp only [callBackward, whereBackward, if_true, Bool.false_eq_true, if_false, zero_add]
      by_cases hk : k < prod (C ++ T)
      · rw [if_pos hk, if_pos hk]
      · rw [if_neg hk, if_neg hk]; simp [zeros]

/-- **C80, refuted part.** An empty condition divides by zero although setup accepts it. -/
theorem C80_refuted_where_empty : whereSetup [0] [0, 3] [0, 3] = .ok [0, 3] ∧
    ∀ c t f y : Mem Int, whereForward (prod [0]) (prod [0, 3]) c t f y = .error "division by zero" :=
  ⟨by decide, fun _ _ _ _ => rfl⟩

example : (match whereForward 2 4 (fun i => (i : Int)) (fun i => i + 10) (fun i => i + 20) (fun _ => 0) with
    | .ok m => (List.range 4).map m | .error _ => []) = [20, 21, 12, 13] := by decide

end Verif.Fn
