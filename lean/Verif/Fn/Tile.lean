import Verif.Fn.Props
import Verif.Fn.ChunkProps
/-
Tile: models /repo/src/nbla/function/generic/tile.cpp, ndi::multiply and ndi::expand.
Simplifications: `int` is unbounded; `ndi::increment(index, shape, axis)` walks the first axis+1 entries and
leaves the others 0, so the loop is modelled as the loop over that prefix.
-/
namespace Verif.Fn
open Verif.ND

/-- ndi::multiply (nd_index.hpp:184-197). -/
def ndMultiply (a b : List Nat) : List Nat :=
  List.zipWith (· * ·) (expand a (max a.length b.length) 1) (expand b (max a.length b.length) 1)

/-- `for (i < n) *dst++ = iota++` (tile.cpp:60-62). -/
def fillIota (m : Mem Nat) (dst n iota : Nat) : Mem Nat :=
  (List.range n).foldl (fun m i => put m (dst + i) (iota + i)) m

/-- memcpy of `n` ints (the ranges never overlap here). -/
def memcpy (m : Mem Nat) (dst src n : Nat) : Mem Nat := fun i => if dst ≤ i ∧ i < dst + n then m (src + (i - dst)) else m i

/-- `k` copies of the block `[b, b+cnt)` behind it (tile.cpp:63-66, 76-78). -/
def copies (m : Mem Nat) (b cnt k : Nat) : Mem Nat :=
  (List.range' 1 k).foldl (fun m r => memcpy m (b + r * cnt) b cnt) m

/-- First loop (tile.cpp:58-67). -/
def tilePhase1 (src map reps : List Nat) (m : Mem Nat) : Mem Nat :=
  let n := src.length - 1
  let last := src.getD n 0
  ((visitLoop (src.take n) (prod (src.take n) + 1) (zeroIndex n)).foldl (fun st p =>
    let b := nd2flat p (cStrides map)
    (copies (fillIota st.1 b last st.2) b last (reps.getD n 0 - 1), st.2 + last)) (m, 0)).1

/-- Body of the second loop for one axis (tile.cpp:73-79). -/
def tileAxis (src map reps : List Nat) (axis : Nat) (m : Mem Nat) : Mem Nat :=
  (visitLoop (src.take axis) (prod (src.take axis) + 1) (zeroIndex axis)).foldl (fun m p =>
    copies m (nd2flat p (cStrides map)) (innerSize map axis / reps.getD axis 0) (reps.getD axis 0 - 1)) m

/-- Second loop: axis = reps.size()-2, …, 1 (tile.cpp:72-80). -/
def tilePhase2 (src map reps : List Nat) (m : Mem Nat) : Mem Nat :=
  ((List.range' 1 (reps.length - 2)).reverse).foldl (fun m axis => tileAxis src map reps axis m) m

/-- Members set by setup_impl. -/
structure TileState where
  oshape : Shape
  mapShape : Shape
  idxmap : Mem Nat

/-- Tile::setup_impl (tile.cpp:28-81); `garbage` is the previous content of idxmap_. -/
def tileSetup (reps : List Int) (xsh : Shape) (garbage : Mem Nat) : Except String TileState :=
  if ∃ r ∈ reps, r < 1 then .error "No repetition may be less than 1."
  else
    let repsN := reps.map Int.toNat
    let oshape := ndMultiply xsh repsN
    let reps := expand repsN (oshape.length + 1) 1
    let mapSh := expand oshape reps.length 1
    let srcSh := expand xsh reps.length 1
    .ok ⟨oshape, mapSh, tilePhase2 srcSh mapSh reps (tilePhase1 srcSh mapSh reps garbage)⟩

/-- The pairs of forward and backward (tile.cpp:90-92, 113-115). -/
def tilePairs (s : TileState) : Pairs := (List.range (prod s.mapShape)).map fun i => (i, s.idxmap i)

/-- Tile::forward_impl. -/
def tileForward {R} (s : TileState) (x y : Mem R) : Mem R := fwd (tilePairs s) x y

/-- Tile::backward_impl. -/
def tileBackward {R} [Zero R] [Add R] (s : TileState) (accum : Bool) (dy dx : Mem R) : Mem R :=
  bwdAdd (tilePairs s) dy (if accum then dx else zeros)

/-! ### Lemmas -/

theorem fillIota_eq (m : Mem Nat) (dst n iota i : Nat) :
    fillIota m dst n iota i = if dst ≤ i ∧ i < dst + n then iota + (i - dst) else m i := by
  induction n with
  | zero => rw [if_neg (by omega)]; rfl
  | succ n ih =>
    have e : fillIota m dst (n + 1) iota = put (fillIota m dst n iota) (dst + n) (iota + n) := by
      simp only [fillIota, List.range_succ, List.foldl_append, List.foldl_cons, List.foldl_nil]
    rw [e]
    by_cases h : i = dst + n
    · subst h; rw [put_same, if_pos (by omega)]; omega
    · rw [put_other _ _ h, ih]
      by_cases h2 : dst ≤ i ∧ i < dst + n
      · rw [if_pos h2, if_pos (by omega)]
      · rw [if_neg h2, if_neg (by omega)]

theorem copies_eq (m : Mem Nat) (b cnt k i : Nat) :
    copies m b cnt k i = if b ≤ i ∧ i < b + (k + 1) * cnt then m (b + (i - b) % cnt) else m i := by
  induction k generalizing i with
  | zero =>
    simp only [copies, List.range'_zero, List.foldl_nil, Nat.zero_add, Nat.one_mul]
    by_cases h : b ≤ i ∧ i < b + cnt
    · rw [if_pos h, Nat.mod_eq_of_lt (by omega)]; congr 1; omega
    · rw [if_neg h]
  | succ k ih =>
    have e : copies m b cnt (k + 1) = memcpy (copies m b cnt k) (b + (k + 1) * cnt) b cnt := by
      simp only [copies, List.range'_concat, List.foldl_append, List.foldl_cons, List.foldl_nil, Nat.one_mul, Nat.add_comm 1]
    rw [e, memcpy]
    have e2 : (k + 1 + 1) * cnt = (k + 1) * cnt + cnt := by rw [Nat.add_mul, Nat.one_mul]
    by_cases h : b + (k + 1) * cnt ≤ i ∧ i < b + (k + 1) * cnt + cnt
    · rw [if_pos h, ih, if_pos, if_pos (by omega)]
      · congr 2
        have : i - b = (i - (b + (k + 1) * cnt)) + cnt * (k + 1) := by rw [Nat.mul_comm cnt]; omega
        rw [this, Nat.add_mul_mod_self_left]
        congr 1; omega
      · have : cnt ≤ (k + 1) * cnt := Nat.le_mul_of_pos_left _ (by omega)
        omega
    · rw [if_neg h, ih]
      by_cases h2 : b ≤ i ∧ i < b + (k + 1) * cnt
      · rw [if_pos h2, if_pos (by omega)]
      · rw [if_neg h2, if_neg (by omega)]

/-- Operations that read and write only their own block can be looked at one at a time. -/
theorem foldl_blocks {α} (key : α → Nat) (blk : Nat) (op : α → Mem Nat → Mem Nat)
    (hout : ∀ p m i, ¬ (key p * blk ≤ i ∧ i < key p * blk + blk) → op p m i = m i)
    (hin : ∀ p m m', (∀ i, key p * blk ≤ i → i < key p * blk + blk → m i = m' i) →
      ∀ i, key p * blk ≤ i → i < key p * blk + blk → op p m i = op p m' i)
    (L : List α) (hn : (L.map key).Nodup) (m : Mem Nat) :
    (∀ p ∈ L, ∀ i, key p * blk ≤ i → i < key p * blk + blk → L.foldl (fun m p => op p m) m i = op p m i) ∧
    (∀ i, (∀ p ∈ L, ¬ (key p * blk ≤ i ∧ i < key p * blk + blk)) → L.foldl (fun m p => op p m) m i = m i) := by
  have disj : ∀ a b i : Nat, a ≠ b → a * blk ≤ i → i < a * blk + blk → ¬ (b * blk ≤ i ∧ i < b * blk + blk) := by
    intro a b i hab h1 h2 ⟨h3, h4⟩
    rcases Nat.lt_or_gt_of_ne hab with h | h
    · have : (a + 1) * blk ≤ b * blk := Nat.mul_le_mul_right _ h
      rw [Nat.add_mul, Nat.one_mul] at this; omega
    · have : (b + 1) * blk ≤ a * blk := Nat.mul_le_mul_right _ h
      rw [Nat.add_mul, Nat.one_mul] at this; omega
  induction L generalizing m with
  | nil => exact ⟨by simp, by simp⟩
  | cons q L ih =>
    simp only [List.map_cons, List.nodup_cons] at hn
    obtain ⟨ih1, ih2⟩ := ih hn.2 (op q m)
    constructor
    · intro p hp i h1 h2
      simp only [List.foldl_cons]
      rcases List.mem_cons.mp hp with rfl | hp
      · apply ih2
        intro p' hp' hc
        have hne : key p' ≠ key p := fun e => hn.1 (e ▸ List.mem_map.mpr ⟨p', hp', rfl⟩)
        exact disj _ _ i hne hc.1 hc.2 ⟨h1, h2⟩
      · rw [ih1 p hp i h1 h2]
        refine hin p _ _ ?_ i h1 h2
        intro i' h3 h4
        apply hout
        have hne : key p ≠ key q := fun e => hn.1 (e ▸ List.mem_map.mpr ⟨p, hp, rfl⟩)
        exact disj _ _ i' hne h3 h4
    · intro i hi
      simp only [List.foldl_cons]
      rw [ih2 i (fun p hp => hi p (List.mem_cons_of_mem _ hp)), hout q m i (hi q List.mem_cons_self)]

theorem nd2flat_prefix (A X : Shape) (p : List Nat) (h : p.length = A.length) :
    nd2flat p (cStrides (A ++ X)) = ravel A p * prod X := by
  induction A generalizing p with
  | nil => cases p with
    | nil => cases hX : cStrides X <;> simp [nd2flat, ravel, hX]
    | cons _ _ => simp at h
  | cons d A ih => cases p with
    | nil => simp at h
    | cons i is =>
      simp only [List.cons_append, cStrides_cons, nd2flat, ravel, ih is (by simpa using h), prod_append, Nat.add_mul,
        Nat.mul_assoc]

/-- Componentwise remainder. -/
def modIdx (X : Shape) (q : List Nat) : List Nat := List.zipWith (· % ·) q X

/-- The index map is right on the part tiled so far: axes of `X` are tiled, axes of `A` are not. -/
def Tiled (A A' X X' : Shape) (m : Mem Nat) : Prop :=
  ∀ p q, InBounds A p → InBounds X' q →
    m (ravel A' p * prod X' + ravel X' q) = ravel A p * prod X + ravel X (modIdx X q)

/-- Componentwise ≤, same length. -/
def ShapeLe : Shape → Shape → Prop
  | a :: A, b :: B => a ≤ b ∧ ShapeLe A B
  | [], [] => True
  | _, _ => False

theorem ShapeLe.inBounds {A A' : Shape} (h : ShapeLe A A') {p : List Nat} (hp : InBounds A p) : InBounds A' p := by
  induction A generalizing A' p with
  | nil => cases A' <;> cases p <;> simp_all [ShapeLe, InBounds]
  | cons a A ih => cases A' with
    | nil => exact h.elim
    | cons b A' => cases p with
      | nil => exact hp.elim
      | cons i is => exact ⟨Nat.lt_of_lt_of_le hp.1 h.1, ih h.2 hp.2⟩

theorem ShapeLe.length {A A' : Shape} (h : ShapeLe A A') : A.length = A'.length := by
  induction A generalizing A' with
  | nil => cases A' <;> simp_all [ShapeLe]
  | cons a A ih => cases A' with
    | nil => exact h.elim
    | cons b A' => simp [ih h.2]

theorem mod_block (i P d s : Nat) (hs : s < P) : (i * P + s) % (d * P) = i % d * P + s := by
  have hP : 0 < P := by omega
  rcases Nat.eq_zero_or_pos d with rfl | hd
  · simp
  have h1 : i % d < d := Nat.mod_lt _ hd
  have h2 : i = d * (i / d) + i % d := (Nat.div_add_mod i d).symm
  have h3 : i * P + s = (i % d * P + s) + d * P * (i / d) := by
    conv => lhs; rw [h2]
    rw [Nat.add_mul, Nat.mul_right_comm d]
    omega
  rw [h3, Nat.add_mul_mod_self_left, Nat.mod_eq_of_lt]
  have : (i % d + 1) * P ≤ d * P := Nat.mul_le_mul_right _ h1
  rw [Nat.add_mul, Nat.one_mul] at this; omega

theorem keys_nodup (A A' : Shape) (h : ShapeLe A A') : ((indices A).map (ravel A')).Nodup := by
  apply List.Nodup.map_on
  · intro p hp q hq e
    exact ravel_inj A' p q (h.inBounds ((mem_indices _ _).mp hp)) (h.inBounds ((mem_indices _ _).mp hq)) e
  · exact (indices_nodup A).of_map _

/-- Loop over prefixes with block-local bodies. -/
theorem prefix_loop (A A' : Shape) (h : ShapeLe A A') (hpos : 0 < prod A) (blk : Nat) (op : List Nat → Mem Nat → Mem Nat)
    (hout : ∀ p m i, ¬ (ravel A' p * blk ≤ i ∧ i < ravel A' p * blk + blk) → op p m i = m i)
    (hin : ∀ p m m', (∀ i, ravel A' p * blk ≤ i → i < ravel A' p * blk + blk → m i = m' i) →
      ∀ i, ravel A' p * blk ≤ i → i < ravel A' p * blk + blk → op p m i = op p m' i) (m : Mem Nat) (p : List Nat)
    (hp : InBounds A p) (i : Nat) (hi : i < blk) :
    ((visitLoop A (prod A + 1) (zeroIndex A.length)).foldl (fun m p => op p m) m) (ravel A' p * blk + i) =
      op p m (ravel A' p * blk + i) := by
  rw [visit_eq _ _ hpos (by omega)]
  exact (foldl_blocks (ravel A') blk op hout hin (indices A) (keys_nodup A A' h) m).1 p ((mem_indices _ _).mpr hp) _
    (by omega) (by omega)

theorem ravel_snoc (A : Shape) (d : Nat) (p : List Nat) (i : Nat) (h : p.length = A.length) :
    ravel (A ++ [d]) (p ++ [i]) = ravel A p * d + i := by
  rw [ravel_append _ _ _ _ h]; simp [ravel, prod]

theorem inBounds_app (A B : Shape) (p q : List Nat) (hp : InBounds A p) (hq : InBounds B q) : InBounds (A ++ B) (p ++ q) := by
  induction A generalizing p with
  | nil => cases p with
    | nil => simpa using hq
    | cons _ _ => exact hp.elim
  | cons d A ih => cases p with
    | nil => exact hp.elim
    | cons i is => exact ⟨hp.1, ih is hp.2⟩

theorem copies_local (b cnt k blk : Nat) (hb : (k + 1) * cnt ≤ blk) :
    (∀ m i, ¬ (b ≤ i ∧ i < b + blk) → copies m b cnt k i = m i) ∧
    (∀ m m' : Mem Nat, (∀ i, b ≤ i → i < b + blk → m i = m' i) → ∀ i, b ≤ i → i < b + blk →
      copies m b cnt k i = copies m' b cnt k i) := by
  constructor
  · intro m i hi
    rw [copies_eq, if_neg (by omega)]
  · intro m m' h i h1 h2
    rw [copies_eq, copies_eq]
    by_cases hc : b ≤ i ∧ i < b + (k + 1) * cnt
    · rw [if_pos hc, if_pos hc]
      apply h
      · omega
      · have : (i - b) % cnt ≤ i - b := Nat.mod_le _ _
        omega
    · rw [if_neg hc, if_neg hc, h i h1 h2]

/-- One step of the second loop. -/
theorem tileAxis_step (A A' B B' : Shape) (d r : Nat) (hr : 0 < r) (h : ShapeLe A A') (hposA : 0 < prod A) (hd : 0 < d)
    (reps : List Nat) (hreps : reps.getD A.length 0 = r) (m : Mem Nat)
    (hm : Tiled (A ++ [d]) (A' ++ [d * r]) B B' m) :
    Tiled A A' (d :: B) ((d * r) :: B') (tileAxis (A ++ d :: B) (A' ++ (d * r) :: B') reps A.length m) := by
  intro p q hp hq
  cases q with
  | nil => exact hq.elim
  | cons i q' =>
    have hl := h.length
    have hpl := hp.length
    rw [tileAxis, List.take_left, hreps]
    have hcnt : innerSize (A' ++ (d * r) :: B') A.length / r = d * prod B' := by
      rw [innerSize, hl, List.drop_left, foldl_mul, Nat.one_mul]
      simp only [prod]
      rw [Nat.mul_right_comm, Nat.mul_div_cancel _ hr]
    rw [hcnt]
    have hblk : (r - 1 + 1) * (d * prod B') = prod ((d * r) :: B') := by
      rw [show r - 1 + 1 = r by omega]; simp only [prod]; rw [← Nat.mul_assoc, Nat.mul_comm r]
    have hop : ∀ p ∈ visitLoop A (prod A + 1) (zeroIndex A.length), ∀ m : Mem Nat,
        copies m (nd2flat p (cStrides (A' ++ (d * r) :: B'))) (d * prod B') (r - 1) =
        copies m (ravel A' p * prod ((d * r) :: B')) (d * prod B') (r - 1) := by
      intro p hp m
      rw [visit_eq _ _ hposA (by omega), mem_indices] at hp
      rw [nd2flat_prefix _ _ _ (by rw [hp.length, hl])]
    have e1 : (visitLoop A (prod A + 1) (zeroIndex A.length)).foldl (fun m p =>
        copies m (nd2flat p (cStrides (A' ++ (d * r) :: B'))) (d * prod B') (r - 1)) m =
        (visitLoop A (prod A + 1) (zeroIndex A.length)).foldl (fun m p =>
        copies m (ravel A' p * prod ((d * r) :: B')) (d * prod B') (r - 1)) m := by
      have : ∀ (L : List (List Nat)), (∀ p ∈ L, p ∈ visitLoop A (prod A + 1) (zeroIndex A.length)) → ∀ m : Mem Nat,
          L.foldl (fun m p => copies m (nd2flat p (cStrides (A' ++ (d * r) :: B'))) (d * prod B') (r - 1)) m =
          L.foldl (fun m p => copies m (ravel A' p * prod ((d * r) :: B')) (d * prod B') (r - 1)) m := by
        intro L
        induction L with
        | nil => intro _ m; rfl
        | cons p L ih =>
          intro hL m
          simp only [List.foldl_cons]
          rw [hop p (hL p List.mem_cons_self), ih (fun p hp => hL p (List.mem_cons_of_mem _ hp))]
      exact this _ (fun _ h => h) m
    rw [e1, prefix_loop A A' h hposA (prod ((d * r) :: B')) _ _ _ m p hp _ (ravel_lt hq), copies_eq, if_pos, Nat.add_sub_cancel_left]
    · have hs : ravel B' q' < prod B' := ravel_lt hq.2
      have e2 : ravel ((d * r) :: B') (i :: q') % (d * prod B') = i % d * prod B' + ravel B' q' := by
        simp only [ravel]; exact mod_block i (prod B') d _ hs
      have key := hm (p ++ [i % d]) q' (inBounds_app A [d] p [i % d] hp ⟨Nat.mod_lt _ hd, trivial⟩) hq.2
      rw [ravel_snoc _ _ _ _ (by rw [hpl, hl]), ravel_snoc _ _ _ _ hpl] at key
      rw [e2]
      have e3 : ravel A' p * prod ((d * r) :: B') + (i % d * prod B' + ravel B' q') =
          (ravel A' p * (d * r) + i % d) * prod B' + ravel B' q' := by
        simp only [prod, Nat.add_mul, Nat.mul_assoc, Nat.add_assoc]
      rw [e3, key]
      simp only [modIdx, List.zipWith_cons_cons, ravel, prod, Nat.add_mul, Nat.mul_assoc, Nat.add_assoc]
    · rw [hblk]
      have := ravel_lt hq
      omega
    · intro p m i hi
      exact (copies_local (ravel A' p * prod ((d * r) :: B')) (d * prod B') (r - 1) _ (by rw [hblk])).1 m i hi
    · intro p m m' hmm i h1 h2
      exact (copies_local (ravel A' p * prod ((d * r) :: B')) (d * prod B') (r - 1) _ (by rw [hblk])).2 m m' hmm i h1 h2

theorem foldl_iota (L : List (List Nat)) (op : List Nat → Nat → Mem Nat → Mem Nat) (last k0 : Nat) (m : Mem Nat) :
    (L.foldl (fun (st : Mem Nat × Nat) p => (op p st.2 st.1, st.2 + last)) (m, k0 * last)).1 =
      (L.zip (List.range' k0 L.length)).foldl (fun m pr => op pr.1 (pr.2 * last) m) m := by
  induction L generalizing k0 m with
  | nil => rfl
  | cons p L ih =>
    simp only [List.foldl_cons, List.length_cons, List.range'_succ, List.zip_cons_cons]
    rw [← ih (k0 + 1), Nat.add_mul, Nat.one_mul]

/-- The first loop. -/
theorem tilePhase1_tiled (A A' : Shape) (d r : Nat) (hr : 0 < r) (h : ShapeLe A A') (hposA : 0 < prod A) (hd : 0 < d)
    (reps : List Nat) (hreps : reps.getD A.length 0 = r) (m : Mem Nat) :
    Tiled A A' [d] [d * r] (tilePhase1 (A ++ [d]) (A' ++ [d * r]) reps m) := by
  intro p q hp hq
  match q, hq with
  | [i], hq =>
    have hi : i < d * r := hq.1
    have hl := h.length
    have e0 : (A ++ [d]).length - 1 = A.length := by simp
    have e1 : (A ++ [d]).getD A.length 0 = d := by simp [List.getD_eq_getElem?_getD]
    simp only [tilePhase1]
    rw [e0, e1, List.take_left, hreps, visit_eq _ _ hposA (by omega)]
    have := foldl_iota (indices A) (fun p io m => copies (fillIota m (nd2flat p (cStrides (A' ++ [d * r]))) d io)
      (nd2flat p (cStrides (A' ++ [d * r]))) d (r - 1)) d 0 m
    rw [Nat.zero_mul] at this
    rw [this]
    have e2 : (indices A).zip (List.range' 0 (indices A).length) = (indices A).map fun p => (p, ravel A p) := by
      rw [indices_length, ← List.range_eq_range', ← indices_ravel, List.zip_map_right]
      have : ∀ L : List (List Nat), (L.zip L).map (Prod.map id (ravel A)) = L.map fun p => (p, ravel A p) := by
        intro L
        induction L with
        | nil => rfl
        | cons a L ih => simp [ih]
      exact this _
    rw [e2, List.foldl_map]
    have e3 : ∀ (L : List (List Nat)), (∀ p ∈ L, InBounds A p) → ∀ m : Mem Nat,
        L.foldl (fun m p => copies (fillIota m (nd2flat p (cStrides (A' ++ [d * r]))) d (ravel A p * d))
          (nd2flat p (cStrides (A' ++ [d * r]))) d (r - 1)) m =
        L.foldl (fun m p => copies (fillIota m (ravel A' p * (d * r)) d (ravel A p * d)) (ravel A' p * (d * r)) d (r - 1)) m := by
      intro L
      induction L with
      | nil => intro _ m; rfl
      | cons p L ih =>
        intro hL m
        simp only [List.foldl_cons]
        rw [ih (fun p hp => hL p (List.mem_cons_of_mem _ hp)), nd2flat_prefix _ _ _ (by rw [(hL p List.mem_cons_self).length, hl])]
        simp [prod]
    rw [e3 _ (fun p hp => (mem_indices _ _).mp hp)]
    have hb : (r - 1 + 1) * d ≤ d * r := by rw [show r - 1 + 1 = r by omega, Nat.mul_comm]
    have hle : d ≤ d * r := Nat.le_mul_of_pos_right _ hr
    have hfold := (foldl_blocks (ravel A') (d * r)
      (fun p m => copies (fillIota m (ravel A' p * (d * r)) d (ravel A p * d)) (ravel A' p * (d * r)) d (r - 1))
      (by
        intro p m i hi
        rw [(copies_local _ d (r - 1) _ hb).1 _ i hi, fillIota_eq, if_neg (by omega)])
      (by
        intro p m m' hmm i h1 h2
        refine (copies_local _ d (r - 1) _ hb).2 _ _ ?_ i h1 h2
        intro i h1 h2
        rw [fillIota_eq, fillIota_eq]
        by_cases hc : ravel A' p * (d * r) ≤ i ∧ i < ravel A' p * (d * r) + d
        · rw [if_pos hc, if_pos hc]
        · rw [if_neg hc, if_neg hc, hmm i h1 h2])
      (indices A) (keys_nodup A A' h) m).1 p ((mem_indices _ _).mpr hp) (ravel A' p * (d * r) + i) (by omega) (by omega)
    have e4 : ravel A' p * prod [d * r] + ravel [d * r] [i] = ravel A' p * (d * r) + i := by simp [prod, ravel]
    rw [e4, hfold, copies_eq, if_pos, fillIota_eq, if_pos]
    · simp [modIdx, ravel, prod]
    · have : i % d < d := Nat.mod_lt _ hd
      simp only [Nat.add_sub_cancel_left]; omega
    · rw [show r - 1 + 1 = r by omega, Nat.mul_comm r]; omega

/-- The second loop, from `Tiled (A ++ [d]) …` down to axis 1. `k` = number of axes left (axes 1 … k). -/
theorem tilePhase2_tiled (k : Nat) (src map reps : List Nat) (hl1 : map.length = src.length) (hl2 : reps.length = src.length)
    (hmap : ∀ a, a < src.length → map.getD a 0 = src.getD a 0 * reps.getD a 0)
    (hr : ∀ a, a < src.length → 0 < reps.getD a 0) (hpos : ∀ a, a < src.length → 0 < src.getD a 0)
    (hk : k + 1 ≤ src.length) (m : Mem Nat)
    (hm : Tiled (src.take (k + 1)) (map.take (k + 1)) (src.drop (k + 1)) (map.drop (k + 1)) m) :
    Tiled (src.take 1) (map.take 1) (src.drop 1) (map.drop 1)
      (((List.range' 1 k).reverse).foldl (fun m axis => tileAxis src map reps axis m) m) := by
  induction k generalizing m with
  | zero => simpa using hm
  | succ k ih =>
    rw [List.range'_concat, List.reverse_append, List.foldl_append]
    simp only [List.reverse_cons, List.reverse_nil, List.nil_append, List.foldl_cons, List.foldl_nil, Nat.one_mul]
    apply ih (by omega)
    have hlt : k + 1 < src.length := by omega
    have split : ∀ l : List Nat, l.length = src.length → l = l.take (k + 1) ++ l.getD (k + 1) 0 :: l.drop (k + 2) ∧
        l.take (k + 1 + 1) = l.take (k + 1) ++ [l.getD (k + 1) 0] ∧ l.drop (k + 1) = l.getD (k + 1) 0 :: l.drop (k + 2) := by
      intro l hl
      have h1 : k + 1 < l.length := by omega
      have hg : l.getD (k + 1) 0 = l[k + 1] := by simp [List.getD_eq_getElem?_getD, List.getElem?_eq_getElem h1]
      have hd : l.drop (k + 1) = l.getD (k + 1) 0 :: l.drop (k + 2) := by rw [hg]; exact List.drop_eq_getElem_cons h1
      refine ⟨?_, ?_, hd⟩
      · conv => lhs; rw [← List.take_append_drop (k + 1) l, hd]
      · rw [hg]; exact (List.take_concat_get' l (k + 1) h1).symm
    obtain ⟨s1, s2, s3⟩ := split src rfl
    obtain ⟨t1, t2, t3⟩ := split map hl1
    have hAl : (src.take (k + 1)).length = k + 1 := by simp; omega
    have hle : ∀ n, n ≤ src.length → ShapeLe (src.take n) (map.take n) := by
      clear ih hm split s1 s2 s3 t1 t2 t3 hAl hk hlt m
      induction src generalizing map reps with
      | nil => intro n _; cases map <;> simp_all [ShapeLe]
      | cons a src ih2 => cases map with
        | nil => simp at hl1
        | cons b map => cases reps with
          | nil => simp at hl2
          | cons c reps =>
            intro n hn
            cases n with
            | zero => simp [ShapeLe]
            | succ n =>
              have h0 := hmap 0 (by simp)
              have h00 := hr 0 (by simp)
              simp only [List.getD_cons_zero] at h0 h00
              refine ⟨by rw [h0]; exact Nat.le_mul_of_pos_right _ h00, ?_⟩
              exact ih2 map reps (by simpa using hl1) (by simpa using hl2)
                (fun a ha => by simpa using hmap (a + 1) (by simpa using ha))
                (fun a ha => by simpa using hr (a + 1) (by simpa using ha))
                (fun a ha => by simpa using hpos (a + 1) (by simpa using ha)) n (by simpa using hn)
    have hposTake : ∀ n, n ≤ src.length → 0 < prod (src.take n) := by
      clear ih hm split s1 s2 s3 t1 t2 t3 hAl hle hk hlt m hl1 hl2 hmap hr
      induction src with
      | nil => intro n _; simp [prod]
      | cons a src ih2 =>
        intro n hn
        cases n with
        | zero => simp [prod]
        | succ n =>
          have h0 := hpos 0 (by simp)
          simp only [List.getD_cons_zero] at h0
          exact Nat.mul_pos h0 (ih2 (fun a ha => by simpa using hpos (a + 1) (by simpa using ha)) n (by simpa using hn))
    have e := hmap (k + 1) hlt
    rw [e] at t1 t2 t3
    have key := tileAxis_step (src.take (k + 1)) (map.take (k + 1)) (src.drop (k + 2)) (map.drop (k + 2)) (src.getD (k + 1) 0)
      (reps.getD (k + 1) 0) (hr _ hlt) (hle _ (by omega)) (hposTake _ (by omega)) (hpos _ hlt) reps (by rw [hAl]) m
      (by rw [← s2, ← t2]; exact hm)
    rw [← s1, ← t1, ← s3, ← t3, hAl] at key
    rw [Nat.add_comm 1 k]
    exact key

theorem getD_expand (a : List Nat) (n v i : Nat) (h : i < max a.length n) :
    (expand a n v).getD i 0 = if max a.length n ≤ i + a.length then a.getD (i + a.length - max a.length n) 0 else v := by
  simp only [expand]
  by_cases hc : max a.length n ≤ i + a.length
  · rw [if_pos hc, List.getD_eq_getElem?_getD, List.getElem?_append_right (by simp; omega), List.getD_eq_getElem?_getD]
    congr 2; simp; omega
  · rw [if_neg hc, List.getD_eq_getElem?_getD, List.getElem?_append_left (by simp; omega), List.getElem?_replicate,
      if_pos (by omega)]; rfl

theorem expand_length (a : List Nat) (n v : Nat) : (expand a n v).length = max a.length n := by
  simp [expand]

/-- Entry `a` of a list aligned with the last of `n` axes; 1 where there is none. -/
def alignedOr1 (l : List Nat) (n a : Nat) : Nat := if n ≤ a + l.length then l.getD (a + l.length - n) 0 else 1

theorem ravel_ones (n : Nat) (S : Shape) (z k : List Nat) (hz : z.length = n) (hz0 : ∀ v ∈ z, v = 0) :
    ravel (List.replicate n 1 ++ S) (z ++ k) = ravel S k := by
  rw [ravel_append _ _ _ _ (by simpa using hz)]
  have : ∀ (n : Nat) (z : List Nat), (∀ v ∈ z, v = 0) → ravel (List.replicate n 1) z = 0 := by
    intro n
    induction n with
    | zero => intro z _; cases z <;> rfl
    | succ n ih =>
      intro z hz
      cases z with
      | nil => rfl
      | cons v z =>
        simp only [List.replicate_succ, ravel]
        rw [hz v List.mem_cons_self, ih z (fun v hv => hz v (List.mem_cons_of_mem _ hv))]; simp
  rw [this n z hz0]; simp

theorem tile_gathers (reps : List Nat) (xsh : Shape) (hr : ∀ r ∈ reps, 0 < r) (hpos : 0 < prod xsh) (garbage : Mem Nat) :
    ∃ s, tileSetup (reps.map fun r : Nat => (r : Int)) xsh garbage = .ok s ∧
      s.oshape = ((List.range (max xsh.length reps.length)).map fun a =>
        alignedOr1 xsh (max xsh.length reps.length) a * alignedOr1 reps (max xsh.length reps.length) a) ∧
      Gathers s.oshape xsh (fun j => (List.range xsh.length).map fun a =>
        j.getD (a + (max xsh.length reps.length - xsh.length)) 0 % xsh.getD a 0) (tilePairs s) := by
  have e1 : (reps.map fun r : Nat => (r : Int)).map Int.toNat = reps := by simp [Function.comp_def]
  rw [tileSetup, if_neg]
  swap
  · rintro ⟨r, hm, hlt⟩
    obtain ⟨r', hr', rfl⟩ := List.mem_map.mp hm
    have := hr r' hr'
    omega
  simp only [e1]
  obtain ⟨n, hn⟩ : ∃ n, n = max xsh.length reps.length := ⟨_, rfl⟩
  rw [← hn]
  have hol : (ndMultiply xsh reps).length = n := by simp [ndMultiply, expand_length]; omega
  have hosh : ndMultiply xsh reps = (List.range n).map fun a => alignedOr1 xsh n a * alignedOr1 reps n a := by
    apply List.ext_getElem
    · rw [hol]; simp
    · intro a h1 h2
      have ha : a < n := by simpa using h2
      have g : ∀ l : List Nat, l.length ≤ n → (expand l n 1).getD a 0 = alignedOr1 l n a := by
        intro l hl
        rw [getD_expand _ _ _ _ (by omega), alignedOr1, Nat.max_eq_right hl]
      have g1 := g xsh (by omega)
      have g2 := g reps (by omega)
      have l1 : a < (expand xsh n 1).length := by rw [expand_length]; omega
      have l2 : a < (expand reps n 1).length := by rw [expand_length]; omega
      rw [List.getD_eq_getElem?_getD, List.getElem?_eq_getElem l1] at g1
      rw [List.getD_eq_getElem?_getD, List.getElem?_eq_getElem l2] at g2
      simp only [ndMultiply, ← hn, List.getElem_zipWith, List.getElem_map, List.getElem_range]
      simp only [Option.getD_some] at g1 g2
      rw [g1, g2]
  obtain ⟨R, hR⟩ : ∃ R, R = expand reps (n + 1) 1 := ⟨_, rfl⟩
  have hRl : R.length = n + 1 := by rw [hR, expand_length]; omega
  obtain ⟨S, hS⟩ : ∃ S, S = expand xsh (n + 1) 1 := ⟨_, rfl⟩
  have hSl : S.length = n + 1 := by rw [hS, expand_length]; omega
  have hM : expand (ndMultiply xsh reps) (n + 1) 1 = 1 :: ndMultiply xsh reps := by
    rw [expand, hol, show max n (n + 1) - n = 1 by omega]; rfl
  rw [hol, ← hR, hRl, ← hS, hM]
  obtain ⟨M, hMd⟩ : ∃ M, M = 1 :: ndMultiply xsh reps := ⟨_, rfl⟩
  have hMl : M.length = n + 1 := by rw [hMd]; simp [hol]
  refine ⟨_, rfl, hosh, ?_⟩
  have gR : ∀ a, a < n + 1 → R.getD a 0 = alignedOr1 reps (n + 1) a := by
    intro a ha; rw [hR, getD_expand _ _ _ _ (by omega), alignedOr1, Nat.max_eq_right (by omega)]
  have gS : ∀ a, a < n + 1 → S.getD a 0 = alignedOr1 xsh (n + 1) a := by
    intro a ha; rw [hS, getD_expand _ _ _ _ (by omega), alignedOr1, Nat.max_eq_right (by omega)]
  have sh1 : ∀ l a, alignedOr1 l (n + 1) (a + 1) = alignedOr1 l n a := by
    intro l a
    simp only [alignedOr1]
    by_cases h : n ≤ a + l.length
    · rw [if_pos (by omega), if_pos h]; congr 1; omega
    · rw [if_neg (by omega), if_neg h]
  have h0 : ∀ l : List Nat, l.length ≤ n → alignedOr1 l (n + 1) 0 = 1 := by
    intro l hl; simp only [alignedOr1]; rw [if_neg (by omega)]
  have gM : ∀ a, a < n + 1 → M.getD a 0 = S.getD a 0 * R.getD a 0 := by
    intro a ha
    rw [gR a ha, gS a ha, hMd]
    cases a with
    | zero => rw [h0 _ (by omega), h0 _ (by omega)]; rfl
    | succ a =>
      rw [sh1, sh1, List.getD_cons_succ, hosh, getD_range_map _ _ _ (by omega)]
  have pR : ∀ a, a < n + 1 → 0 < R.getD a 0 := by
    intro a ha
    rw [gR a ha, alignedOr1]
    split
    · rename_i hc
      have hlt : a + reps.length - (n + 1) < reps.length := by omega
      rw [List.getD_eq_getElem?_getD, List.getElem?_eq_getElem hlt]
      exact hr _ (List.getElem_mem hlt)
    · omega
  have posx : ∀ (l : Shape) (a : Nat), 0 < prod l → a < l.length → 0 < l.getD a 0 := by
    intro l
    induction l with
    | nil => intro a _ ha; simp at ha
    | cons d ds ih =>
      intro a hp ha
      cases a with
      | zero => exact Nat.pos_of_mul_pos_right (by simpa [prod] using hp)
      | succ a => simpa using ih a (Nat.pos_of_mul_pos_left (by simpa [prod] using hp)) (by simpa using ha)
  have pS : ∀ a, a < n + 1 → 0 < S.getD a 0 := by
    intro a ha
    rw [gS a ha, alignedOr1]
    split
    · exact posx xsh _ hpos (by omega)
    · omega
  -- the index map
  have full : Tiled (S.take 1) (M.take 1) (S.drop 1) (M.drop 1) (tilePhase2 S M R (tilePhase1 S M R garbage)) := by
    rw [tilePhase2, hRl, show n + 1 - 2 = n - 1 by omega]
    have hle : ∀ (src map reps : List Nat), map.length = src.length → reps.length = src.length →
        (∀ a, a < src.length → map.getD a 0 = src.getD a 0 * reps.getD a 0) →
        (∀ a, a < src.length → 0 < reps.getD a 0) → ∀ n, n ≤ src.length → ShapeLe (src.take n) (map.take n) := by
      intro src
      induction src with
      | nil => intro map reps h1 _ _ _ n _; cases map <;> simp_all [ShapeLe]
      | cons a src ih2 =>
        intro map reps hl1 hl2 hmap hr
        cases map with
        | nil => simp at hl1
        | cons b map => cases reps with
          | nil => simp at hl2
          | cons c reps =>
            intro n hn
            cases n with
            | zero => simp [ShapeLe]
            | succ n =>
              have h0 := hmap 0 (by simp)
              have h00 := hr 0 (by simp)
              simp only [List.getD_cons_zero] at h0 h00
              refine ⟨by rw [h0]; exact Nat.le_mul_of_pos_right _ h00, ?_⟩
              exact ih2 map reps (by simpa using hl1) (by simpa using hl2)
                (fun a ha => by simpa using hmap (a + 1) (by simpa using ha))
                (fun a ha => by simpa using hr (a + 1) (by simpa using ha)) n (by simpa using hn)
    have hposTake : ∀ (src : List Nat), (∀ a, a < src.length → 0 < src.getD a 0) → ∀ n, 0 < prod (src.take n) := by
      intro src
      induction src with
      | nil => intro _ n; simp [prod]
      | cons a src ih2 =>
        intro hp n
        cases n with
        | zero => simp [prod]
        | succ n =>
          have h0 := hp 0 (by simp)
          simp only [List.getD_cons_zero] at h0
          exact Nat.mul_pos h0 (ih2 (fun a ha => by simpa using hp (a + 1) (by simpa using ha)) n)
    have lastSplit : ∀ l : List Nat, l.length = n + 1 → l = l.take n ++ [l.getD n 0] ∧ l.drop n = [l.getD n 0] := by
      intro l hl
      have h1 : n < l.length := by omega
      have hg : l.getD n 0 = l[n] := by simp [List.getD_eq_getElem?_getD, List.getElem?_eq_getElem h1]
      have hd : l.drop n = [l.getD n 0] := by
        rw [hg, List.drop_eq_getElem_cons h1, List.drop_eq_nil_of_le (by omega)]
      exact ⟨by conv => lhs; rw [← List.take_append_drop n l, hd], hd⟩
    obtain ⟨s1, s2⟩ := lastSplit S hSl
    obtain ⟨t1, t2⟩ := lastSplit M hMl
    rw [gM n (by omega)] at t1 t2
    have hTl : (S.take n).length = n := by simp; omega
    have p1 := tilePhase1_tiled (S.take n) (M.take n) (S.getD n 0) (R.getD n 0) (pR n (by omega))
      (hle S M R (by omega) (by omega) (fun a ha => gM a (by omega)) (fun a ha => pR a (by omega)) n (by omega))
      (hposTake S (fun a ha => pS a (by omega)) n) (pS n (by omega)) R (by rw [hTl]) garbage
    rw [← s1, ← t1, ← s2, ← t2] at p1
    cases n with
    | zero =>
      -- only the dummy axis
      intro p q hp hq
      have hS1 : S = [1] := by
        have := gS 0 (by omega)
        rw [h0 _ (by omega)] at this
        rw [List.length_eq_one_iff] at hSl
        obtain ⟨v, rfl⟩ := hSl
        simp only [List.getD_cons_zero] at this; rw [this]
      have hM1 : M = [1] := by
        rw [hMd]; rw [List.length_eq_zero_iff] at hol; rw [hol]
      rw [hS1] at hp ⊢
      rw [hM1] at hq p1 ⊢
      rw [hS1] at p1
      match p, hp with
      | [i], hp =>
        have hi : i = 0 := by have := hp.1; omega
        subst hi
        match q, hq with
        | [], _ =>
          have := p1 [] [0] trivial ⟨by omega, trivial⟩
          simpa [ravel, prod, modIdx] using this
    | succ n' =>
      exact tilePhase2_tiled n' S M R (by omega) (by omega) (fun a ha => gM a (by omega)) (fun a ha => pR a (by omega))
        (fun a ha => pS a (by omega)) (by omega) _ p1
  -- final
  have hpairs : prod M = prod (ndMultiply xsh reps) := by rw [hMd]; simp [prod]
  have hcons : S = List.replicate (n + 1 - xsh.length) 1 ++ xsh := by
    rw [hS, expand, Nat.max_eq_right (by omega)]
  rw [tilePairs]
  simp only [hpairs, ← hMd]
  apply Gathers.of_range
  intro j hj
  have hjl : j.length = n := by rw [hj.length, hol]
  have hbound : InBounds xsh ((List.range xsh.length).map fun a => j.getD (a + (n - xsh.length)) 0 % xsh.getD a 0) := by
    rw [inBounds_iff]
    refine ⟨by simp, ?_⟩
    intro a ha
    rw [getD_range_map _ _ _ ha]
    exact Nat.mod_lt _ (posx xsh a hpos ha)
  refine ⟨?_, hbound⟩
  have hS0 : S.take 1 = [1] := by
    have : S = 1 :: S.drop 1 := by
      have h1 := gS 0 (by omega)
      rw [h0 _ (by omega)] at h1
      cases hc : S with
      | nil => rw [hc] at hSl; simp at hSl
      | cons v l => rw [hc] at h1; simp only [List.getD_cons_zero] at h1; rw [h1]; rfl
    rw [this]; rfl
  have hM0 : M.take 1 = [1] ∧ M.drop 1 = ndMultiply xsh reps := by rw [hMd]; simp
  have key := full [0] j (by rw [hS0]; exact ⟨by omega, trivial⟩) (by rw [hM0.2]; exact hj)
  rw [hM0.1, hM0.2, hS0] at key
  simp only [ravel, Nat.zero_mul, Nat.zero_add, prod] at key
  rw [key]
  have hSd : S.drop 1 = List.replicate (n - xsh.length) 1 ++ xsh := by
    rw [hcons, show n + 1 - xsh.length = (n - xsh.length) + 1 by omega, List.replicate_succ]; rfl
  rw [hSd]
  have hmod : modIdx (List.replicate (n - xsh.length) 1 ++ xsh) j =
      List.replicate (n - xsh.length) 0 ++ (List.range xsh.length).map fun a => j.getD (a + (n - xsh.length)) 0 % xsh.getD a 0 := by
    apply List.ext_getElem
    · simp [modIdx, hjl]; omega
    · intro a h1 h2
      have ha : a < n := by simp [modIdx, hjl] at h1; omega
      simp only [modIdx, List.getElem_zipWith]
      by_cases hc : a < n - xsh.length
      · rw [List.getElem_append_left (by simpa using hc), List.getElem_append_left (by simpa using hc)]
        simp [Nat.mod_one]
      · rw [List.getElem_append_right (by simp; omega), List.getElem_append_right (by simp; omega)]
        simp only [List.length_replicate, List.getElem_map, List.getElem_range]
        have e5 : a - (n - xsh.length) + (n - xsh.length) = a := by omega
        rw [e5]
        simp [List.getD_eq_getElem?_getD, List.getElem?_eq_getElem (show a < j.length by omega),
          List.getElem?_eq_getElem (show a - (n - xsh.length) < xsh.length by omega)]
  rw [hmod, ravel_ones _ _ _ _ (by simp) (fun v hv => (List.mem_replicate.mp hv).2)]

/-! ### C77 -/

/-- **C77.** `tile(x, reps)` (all repetitions at least 1, x not empty): x and reps are aligned at the last
axis, the result has extent `x.shape[a] * reps[a]` (1 where one of them has no entry), and its element at
`j` is the element of x at `j mod x.shape`. The index map is recomputed by every setup, whatever its buffer
held before. -/
theorem C77_tile {R} (reps : List Nat) (xsh : Shape) (hr : ∀ r ∈ reps, 0 < r) (hpos : 0 < prod xsh) (garbage : Mem Nat) :
    ∃ s, tileSetup (reps.map fun r : Nat => (r : Int)) xsh garbage = .ok s ∧
      s.oshape = ((List.range (max xsh.length reps.length)).map fun a =>
        alignedOr1 xsh (max xsh.length reps.length) a * alignedOr1 reps (max xsh.length reps.length) a) ∧
      ∀ (x y : Mem R) (j k : List Nat), InBounds s.oshape j → k.length = xsh.length →
        (∀ a, a < xsh.length → k.getD a 0 = j.getD (a + (max xsh.length reps.length - xsh.length)) 0 % xsh.getD a 0) →
        tileForward s x y (ravel s.oshape j) = x (ravel xsh k) := by
  obtain ⟨s, h1, h2, h3⟩ := tile_gathers reps xsh hr hpos garbage
  refine ⟨s, h1, h2, ?_⟩
  intro x y j k hj hkl hk
  rw [tileForward, h3.forward x y j hj]
  congr 2
  apply List.ext_getElem
  · simp [hkl]
  · intro a g1 g2
    have := hk a (by omega)
    rw [List.getD_eq_getElem?_getD, List.getElem?_eq_getElem g2] at this
    simp only [List.getElem_map, List.getElem_range]
    simp only [Option.getD_some] at this
    rw [this]

/-- **C77.** Backward of tile is the transpose of its forward: it sums over the copies. -/
theorem C77_tile_grad {R} [CommSemiring R] (reps : List Nat) (xsh : Shape) (hr : ∀ r ∈ reps, 0 < r) (hpos : 0 < prod xsh)
    (garbage : Mem Nat) (y : Mem R) :
    ∃ s, tileSetup (reps.map fun r : Nat => (r : Int)) xsh garbage = .ok s ∧
      GradOK (prod xsh) (prod s.oshape) (fun x => tileForward s x y) (callBackward (tileBackward s)) := by
  obtain ⟨s, h1, h2, h3⟩ := tile_gathers reps xsh hr hpos garbage
  refine ⟨s, h1, h3.gradOK_add y _ ?_⟩
  intro accum dy dx
  cases accum <;> rfl

/-- **C77.** Repetitions below 1 are rejected. -/
theorem C77_tile_rejects (reps : List Int) (xsh : Shape) (g : Mem Nat) (r : Int) (hm : r ∈ reps) (h : r < 1) :
    ∃ e, tileSetup reps xsh g = .error e := by
  rw [tileSetup, if_pos ⟨r, hm, h⟩]
  exact ⟨_, rfl⟩

example : ∃ s, tileSetup [2, 1, 2] [2, 2] (fun _ => 77) = .ok s ∧ s.oshape = [2, 2, 4] ∧
    (List.range 16).map (tileForward s (fun i => i) (fun _ => 9)) = [0, 1, 0, 1, 2, 3, 2, 3, 0, 1, 0, 1, 2, 3, 2, 3] := by
  refine ⟨_, rfl, rfl, ?_⟩
  decide

end Verif.Fn
