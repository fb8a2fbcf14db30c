import Verif.Elem.Quantize2
/-
min_max_quantize (/repo/src/nbla/function/generic/min_max_quantize.cpp) and prune (/repo/src/nbla/function/generic/prune.cpp) over the real numbers.
Simplifications: exact reals; the reduction of x to its minimum and maximum per cell is a parameter (the Min and Max functions are modelled elsewhere); the chain
of element-wise function calls is written as one expression per element; the gradients of qr_min and qr_max are not modelled.
-/
namespace Verif.Elem
open Verif.Fn Verif.ND

/-! ### min_max_quantize: model -/

/-- The update of qr_min (qr_max) from the minimum (maximum) `r` of x (min_max_quantize.cpp:150-175). -/
def mmUpdate (xMinMax ema : Bool) (decay qr r : ℝ) : ℝ :=
  if xMinMax then (if ema then decay * qr + (1 - decay) * r else r) else qr

/-- nudge_range (min_max_quantize.cpp:377-386): the new qr_max, written in place. -/
noncomputable def mmNudgeRange (eps qrMin qrMax : ℝ) : ℝ := if qrMax - qrMin < eps then qrMin + eps else qrMax

/-- scale = (qr_max - qr_min) / (ql_max - ql_min) (min_max_quantize.cpp:186-188). -/
noncomputable def mmScale (qrMin qrMax qlMin qlMax : ℝ) : ℝ := (qrMax - qrMin) / (qlMax - qlMin)

/-- zero_point_nudged (min_max_quantize.cpp:403-410). -/
noncomputable def mmZeroPoint (qrMin qlMin qlMax scale : ℝ) : ℝ :=
  let z := qlMin - qrMin / scale
  if z ≤ qlMin then qlMin else if z ≥ qlMax then qlMax else cround z

/-- The final chain for one element (min_max_quantize.cpp:213-224). -/
noncomputable def mmElem (minN maxN scale x : ℝ) : ℝ := cround ((min (max x minN) maxN - minN) / scale) * scale + minN

/-- The cell-wise buffers of forward: nudged minimum, nudged maximum, scale. -/
noncomputable def mmCell (eps qrMin qrMax qlMin qlMax : ℝ) : ℝ × ℝ × ℝ :=
  let qrMax := mmNudgeRange eps qrMin qrMax
  let scale := mmScale qrMin qrMax qlMin qlMax
  let zp := mmZeroPoint qrMin qlMin qlMax scale
  ((qlMin - zp) * scale, (qlMax - zp) * scale, scale)

/-- MinMaxQuantize::forward_impl after the range update (min_max_quantize.cpp:177-225). -/
noncomputable def mmForward (xsh qsh : Shape) (eps : ℝ) (qrMin qrMax qlMin qlMax x y : Mem ℝ) : Except String (Mem ℝ) :=
  let cell := fun i => mmCell eps (qrMin i) (qrMax i) (qlMin i) (qlMax i)
  match bcForward qsh xsh (fun i => (cell i).1) zeros, bcForward qsh xsh (fun i => (cell i).2.1) zeros, bcForward qsh xsh (fun i => (cell i).2.2) zeros with
  | .ok a, .ok b, .ok c => .ok ((List.range (prod xsh)).foldl (fun y i => put y i (mmElem (a i) (b i) (c i) (x i))) y)
  | _, _, _ => .error "broadcast"

/-! ### prune: model -/

/-- Specification of std::sort for floating-point values. -/
def IsStdSortVal (srt : (ℝ → ℝ → Prop) → List ℝ → List ℝ) : Prop :=
  ∀ l, (srt (fun a b => |a| < |b|) l).Perm l ∧ (srt (fun a b => |a| < |b|) l).Pairwise fun a b => ¬ |b| < |a|

/-- Prune::setup_impl (prune.cpp:28-39): thresh_idx_; an empty array (for which forward reads outside of the buffer) is rejected here. -/
noncomputable def pruneSetup (rate : ℝ) (size : Nat) : Except String Nat :=
  open Classical in
  if ¬ (rate ≥ 0 ∧ rate ≤ 1) then .error "Rate must be in [0, 1]."
  else if size = 0 then .error "undefined behaviour"
  else .ok ⌊((size : ℝ) - 1) * rate⌋₊

/-- The threshold of Prune::forward_impl (prune.cpp:50-67). -/
noncomputable def pruneThresh (srt : (ℝ → ℝ → Prop) → List ℝ → List ℝ) (rate : ℝ) (idx size : Nat) (x : Mem ℝ) : ℝ :=
  open Classical in
  |(srt (fun a b => |a| < |b|) ((List.range size).map x)).getD idx 0| + if rate = 1 then 1 else 0

/-- Prune::forward_impl (prune.cpp:41-73). -/
noncomputable def pruneForward (srt : (ℝ → ℝ → Prop) → List ℝ → List ℝ) (rate : ℝ) (idx size : Nat) (x y : Mem ℝ) : Mem ℝ :=
  let t := pruneThresh srt rate idx size x
  unaryForward (fun v => if |v| < t then 0 else v) size x y

/-- Prune::backward_impl (prune.cpp:75-93). -/
def pruneBackward (size : Nat) (accum : Bool) (dy dx : Mem ℝ) : Mem ℝ :=
  (List.range size).foldl (fun d s => put d s (if accum then d s + dy s else dy s)) dx

/-! ### min_max_quantize: properties -/

theorem mmZeroPoint_int (qrMin scale : ℝ) (qm qM : ℤ) (h : qm ≤ qM) : ∃ z : ℤ, qm ≤ z ∧ z ≤ qM ∧ mmZeroPoint qrMin qm qM scale = z ∧
    ∀ z' : ℤ, qm ≤ z' → z' ≤ qM → |(z : ℝ) - (qm - qrMin / scale)| ≤ |(z' : ℝ) - (qm - qrMin / scale)| := by
  unfold mmZeroPoint
  dsimp only
  generalize (qm : ℝ) - qrMin / scale = v
  by_cases h1 : v ≤ qm
  · rw [if_pos h1]
    refine ⟨qm, le_rfl, h, rfl, fun z' hz _ => ?_⟩
    have : (qm : ℝ) ≤ z' := by exact_mod_cast hz
    rw [abs_of_nonneg (by linarith), abs_of_nonneg (by linarith)]; linarith
  rw [if_neg h1]
  by_cases h2 : v ≥ qM
  · rw [if_pos h2]
    refine ⟨qM, h, le_rfl, rfl, fun z' _ hz => ?_⟩
    have : (z' : ℝ) ≤ qM := by exact_mod_cast hz
    rw [abs_of_nonpos (by linarith), abs_of_nonpos (by linarith)]; linarith
  rw [if_neg h2]
  obtain ⟨z, hz⟩ := cround_int v
  refine ⟨z, ?_, ?_, hz, fun z' _ _ => by rw [← hz]; exact cround_nearest v z'⟩
  · have := le_cround (x := v) (k := qm) (by linarith)
    rw [hz] at this; exact_mod_cast this
  · have := cround_le (x := v) (k := qM) (by linarith)
    rw [hz] at this; exact_mod_cast this

/-- One element: the nearest of the grid points (q - zp) * scale. -/
theorem mmElem_spec (scale : ℝ) (hs : 0 < scale) (qm qM zp : ℤ) (hle : qm ≤ qM) (x : ℝ) :
    ∃ q : ℤ, qm ≤ q ∧ q ≤ qM ∧ mmElem (((qm : ℝ) - zp) * scale) (((qM : ℝ) - zp) * scale) scale x = ((q : ℝ) - zp) * scale ∧
      ∀ q' : ℤ, qm ≤ q' → q' ≤ qM → |((q : ℝ) - zp) * scale - x| ≤ |((q' : ℝ) - zp) * scale - x| := by
  have hle' : (qm : ℝ) ≤ qM := by exact_mod_cast hle
  have hmono : ∀ {a b : ℝ}, a ≤ b → (a - zp) * scale ≤ (b - zp) * scale := fun h => mul_le_mul_of_nonneg_right (by linarith) hs.le
  have hrange := hmono hle'
  unfold mmElem
  by_cases h1 : x ≤ ((qm : ℝ) - zp) * scale
  · refine ⟨qm, le_rfl, hle, ?_, ?_⟩
    · rw [max_eq_right h1, min_eq_left hrange, sub_self, zero_div]
      have := cround_intCast 0
      simp only [Int.cast_zero] at this
      rw [this]; ring
    · intro q' hq' _
      have := hmono (show (qm : ℝ) ≤ q' by exact_mod_cast hq')
      rw [abs_of_nonneg (by linarith), abs_of_nonneg (by linarith)]; linarith
  have h1' := not_le.mp h1
  by_cases h2 : ((qM : ℝ) - zp) * scale ≤ x
  · refine ⟨qM, hle, le_rfl, ?_, ?_⟩
    · rw [max_eq_left h1'.le, min_eq_right h2]
      have e : (((qM : ℝ) - zp) * scale - ((qm : ℝ) - zp) * scale) / scale = ((qM - qm : ℤ) : ℝ) := by
        push_cast; field_simp; ring
      rw [e, cround_intCast]; push_cast; ring
    · intro q' _ hq'
      have := hmono (show (q' : ℝ) ≤ qM by exact_mod_cast hq')
      rw [abs_of_nonpos (by linarith), abs_of_nonpos (by linarith)]; linarith
  have h2' := not_le.mp h2
  rw [max_eq_left h1'.le, min_eq_left h2'.le]
  generalize hu : (x - ((qm : ℝ) - zp) * scale) / scale = u
  have hx : x = u * scale + ((qm : ℝ) - zp) * scale := by rw [← hu]; field_simp; ring
  obtain ⟨k, hk⟩ := cround_int u
  have hu0 : ((0 : ℤ) : ℝ) ≤ u := by
    rw [← hu]; push_cast; exact div_nonneg (by linarith) hs.le
  have hu1 : u ≤ ((qM - qm : ℤ) : ℝ) := by
    rw [← hu, div_le_iff₀ hs]; push_cast; linarith
  have k0 := le_cround hu0
  have k1 := cround_le hu1
  rw [hk] at k0 k1
  have k0' : 0 ≤ k := by exact_mod_cast k0
  have k1' : k ≤ qM - qm := by exact_mod_cast k1
  refine ⟨k + qm, by omega, by omega, by rw [hk]; push_cast; ring, ?_⟩
  intro q' _ _
  have hn := cround_nearest u (q' - qm)
  rw [hk] at hn
  have e1 : (((k + qm : ℤ) : ℝ) - zp) * scale - x = ((k : ℝ) - u) * scale := by rw [hx]; push_cast; ring
  have e2 : ((q' : ℝ) - zp) * scale - x = (((q' - qm : ℤ) : ℝ) - u) * scale := by rw [hx]; push_cast; ring
  rw [e1, e2, abs_mul, abs_mul]
  exact mul_le_mul_of_nonneg_right hn (abs_nonneg _)

theorem loop_put (n : Nat) (g : Nat → ℝ) (y : Mem ℝ) (i : Nat) : (List.range n).foldl (fun y i => put y i (g i)) y i = if i < n then g i else y i := by
  induction n with
  | zero => simp
  | succ n ih =>
    rw [List.range_succ, List.foldl_append]
    simp only [List.foldl_cons, List.foldl_nil]
    by_cases e : i = n
    · subst e; rw [put_same, if_pos (by omega)]
    · rw [put_other _ _ e, ih]
      by_cases h : i < n
      · rw [if_pos h, if_pos (by omega)]
      · rw [if_neg h, if_neg (by omega)]

/-- **C97.** min_max_quantize: with integer levels ql_min < ql_max and eps > 0, every cell of the range has a positive scale (the width of the range, at least eps,
over the number of steps) and an integer zero point in the levels, the nearest one to ql_min - qr_min / scale; every element becomes the nearest of the values
(q - zp) * scale with q an integer between the levels. -/
theorem C97_min_max_quantize (xsh qsh : Shape) (hb : CanBroadcast qsh xsh) (eps : ℝ) (heps : 0 < eps) (qrMin qrMax qlMin qlMax x y : Mem ℝ) (lo hi : Nat → ℤ)
    (hlo : ∀ i, qlMin i = lo i) (hhi : ∀ i, qlMax i = hi i) (hl : ∀ i, lo i < hi i) :
    ∃ r, mmForward xsh qsh eps qrMin qrMax qlMin qlMax x y = .ok r ∧ ∃ (zp : Nat → ℤ) (scale : Nat → ℝ),
      (∀ c, scale c = max (qrMax c - qrMin c) eps / (hi c - lo c) ∧ 0 < scale c ∧ lo c ≤ zp c ∧ zp c ≤ hi c ∧
        ∀ z : ℤ, lo c ≤ z → z ≤ hi c → |(zp c : ℝ) - (lo c - qrMin c / scale c)| ≤ |(z : ℝ) - (lo c - qrMin c / scale c)|) ∧
      ∀ j, InBounds xsh j → ∀ c, c = ravel qsh (bcIndex qsh xsh j) →
        ∃ q : ℤ, lo c ≤ q ∧ q ≤ hi c ∧ r (ravel xsh j) = ((q : ℝ) - zp c) * scale c ∧
          ∀ q' : ℤ, lo c ≤ q' → q' ≤ hi c → |((q : ℝ) - zp c) * scale c - x (ravel xsh j)| ≤ |((q' : ℝ) - zp c) * scale c - x (ravel xsh j)| := by
  obtain ⟨_, hf⟩ := C73_broadcast (R := ℝ) qsh xsh
  obtain ⟨a, ea, ha, _⟩ := hf (fun i => (mmCell eps (qrMin i) (qrMax i) (qlMin i) (qlMax i)).1) zeros hb
  obtain ⟨b, eb, hb', _⟩ := hf (fun i => (mmCell eps (qrMin i) (qrMax i) (qlMin i) (qlMax i)).2.1) zeros hb
  obtain ⟨c, ec, hc, _⟩ := hf (fun i => (mmCell eps (qrMin i) (qrMax i) (qlMin i) (qlMax i)).2.2) zeros hb
  have hscale : ∀ c, mmScale (qrMin c) (mmNudgeRange eps (qrMin c) (qrMax c)) (qlMin c) (qlMax c) = max (qrMax c - qrMin c) eps / (hi c - lo c) := by
    intro c
    unfold mmScale mmNudgeRange
    rw [hlo, hhi]
    split
    · rw [max_eq_right (by linarith)]; congr 1; ring
    · rw [max_eq_left (by linarith)]
  have hpos : ∀ c, 0 < mmScale (qrMin c) (mmNudgeRange eps (qrMin c) (qrMax c)) (qlMin c) (qlMax c) := by
    intro c
    rw [hscale]
    have : (lo c : ℝ) < hi c := by exact_mod_cast hl c
    exact div_pos (lt_of_lt_of_le heps (le_max_right _ _)) (by linarith)
  have hz := fun c => mmZeroPoint_int (qrMin c) (mmScale (qrMin c) (mmNudgeRange eps (qrMin c) (qrMax c)) (qlMin c) (qlMax c)) (lo c) (hi c) (hl c).le
  choose zp z1 z2 z3 z4 using hz
  refine ⟨_, by simp only [mmForward, ea, eb, ec]; rfl, zp, fun c => mmScale (qrMin c) (mmNudgeRange eps (qrMin c) (qrMax c)) (qlMin c) (qlMax c),
    fun c => ⟨hscale c, hpos c, z1 c, z2 c, z4 c⟩, ?_⟩
  intro j hj k hk
  have hv : (List.range (prod xsh)).foldl (fun y i => put y i (mmElem (a i) (b i) (c i) (x i))) y (ravel xsh j) =
      mmElem (((lo k : ℝ) - zp k) * mmScale (qrMin k) (mmNudgeRange eps (qrMin k) (qrMax k)) (qlMin k) (qlMax k))
        (((hi k : ℝ) - zp k) * mmScale (qrMin k) (mmNudgeRange eps (qrMin k) (qrMax k)) (qlMin k) (qlMax k))
        (mmScale (qrMin k) (mmNudgeRange eps (qrMin k) (qrMax k)) (qlMin k) (qlMax k)) (x (ravel xsh j)) := by
    rw [loop_put, if_pos (ravel_lt hj), ha j hj, hb' j hj, hc j hj, ← hk]
    have := z3 k
    simp only [mmCell, hlo, hhi] at this ⊢
    rw [this]
  obtain ⟨q, q1, q2, q3, q4⟩ := mmElem_spec _ (hpos k) (lo k) (hi k) (zp k) (hl k).le (x (ravel xsh j))
  exact ⟨q, q1, q2, by rw [hv, q3], q4⟩

/-- **C97.** Zero is represented exactly. -/
theorem C97_zero (xsh qsh : Shape) (hb : CanBroadcast qsh xsh) (eps : ℝ) (heps : 0 < eps) (qrMin qrMax qlMin qlMax x y : Mem ℝ) (lo hi : Nat → ℤ)
    (hlo : ∀ i, qlMin i = lo i) (hhi : ∀ i, qlMax i = hi i) (hl : ∀ i, lo i < hi i) (r : Mem ℝ) (hr : mmForward xsh qsh eps qrMin qrMax qlMin qlMax x y = .ok r)
    (j : List Nat) (hj : InBounds xsh j) (hx : x (ravel xsh j) = 0) : r (ravel xsh j) = 0 := by
  obtain ⟨r', e, zp, scale, h1, h2⟩ := C97_min_max_quantize xsh qsh hb eps heps qrMin qrMax qlMin qlMax x y lo hi hlo hhi hl
  rw [hr] at e
  cases e
  obtain ⟨q, _, _, e, hn⟩ := h2 j hj _ rfl
  have := hn _ (h1 _).2.2.1 (h1 _).2.2.2.1
  rw [hx, sub_self, zero_mul, sub_zero, sub_zero, abs_zero, abs_nonpos_iff] at this
  rw [e, this]

/-- **C97.** The range update: unchanged without x_min_max, the reduced value with it, its moving average with ema. -/
theorem C97_range_update (ema : Bool) (decay qr r : ℝ) : mmUpdate false ema decay qr r = qr ∧ mmUpdate true false decay qr r = r ∧
    mmUpdate true true decay qr r = decay * qr + (1 - decay) * r := ⟨rfl, rfl, rfl⟩

/-! ### prune: properties -/

/-- **C98.** Setup: the rate is in [0, 1]; the threshold index is the floor of rate * (size - 1). -/
theorem C98_setup (rate : ℝ) (size idx : Nat) (h : pruneSetup rate size = .ok idx) : 0 ≤ rate ∧ rate ≤ 1 ∧ 0 < size ∧ idx < size ∧ idx = ⌊((size : ℝ) - 1) * rate⌋₊ := by
  unfold pruneSetup at h
  by_cases h1 : rate ≥ 0 ∧ rate ≤ 1
  · rw [if_neg (not_not.mpr h1)] at h
    by_cases h2 : size = 0
    · rw [if_pos h2] at h; cases h
    · rw [if_neg h2] at h
      have e := Except.ok.inj h
      refine ⟨h1.1, h1.2, Nat.pos_of_ne_zero h2, ?_, e.symm⟩
      rw [← e]
      have hs : (1 : ℝ) ≤ size := by exact_mod_cast Nat.one_le_iff_ne_zero.mpr h2
      rw [Nat.floor_lt (mul_nonneg (by linarith) h1.1)]
      nlinarith [h1.1, h1.2]
  · rw [if_pos h1] at h; cases h

/-- **C98.** prune: with rate < 1 at most floor(rate * (size - 1)) elements have a magnitude below the threshold, and exactly these become 0; the others are unchanged and
every one of them is at least as large in magnitude as every pruned one. With pairwise different magnitudes exactly floor(rate * (size - 1)) are pruned;
with rate = 1 everything is. -/
theorem C98_prune (srt : (ℝ → ℝ → Prop) → List ℝ → List ℝ) (hsrt : IsStdSortVal srt) (rate : ℝ) (size idx : Nat) (h : pruneSetup rate size = .ok idx) (x y : Mem ℝ) :
    ∃ P : Finset Nat, P ⊆ Finset.range size ∧
      (∀ i, i < size → pruneForward srt rate idx size x y i = if i ∈ P then 0 else x i) ∧
      (∀ i ∈ P, ∀ j, j < size → j ∉ P → |x i| < |x j|) ∧
      (rate < 1 → P.card ≤ idx) ∧
      (rate < 1 → (∀ i j, i < size → j < size → i ≠ j → |x i| ≠ |x j|) → P.card = idx) ∧
      (rate = 1 → P = Finset.range size) := by
  classical
  obtain ⟨_, _, hpos, hidx, _⟩ := C98_setup rate size idx h
  obtain ⟨hp, hw⟩ := hsrt ((List.range size).map x)
  generalize hL : srt (fun a b => |a| < |b|) ((List.range size).map x) = L at hp hw
  have hlen : L.length = size := by rw [hp.length_eq]; simp
  have ht : pruneThresh srt rate idx size x = |L[idx]'(by omega)| + if rate = 1 then 1 else 0 := by
    unfold pruneThresh
    rw [hL, List.getD_eq_getElem?_getD, List.getElem?_eq_getElem (by omega)]
    rfl
  -- the number of elements below a bound, counted in the sorted list
  have hcount : ∀ b : ℝ, ((Finset.range size).filter fun i => |x i| < b).card = L.countP fun v => decide (|v| < b) := by
    intro b
    rw [hp.countP_eq, List.countP_map, List.countP_eq_length_filter]
    rw [← List.toFinset_card_of_nodup (List.nodup_range.filter _)]
    congr 1
    ext i
    simp
  have hsplit : L.countP (fun v => decide (|v| < |L[idx]'(by omega)|)) ≤ idx ∧
      ((∀ a, ∀ ha : a < idx, |L[a]'(by omega)| < |L[idx]'(by omega)|) → L.countP (fun v => decide (|v| < |L[idx]'(by omega)|)) = idx) := by
    have hpw := List.pairwise_iff_getElem.mp hw
    have hdrop : (L.drop idx).countP (fun v => decide (|v| < |L[idx]'(by omega)|)) = 0 := by
      rw [List.countP_eq_zero]
      intro v hv
      obtain ⟨k, hk, rfl⟩ := List.getElem_of_mem hv
      rw [List.getElem_drop]
      simp only [decide_eq_true_eq]
      by_cases h0 : k = 0
      · subst h0; simp
      · rw [List.length_drop] at hk
        exact hpw idx (idx + k) (by omega) (by omega) (by omega)
    have hsum : L.countP (fun v => decide (|v| < |L[idx]'(by omega)|)) = (L.take idx).countP (fun v => decide (|v| < |L[idx]'(by omega)|)) := by
      have hgen : ∀ f : ℝ → Bool, L.countP f = (L.take idx).countP f + (L.drop idx).countP f := fun f => by
        conv_lhs => rw [← List.take_append_drop idx L]
        rw [List.countP_append]
      rw [hgen, hdrop, Nat.add_zero]
    have htl : (L.take idx).length = idx := by rw [List.length_take]; omega
    rw [hsum]
    refine ⟨le_trans List.countP_le_length (le_of_eq htl), fun hlt => ?_⟩
    conv_rhs => rw [← htl]
    rw [List.countP_eq_length]
    intro v hv
    obtain ⟨k, hk, rfl⟩ := List.getElem_of_mem hv
    rw [List.getElem_take]
    rw [htl] at hk
    simpa using hlt k hk
  refine ⟨(Finset.range size).filter fun i => |x i| < pruneThresh srt rate idx size x, Finset.filter_subset _ _, ?_, ?_, ?_, ?_, ?_⟩
  · intro i hi
    unfold pruneForward
    rw [unaryForward_eq, if_pos hi]
    simp [hi]
  · intro i hi j hj hjn
    simp only [Finset.mem_filter, Finset.mem_range] at hi hjn
    have : ¬ |x j| < pruneThresh srt rate idx size x := fun hh => hjn ⟨hj, hh⟩
    linarith
  · intro hr
    rw [ht, if_neg (ne_of_lt hr), add_zero, hcount]
    exact hsplit.1
  · intro hr hd
    rw [ht, if_neg (ne_of_lt hr), add_zero, hcount]
    refine hsplit.2 fun a ha => ?_
    have hpw := List.pairwise_iff_getElem.mp hw a idx (by omega) (by omega) ha
    refine lt_of_le_of_ne (not_lt.mp hpw) ?_
    -- distinct magnitudes survive the permutation
    have hpd : ((List.range size).map x).Pairwise fun u v => |u| ≠ |v| := by
      rw [List.pairwise_map]
      refine (List.Pairwise.and_mem.mp (List.nodup_range (n := size))).imp ?_
      rintro i j ⟨hi, hj, hne⟩
      exact hd i j (List.mem_range.mp hi) (List.mem_range.mp hj) hne
    have hpd' : L.Pairwise fun u v => |u| ≠ |v| := (hp.pairwise_iff (fun h => h.symm)).mpr hpd
    exact List.pairwise_iff_getElem.mp hpd' a idx (by omega) (by omega) ha
  · intro hr
    ext i
    simp only [Finset.mem_filter, Finset.mem_range, and_iff_left_iff_imp]
    intro hi
    rw [ht, if_pos hr]
    -- with rate 1 the threshold is the largest magnitude plus one
    have hidx' : idx = size - 1 := by
      have := (C98_setup rate size idx h).2.2.2.2
      rw [hr, mul_one] at this
      have hs : ((size : ℝ) - 1) = ((size - 1 : Nat) : ℝ) := by rw [Nat.cast_sub hpos]; simp
      rw [this, hs, Nat.floor_natCast]
    have hm : x i ∈ L := hp.mem_iff.mpr (List.mem_map.mpr ⟨i, List.mem_range.mpr hi, rfl⟩)
    obtain ⟨k, hk, e⟩ := List.getElem_of_mem hm
    have hle : |x i| ≤ |L[idx]'(by omega)| := by
      rw [← e]
      by_cases hki : k = idx
      · subst hki; exact le_rfl
      · exact not_lt.mp (List.pairwise_iff_getElem.mp hw k idx hk (by omega) (by omega))
    linarith

/-- **C98.** Backward passes the whole gradient (straight-through), adding under accumulation. -/
theorem C98_prune_grad (size : Nat) (accum : Bool) (dy dx : Mem ℝ) (i : Nat) :
    pruneBackward size accum dy dx i = if i < size then (if accum then dx i else 0) + dy i else dx i := by
  unfold pruneBackward
  induction size generalizing i with
  | zero => simp
  | succ n ih =>
    rw [List.range_succ, List.foldl_append]
    simp only [List.foldl_cons, List.foldl_nil]
    by_cases e : i = n
    · subst e
      have := ih i
      rw [if_neg (by omega : ¬ i < i)] at this
      rw [put_same, if_pos (by omega : i < i + 1), this]
      cases accum
      · simp
      · simp
    · rw [put_other _ _ e, ih]
      have : (i < n + 1) = (i < n) := by apply propext; omega
      simp only [this]

/-- Non-vacuity: the specification of std::sort is met, setups succeed, the levels of an 8-bit type. -/
example : ∃ srt, IsStdSortVal srt := by
  classical
  refine ⟨fun lt l => l.insertionSort fun a b => ¬ lt b a, fun l => ⟨List.perm_insertionSort _ _, ?_⟩⟩
  haveI : IsTotal ℝ (fun a b => ¬ |b| < |a|) := ⟨fun a b => by simp only [not_lt]; exact le_total _ _⟩
  haveI : IsTrans ℝ (fun a b => ¬ |b| < |a|) := ⟨fun a b c h1 h2 => by simp only [not_lt] at *; exact le_trans h1 h2⟩
  exact List.pairwise_insertionSort _ _

example : ∃ idx, pruneSetup (1 / 2) 3 = .ok idx ∧ idx = 1 := by
  refine ⟨_, by unfold pruneSetup; rw [if_neg (by norm_num), if_neg (by norm_num)], ?_⟩
  norm_num

example : CanBroadcast [1, 3, 1] [2, 3, 4] ∧ ∀ i : Nat, (fun _ => (0 : ℤ)) i < (fun _ => (255 : ℤ)) i := by
  refine ⟨?_, fun _ => by norm_num⟩
  rw [← bcSetup_iff]
  exact ⟨_, rfl⟩

end Verif.Elem
