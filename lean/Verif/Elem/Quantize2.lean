import Verif.Elem.Quantize
/-
quantize_linear / dequantize_linear (model in Quantize.lean), min_max_quantize and prune.
-/
namespace Verif.Elem
open Verif.Fn Verif.ND

/-! ### quantize_linear: properties -/

theorem bcast_self (s : Shape) (j : List Nat) (h : InBounds s j) : bcast s j = j := by
  induction s generalizing j with
  | nil => cases j with
    | nil => rfl
    | cons k j => simp [InBounds] at h
  | cons d s ih => cases j with
    | nil => simp [InBounds] at h
    | cons k j =>
      simp only [InBounds] at h
      rw [bcast, ih j h.2]
      split
      · congr 1; omega
      · rfl

theorem ql_binarySetup (s0 s1 : Shape) (hl : s0.length = s1.length) (h : (s0.zip s1).all (fun p => p.2 == 1 || p.2 == p.1) = true) (hpos : ∀ d ∈ s0, 0 < d) :
    binarySetup s0 s1 = .ok s0 := by
  rw [List.all_eq_true] at h
  unfold binarySetup
  rw [if_neg (not_not.mpr hl), if_neg]
  · congr 1
    refine List.ext_getElem (by simp; omega) fun i h1 h2 => ?_
    simp only [List.getElem_map, List.getElem_zip]
    have := h (s0[i], s1[i]) (by
      have hz : i < (s0.zip s1).length := by simp; omega
      rw [← List.getElem_zip (h := hz)]; exact List.getElem_mem _)
    simp only [Bool.or_eq_true, beq_iff_eq] at this
    have hp := hpos s0[i] (List.getElem_mem _)
    rcases this with e | e <;> rw [e] <;> omega
  · rintro ⟨p, hp, hne, hm⟩
    have := h p hp
    simp only [Bool.or_eq_true, beq_iff_eq] at this
    have := hpos p.1 (List.of_mem_zip hp).1
    omega

theorem qlSat_eq (lo hi : Int) (h : lo ≤ hi) (x : ℝ) : qlSat lo hi x = max (lo : ℝ) (min (hi : ℝ) x) := by
  have h' : (lo : ℝ) ≤ hi := by exact_mod_cast h
  unfold qlSat
  split
  · rw [min_eq_right (by linarith), max_eq_left (by linarith)]
  · split
    · rw [min_eq_left (by linarith), max_eq_right h']
    · rw [min_eq_right (by linarith), max_eq_right (by linarith)]

theorem qlRange_le (t : QType) (narrow : Bool) : (qlRange t narrow).1 ≤ (qlRange t narrow).2 := by
  cases t <;> cases narrow <;> decide

/-- The result of the composition of the loops at one position. -/
theorem qlForward_at (mode : String) (lo hi : Int) (s0 s1 s2 : Shape) (hs : qlShapeOk s0 s1 s2 = true) (hpos : ∀ d ∈ s0, 0 < d) (x scale zp y : Mem ℝ)
    (j : List Nat) (hj : InBounds s0 j) :
    (qlForward mode lo hi s0 s1 s2 x scale zp y).1 (ravel s0 j) =
      qlSat lo hi (qlRound mode (x (ravel s0 j) / scale (ravel s1 (bcast s1 j))) + (qlForward mode lo hi s0 s1 s2 x scale zp y).2 (ravel s2 (bcast s2 j))) := by
  simp only [qlShapeOk, Bool.and_eq_true, decide_eq_true_eq] at hs
  obtain ⟨⟨⟨l1, l2⟩, a1⟩, a2⟩ := hs
  have b1 := ql_binarySetup s0 s1 l1 a1 hpos
  have b2 := ql_binarySetup s0 s2 l2 a2 hpos
  have hlt : ravel s0 j < prod s0 := ravel_lt hj
  simp only [qlForward]
  rw [unaryForward_eq, if_pos hlt, (C81_forward (· + ·) s0 s2 s0 b2 _ _ _ j hj).1, bcast_self s0 j hj, unaryForward_eq, if_pos hlt,
    (C81_forward (· / ·) s0 s1 s0 b1 _ _ _ j hj).1, bcast_self s0 j hj]

/-- **C96.** quantize_linear: each output is x / scale rounded, plus the rounded and clipped zero point, clipped to the range of the type; the zero point
input itself is overwritten by its rounded and clipped value. -/
theorem C96_quantize_linear (mode : String) (t : QType) (narrow : Bool) (s0 s1 s2 : Shape) (hs : qlShapeOk s0 s1 s2 = true) (hpos : ∀ d ∈ s0, 0 < d)
    (x scale zp y : Mem ℝ) (lo hi : Int) (hr : qlRange t narrow = (lo, hi)) :
    (∀ j, InBounds s0 j → (qlForward mode lo hi s0 s1 s2 x scale zp y).1 (ravel s0 j) =
      max (lo : ℝ) (min (hi : ℝ) (qlRound mode (x (ravel s0 j) / scale (ravel s1 (bcast s1 j))) +
        max (lo : ℝ) (min (hi : ℝ) (qlRound mode (zp (ravel s2 (bcast s2 j)))))))) ∧
    ∀ k, (qlForward mode lo hi s0 s1 s2 x scale zp y).2 k = if k < prod s2 then max (lo : ℝ) (min (hi : ℝ) (qlRound mode (zp k))) else zp k := by
  have hle : lo ≤ hi := by have := qlRange_le t narrow; rw [hr] at this; exact this
  have hz : ∀ k, (qlForward mode lo hi s0 s1 s2 x scale zp y).2 k = if k < prod s2 then max (lo : ℝ) (min (hi : ℝ) (qlRound mode (zp k))) else zp k := by
    intro k
    simp only [qlForward]
    rw [unaryForward_eq, unaryForward_eq]
    split
    · rw [qlSat_eq lo hi hle]
    · rfl
  refine ⟨?_, hz⟩
  intro j hj
  rw [qlForward_at mode lo hi s0 s1 s2 hs hpos x scale zp y j hj, qlSat_eq lo hi hle, hz]
  have hb : InBounds s2 (bcast s2 j) := by
    simp only [qlShapeOk, Bool.and_eq_true, decide_eq_true_eq] at hs
    exact (C81_forward (fun a b : ℝ => a) s0 s2 s0 (ql_binarySetup s0 s2 hs.1.1.2 hs.2 hpos) x x x j hj).2.2
  rw [if_pos (ravel_lt hb)]

/-- **C96.** The rounding modes: HALF_AWAY_FROM_ZERO and HALF_TO_EVEN give a nearest integer, on ties the one farther from zero and the even one. -/
theorem C96_rounding (x : ℝ) :
    (∃ k : ℤ, qlRound "HALF_AWAY_FROM_ZERO" x = k ∧ (∀ k' : ℤ, |(k : ℝ) - x| ≤ |(k' : ℝ) - x|) ∧ (|(k : ℝ) - x| = 1 / 2 → |x| ≤ |(k : ℝ)|)) ∧
    (∃ k : ℤ, qlRound "HALF_TO_EVEN" x = k ∧ (∀ k' : ℤ, |(k : ℝ) - x| ≤ |(k' : ℝ) - x|) ∧ (|(k : ℝ) - x| = 1 / 2 → Even k)) := by
  have hne : ("HALF_TO_EVEN" : String) ≠ "HALF_AWAY_FROM_ZERO" := by decide
  obtain ⟨k, hk⟩ := cround_int x
  have hn := cround_nearest x
  have hd := cround_dist x
  constructor
  · refine ⟨k, by rw [qlRound, if_pos rfl, hk], fun k' => by rw [← hk]; exact hn k', ?_⟩
    intro _
    rw [← hk]
    unfold cround
    by_cases hx : x < 0
    · rw [if_pos hx, abs_of_neg hx, abs_neg]
      have h1 := Int.lt_floor_add_one (-x + 1 / 2)
      have h2 := Int.floor_le (-x + 1 / 2)
      have h3 : (⌊-x + 1 / 2⌋ : ℝ) = k * (-1) := by
        have := hk
        unfold cround at this
        rw [if_pos hx] at this
        linarith
      have h4 : |(k : ℝ) - x| = 1 / 2 := by assumption
      have hf0 : (0 : ℝ) ≤ (⌊-x + 1 / 2⌋ : ℝ) := by
        have : (0 : ℤ) ≤ ⌊-x + 1 / 2⌋ := Int.floor_nonneg.mpr (by linarith)
        exact_mod_cast this
      rw [abs_of_nonneg hf0]
      rcases abs_cases ((k : ℝ) - x) with ⟨e, _⟩ | ⟨e, _⟩ <;> rw [e] at h4 <;> linarith
    · rw [if_neg hx, abs_of_nonneg (not_lt.mp hx)]
      have h1 := Int.lt_floor_add_one (x + 1 / 2)
      have h3 : (⌊x + 1 / 2⌋ : ℝ) = k := by
        have := hk
        unfold cround at this
        rw [if_neg hx] at this
        exact this
      have h4 : |(k : ℝ) - x| = 1 / 2 := by assumption
      have hf0 : (0 : ℝ) ≤ (⌊x + 1 / 2⌋ : ℝ) := by
        have : (0 : ℤ) ≤ ⌊x + 1 / 2⌋ := Int.floor_nonneg.mpr (by have := not_lt.mp hx; linarith)
        exact_mod_cast this
      rw [abs_of_nonneg hf0]
      rcases abs_cases ((k : ℝ) - x) with ⟨e, _⟩ | ⟨e, _⟩ <;> rw [e] at h4 <;> linarith
  · have hq : qlRound "HALF_TO_EVEN" x = if |x - cround x| = 1 / 2 then cround (x * (1 / 2)) * 2 else cround x := by
      rw [qlRound, if_neg hne, if_pos rfl]
    rw [hq]
    by_cases ht : |x - cround x| = 1 / 2
    · rw [if_pos ht]
      obtain ⟨m, hm⟩ := cround_int (x * (1 / 2))
      have hdm := abs_le.mp (cround_dist (x * (1 / 2)))
      rw [hm] at hdm
      refine ⟨m * 2, by rw [hm]; push_cast; ring, ?_, fun _ => ⟨m, by ring⟩⟩
      intro k'
      -- x is half-way between the integers k and k ± 1, so 2m is one of them
      have key : |((m * 2 : ℤ) : ℝ) - x| ≤ 1 / 2 := by
        rw [hk] at ht
        push_cast
        rcases abs_cases (x - (k : ℝ)) with ⟨e, _⟩ | ⟨e, _⟩ <;> rw [e] at ht
        · have hx : x = k + 1 / 2 := by linarith
          have h1 : (m : ℝ) * 2 < k + 2 := by rw [hx] at hdm; linarith [hdm.2]
          have h2 : (k : ℝ) - 1 < m * 2 := by rw [hx] at hdm; linarith [hdm.1]
          have h1' : m * 2 < k + 2 := by exact_mod_cast h1
          have h2' : k - 1 < m * 2 := by exact_mod_cast h2
          have : m * 2 = k ∨ m * 2 = k + 1 := by omega
          rcases this with e | e
          · have : (m : ℝ) * 2 = k := by exact_mod_cast e
            rw [this, hx, abs_le]; constructor <;> linarith
          · have : (m : ℝ) * 2 = k + 1 := by exact_mod_cast e
            rw [this, hx, abs_le]; constructor <;> linarith
        · have hx : x = k - 1 / 2 := by linarith
          have h1 : (m : ℝ) * 2 < k + 1 := by rw [hx] at hdm; linarith [hdm.2]
          have h2 : (k : ℝ) - 2 < m * 2 := by rw [hx] at hdm; linarith [hdm.1]
          have h1' : m * 2 < k + 1 := by exact_mod_cast h1
          have h2' : k - 2 < m * 2 := by exact_mod_cast h2
          have : m * 2 = k ∨ m * 2 = k - 1 := by omega
          rcases this with e | e
          · have : (m : ℝ) * 2 = k := by exact_mod_cast e
            rw [this, hx, abs_le]; constructor <;> linarith
          · have : (m : ℝ) * 2 = k - 1 := by exact_mod_cast e
            rw [this, hx, abs_le]; constructor <;> linarith
      have h1 := hn k'
      rw [abs_sub_comm] at ht
      linarith
    · rw [if_neg ht]
      refine ⟨k, hk, fun k' => by rw [← hk]; exact hn k', ?_⟩
      intro he
      rw [← hk, abs_sub_comm] at he
      exact absurd he ht

theorem qlRound_int (mode : String) (hm : mode = "HALF_AWAY_FROM_ZERO" ∨ mode = "HALF_TO_EVEN") (x : ℝ) :
    ∃ k : ℤ, qlRound mode x = k ∧ |(k : ℝ) - x| ≤ 1 / 2 := by
  have hc := cround_nearest x
  rcases hm with rfl | rfl
  · obtain ⟨k, h1, h2, _⟩ := (C96_rounding x).1
    refine ⟨k, h1, ?_⟩
    obtain ⟨k', hk'⟩ := cround_int x
    exact le_trans (h2 k') (by rw [← hk']; exact cround_dist x)
  · obtain ⟨k, h1, h2, _⟩ := (C96_rounding x).2
    refine ⟨k, h1, ?_⟩
    obtain ⟨k', hk'⟩ := cround_int x
    exact le_trans (h2 k') (by rw [← hk']; exact cround_dist x)

theorem clip_int (lo hi k : ℤ) (h : lo ≤ hi) : ∃ m : ℤ, lo ≤ m ∧ m ≤ hi ∧ max (lo : ℝ) (min (hi : ℝ) k) = m :=
  ⟨max lo (min hi k), le_max_left _ _, max_le h (min_le_left _ _), by push_cast; rfl⟩

/-- **C96.** The clipping range is exactly the set of values the 8-bit type holds; narrow_range drops the smallest one and nothing else. -/
theorem C96_type_range (t : QType) (narrow : Bool) (v : ℤ) :
    ((qlRange t narrow).1 ≤ v ∧ v ≤ (qlRange t narrow).2) ↔
      match t with
      | .byte => (-2 ^ 7 ≤ v ∧ v < 2 ^ 7) ∧ (narrow = true → v ≠ -2 ^ 7)
      | .ubyte => (0 ≤ v ∧ v < 2 ^ 8) ∧ (narrow = true → v ≠ 0) := by
  cases t <;> cases narrow <;> simp [qlRange] <;> omega

example : (qlRange .byte true).1 ≤ -127 ∧ ¬ (qlRange .byte true).1 ≤ -128 := by decide

/-- **C96.** Every output and the zero point are integers in the range of the type. -/
theorem C96_range (mode : String) (hm : mode = "HALF_AWAY_FROM_ZERO" ∨ mode = "HALF_TO_EVEN") (t : QType) (narrow : Bool) (s0 s1 s2 : Shape)
    (hs : qlShapeOk s0 s1 s2 = true) (hpos : ∀ d ∈ s0, 0 < d) (x scale zp y : Mem ℝ) (lo hi : Int) (hr : qlRange t narrow = (lo, hi)) :
    (∀ j, InBounds s0 j → ∃ k : ℤ, lo ≤ k ∧ k ≤ hi ∧ (qlForward mode lo hi s0 s1 s2 x scale zp y).1 (ravel s0 j) = k) ∧
    ∀ i, i < prod s2 → ∃ k : ℤ, lo ≤ k ∧ k ≤ hi ∧ (qlForward mode lo hi s0 s1 s2 x scale zp y).2 i = k := by
  have hle : lo ≤ hi := by have := qlRange_le t narrow; rw [hr] at this; exact this
  obtain ⟨h1, h2⟩ := C96_quantize_linear mode t narrow s0 s1 s2 hs hpos x scale zp y lo hi hr
  constructor
  · intro j hj
    rw [h1 j hj]
    obtain ⟨a, ha, _⟩ := qlRound_int mode hm (x (ravel s0 j) / scale (ravel s1 (bcast s1 j)))
    obtain ⟨b, hb, _⟩ := qlRound_int mode hm (zp (ravel s2 (bcast s2 j)))
    obtain ⟨c, _, _, hc⟩ := clip_int lo hi b hle
    rw [ha, hb, hc]
    have := clip_int lo hi (a + c) hle
    push_cast at this
    exact this
  · intro i hi'
    rw [h2 i, if_pos hi']
    obtain ⟨b, hb, _⟩ := qlRound_int mode hm (zp i)
    rw [hb]
    exact clip_int lo hi b hle

theorem dqForward_at (s0 s1 s2 : Shape) (hs : qlShapeOk s0 s1 s2 = true) (hpos : ∀ d ∈ s0, 0 < d) (x scale zp y : Mem ℝ) (j : List Nat) (hj : InBounds s0 j) :
    dqForward s0 s1 s2 x scale zp y (ravel s0 j) = (x (ravel s0 j) - zp (ravel s2 (bcast s2 j))) * scale (ravel s1 (bcast s1 j)) := by
  simp only [qlShapeOk, Bool.and_eq_true, decide_eq_true_eq] at hs
  obtain ⟨⟨⟨l1, l2⟩, a1⟩, a2⟩ := hs
  simp only [dqForward]
  rw [(C81_forward (· * ·) s0 s1 s0 (ql_binarySetup s0 s1 l1 a1 hpos) _ _ _ j hj).1, bcast_self s0 j hj,
    (C81_forward (· - ·) s0 s2 s0 (ql_binarySetup s0 s2 l2 a2 hpos) _ _ _ j hj).1, bcast_self s0 j hj]

/-- **C96.** dequantize_linear(quantize_linear(x)) is within half a step of x wherever the quantized value was not clipped. -/
theorem C96_round_trip (mode : String) (hm : mode = "HALF_AWAY_FROM_ZERO" ∨ mode = "HALF_TO_EVEN") (t : QType) (narrow : Bool) (s0 s1 s2 : Shape)
    (hs : qlShapeOk s0 s1 s2 = true) (hpos : ∀ d ∈ s0, 0 < d) (x scale zp y y' : Mem ℝ) (lo hi : Int) (hr : qlRange t narrow = (lo, hi)) (j : List Nat) (hj : InBounds s0 j)
    (hsc : scale (ravel s1 (bcast s1 j)) ≠ 0)
    (hin : lo ≤ qlRound mode (x (ravel s0 j) / scale (ravel s1 (bcast s1 j))) + (qlForward mode lo hi s0 s1 s2 x scale zp y).2 (ravel s2 (bcast s2 j)) ∧
      qlRound mode (x (ravel s0 j) / scale (ravel s1 (bcast s1 j))) + (qlForward mode lo hi s0 s1 s2 x scale zp y).2 (ravel s2 (bcast s2 j)) ≤ hi) :
    |dqForward s0 s1 s2 (qlForward mode lo hi s0 s1 s2 x scale zp y).1 scale (qlForward mode lo hi s0 s1 s2 x scale zp y).2 y' (ravel s0 j) - x (ravel s0 j)| ≤
      |scale (ravel s1 (bcast s1 j))| / 2 := by
  have hle : lo ≤ hi := by have := qlRange_le t narrow; rw [hr] at this; exact this
  rw [dqForward_at s0 s1 s2 hs hpos _ _ _ _ j hj, qlForward_at mode lo hi s0 s1 s2 hs hpos x scale zp y j hj]
  generalize (qlForward mode lo hi s0 s1 s2 x scale zp y).2 (ravel s2 (bcast s2 j)) = z at hin ⊢
  generalize scale (ravel s1 (bcast s1 j)) = s at hin hsc ⊢
  generalize x (ravel s0 j) = a at hin ⊢
  rw [qlSat_eq lo hi hle, min_eq_right hin.2, max_eq_right hin.1]
  obtain ⟨k, hk, hd⟩ := qlRound_int mode hm (a / s)
  rw [hk, add_sub_cancel_right]
  have : (k : ℝ) * s - a = (k - a / s) * s := by rw [sub_mul, div_mul_cancel₀ _ hsc]
  rw [this, abs_mul]
  have := mul_le_mul_of_nonneg_right hd (abs_nonneg s)
  linarith

/-- **C96.** The overwritten zero point is stable: running forward again changes neither the output nor the zero point. -/
theorem C96_rerun (mode : String) (hm : mode = "HALF_AWAY_FROM_ZERO" ∨ mode = "HALF_TO_EVEN") (t : QType) (narrow : Bool) (s0 s1 s2 : Shape)
    (hs : qlShapeOk s0 s1 s2 = true) (hpos : ∀ d ∈ s0, 0 < d) (x scale zp y y' : Mem ℝ) (lo hi : Int) (hr : qlRange t narrow = (lo, hi)) :
    (∀ j, InBounds s0 j → (qlForward mode lo hi s0 s1 s2 x scale (qlForward mode lo hi s0 s1 s2 x scale zp y).2 y').1 (ravel s0 j) =
      (qlForward mode lo hi s0 s1 s2 x scale zp y).1 (ravel s0 j)) ∧
    ∀ i, (qlForward mode lo hi s0 s1 s2 x scale (qlForward mode lo hi s0 s1 s2 x scale zp y).2 y').2 i = (qlForward mode lo hi s0 s1 s2 x scale zp y).2 i := by
  have hle : lo ≤ hi := by have := qlRange_le t narrow; rw [hr] at this; exact this
  have hround : ∀ k : ℤ, qlRound mode k = k := by
    intro k
    rcases hm with rfl | rfl
    · rw [qlRound, if_pos rfl, cround_intCast]
    · rw [qlRound, if_neg (by decide), if_pos rfl]
      dsimp only
      rw [cround_intCast, sub_self, abs_zero, if_neg (by norm_num)]
  have hz : ∀ i, (qlForward mode lo hi s0 s1 s2 x scale (qlForward mode lo hi s0 s1 s2 x scale zp y).2 y').2 i = (qlForward mode lo hi s0 s1 s2 x scale zp y).2 i := by
    intro i
    rw [(C96_quantize_linear mode t narrow s0 s1 s2 hs hpos x scale _ y' lo hi hr).2 i]
    split
    · obtain ⟨k, h1, h2, e⟩ := (C96_range mode hm t narrow s0 s1 s2 hs hpos x scale zp y lo hi hr).2 i ‹_›
      have h1' : (lo : ℝ) ≤ k := by exact_mod_cast h1
      have h2' : (k : ℝ) ≤ hi := by exact_mod_cast h2
      rw [e, hround, min_eq_right h2', max_eq_right h1']
    · rfl
  refine ⟨?_, hz⟩
  intro j hj
  rw [qlForward_at mode lo hi s0 s1 s2 hs hpos x scale _ y' j hj, hz, ← qlForward_at mode lo hi s0 s1 s2 hs hpos x scale zp y j hj]

/-- **C96.** Backward is the straight-through gradient dy / scale (added under accumulation), and an error when the gradient of the scale or the zero
point is requested. -/
theorem C96_quantize_grad (s0 s1 : Shape) (hl : s0.length = s1.length) (hs : (s0.zip s1).all (fun p => p.2 == 1 || p.2 == p.1) = true) (hpos : ∀ d ∈ s0, 0 < d)
    (scale : Mem ℝ) (accum : Bool) (dy dx : Mem ℝ) :
    (∃ r, qlBackward s0 s1 scale false false accum dy dx = .ok r ∧ ∀ j, InBounds s0 j →
      r (ravel s0 j) = (if accum then dx (ravel s0 j) else 0) + dy (ravel s0 j) / scale (ravel s1 (bcast s1 j))) ∧
    ∀ p1 p2, p1 = true ∨ p2 = true → ∃ e, qlBackward s0 s1 scale p1 p2 accum dy dx = .error e := by
  have b1 := ql_binarySetup s0 s1 hl hs hpos
  have b0 : binarySetup s0 s0 = .ok s0 := ql_binarySetup s0 s0 rfl (by
    rw [List.all_eq_true]
    intro p hp
    obtain ⟨i, hi, rfl⟩ := List.getElem_of_mem hp
    simp) hpos
  constructor
  · refine ⟨_, rfl, ?_⟩
    intro j hj
    cases accum
    · simp only [Bool.false_eq_true, if_false, zero_add]
      rw [(C81_forward (· / ·) s0 s1 s0 b1 _ _ _ j hj).1, bcast_self s0 j hj]
    · simp only [if_true]
      rw [(C81_forward (· + ·) s0 s0 s0 b0 _ _ _ j hj).1, bcast_self s0 j hj, (C81_forward (· / ·) s0 s1 s0 b1 _ _ _ j hj).1, bcast_self s0 j hj]
  · rintro p1 p2 (rfl | rfl)
    · exact ⟨_, rfl⟩
    · cases p1 <;> exact ⟨_, rfl⟩

end Verif.Elem
