import Verif.Select.Bool
/-
C121: bool_gather, bool_scatter, bool_fill.
-/
namespace Verif.Select
open Verif.Fn Verif.ND Verif.Elem

variable {R : Type} [CommRing R] [DecidableEq R]

theorem gatherSetup_ok (msh T : Shape) (n : Int) : gatherSetup (msh ++ T) msh n = .ok (if T = [] then [n] else [n, (prod T : Int)]) := by
  unfold gatherSetup
  rw [if_neg (by simp), if_neg (by simp)]
  by_cases h : T = []
  · subst h; simp
  · have : T.length ≠ 0 := fun e => h (List.length_eq_zero_iff.mp e)
    rw [if_pos (by simpa using h), if_neg h, List.drop_left]

/-- **C121.** bool_gather of an array of shape M ++ T with a mask of shape M that selects at least one position: the result has
one row for every selected position, in memory order, and row number `rank` (the number of selected positions before) holds
the elements of that position. -/
theorem C121_gather_partial (M T : Shape) (g mask s : Mem R) (hsel : ∃ b, b < prod M ∧ mask b ≠ 0) :
    ∃ sh y, boolGather (M ++ T) M g mask s = .ok (sh, y) ∧
      (sh = if T = [] then [(rank mask (prod M) : Int)] else [(rank mask (prod M) : Int), (prod T : Int)]) ∧
      (∀ j t, InBounds M j → InBounds T t → mask (ravel M j) ≠ 0 →
        y (rank mask (ravel M j) * prod T + ravel T t) = g (ravel (M ++ T) (j ++ t))) ∧
      ∀ k, k < rank mask (prod M) → ∃ j, InBounds M j ∧ mask (ravel M j) ≠ 0 ∧ rank mask (ravel M j) = k := by
  obtain ⟨b0, hb0, hm0⟩ := hsel
  have hpos : 0 < rank mask (prod M) := lt_of_le_of_lt (Nat.zero_le _) (rank_lt mask hb0 hm0)
  have hne : Nat.count (fun b => mask b ≠ 0) (prod M) ≠ 0 := by
    show rank mask (prod M) ≠ 0
    omega
  refine ⟨_, kernelGather (prod T) (prod M) (rank mask (prod M)) false s g mask, ?_, rfl, ?_, ?_⟩
  · unfold boolGather
    simp only [gatherSetup_ok]
    rw [if_neg hne, List.drop_left, Nat.mul_div_cancel_left _ hpos]
  · intro j t hj ht hm
    rw [(kernelGather_spec _ _ _ _ _ _).1 _ _ (ravel_lt hj) (ravel_lt ht) hm, ravel_append _ _ _ _ hj.length]
    simp
  · intro k hk
    obtain ⟨b, h1, h2, h3⟩ := exists_rank mask (prod M) k hk
    have hb := (C33_bijection M).2 b (by rw [(C33_size M 0).1]; exact h1)
    have e : ravel M (flat2nd b (cStrides M)) = b := by
      rw [← (C33_offset M _ hb.1).1]; exact hb.2
    exact ⟨_, hb.1, by rw [e]; exact h2, by rw [e]; exact h3⟩

/-- **C121, refutation of the documented output shape.** With two or more trailing dimensions the output does not have the
documented shape (nnz, D_1, …, D_M): the trailing dimensions are merged. -/
theorem C121_gather_shape_refuted (M T : Shape) (hT : 2 ≤ T.length) (n : Nat) (sh : List Int) (h : gatherSetup (M ++ T) M n = .ok sh) :
    sh ≠ (n : Int) :: T.map (fun d => (d : Int)) := by
  rw [gatherSetup_ok] at h
  have hne : T ≠ [] := by rintro rfl; simp at hT
  rw [if_neg hne] at h
  injection h with h
  subst h
  intro e
  have := congrArg List.length e
  simp at this
  omega

/-- **C121.** With no or one trailing dimension the shape is the documented one. -/
theorem C121_gather_shape (M T : Shape) (hT : T.length ≤ 1) (n : Nat) :
    gatherSetup (M ++ T) M n = .ok ((n : Int) :: T.map (fun d => (d : Int))) := by
  rw [gatherSetup_ok]
  match T, hT with
  | [], _ => rfl
  | [d], _ => simp [prod]

/-- **C121, refutation for masks that select nothing.** bool_gather with an all-zero mask does not return an empty array: it
divides by zero. So does bool_scatter of zero rows. -/
theorem C121_empty_refuted (M T : Shape) (g mask s : Mem R) (h : ∀ b, b < prod M → mask b = 0) (out : Mem R) (S : Shape) (o : Option (Shape × Mem R)) :
    (∃ e, boolGather (M ++ T) M g mask s = .error e) ∧ ∃ e, boolScatter (0 :: S) M o g mask out = .error e := by
  have h0 : Nat.count (fun b => mask b ≠ 0) (prod M) = 0 := by
    rw [Nat.count_iff_forall_not]
    intro b hb
    simpa using h b hb
  refine ⟨⟨"SIGFPE: division by zero", ?_⟩, ?_⟩
  · unfold boolGather
    simp only [gatherSetup_ok]
    rw [if_pos h0]
  · unfold boolScatter
    cases scatterSetup (0 :: S) M (o.map (·.1)) with
    | error e => exact ⟨e, rfl⟩
    | ok sh => exact ⟨_, rfl⟩

/-- **C121.** bool_scatter of `nnz` rows of shape T, nnz the number of selected positions: every selected position gets its
row; the others get zero, or keep the content of the third input if one is given. -/
theorem C121_scatter (M T : Shape) (s mask out : Mem R) (g : Option (Mem R)) (hpos : 0 < rank mask (prod M)) :
    ∃ y, boolScatter (rank mask (prod M) :: T) M (g.map fun m => (M ++ T, m)) s mask out = .ok (M ++ T, y) ∧
      ∀ j t, InBounds M j → InBounds T t → y (ravel (M ++ T) (j ++ t)) =
        if mask (ravel M j) ≠ 0 then s (rank mask (ravel M j) * prod T + ravel T t)
        else match g with | some m => m (ravel (M ++ T) (j ++ t)) | none => 0 := by
  refine ⟨kernelScatter (prod T) (prod M) (rank mask (prod M)) false g.isSome (g.getD out) s mask, ?_, ?_⟩
  · unfold boolScatter
    have hs : scatterSetup (rank mask (prod M) :: T) M ((g.map fun m => (M ++ T, m)).map (·.1)) = .ok (M ++ T) := by
      cases g with
      | none => rfl
      | some m => simp [scatterSetup]
    rw [hs]
    simp only
    rw [if_neg (by omega)]
    have e1 : prod (rank mask (prod M) :: T) / rank mask (prod M) = prod T := by
      show rank mask (prod M) * prod T / rank mask (prod M) = prod T
      rw [Nat.mul_div_cancel_left _ hpos]
    rw [e1]
    cases g <;> rfl
  · intro j t hj ht
    rw [ravel_append _ _ _ _ hj.length, (kernelScatter_spec _ _ _ hpos _ _ _ _ _).1 _ _ (ravel_lt hj) (ravel_lt ht)]
    by_cases hm : mask (ravel M j) ≠ 0
    · have := rank_lt mask (ravel_lt hj) hm
      rw [if_pos hm, if_pos hm, min_eq_left (by omega)]
      simp
    · rw [if_neg hm, if_neg hm]
      cases g <;> simp

/-- **C121.** What scatter does when the number of rows differs from the number of selected positions: no error; surplus
positions repeat the last row. -/
theorem C121_scatter_short (D B nnz : Nat) (hn : 0 < nnz) (gdata sdata mask : Mem R) (b d : Nat) (hb : b < B) (hd : d < D) (hm : mask b ≠ 0) (hr : nnz ≤ rank mask b) :
    kernelScatter D B nnz false false gdata sdata mask (b * D + d) = sdata ((nnz - 1) * D + d) := by
  rw [(kernelScatter_spec D B nnz hn false false gdata sdata mask).1 b d hb hd, if_pos hm, min_eq_right (by omega)]
  simp

/-- **C121.** Round trips: gathering what was scattered returns the rows; scattering what was gathered returns the array with
the unselected positions zeroed (or, into the array itself, the array). -/
theorem C121_round_trip (D B : Nat) (x s mask m0 m1 : Mem R) (hpos : 0 < rank mask B) :
    (∀ i, i < rank mask B * D → kernelGather D B (rank mask B) false m0 (kernelScatter D B (rank mask B) false false m1 s mask) mask i = s i) ∧
    (∀ b d, b < B → d < D → kernelScatter D B (rank mask B) false false m1 (kernelGather D B (rank mask B) false m0 x mask) mask (b * D + d) =
      if mask b ≠ 0 then x (b * D + d) else 0) ∧
    ∀ b d, b < B → d < D → kernelScatter D B (rank mask B) false true x (kernelGather D B (rank mask B) false m0 x mask) mask (b * D + d) = x (b * D + d) := by
  refine ⟨?_, ?_, ?_⟩
  · intro i hi
    have hD : 0 < D := Nat.pos_of_ne_zero (by rintro rfl; simp at hi)
    obtain ⟨b, h1, h2, h3⟩ := exists_rank mask B (i / D) (Nat.div_lt_of_lt_mul (by rwa [Nat.mul_comm] at hi))
    have hi' : i = rank mask b * D + i % D := by rw [h3, Nat.mul_comm, Nat.div_add_mod]
    have hmod := Nat.mod_lt i hD
    rw [hi', (kernelGather_spec D B false _ _ mask).1 b _ h1 hmod h2, (kernelScatter_spec D B _ hpos _ _ _ _ _).1 b _ h1 hmod, if_pos h2,
      min_eq_left (by have := rank_lt mask h1 h2; omega)]
    simp
  · intro b d hb hd
    rw [(kernelScatter_spec D B _ hpos _ _ _ _ _).1 b d hb hd]
    by_cases hm : mask b ≠ 0
    · rw [if_pos hm, if_pos hm, min_eq_left (by have := rank_lt mask hb hm; omega), (kernelGather_spec D B false _ _ mask).1 b d hb hd hm]
      simp
    · rw [if_neg hm, if_neg hm]; simp
  · intro b d hb hd
    rw [(kernelScatter_spec D B _ hpos _ _ _ _ _).1 b d hb hd]
    by_cases hm : mask b ≠ 0
    · rw [if_pos hm, min_eq_left (by have := rank_lt mask hb hm; omega), (kernelGather_spec D B false _ _ mask).1 b d hb hd hm]
      simp
    · rw [if_neg hm]; simp

/-- **C121.** Gradients. The gradient bool_gather propagates (the scatter kernel) is the transpose of gathering; the gradient
bool_scatter propagates to the rows (the gather kernel) and to its third input (masked identity) are the transposes of
scattering; with accumulation they are added to the old gradient. -/
theorem C121_backward (D B : Nat) (mask m0 m1 m2 : Mem R) (hpos : 0 < rank mask B) :
    Adjoint (B * D) (rank mask B * D) (fun x => kernelGather D B (rank mask B) false m0 x mask)
      (fun dy => kernelScatter D B (rank mask B) false false m1 dy mask) ∧
    (∀ s x dy, dot (B * D) dy (kernelScatter D B (rank mask B) false true x s mask) =
      dot (rank mask B * D) (kernelGather D B (rank mask B) false m0 dy mask) s + dot (B * D) (kernelMaskedIdentity B D false m2 dy mask) x) ∧
    (∀ dy dx dx' k, k < B * D → kernelScatter D B (rank mask B) true false dx dy mask k = dx k + kernelScatter D B (rank mask B) false false dx' dy mask k) ∧
    (∀ dy dx dx' k, k < rank mask B * D → kernelGather D B (rank mask B) true dx dy mask k = dx k + kernelGather D B (rank mask B) false dx' dy mask k) ∧
    ∀ dy dx dx' k, k < B * D → kernelMaskedIdentity B D true dx dy mask k = dx k + kernelMaskedIdentity B D false dx' dy mask k := by
  have split : ∀ {n k : Nat}, k < n * D → ∃ b d, b < n ∧ d < D ∧ k = b * D + d := by
    intro n k hk
    have hD : 0 < D := Nat.pos_of_ne_zero (by rintro rfl; simp at hk)
    exact ⟨k / D, k % D, Nat.div_lt_of_lt_mul (by rwa [Nat.mul_comm] at hk), Nat.mod_lt _ hD, by rw [Nat.mul_comm, Nat.div_add_mod]⟩
  refine ⟨?_, ?_, ?_, ?_, ?_⟩
  · intro x dy
    unfold dot
    beta_reduce
    rw [sum_range_mul, sum_range_mul]
    rw [sum_rank B mask (fun k => ∑ d ∈ Finset.range D, dy (k * D + d) * kernelGather D B (rank mask B) false m0 x mask (k * D + d))
      (fun b => ∑ d ∈ Finset.range D, dy (rank mask b * D + d) * x (b * D + d))]
    · refine Finset.sum_congr rfl fun b hb => ?_
      have hb := Finset.mem_range.mp hb
      by_cases hm : mask b ≠ 0
      · rw [if_pos hm]
        refine Finset.sum_congr rfl fun d hd => ?_
        rw [(kernelScatter_spec D B _ hpos _ _ _ _ _).1 b d hb (Finset.mem_range.mp hd), if_pos hm, min_eq_left (by have := rank_lt mask hb hm; omega)]
        simp
      · rw [if_neg hm]
        refine (Finset.sum_eq_zero fun d hd => ?_).symm
        rw [(kernelScatter_spec D B _ hpos _ _ _ _ _).1 b d hb (Finset.mem_range.mp hd), if_neg hm]
        simp
    · intro b hb hm
      refine Finset.sum_congr rfl fun d hd => ?_
      rw [(kernelGather_spec D B false _ _ mask).1 b d hb (Finset.mem_range.mp hd) hm]
      simp
  · intro s x dy
    unfold dot
    rw [sum_range_mul, sum_range_mul, sum_range_mul]
    rw [sum_rank B mask (fun k => ∑ d ∈ Finset.range D, kernelGather D B (rank mask B) false m0 dy mask (k * D + d) * s (k * D + d))
      (fun b => ∑ d ∈ Finset.range D, dy (b * D + d) * s (rank mask b * D + d))]
    · rw [← Finset.sum_add_distrib]
      refine Finset.sum_congr rfl fun b hb => ?_
      have hb := Finset.mem_range.mp hb
      by_cases hm : mask b ≠ 0
      · rw [if_pos hm, ← Finset.sum_add_distrib]
        refine Finset.sum_congr rfl fun d hd => ?_
        rw [(kernelScatter_spec D B _ hpos _ _ _ _ _).1 b d hb (Finset.mem_range.mp hd), if_pos hm, min_eq_left (by have := rank_lt mask hb hm; omega),
          kernelMaskedIdentity_spec B D _ _ _ _ b d hb (Finset.mem_range.mp hd), if_neg hm]
        simp
      · rw [if_neg hm, zero_add]
        refine Finset.sum_congr rfl fun d hd => ?_
        rw [(kernelScatter_spec D B _ hpos _ _ _ _ _).1 b d hb (Finset.mem_range.mp hd), if_neg hm,
          kernelMaskedIdentity_spec B D _ _ _ _ b d hb (Finset.mem_range.mp hd), if_pos (show mask b = 0 by simpa using hm)]
        simp
    · intro b hb hm
      refine Finset.sum_congr rfl fun d hd => ?_
      rw [(kernelGather_spec D B false _ _ mask).1 b d hb (Finset.mem_range.mp hd) hm]
      simp
  · intro dy dx dx' k hk
    obtain ⟨b, d, hb, hd, rfl⟩ := split hk
    rw [(kernelScatter_spec D B _ hpos _ _ _ _ _).1 b d hb hd, (kernelScatter_spec D B _ hpos _ _ _ _ _).1 b d hb hd]
    simp
  · intro dy dx dx' k hk
    obtain ⟨r, d, hr, hd, rfl⟩ := split hk
    obtain ⟨b, h1, h2, h3⟩ := exists_rank mask B r hr
    rw [← h3, (kernelGather_spec D B _ _ _ mask).1 b d h1 hd h2, (kernelGather_spec D B _ _ _ mask).1 b d h1 hd h2]
    simp
  · intro dy dx dx' k hk
    obtain ⟨b, d, hb, hd, rfl⟩ := split hk
    rw [kernelMaskedIdentity_spec B D _ _ _ _ b d hb hd, kernelMaskedIdentity_spec B D _ _ _ _ b d hb hd]
    simp

/-- **C121.** bool_fill: where the (broadcast) mask is non-zero the result is the value, elsewhere the data; a mask that cannot
be broadcast to the data is refused. The gradient is the output gradient with the filled positions zeroed, added to the old
one when accumulating. -/
theorem C121_fill (dsh msh : Shape) (value : R) (data mask tmp output : Mem R) :
    ((∃ y, boolFill dsh msh value data mask tmp output = .ok y) ↔ CanBroadcast msh dsh) ∧
    (∀ y, boolFill dsh msh value data mask tmp output = .ok y → ∀ j, InBounds dsh j →
      y (ravel dsh j) = if mask (ravel msh (bcIndex msh dsh j)) ≠ 0 then value else data (ravel dsh j)) ∧
    ∀ accum dy dx g, boolFillBwd dsh msh accum dy mask tmp dx = .ok g → ∀ j, InBounds dsh j →
      g (ravel dsh j) = (if accum then dx (ravel dsh j) else 0) + (if mask (ravel msh (bcIndex msh dsh j)) ≠ 0 then 0 else dy (ravel dsh j)) := by
  have key : ((∃ m, fillMask dsh msh mask tmp = .ok m) ↔ CanBroadcast msh dsh) ∧
      ∀ m, fillMask dsh msh mask tmp = .ok m → ∀ j, InBounds dsh j → m (ravel dsh j) = mask (ravel msh (bcIndex msh dsh j)) := by
    unfold fillMask
    by_cases h1 : dsh.length < msh.length
    · rw [if_pos h1]
      refine ⟨⟨by rintro ⟨m, hm⟩; simp at hm, fun h => absurd h.1 (by omega)⟩, fun m hm => by simp at hm⟩
    rw [if_neg h1]
    by_cases h2 : dsh = msh
    · subst h2
      rw [if_neg (by simp)]
      refine ⟨⟨fun _ => ⟨le_refl _, ?_⟩, fun _ => ⟨_, rfl⟩⟩, ?_⟩
      · intro a e t he ht
        rw [Nat.sub_self, Nat.zero_add] at ht
        rw [he] at ht
        injection ht with ht
        exact Or.inl ht
      · intro m hm j hj
        injection hm with hm
        subst hm
        congr 1
        have : bcIndex dsh dsh j = j := by
          rw [bcIndex, Nat.sub_self, List.drop_zero]
          clear h1
          induction dsh generalizing j with
          | nil => cases j with
            | nil => rfl
            | cons _ _ => cases hj
          | cons d ds ih => cases j with
            | nil => cases hj
            | cons i is =>
              rw [List.zip_cons_cons, List.map_cons, ih is hj.2]
              congr 1
              have := hj.1
              by_cases h : d = 1
              · rw [if_pos h]; omega
              · rw [if_neg h]
        rw [this]
    · rw [if_pos h2]
      unfold bcForward
      have iff := bcSetup_iff msh dsh
      refine ⟨?_, ?_⟩
      · rw [← iff]
        cases bcSetup msh dsh with
        | error e => simp
        | ok st => simp
      · intro m hm j hj
        cases hst : bcSetup msh dsh with
        | error e => rw [hst] at hm; simp at hm
        | ok st =>
          rw [hst] at hm
          injection hm with hm
          subst hm
          obtain ⟨st', e', hg⟩ := bc_gathers msh dsh (iff.mp ⟨st, hst⟩)
          rw [hst] at e'
          injection e' with e'
          subst e'
          exact hg.forward mask tmp j hj
  refine ⟨?_, ?_, ?_⟩
  · rw [← key.1]
    unfold boolFill
    cases fillMask dsh msh mask tmp <;> simp
  · intro y hy j hj
    unfold boolFill at hy
    cases hm : fillMask dsh msh mask tmp with
    | error e => rw [hm] at hy; simp at hy
    | ok m =>
      rw [hm] at hy
      injection hy with hy
      subst hy
      rw [kernelFill_spec, if_pos (ravel_lt hj), key.2 m hm j hj]
  · intro accum dy dx g hg j hj
    unfold boolFillBwd at hg
    cases hm : fillMask dsh msh mask tmp with
    | error e => rw [hm] at hg; simp at hg
    | ok m =>
      rw [hm] at hg
      injection hg with hg
      subst hg
      rw [kernelFillBwd_spec _ _ _ _ _ _ (ravel_lt hj), key.2 m hm j hj]

/-! ### Non-vacuity -/

example : rank (R := ℤ) (fun b => if b = 1 then 0 else 1) 3 = 2 := by decide
/-- Mask (1,0,1) over rows (1,2),(3,4),(5,6) gathers (1,2),(5,6). -/
example : ((List.range 4).map (kernelGather (R := ℤ) 2 3 2 false (fun _ => 9) (fun i => i + 1) (fun b => if b = 1 then 0 else 1))) = [1, 2, 5, 6] := by decide
example : ∃ b, b < prod [3] ∧ (fun b => if b = 1 then (0 : ℤ) else 1) b ≠ 0 := ⟨0, by decide⟩
example : gatherSetup [3, 2, 2] [3] 2 = .ok [2, 4] := by decide
example : CanBroadcast [3] [2, 3] ∧ ¬CanBroadcast [2] [2, 3] := by
  rw [← bcSetup_iff, ← bcSetup_iff]
  exact ⟨⟨[0, 1], by decide⟩, by rintro ⟨st, h⟩; revert h; simp [bcSetup, expandShape, bcStrides, cStrides, List.replicate]⟩

end Verif.Select
