import Verif.Elem.Cum
import Verif.Fn.Broadcast
import Mathlib.Data.Nat.Count
/-
BoolGather, BoolScatter, BoolFill: models /repo/src/nbla/function/generic/{bool_gather,bool_scatter,bool_fill}.cpp and
/repo/include/nbla/function/utils/bool_indexing.hpp over a commutative ring.
Simplifications: exact arithmetic; sizes are unbounded naturals.
-/
namespace Verif.Select
open Verif.Fn Verif.ND Verif.Elem

/-! ### Model -/

variable {R : Type} [CommRing R] [DecidableEq R]

/-- `int(mask[b] != T(0))` (bool_indexing.hpp:29, 48). -/
def maskBit (mask : Mem R) (b : Nat) : Nat := if mask b ≠ 0 then 1 else 0

/-- The inner loop of kernel_bool_gather (bool_indexing.hpp:28-37) for one d; the state is (sdata, idx_nnz). The loop ends
when idx_nnz reaches nnz: the remaining steps do nothing. -/
def gatherInner (D B nnz : Nat) (accum : Bool) (gdata mask : Mem R) (d : Nat) (sdata : Mem R) : Mem R × Nat :=
  (List.range B).foldl (fun st b =>
    if st.2 < nnz then
      let v := (maskBit mask b : R) * gdata (b * D + d)
      (put st.1 (st.2 * D + d) (if accum then st.1 (st.2 * D + d) + v else v), st.2 + maskBit mask b)
    else st) (sdata, 0)

/-- kernel_bool_gather (bool_indexing.hpp:24-39). -/
def kernelGather (D B nnz : Nat) (accum : Bool) (sdata gdata mask : Mem R) : Mem R :=
  (List.range D).foldl (fun m d => (gatherInner D B nnz accum gdata mask d m).1) sdata

/-- kernel_bool_scatter (bool_indexing.hpp:41-66); the scan state is idx_nnz. -/
def kernelScatter (D B nnz : Nat) (accum inplace : Bool) (gdata sdata mask : Mem R) : Mem R :=
  (List.range D).foldl (fun m d =>
    (forScan B (fun b => b * D + d)
      (fun b idx old =>
        let v := (maskBit mask b : R) * sdata (idx * D + d)
        let v := if inplace then (if maskBit mask b ≠ 0 then v else old) else v
        if accum then old + v else v)
      (fun b idx => min (idx + maskBit mask b) (nnz - 1)) 0 m).1) gdata

/-- kernel_masked_identity (bool_scatter.cpp:87-99). -/
def kernelMaskedIdentity (B D : Nat) (accum : Bool) (gin gout mask : Mem R) : Mem R :=
  (List.range B).foldl (fun m b => forPut D (fun d => b * D + d)
    (fun d old => if accum then old + (if mask b = 0 then 1 else 0) * gout (b * D + d)
      else (if mask b = 0 then 1 else 0) * gout (b * D + d)) m) gin

/-- BoolGather::setup_impl (bool_gather.cpp:31-79): the output shape, from the mask's (integer) sum `msum`. The trailing
dimensions are flattened into one. -/
def gatherSetup (gshape mshape : Shape) (msum : Int) : Except String (List Int) :=
  if gshape.length < mshape.length then .error "input.ndim >= mask.ndim"
  else if gshape.take mshape.length ≠ mshape then .error "mask.shape must be equal to input.shape[:mask.ndim]"
  else if gshape.length ≠ mshape.length then .ok [msum, (prod (gshape.drop mshape.length) : Int)]
  else .ok [msum]

/-- bool_gather: setup and forward_impl (bool_gather.cpp:31-97) for a mask of zeros and ones, `nnz` of them ones.
`outputs[0]->size() / nnz` divides by zero when nnz is 0. Returns the output shape and data. -/
def boolGather (gshape mshape : Shape) (gdata mask sdata : Mem R) : Except String (List Int × Mem R) :=
  let nnz := Nat.count (fun b => mask b ≠ 0) (prod mshape)
  match gatherSetup gshape mshape nnz with
  | .error e => .error e
  | .ok sh =>
    if nnz = 0 then .error "SIGFPE: division by zero"
    else .ok (sh, kernelGather (nnz * prod (gshape.drop mshape.length) / nnz) (prod mshape) nnz false sdata gdata mask)

/-- BoolScatter::setup_impl (bool_scatter.cpp:30-69): the output shape; with a third input its shape must be the same. -/
def scatterSetup (sshape mshape : Shape) (gshape : Option Shape) : Except String Shape :=
  let out := mshape ++ sshape.drop 1
  match gshape with
  | none => .ok out
  | some g => if g = out then .ok out else .error "Shape of the inplaced output must be same as a computed shape from inputs."

/-- bool_scatter: setup and forward_impl (bool_scatter.cpp:30-89). With a third input the output shares its array. -/
def boolScatter (sshape mshape : Shape) (g : Option (Shape × Mem R)) (sdata mask out : Mem R) : Except String (Shape × Mem R) :=
  match scatterSetup sshape mshape (g.map (·.1)) with
  | .error e => .error e
  | .ok sh =>
    match sshape with
    | [] => .error "shape()[0] of a scalar"
    | nnz :: _ =>
      if nnz = 0 then .error "SIGFPE: division by zero"
      else .ok (sh, kernelScatter (prod sshape / nnz) (prod mshape) nnz false g.isSome ((g.map (·.2)).getD out) sdata mask)

/-- kernel_bool_fill_data_forward (bool_fill.cpp:49-55). -/
def kernelFill (N : Nat) (value : R) (output data mask : Mem R) : Mem R :=
  (List.range N).foldl (fun m i => put m i (if mask i ≠ 0 then value else data i)) output

/-- kernel_bool_fill_data_backward (bool_fill.cpp:77-86). -/
def kernelFillBwd (N : Nat) (accum : Bool) (gdata goutput mask : Mem R) : Mem R :=
  (List.range N).foldl (fun m i => put m i
    (if accum then m i + goutput i * (1 - (maskBit mask i : R)) else goutput i * (1 - (maskBit mask i : R)))) gdata

/-- The mask the kernels see: as is when the shapes are equal, else broadcast (bool_fill.cpp:36-43, 65-70). -/
def fillMask (dshape mshape : Shape) (mask tmp : Mem R) : Except String (Mem R) :=
  if dshape.length < mshape.length then .error "Input dim >= mask ndim must hold."
  else if dshape ≠ mshape then bcForward mshape dshape mask tmp
  else .ok mask

/-- bool_fill: setup and forward_impl (bool_fill.cpp:26-74). -/
def boolFill (dshape mshape : Shape) (value : R) (data mask tmp output : Mem R) : Except String (Mem R) :=
  match fillMask dshape mshape mask tmp with
  | .error e => .error e
  | .ok m => .ok (kernelFill (prod dshape) value output data m)

/-- BoolFill::backward_impl with propagate_down[0] (bool_fill.cpp:88-121). -/
def boolFillBwd (dshape mshape : Shape) (accum : Bool) (goutput mask tmp gdata : Mem R) : Except String (Mem R) :=
  match fillMask dshape mshape mask tmp with
  | .error e => .error e
  | .ok m => .ok (kernelFillBwd (prod dshape) accum gdata goutput m)

/-! ### Lemmas -/

/-- Number of selected positions before b. -/
abbrev rank (mask : Mem R) (b : Nat) : Nat := Nat.count (fun b => mask b ≠ 0) b

theorem rank_succ (mask : Mem R) (b : Nat) : rank mask (b + 1) = rank mask b + maskBit mask b := by
  rw [rank, Nat.count_succ]; rfl

theorem rank_mono (mask : Mem R) {a b : Nat} (h : a ≤ b) : rank mask a ≤ rank mask b := Nat.count_monotone _ h

theorem rank_lt (mask : Mem R) {a b : Nat} (h : a < b) (hm : mask a ≠ 0) : rank mask a < rank mask b :=
  Nat.count_strict_mono hm h

theorem exists_rank (mask : Mem R) (B k : Nat) (h : k < rank mask B) : ∃ b, b < B ∧ mask b ≠ 0 ∧ rank mask b = k := by
  induction B with
  | zero => simp [rank] at h
  | succ B ih =>
    by_cases hk : k < rank mask B
    · obtain ⟨b, h1, h2, h3⟩ := ih hk
      exact ⟨b, by omega, h2, h3⟩
    · rw [rank_succ] at h
      have hm : mask B ≠ 0 := by
        intro he
        rw [maskBit, if_neg (by simpa using he)] at h
        omega
      rw [maskBit, if_pos hm] at h
      exact ⟨B, by omega, hm, by omega⟩

theorem pair_inj {D i j d e : Nat} (hd : d < D) (he : e < D) (h : i * D + d = j * D + e) : i = j ∧ d = e := by
  have h1 := congrArg (· % D) h
  simp [Nat.add_mod, Nat.mod_eq_of_lt hd, Nat.mod_eq_of_lt he] at h1
  subst h1
  exact ⟨Nat.eq_of_mul_eq_mul_right (show 0 < D by omega) (by omega), rfl⟩

/-- Outer loop over d: if the body of d maps each (k, d), k < n, by `val` and leaves everything else alone, so does the loop. -/
theorem outer_spec (n D : Nat) (body : Nat → Mem R → Mem R) (val : Nat → Nat → R → R) (m : Mem R)
    (h1 : ∀ d, d < D → ∀ m k, k < n → body d m (k * D + d) = val k d (m (k * D + d)))
    (h2 : ∀ d, d < D → ∀ m i, (∀ k, k < n → k * D + d ≠ i) → body d m i = m i) :
    (∀ k d, k < n → d < D → (List.range D).foldl (fun m d => body d m) m (k * D + d) = val k d (m (k * D + d))) ∧
    ∀ i, n * D ≤ i → (List.range D).foldl (fun m d => body d m) m i = m i := by
  suffices H : ∀ c, c ≤ D → (∀ k d, k < n → d < c → (List.range c).foldl (fun m d => body d m) m (k * D + d) = val k d (m (k * D + d))) ∧
      ∀ i, (∀ k d, k < n → d < c → k * D + d ≠ i) → (List.range c).foldl (fun m d => body d m) m i = m i by
    obtain ⟨a, b⟩ := H D (le_refl _)
    refine ⟨a, fun i hi => b i ?_⟩
    intro k d hk hd e
    have := Nat.mul_le_mul_right D (show k + 1 ≤ n by omega)
    rw [Nat.succ_mul] at this
    omega
  intro c
  induction c with
  | zero => intro _; exact ⟨fun _ _ _ h => absurd h (by omega), fun _ _ => rfl⟩
  | succ c ih =>
    intro hc
    obtain ⟨a, b⟩ := ih (by omega)
    rw [List.range_succ, List.foldl_append]
    simp only [List.foldl_cons, List.foldl_nil]
    refine ⟨?_, ?_⟩
    · intro k d hk hd
      by_cases e : d = c
      · subst e
        rw [h1 d (by omega) _ k hk, b]
        intro k' d' hk' hd' he
        have := (pair_inj (show d' < D by omega) (by omega) he).2
        omega
      · rw [h2 c (by omega), a k d hk (by omega)]
        intro k' hk' he
        exact e (pair_inj (show c < D by omega) (show d < D by omega) he).2.symm
    · intro i hi
      rw [h2 c (by omega) _ i fun k hk => hi k c hk (by omega), b i fun k d hk hd => hi k d hk (by omega)]

/-- The inner loop of gather. -/
theorem gatherInner_spec (D B : Nat) (accum : Bool) (gdata mask : Mem R) (d : Nat) (hd : d < D) (s : Mem R) (c : Nat) (hc : c ≤ B) :
    let st := (List.range c).foldl (fun (st : Mem R × Nat) b =>
      if st.2 < rank mask B then
        let v := (maskBit mask b : R) * gdata (b * D + d)
        (put st.1 (st.2 * D + d) (if accum then st.1 (st.2 * D + d) + v else v), st.2 + maskBit mask b)
      else st) (s, 0)
    st.2 = rank mask c ∧
    (∀ b, b < c → mask b ≠ 0 → st.1 (rank mask b * D + d) = (if accum then s (rank mask b * D + d) else 0) + gdata (b * D + d)) ∧
    (accum = true → ∀ k, rank mask c ≤ k → st.1 (k * D + d) = s (k * D + d)) ∧
    ∀ i, (∀ k, k < rank mask B → k * D + d ≠ i) → st.1 i = s i := by
  induction c with
  | zero => exact ⟨by simp [rank], fun b hb => absurd hb (by omega), fun _ _ _ => rfl, fun _ _ => rfl⟩
  | succ c ih =>
    obtain ⟨h1, h2, h3, h4⟩ := ih (by omega)
    rw [List.range_succ, List.foldl_append]
    simp only [List.foldl_cons, List.foldl_nil]
    generalize List.foldl _ (s, 0) (List.range c) = st at h1 h2 h3 h4 ⊢
    have hle := rank_mono mask (show c + 1 ≤ B by omega)
    by_cases hlt : rank mask c < rank mask B
    · rw [if_pos (by rw [h1]; exact hlt)]
      simp only
      rw [h1]
      refine ⟨(rank_succ mask c).symm, ?_, ?_, ?_⟩
      · intro b hb hm
        by_cases e : b = c
        · subst e
          rw [put_same, maskBit, if_pos hm]
          simp only [Nat.cast_one, one_mul]
          cases accum with
          | false => simp
          | true => simp only [if_true]; rw [h3 rfl _ (le_refl _)]
        · have hb' : b < c := by omega
          have hr := rank_lt mask hb' hm
          rw [put_other, h2 b hb' hm]
          intro he
          have := (pair_inj hd hd he).1
          omega
      · intro ha k hk
        subst ha
        rw [rank_succ] at hk
        simp only [if_true]
        by_cases e : k = rank mask c
        · subst e
          have hz : maskBit mask c = 0 := by omega
          rw [put_same, h3 rfl _ (le_refl _), hz]
          simp
        · rw [put_other, h3 rfl k (by omega)]
          intro he
          exact e (pair_inj hd hd he).1
      · intro i hi
        rw [put_other _ _ (fun he => hi _ hlt he.symm), h4 i hi]
    · rw [if_neg (by rw [h1]; exact hlt)]
      have hs := rank_succ mask c
      refine ⟨by rw [h1]; omega, ?_, ?_, h4⟩
      · intro b hb hm
        by_cases e : b = c
        · subst e
          rw [maskBit, if_pos hm] at hs
          omega
        · exact h2 b (by omega) hm
      · intro ha k hk
        exact h3 ha k (by omega)

/-- kernel_bool_gather with nnz = number of selected positions. -/
theorem kernelGather_spec (D B : Nat) (accum : Bool) (sdata gdata mask : Mem R) :
    (∀ b d, b < B → d < D → mask b ≠ 0 → kernelGather D B (rank mask B) accum sdata gdata mask (rank mask b * D + d) =
      (if accum then sdata (rank mask b * D + d) else 0) + gdata (b * D + d)) ∧
    ∀ i, rank mask B * D ≤ i → kernelGather D B (rank mask B) accum sdata gdata mask i = sdata i := by
  classical
  have key := outer_spec (rank mask B) D (fun d m => (gatherInner D B (rank mask B) accum gdata mask d m).1)
    (fun k d old => (if accum then old else 0) + gdata ((if h : ∃ b, b < B ∧ mask b ≠ 0 ∧ rank mask b = k then h.choose else 0) * D + d)) sdata
    (by
      intro d hd m k hk
      have hex := exists_rank mask B k hk
      rw [dif_pos hex]
      obtain ⟨p1, p2, p3⟩ := hex.choose_spec
      have := (gatherInner_spec D B accum gdata mask d hd m B (le_refl _)).2.1 _ p1 p2
      rw [p3] at this
      exact this)
    (by
      intro d hd m i hi
      exact (gatherInner_spec D B accum gdata mask d hd m B (le_refl _)).2.2.2 i hi)
  refine ⟨?_, key.2⟩
  intro b d hb hd hm
  have := key.1 (rank mask b) d (rank_lt mask hb hm) hd
  have hex : ∃ b', b' < B ∧ mask b' ≠ 0 ∧ rank mask b' = rank mask b := ⟨b, hb, hm, rfl⟩
  rw [dif_pos hex] at this
  obtain ⟨p1, p2, p3⟩ := hex.choose_spec
  have e : hex.choose = b := Nat.count_injective p2 hm p3
  rw [e] at this
  exact this

theorem scatter_state (mask : Mem R) (nnz b : Nat) (h : 0 < nnz) :
    scanState (fun b idx => min (idx + maskBit mask b) (nnz - 1)) 0 b = min (rank mask b) (nnz - 1) := by
  induction b with
  | zero => simp [scanState, rank]
  | succ b ih => rw [scanState, ih, rank_succ]; omega

/-- kernel_bool_scatter. -/
theorem kernelScatter_spec (D B nnz : Nat) (hn : 0 < nnz) (accum inplace : Bool) (gdata sdata mask : Mem R) :
    (∀ b d, b < B → d < D → kernelScatter D B nnz accum inplace gdata sdata mask (b * D + d) =
      (if accum then gdata (b * D + d) else 0) +
        (if mask b ≠ 0 then sdata (min (rank mask b) (nnz - 1) * D + d) else if inplace then gdata (b * D + d) else 0)) ∧
    ∀ i, B * D ≤ i → kernelScatter D B nnz accum inplace gdata sdata mask i = gdata i := by
  have inj : ∀ d, d < D → ∀ i j, i < B → j < B → i * D + d = j * D + d → i = j := fun d hd i j _ _ e => (pair_inj hd hd e).1
  refine outer_spec B D _ (fun b d old => (if accum then old else 0) +
        (if mask b ≠ 0 then sdata (min (rank mask b) (nnz - 1) * D + d) else if inplace then old else 0)) gdata ?_ ?_
  · intro d hd m b hb
    rw [(forScan_spec B _ _ _ 0 m (inj d hd)).2.1 b hb, scatter_state mask nnz b hn]
    by_cases hm : mask b ≠ 0
    · have : maskBit mask b = 1 := by rw [maskBit, if_pos hm]
      simp only [this, if_pos hm]
      cases accum <;> cases inplace <;> simp
    · have : maskBit mask b = 0 := by rw [maskBit, if_neg hm]
      simp only [this, if_neg hm]
      cases accum <;> cases inplace <;> simp
  · intro d hd m i hi
    exact (forScan_spec B _ _ _ 0 m (inj d hd)).2.2 i hi

theorem forPut_rows (B D : Nat) (g : Nat → Nat → R → R) (m : Mem R) :
    (∀ b d, b < B → d < D → (List.range B).foldl (fun m b => forPut D (fun d => b * D + d) (g b) m) m (b * D + d) = g b d (m (b * D + d))) ∧
    ∀ i, B * D ≤ i → (List.range B).foldl (fun m b => forPut D (fun d => b * D + d) (g b) m) m i = m i := by
  induction B with
  | zero => exact ⟨fun b _ hb => absurd hb (by omega), fun _ _ => rfl⟩
  | succ B ih =>
    obtain ⟨a, b⟩ := ih
    rw [List.range_succ, List.foldl_append]
    simp only [List.foldl_cons, List.foldl_nil]
    have sp := forPut_spec D (fun d => B * D + d) (g B) (List.foldl (fun m b => forPut D (fun d => b * D + d) (g b) m) m (List.range B)) (fun i j _ _ e => by omega)
    refine ⟨?_, ?_⟩
    · intro b' d hb hd
      by_cases e : b' = B
      · subst e
        rw [sp.1 d hd, b _ (by omega)]
      · rw [sp.2, a b' d (by omega) hd]
        intro d' hd' he
        exact e (pair_inj hd' hd he).1.symm
    · intro i hi
      rw [Nat.succ_mul] at hi
      rw [sp.2 i (fun d hd => by omega), b i (by omega)]

theorem kernelMaskedIdentity_spec (B D : Nat) (accum : Bool) (gin gout mask : Mem R) (b d : Nat) (hb : b < B) (hd : d < D) :
    kernelMaskedIdentity B D accum gin gout mask (b * D + d) =
      (if accum then gin (b * D + d) else 0) + (if mask b = 0 then gout (b * D + d) else 0) := by
  rw [kernelMaskedIdentity, (forPut_rows B D _ gin).1 b d hb hd]
  by_cases h : mask b = 0 <;> cases accum <;> simp [h]

theorem kernelFill_spec (N : Nat) (value : R) (output data mask : Mem R) (i : Nat) :
    kernelFill N value output data mask i = if i < N then (if mask i ≠ 0 then value else data i) else output i := by
  have sp := forPut_spec N id (fun i _ => if mask i ≠ 0 then value else data i) output (fun _ _ _ _ h => h)
  by_cases h : i < N
  · rw [if_pos h]; exact sp.1 i h
  · rw [if_neg h]; exact sp.2 i (fun j hj e => h (by simp only [id] at e; omega))

theorem kernelFillBwd_spec (N : Nat) (accum : Bool) (gdata goutput mask : Mem R) (i : Nat) (h : i < N) :
    kernelFillBwd N accum gdata goutput mask i = (if accum then gdata i else 0) + (if mask i ≠ 0 then 0 else goutput i) := by
  have sp := forPut_spec N id (fun i old => if accum then old + goutput i * (1 - (maskBit mask i : R)) else goutput i * (1 - (maskBit mask i : R))) gdata (fun _ _ _ _ h => h)
  have := sp.1 i h
  simp only [id] at this
  have e : kernelFillBwd N accum gdata goutput mask i = forPut N id (fun i old => if accum then old + goutput i * (1 - (maskBit mask i : R)) else goutput i * (1 - (maskBit mask i : R))) gdata i := rfl
  rw [e, this]
  by_cases hm : mask i ≠ 0
  · have hb : maskBit mask i = 1 := by rw [maskBit, if_pos hm]
    rw [if_pos hm, hb]; cases accum <;> simp
  · have hb : maskBit mask i = 0 := by rw [maskBit, if_neg hm]
    rw [if_neg hm, hb]; cases accum <;> simp

/-- A sum over the gathered rows is the sum over the selected positions. -/
theorem sum_rank (B : Nat) (mask : Mem R) (f : Nat → R) (g : Nat → R) (h : ∀ b, b < B → mask b ≠ 0 → f (rank mask b) = g b) :
    ∑ k ∈ Finset.range (rank mask B), f k = ∑ b ∈ Finset.range B, if mask b ≠ 0 then g b else 0 := by
  induction B with
  | zero => simp [rank]
  | succ B ih =>
    rw [Finset.sum_range_succ, ← ih fun b hb => h b (by omega), rank_succ]
    by_cases hm : mask B ≠ 0
    · rw [maskBit, if_pos hm, if_pos hm, Finset.sum_range_succ, h B (by omega) hm]
    · rw [maskBit, if_neg hm, if_neg hm, add_zero, add_zero]

end Verif.Select
