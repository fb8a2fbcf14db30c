import Verif.Elem.BatchMatmulProps
/-
unfold_to_patches and fold_from_patches (im2col and col2im in any number of dimensions): models
/repo/src/nbla/utils/{unfold_to_patches,fold_from_patches}.cpp. Simplifications: buffers of reals; C++ int never overflows;
strides and dilations are natural numbers; the parallel loop over the rows (OpenMP) runs in order (its iterations write
different rows).
-/
namespace Verif.Elem
open Verif.Fn Verif.ND

/-! ### Specification -/

/-- One spatial axis of a sliding window. -/
structure Win where
  inp : Nat
  ker : Nat
  pad : Int
  stride : Nat
  dil : Nat
deriving DecidableEq, Repr

/-- The position on the axis that kernel element k sees when the window is at output position p (may lie outside). -/
def Win.sees (w : Win) (k p : Nat) : Int := (k : Int) * w.dil - w.pad + (p : Int) * w.stride

/-- The element of the input that kernel element κ sees when the window is at output position `pos`; none in the padding. -/
def srcIndex : List Win → List Nat → List Nat → Option (List Nat)
  | w :: ws, k :: ks, p :: ps =>
    if 0 ≤ w.sees k p ∧ w.sees k p < w.inp then (srcIndex ws ks ps).map fun s => (w.sees k p).toNat :: s else none
  | _, _, _ => some []

/-! ### Model -/

/-- Number of window positions on one axis (unfold_to_patches.cpp:135, convolution.cpp:94-95): C++ integer division. -/
def Win.outInt (w : Win) : Int := ((w.inp : Int) + 2 * w.pad - (w.dil * ((w.ker : Int) - 1) + 1)).tdiv w.stride + 1

def Win.out (w : Win) : Nat := w.outInt.toNat

/-- What a kernel knows about one axis: *outmap_shape, *sample_shape, *sample_shift, *stride. -/
structure Row where
  o : Nat
  inp : Nat
  shift : Int
  stride : Nat

/-- index_in_shape (unfold_to_patches.cpp:29-31): the comparison of unsigned values is false for negative indices. -/
def inShape (i : Int) (n : Nat) : Bool := decide (0 ≤ i ∧ i < n)

def Row.idx (r : Row) (i : Nat) : Int := r.shift + i * r.stride

/-- unfold kernel_1d (unfold_to_patches.cpp:33-46), kernel_2d and kernel_nd (:48-98): `sp` is the sample pointer, which may
point outside before an index check, `cp` the column pointer. -/
def unfoldNd : List Row → Mem ℝ → Int → Nat → Mem ℝ → Mem ℝ
  | [], _, _, _, col => col
  | [r], x, sp, cp, col =>
    forPut r.o (fun i => cp + i) (fun i _ => if inShape (r.idx i) r.inp then x (sp + r.idx i).toNat else 0) col
  | r :: r' :: rs, x, sp, cp, col =>
    (List.range r.o).foldl (fun m i =>
      if inShape (r.idx i) r.inp then
        unfoldNd (r' :: rs) x (sp + (prod ((r' :: rs).map (·.inp)) : Int) * r.idx i) (cp + i * prod ((r' :: rs).map (·.o))) m
      else forPut (prod ((r' :: rs).map (·.o))) (fun q => cp + i * prod ((r' :: rs).map (·.o)) + q) (fun _ _ => 0) m) col

/-- fold kernel_1d, kernel_2d, kernel_nd (fold_from_patches.cpp:31-88). -/
noncomputable def foldNd : List Row → Mem ℝ → Nat → Nat → Mem ℝ → Mem ℝ
  | [], _, _, _, out => out
  | [r], col, cp, sp, out =>
    (List.range r.o).foldl (fun m i =>
      if inShape (r.idx i) r.inp then put m (sp + (r.idx i).toNat) (m (sp + (r.idx i).toNat) + col (cp + i)) else m) out
  | r :: r' :: rs, col, cp, sp, out =>
    (List.range r.o).foldl (fun m i =>
      if inShape (r.idx i) r.inp then
        foldNd (r' :: rs) col (cp + i * prod ((r' :: rs).map (·.o))) (sp + prod ((r' :: rs).map (·.inp)) * (r.idx i).toNat) m
      else m) out

/-- kernel_index (unfold_to_patches.cpp:173-174): digits of k. -/
def kernelIndex (sh : Shape) (k : Nat) : List Nat := (sh.zip (cStrides sh)).map fun p => k / p.2 % p.1

/-- The axes seen by a kernel element: sample_shift = kernel_index * dilation - padding (unfold_to_patches.cpp:176-177). -/
def mkRows (ws : List Win) (κ : List Nat) : List Row :=
  (ws.zip κ).map fun p => ⟨p.1.out, p.1.inp, (p.2 : Int) * p.1.dil - p.1.pad, p.1.stride⟩

def kers (ws : List Win) : Shape := ws.map (·.ker)
def inps (ws : List Win) : Shape := ws.map (·.inp)
def outs (ws : List Win) : Shape := ws.map (·.out)

/-- unfold_to_patches (unfold_to_patches.cpp:104-203): `xp` is the offset of the sample in x; the columns start at 0. -/
def unfold (ch : Nat) (ws : List Win) (x : Mem ℝ) (xp : Nat) (col : Mem ℝ) : Mem ℝ :=
  (List.range (ch * prod (kers ws))).foldl (fun m k =>
    let ki := kernelIndex (ch :: kers ws) k
    unfoldNd (mkRows ws ki.tail) x ((xp + ki.headD 0 * prod (inps ws) : Nat) : Int) (k * prod (outs ws)) m) col

/-- fold_from_patches (fold_from_patches.cpp:94-166). -/
noncomputable def foldPatches (ch : Nat) (ws : List Win) (col : Mem ℝ) (xp : Nat) (out : Mem ℝ) : Mem ℝ :=
  (List.range (ch * prod (kers ws))).foldl (fun m k =>
    let ki := kernelIndex (ch :: kers ws) k
    foldNd (mkRows ws ki.tail) col (k * prod (outs ws)) (xp + ki.headD 0 * prod (inps ws)) m) out

/-! ### The kernels of one row -/

def rowSrc : List Row → List Nat → Option (List Nat)
  | r :: rs, p :: ps => if inShape (r.idx p) r.inp then (rowSrc rs ps).map fun s => (r.idx p).toNat :: s else none
  | _, _ => some []

theorem inShape_iff (i : Int) (n : Nat) : inShape i n = true ↔ 0 ≤ i ∧ i < n := by simp [inShape]

theorem rowSrc_bound (rs : List Row) (j s : List Nat) (hj : InBounds (rs.map (·.o)) j) (h : rowSrc rs j = some s) : InBounds (rs.map (·.inp)) s := by
  induction rs generalizing j s with
  | nil => cases j with
    | nil => simp [rowSrc] at h; subst h; trivial
    | cons _ _ => cases hj
  | cons r rs ih => cases j with
    | nil => cases hj
    | cons p j =>
      simp only [rowSrc] at h
      by_cases hp : inShape (r.idx p) r.inp
      · rw [if_pos hp] at h
        obtain ⟨s', hs', rfl⟩ := Option.map_eq_some_iff.mp h
        have := (inShape_iff _ _).mp hp
        exact ⟨show (r.idx p).toNat < r.inp by omega, ih j s' hj.2 hs'⟩
      · rw [if_neg hp] at h; cases h

theorem unfoldNd_spec (rs : List Row) (hne : rs ≠ []) (x : Mem ℝ) (sp : Int) (cp : Nat) (col : Mem ℝ) :
    (∀ j, InBounds (rs.map (·.o)) j → unfoldNd rs x sp cp col (cp + ravel (rs.map (·.o)) j) =
      (rowSrc rs j).elim 0 fun s => x (sp + (ravel (rs.map (·.inp)) s : Nat)).toNat) ∧
    ∀ k, (k < cp ∨ cp + prod (rs.map (·.o)) ≤ k) → unfoldNd rs x sp cp col k = col k := by
  induction rs generalizing sp cp col with
  | nil => exact absurd rfl hne
  | cons r rs ih =>
    cases rs with
    | nil =>
      have h := forPut_spec r.o (fun i => cp + i) (fun i _ => if inShape (r.idx i) r.inp then x (sp + r.idx i).toNat else 0) col
        (fun i j _ _ e => by omega)
      refine ⟨?_, ?_⟩
      · intro j hj
        cases j with
        | nil => cases hj
        | cons p j =>
          cases j with
          | cons _ _ => exact absurd hj.2 (by simp [InBounds])
          | nil =>
            have e : ravel ([r].map (·.o)) [p] = p := by simp [ravel, prod]
            rw [e]
            have := h.1 p hj.1
            refine (show unfoldNd [r] x sp cp col (cp + p) = _ from this).trans ?_
            simp only [rowSrc]
            by_cases hp : inShape (r.idx p) r.inp
            · simp only [if_pos hp, Option.map_some, Option.elim_some]
              congr 2
              have := (inShape_iff _ _).mp hp
              simp only [List.map_cons, List.map_nil, ravel, prod]
              omega
            · simp only [if_neg hp]; rfl
      · intro k hk
        have e : prod ([r].map (·.o)) = r.o := by simp [prod]
        rw [e] at hk
        exact h.2 k fun i hi => by omega
    | cons r' rs =>
      set O := prod ((r' :: rs).map (·.o)) with hO
      set I := prod ((r' :: rs).map (·.inp)) with hI
      have ih := fun sp cp col => ih (by simp) sp cp col
      have body : ∀ i, i < r.o → ∀ (m : Mem ℝ),
          (∀ q, q < O → (if inShape (r.idx i) r.inp then unfoldNd (r' :: rs) x (sp + (I : Int) * r.idx i) (cp + i * O) m
            else forPut O (fun q => cp + i * O + q) (fun _ _ => 0) m) (cp + i * O + q) =
            if inShape (r.idx i) r.inp then (rowSrc (r' :: rs) (flat2nd q (cStrides ((r' :: rs).map (·.o))))).elim 0
              (fun s => x (sp + (I : Int) * r.idx i + (ravel ((r' :: rs).map (·.inp)) s : Nat)).toNat) else 0) ∧
          ∀ k, (k < cp + i * O ∨ cp + i * O + O ≤ k) → (if inShape (r.idx i) r.inp then unfoldNd (r' :: rs) x (sp + (I : Int) * r.idx i) (cp + i * O) m
            else forPut O (fun q => cp + i * O + q) (fun _ _ => 0) m) k = m k := by
        intro i hi m
        by_cases hs : inShape (r.idx i) r.inp
        · simp only [if_pos hs]
          obtain ⟨g1, g2⟩ := ih (sp + (I : Int) * r.idx i) (cp + i * O) m
          refine ⟨?_, g2⟩
          intro q hq
          obtain ⟨j, hj, rfl⟩ := exists_index _ q hq
          rw [g1 j hj, flat2nd_ravel _ j hj]
        · simp only [if_neg hs]
          have h := forPut_spec O (fun q => cp + i * O + q) (fun _ _ => (0 : ℝ)) m (fun i j _ _ e => by omega)
          exact ⟨fun q hq => h.1 q hq, fun k hk => h.2 k fun q hq => by omega⟩
      have loop := loop_write (σ := Mem ℝ) id (List.range r.o) (fun i m => if inShape (r.idx i) r.inp then
          unfoldNd (r' :: rs) x (sp + (I : Int) * r.idx i) (cp + i * O) m else forPut O (fun q => cp + i * O + q) (fun _ _ => 0) m)
        (fun i k => cp + i * O ≤ k ∧ k < cp + i * O + O)
        (fun i k _ => if inShape (r.idx i) r.inp then (rowSrc (r' :: rs) (flat2nd (k - (cp + i * O)) (cStrides ((r' :: rs).map (·.o))))).elim 0
              (fun s => x (sp + (I : Int) * r.idx i + (ravel ((r' :: rs).map (·.inp)) s : Nat)).toNat) else 0)
        (by
          intro i hi m k hk
          have hi := List.mem_range.mp hi
          have := (body i hi m).1 (k - (cp + i * O)) (by omega)
          rw [show cp + i * O + (k - (cp + i * O)) = k by omega] at this
          exact this)
        (by
          intro i hi m k hk
          have hi := List.mem_range.mp hi
          exact (body i hi m).2 k (by omega))
        (range_disjoint _ _ (by
          intro i j hi hj k hk hk'
          by_contra hne
          rcases Nat.lt_or_gt_of_ne hne with h | h
          · have := Nat.mul_le_mul_right O (show i + 1 ≤ j by omega)
            rw [Nat.succ_mul] at this; omega
          · have := Nat.mul_le_mul_right O (show j + 1 ≤ i by omega)
            rw [Nat.succ_mul] at this; omega)) col
      have hdef : unfoldNd (r :: r' :: rs) x sp cp col = (List.range r.o).foldl (fun m i => if inShape (r.idx i) r.inp then
          unfoldNd (r' :: rs) x (sp + (I : Int) * r.idx i) (cp + i * O) m else forPut O (fun q => cp + i * O + q) (fun _ _ => 0) m) col := rfl
      rw [hdef]
      refine ⟨?_, ?_⟩
      · intro j hj
        cases j with
        | nil => cases hj
        | cons p j =>
          have hp : p < r.o := hj.1
          have hjj : InBounds ((r' :: rs).map (·.o)) j := hj.2
          have hlt := ravel_lt hjj
          have e : cp + ravel ((r :: r' :: rs).map (·.o)) (p :: j) = cp + p * O + ravel ((r' :: rs).map (·.o)) j := by
            simp only [List.map_cons, ravel] ; rw [hO]; simp only [List.map_cons]; omega
          rw [e]
          have := loop.1 p (List.mem_range.mpr hp) (cp + p * O + ravel ((r' :: rs).map (·.o)) j) ⟨by omega, by rw [← hO] at hlt; omega⟩
          refine Eq.trans this ?_
          rw [Nat.add_sub_cancel_left, flat2nd_ravel _ j hjj]
          simp only [rowSrc.eq_1 r (r' :: rs) p j]
          by_cases hs : inShape (r.idx p) r.inp
          · simp only [if_pos hs]
            cases rowSrc (r' :: rs) j with
            | none => rfl
            | some s =>
              simp only [Option.elim_some, Option.map_some]
              congr 2
              have := (inShape_iff _ _).mp hs
              have e1 : ((r.idx p).toNat : Int) = r.idx p := by omega
              simp only [List.map_cons, ravel] at hI ⊢
              rw [← hI]
              push_cast
              rw [e1]; ring
          · simp only [if_neg hs]; rfl
      · intro k hk
        refine loop.2 k ?_
        intro i hi hik
        have hi := List.mem_range.mp hi
        have hprod : prod ((r :: r' :: rs).map (·.o)) = r.o * O := rfl
        rw [hprod] at hk
        have := Nat.mul_le_mul_right O (show i + 1 ≤ r.o by omega)
        rw [Nat.succ_mul] at this; omega

theorem sum_flatMap {α} (l : List α) (f : α → List ℝ) : (l.flatMap f).sum = (l.map fun a => (f a).sum).sum := by
  induction l with
  | nil => rfl
  | cons a l ih => rw [List.flatMap_cons, List.sum_append, ih]; rfl

theorem foldNd_spec (rs : List Row) (hne : rs ≠ []) (col : Mem ℝ) (cp sp : Nat) (out : Mem ℝ) (k : Nat) :
    foldNd rs col cp sp out k = out k + ((indices (rs.map (·.o))).map fun j =>
      (rowSrc rs j).elim 0 fun s => if sp + ravel (rs.map (·.inp)) s = k then col (cp + ravel (rs.map (·.o)) j) else 0).sum := by
  induction rs generalizing sp cp out with
  | nil => exact absurd rfl hne
  | cons r rs ih =>
    cases rs with
    | nil =>
      have h := loop_add (σ := Mem ℝ) id (List.range r.o) (fun i m =>
        if inShape (r.idx i) r.inp then put m (sp + (r.idx i).toNat) (m (sp + (r.idx i).toNat) + col (cp + i)) else m)
        (fun i k => if inShape (r.idx i) r.inp then (if sp + (r.idx i).toNat = k then col (cp + i) else 0) else 0) k
        (by
          intro i _ m
          by_cases hs : inShape (r.idx i) r.inp
          · simp only [if_pos hs, id]
            by_cases hk : sp + (r.idx i).toNat = k
            · rw [hk, put_same, if_pos rfl]
            · rw [put_other _ _ (Ne.symm hk), if_neg hk, add_zero]
          · simp only [if_neg hs, add_zero]) out
      refine Eq.trans h ?_
      congr 1
      have e : indices ([r].map (·.o)) = (List.range r.o).map fun i => [i] := by
        simp only [List.map_cons, List.map_nil, indices]
        rw [← List.flatMap_singleton' ((List.range r.o).map _), List.flatMap_map]
      rw [e, List.map_map]
      congr 1
      refine List.map_congr_left fun i _ => ?_
      simp only [Function.comp, rowSrc]
      by_cases hs : inShape (r.idx i) r.inp
      · simp only [if_pos hs, Option.map_some, Option.elim_some, List.map_cons, List.map_nil, ravel, prod]
        simp
      · simp only [if_neg hs]; rfl
    | cons r' rs =>
      set O := prod ((r' :: rs).map (·.o)) with hO
      set I := prod ((r' :: rs).map (·.inp)) with hI
      have ih := fun cp sp out => ih (by simp) cp sp out
      have h := loop_add (σ := Mem ℝ) id (List.range r.o) (fun i m =>
        if inShape (r.idx i) r.inp then foldNd (r' :: rs) col (cp + i * O) (sp + I * (r.idx i).toNat) m else m)
        (fun i k => if inShape (r.idx i) r.inp then ((indices ((r' :: rs).map (·.o))).map fun j =>
      (rowSrc (r' :: rs) j).elim 0 fun s => if sp + I * (r.idx i).toNat + ravel ((r' :: rs).map (·.inp)) s = k then
        col (cp + i * O + ravel ((r' :: rs).map (·.o)) j) else 0).sum else 0) k
        (by
          intro i _ m
          by_cases hs : inShape (r.idx i) r.inp
          · simp only [if_pos hs, id]; exact ih _ _ _
          · simp only [if_neg hs, add_zero]) out
      refine Eq.trans h ?_
      congr 1
      have e : indices ((r :: r' :: rs).map (·.o)) = (List.range r.o).flatMap fun i => (indices ((r' :: rs).map (·.o))).map (i :: ·) := rfl
      rw [e, List.map_flatMap, sum_flatMap]
      congr 1
      refine List.map_congr_left fun i _ => ?_
      rw [List.map_map]
      by_cases hs : inShape (r.idx i) r.inp
      · rw [if_pos hs]
        congr 1
        refine List.map_congr_left fun j _ => ?_
        simp only [Function.comp, rowSrc.eq_1 r (r' :: rs) i j, if_pos hs]
        cases rowSrc (r' :: rs) j with
        | none => rfl
        | some s =>
          simp only [Option.elim_some, Option.map_some]
          have e1 : sp + ravel ((r :: r' :: rs).map (·.inp)) ((r.idx i).toNat :: s) = sp + I * (r.idx i).toNat + ravel ((r' :: rs).map (·.inp)) s := by
            rw [Nat.mul_comm I, Nat.add_assoc]; rfl
          have e2 : cp + ravel ((r :: r' :: rs).map (·.o)) (i :: j) = cp + i * O + ravel ((r' :: rs).map (·.o)) j := by
            rw [Nat.add_assoc]; rfl
          rw [e1, e2]
      · rw [if_neg hs]
        symm
        apply List.sum_eq_zero
        intro z hz
        obtain ⟨j, _, rfl⟩ := List.mem_map.mp hz
        simp only [Function.comp, rowSrc.eq_1 r (r' :: rs) i j, if_neg hs]
        rfl

/-! ### All rows -/

theorem kernelIndex_ravel (sh : Shape) (j : List Nat) (q : Nat) (h : InBounds sh j) : kernelIndex sh (q * prod sh + ravel sh j) = j := by
  induction sh generalizing j q with
  | nil => cases j with
    | nil => rfl
    | cons _ _ => cases h
  | cons d sh ih => cases j with
    | nil => cases h
    | cons x j =>
      have hd : kernelIndex (d :: sh) (q * prod (d :: sh) + ravel (d :: sh) (x :: j)) =
          ((q * prod (d :: sh) + ravel (d :: sh) (x :: j)) / prod sh % d) :: kernelIndex sh (q * prod (d :: sh) + ravel (d :: sh) (x :: j)) := by
        simp only [kernelIndex, cStrides_cons, List.zip_cons_cons, List.map_cons]
      have e : q * prod (d :: sh) + ravel (d :: sh) (x :: j) = (q * d + x) * prod sh + ravel sh j := by
        simp only [prod, ravel]; ring
      rw [hd, e, ih j (q * d + x) h.2]
      have hl := ravel_lt h.2
      have hp : 0 < prod sh := by omega
      have e2 : ((q * d + x) * prod sh + ravel sh j) / prod sh = q * d + x := by
        rw [Nat.mul_comm, Nat.mul_add_div hp, Nat.div_eq_of_lt hl, Nat.add_zero]
      rw [e2]
      congr 1
      rw [Nat.mul_comm, Nat.mul_add_mod, Nat.mod_eq_of_lt h.1]

theorem mkRows_o (ws : List Win) (κ : List Nat) (h : κ.length = ws.length) : (mkRows ws κ).map (·.o) = outs ws := by
  induction ws generalizing κ with
  | nil => rfl
  | cons w ws ih => cases κ with
    | nil => simp at h
    | cons k κ =>
      have := ih κ (by simpa using h)
      simp only [mkRows, outs, List.zip_cons_cons, List.map_cons] at this ⊢
      rw [this]

theorem mkRows_inp (ws : List Win) (κ : List Nat) (h : κ.length = ws.length) : (mkRows ws κ).map (·.inp) = inps ws := by
  induction ws generalizing κ with
  | nil => rfl
  | cons w ws ih => cases κ with
    | nil => simp at h
    | cons k κ =>
      have := ih κ (by simpa using h)
      simp only [mkRows, inps, List.zip_cons_cons, List.map_cons] at this ⊢
      rw [this]

theorem rowSrc_mkRows (ws : List Win) (κ pos : List Nat) (h : κ.length = ws.length) (h' : pos.length = ws.length) :
    rowSrc (mkRows ws κ) pos = srcIndex ws κ pos := by
  induction ws generalizing κ pos with
  | nil => cases pos <;> cases κ <;> simp_all [mkRows, rowSrc, srcIndex]
  | cons w ws ih => cases κ with
    | nil => simp at h
    | cons k κ => cases pos with
      | nil => simp at h'
      | cons p pos =>
        have e : mkRows (w :: ws) (k :: κ) = ⟨w.out, w.inp, (k : Int) * w.dil - w.pad, w.stride⟩ :: mkRows ws κ := rfl
        rw [e, rowSrc.eq_1, srcIndex.eq_1, ih κ pos (by simpa using h) (by simpa using h')]
        by_cases hh : 0 ≤ w.sees k p ∧ w.sees k p < w.inp
        · rw [if_pos hh]
          exact if_pos (decide_eq_true hh)
        · rw [if_neg hh]
          exact if_neg fun h2 => hh (of_decide_eq_true h2)

theorem srcIndex_bound (ws : List Win) (κ pos s : List Nat) (h : κ.length = ws.length) (h' : InBounds (outs ws) pos)
    (hs : srcIndex ws κ pos = some s) : InBounds (inps ws) s := by
  have hl : pos.length = ws.length := by simpa [outs] using h'.length
  rw [← rowSrc_mkRows ws κ pos h hl] at hs
  have := rowSrc_bound _ _ _ (by rw [mkRows_o ws κ h]; exact h') hs
  rwa [mkRows_inp ws κ h] at this

/-- The element of a sample of shape [channels] ++ extents seen by row k (channel and kernel element) of the column matrix at
column o (position of the window). -/
def src (ch : Nat) (ws : List Win) (k o : Nat) : Option Nat :=
  let ki := kernelIndex (ch :: kers ws) k
  (srcIndex ws ki.tail (flat2nd o (cStrides (outs ws)))).map fun s => ki.headD 0 * prod (inps ws) + ravel (inps ws) s

theorem src_eq (ch : Nat) (ws : List Win) (c : Nat) (κ pos : List Nat) (hc : c < ch) (hκ : InBounds (kers ws) κ) (hp : InBounds (outs ws) pos) :
    src ch ws (ravel (ch :: kers ws) (c :: κ)) (ravel (outs ws) pos) =
      (srcIndex ws κ pos).map fun s => ravel (ch :: inps ws) (c :: s) := by
  have hk := kernelIndex_ravel (ch :: kers ws) (c :: κ) 0 ⟨hc, hκ⟩
  rw [Nat.zero_mul, Nat.zero_add] at hk
  rw [src, hk, flat2nd_ravel _ _ hp]
  rfl

theorem src_cover (ch : Nat) (ws : List Win) (k : Nat) (hk : k < ch * prod (kers ws)) :
    ∃ c κ, c < ch ∧ InBounds (kers ws) κ ∧ k = ravel (ch :: kers ws) (c :: κ) := by
  obtain ⟨j, hj, rfl⟩ := exists_index (ch :: kers ws) k hk
  cases j with
  | nil => cases hj
  | cons c κ => exact ⟨c, κ, hj.1, hj.2, rfl⟩

theorem src_lt (ch : Nat) (ws : List Win) (k o s : Nat) (hk : k < ch * prod (kers ws)) (ho : o < prod (outs ws)) (h : src ch ws k o = some s) :
    s < ch * prod (inps ws) := by
  obtain ⟨c, κ, hc, hκ, rfl⟩ := src_cover ch ws k hk
  obtain ⟨pos, hp, rfl⟩ := exists_index _ o ho
  rw [src_eq ch ws c κ pos hc hκ hp] at h
  obtain ⟨s', hs', rfl⟩ := Option.map_eq_some_iff.mp h
  have hl : κ.length = ws.length := by simpa [kers] using hκ.length
  exact ravel_lt (s := ch :: inps ws) ⟨hc, srcIndex_bound ws κ pos s' hl hp hs'⟩

theorem mkRows_ne (ws : List Win) (κ : List Nat) (h : κ.length = ws.length) (hne : ws ≠ []) : mkRows ws κ ≠ [] := by
  cases ws with
  | nil => exact absurd rfl hne
  | cons w ws => cases κ with
    | nil => simp at h
    | cons k κ => simp [mkRows]

/-- unfold_to_patches fills column matrix element (k, o) with the element of the sample it sees, 0 in the padding, and writes
nothing else. -/
theorem unfold_spec (ch : Nat) (ws : List Win) (hne : ws ≠ []) (x : Mem ℝ) (xp : Nat) (col : Mem ℝ) :
    (∀ k o, k < ch * prod (kers ws) → o < prod (outs ws) → unfold ch ws x xp col (k * prod (outs ws) + o) = (src ch ws k o).elim 0 fun s => x (xp + s)) ∧
    ∀ i, ch * prod (kers ws) * prod (outs ws) ≤ i → unfold ch ws x xp col i = col i := by
  set O := prod (outs ws) with hO
  have body : ∀ k, k < ch * prod (kers ws) → ∀ m : Mem ℝ,
      (∀ o, o < O → unfoldNd (mkRows ws (kernelIndex (ch :: kers ws) k).tail) x
        ((xp + (kernelIndex (ch :: kers ws) k).headD 0 * prod (inps ws) : Nat) : Int) (k * O) m (k * O + o) = (src ch ws k o).elim 0 fun s => x (xp + s)) ∧
      ∀ i, (i < k * O ∨ k * O + O ≤ i) → unfoldNd (mkRows ws (kernelIndex (ch :: kers ws) k).tail) x
        ((xp + (kernelIndex (ch :: kers ws) k).headD 0 * prod (inps ws) : Nat) : Int) (k * O) m i = m i := by
    intro k hk m
    obtain ⟨c, κ, hc, hκ, rfl⟩ := src_cover ch ws k hk
    have hl : κ.length = ws.length := by simpa [kers] using hκ.length
    have hki := kernelIndex_ravel (ch :: kers ws) (c :: κ) 0 ⟨hc, hκ⟩
    rw [Nat.zero_mul, Nat.zero_add] at hki
    rw [hki]
    simp only [List.tail_cons, List.headD_cons]
    obtain ⟨g1, g2⟩ := unfoldNd_spec (mkRows ws κ) (mkRows_ne ws κ hl hne) x ((xp + c * prod (inps ws) : Nat) : Int) (ravel (ch :: kers ws) (c :: κ) * O) m
    rw [mkRows_o ws κ hl] at g1 g2
    rw [mkRows_inp ws κ hl] at g1
    refine ⟨?_, g2⟩
    intro o ho
    obtain ⟨pos, hp, rfl⟩ := exists_index _ o ho
    rw [g1 pos hp, src_eq ch ws c κ pos hc hκ hp, rowSrc_mkRows ws κ pos hl (by simpa [outs] using hp.length)]
    cases srcIndex ws κ pos with
    | none => rfl
    | some s =>
      simp only [Option.elim_some, Option.map_some]
      congr 1
      simp only [ravel]
      omega
  have loop := loop_write (σ := Mem ℝ) id (List.range (ch * prod (kers ws))) (fun k m => unfoldNd (mkRows ws (kernelIndex (ch :: kers ws) k).tail) x
        ((xp + (kernelIndex (ch :: kers ws) k).headD 0 * prod (inps ws) : Nat) : Int) (k * O) m)
    (fun k i => k * O ≤ i ∧ i < k * O + O) (fun k i _ => (src ch ws k (i - k * O)).elim 0 fun s => x (xp + s))
    (by
      intro k hk m i hi
      have := (body k (List.mem_range.mp hk) m).1 (i - k * O) (by omega)
      rw [show k * O + (i - k * O) = i by omega] at this
      exact this)
    (by
      intro k hk m i hi
      exact (body k (List.mem_range.mp hk) m).2 i (by omega))
    (range_disjoint _ _ (by
      intro i j hi hj k hk hk'
      by_contra hne
      rcases Nat.lt_or_gt_of_ne hne with h | h
      · have := Nat.mul_le_mul_right O (show i + 1 ≤ j by omega)
        rw [Nat.succ_mul] at this; omega
      · have := Nat.mul_le_mul_right O (show j + 1 ≤ i by omega)
        rw [Nat.succ_mul] at this; omega)) col
  refine ⟨?_, ?_⟩
  · intro k o hk ho
    have := loop.1 k (List.mem_range.mpr hk) (k * O + o) ⟨by omega, by omega⟩
    refine Eq.trans this ?_
    rw [Nat.add_sub_cancel_left]
  · intro i hi
    refine loop.2 i ?_
    intro k hk hik
    have := row_lt (Q := O) (List.mem_range.mp hk) (show i - k * O < O by omega)
    omega

/-- fold_from_patches adds column matrix element (k, o) to the element of the sample it sees. -/
theorem fold_spec (ch : Nat) (ws : List Win) (hne : ws ≠ []) (col : Mem ℝ) (xp : Nat) (out : Mem ℝ) (i : Nat) :
    foldPatches ch ws col xp out i = out i + ∑ k ∈ Finset.range (ch * prod (kers ws)), ∑ o ∈ Finset.range (prod (outs ws)),
      (src ch ws k o).elim 0 fun s => if xp + s = i then col (k * prod (outs ws) + o) else 0 := by
  have h := loop_add (σ := Mem ℝ) id (List.range (ch * prod (kers ws))) (fun k m =>
      foldNd (mkRows ws (kernelIndex (ch :: kers ws) k).tail) col (k * prod (outs ws)) (xp + (kernelIndex (ch :: kers ws) k).headD 0 * prod (inps ws)) m)
    (fun k i => ∑ o ∈ Finset.range (prod (outs ws)), (src ch ws k o).elim 0 fun s => if xp + s = i then col (k * prod (outs ws) + o) else 0) i
    (by
      intro k hk m
      have hk := List.mem_range.mp hk
      obtain ⟨c, κ, hc, hκ, rfl⟩ := src_cover ch ws k hk
      have hl : κ.length = ws.length := by simpa [kers] using hκ.length
      have hki := kernelIndex_ravel (ch :: kers ws) (c :: κ) 0 ⟨hc, hκ⟩
      rw [Nat.zero_mul, Nat.zero_add] at hki
      simp only [hki, List.tail_cons, List.headD_cons, id]
      rw [foldNd_spec _ (mkRows_ne ws κ hl hne), mkRows_o ws κ hl, mkRows_inp ws κ hl, ← map_range_sum, ← indices_ravel, List.map_map]
      congr 2
      refine List.map_congr_left fun pos hp => ?_
      have hp := (mem_indices _ _).mp hp
      simp only [Function.comp]
      rw [src_eq ch ws c κ pos hc hκ hp, rowSrc_mkRows ws κ pos hl (by simpa [outs] using hp.length)]
      cases srcIndex ws κ pos with
      | none => rfl
      | some s =>
        simp only [Option.elim_some, Option.map_some]
        have e : xp + ravel (ch :: inps ws) (c :: s) = xp + c * prod (inps ws) + ravel (inps ws) s := by simp only [ravel]; omega
        rw [e]) out
  refine Eq.trans h ?_
  rw [map_range_sum]
  rfl

end Verif.Elem
