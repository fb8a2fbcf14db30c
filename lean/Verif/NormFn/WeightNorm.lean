import Verif.NormFn.Bcast
/-
F.weight_normalization: models /repo/src/nbla/function/generic/weight_normalization.cpp on top of PowScalar, Sum, AddScalar and
Mul2. Simplifications: exact reals. An in-place call (`execute(f, {a, ..}, {a})`) reads element i before it writes it and reads
no element it has written, so the kernel is run on a copy. A 0-dimensional g makes setup_impl read gshape[0] of an empty vector
before its dimension is checked (undefined behaviour): the model stops there.
-/
namespace Verif.NormFn
open Verif.Fn Verif.ND Verif.Elem

/-! ### Model -/

/-- Members of WeightNormalization that matter. -/
structure WnObj where
  dim : Nat
  eps : ℝ
  sum : ReduceObj

/-- The axes handed to Sum (weight_normalization.cpp:59-64). -/
def wnAxes (ndim dim : Nat) : List Nat := (List.range ndim).filter fun i => i ≠ dim

open Classical in
/-- WeightNormalization::setup_impl (weight_normalization.cpp:33-70). -/
noncomputable def wnSetup (dim : Int) (eps : ℝ) (wsh gsh : Shape) : Except String (WnObj × Shape) :=
  match refineAxis dim wsh.length with
  | .error e => .error e
  | .ok d =>
    match gsh with
    | [] => .error "undefined behaviour"
    | g0 :: _ =>
      if ¬ g0 = wsh.getD d 0 then .error "value: g.shape[0] does not match w.shape[dim]."
      else if ¬ gsh.length = 1 then .error "value: ndim of g must be 1."
      else if ¬ eps > 0 then .error "value: eps must be positive."
      else .ok (⟨d, eps, reduceNew ((wnAxes wsh.length d).map fun a : Nat => (a : Int)) true⟩, wsh)

/-- The shape g gets for the multiplication (weight_normalization.cpp:91-97, 128-134). -/
def wnGshape (wsh : Shape) (d : Nat) : Shape := (List.range wsh.length).map fun i => if i ≠ d then 1 else wsh.getD d 0

/-- Contents of fresh buffers: data of out0, out1, out2, out3, out4, their gradients, and the buffers of Sum. -/
structure WnFresh where
  o0 : Mem ℝ
  o1 : Mem ℝ
  o2 : Mem ℝ
  o3 : Mem ℝ
  o4 : Mem ℝ
  g0 : Mem ℝ
  g1 : Mem ℝ
  g2 : Mem ℝ
  g3 : Mem ℝ
  g4 : Mem ℝ
  buf : Mem ℝ
  gbuf : Mem ℝ

/-- WeightNormalization::forward_impl (weight_normalization.cpp:72-101). -/
noncomputable def wnForward (o : WnObj) (wsh : Shape) (t : WnFresh) (w g y : Mem ℝ) : Except String (Mem ℝ) :=
  let o0 := unaryForward (Unary.powScalar 2).forward (prod wsh) w t.o0
  match reduceSetup o.sum wsh with
  | .error e => .error e
  | .ok (so, rsh) =>
    match reduceForward sumRow so wsh o0 t.buf t.o1 with
    | .error e => .error e
    | .ok o1 =>
      let o1 := unaryForward (Unary.addScalar o.eps).forward (prod rsh) o1 o1
      let o1 := unaryForward (Unary.powScalar (-0.5)).forward (prod rsh) o1 o1
      match binarySetup wsh rsh with
      | .error e => .error e
      | .ok out =>
        let y := binaryForward Binary.mul2.forward wsh rsh (prod out) w o1 y
        match binarySetup wsh (wnGshape wsh o.dim) with
        | .error e => .error e
        | .ok out' => .ok (binaryForward Binary.mul2.forward wsh (wnGshape wsh o.dim) (prod out') y g y)

/-- WeightNormalization::backward_impl (weight_normalization.cpp:103-159), given propagate_down and accum of w and of g: the
gradient buffers of w and g afterwards. A kernel whose input does not need a gradient does nothing (its inputs' gradients stay
as they are). -/
noncomputable def wnBackward (o : WnObj) (wsh : Shape) (t : WnFresh) (w g y : Mem ℝ) (pw pg accw accg : Bool) (dy dw dg : Mem ℝ) :
    Except String (Mem ℝ × Mem ℝ) :=
  if ¬ (pw || pg) then .ok (dw, dg)
  else
  let o0 := unaryForward (Unary.powScalar 2).forward (prod wsh) w t.o0
  match reduceSetup o.sum wsh with
  | .error e => .error e
  | .ok (so, rsh) =>
    match reduceForward sumRow so wsh o0 t.buf t.o1 with
    | .error e => .error e
    | .ok o1 =>
      let o2 := unaryForward (Unary.addScalar o.eps).forward (prod rsh) o1 t.o2
      let o3 := unaryForward (Unary.powScalar (-0.5)).forward (prod rsh) o2 t.o3
      match binarySetup wsh rsh with
      | .error e => .error e
      | .ok out =>
        let o4 := binaryForward Binary.mul2.forward wsh rsh (prod out) w o3 t.o4
        match binarySetup wsh (wnGshape wsh o.dim) with
        | .error e => .error e
        | .ok out' =>
          let y := binaryForward Binary.mul2.forward wsh (wnGshape wsh o.dim) (prod out') o4 g y
          let dg := if pg then binaryBackward Binary.mul2.grad1 wsh (wnGshape wsh o.dim) (prod out') (prod (wnGshape wsh o.dim)) true o4 g y accg dy dg else dg
          if pw then
            let g4 := binaryBackward Binary.mul2.grad0 wsh (wnGshape wsh o.dim) (prod out') (prod wsh) false o4 g y false dy t.g4
            let dw := binaryBackward Binary.mul2.grad0 wsh rsh (prod out) (prod wsh) false w o3 o4 accw g4 dw
            let g3 := binaryBackward Binary.mul2.grad1 wsh rsh (prod out) (prod rsh) true w o3 o4 false g4 t.g3
            let g2 := unaryBackward (Unary.powScalar (-0.5)).grad (prod rsh) o2 o3 false g3 t.g2
            let g1 := unaryBackward (Unary.addScalar o.eps).grad (prod rsh) o1 o2 false g2 t.g1
            match reduceBackward (fun outer R _ accum dy dx => rowBackward (sumGrad dy) outer R accum dx) so wsh o0 t.buf t.gbuf false g1 t.g0 with
            | .error e => .error e
            | .ok g0 => .ok (unaryBackward (Unary.powScalar 2).grad (prod wsh) w o0 true g0 dw, dg)
          else .ok (dw, dg)

/-! ### Specification -/

/-- The indices of an array of shape s with the same coordinate along axis d as i. -/
def sameSlice (s : Shape) (d : Nat) (i : List Nat) : List (List Nat) := (indices s).filter fun i' => i'.getD d 0 = i.getD d 0

/-! ### Lemmas -/

theorem wnAxes_sorted (n d : Nat) : (wnAxes n d).Pairwise (· < ·) := List.pairwise_lt_range.filter _

theorem wnAxes_lt (n d a : Nat) (h : a ∈ wnAxes n d) : a < n := by
  simp only [wnAxes, List.mem_filter, List.mem_range] at h; exact h.1

theorem kept_wn (n d : Nat) (hd : d < n) : keptAxes n (wnAxes n d) = [d] := by
  have hp : (keptAxes n (wnAxes n d)).Perm [d] := by
    refine (List.perm_ext_iff_of_nodup (List.Nodup.filter _ List.nodup_range) (by simp)).mpr ?_
    intro a
    simp only [keptAxes, wnAxes, List.mem_filter, List.mem_range, List.mem_singleton, decide_eq_true_eq]
    constructor
    · rintro ⟨h1, h2⟩
      by_contra h
      exact h2 ⟨h1, by simpa using h⟩
    · rintro rfl
      exact ⟨hd, by simp⟩
  exact List.perm_singleton.mp hp

theorem fiber_wn (s : Shape) (d : Nat) (hd : d < s.length) (i : List Nat) : fiber (wnAxes s.length d) s i = sameSlice s d i := by
  unfold fiber sameSlice outIndex
  simp only [Bool.false_eq_true, if_false, kept_wn s.length d hd, pick, List.map_cons, List.map_nil, List.cons.injEq, and_true]

theorem wnGshape_length (s : Shape) (d : Nat) : (wnGshape s d).length = s.length := by simp [wnGshape]

theorem wnGshape_getD (s : Shape) (d a : Nat) (ha : a < s.length) : (wnGshape s d).getD a 0 = if a ≠ d then 1 else s.getD d 0 := by
  simp [wnGshape, List.getD_eq_getElem?_getD, ha]

theorem wnG_setup (s : Shape) (d : Nat) (hpos : 0 < prod s) : binarySetup s (wnGshape s d) = .ok s := by
  refine binary_same s _ (wnGshape_length s d) hpos ?_
  intro a ha
  rw [wnGshape_getD s d a ha]
  by_cases h : a = d
  · subst h; exact Or.inl (if_neg (by simp))
  · exact Or.inr (if_pos h)

theorem map_range_split (s : Shape) (d : Nat) (hd : d < s.length) :
    wnGshape s d = List.replicate d 1 ++ s.getD d 0 :: List.replicate (s.length - d - 1) 1 := by
  refine ext_getD (by simp [wnGshape]; omega) ?_
  intro a ha
  rw [wnGshape_length] at ha
  rw [wnGshape_getD s d a ha]
  generalize s.getD d 0 = v
  rw [List.getD_eq_getElem?_getD]
  rcases lt_trichotomy a d with h | h | h
  · rw [if_pos (by omega), List.getElem?_append_left (by simpa using h)]
    simp [h]
  · subst h
    simp
  · rw [if_pos (by omega), List.getElem?_append_right (by simp; omega)]
    simp only [List.length_replicate]
    obtain ⟨k, hk⟩ : ∃ k, a - d = k + 1 := ⟨a - d - 1, by omega⟩
    rw [hk, List.getElem?_cons_succ, List.getElem?_replicate]
    rw [if_pos (by omega)]
    rfl

theorem prod_replicate_one (n : Nat) : prod (List.replicate n 1) = 1 := by
  induction n with
  | zero => rfl
  | succ n ih => rw [List.replicate_succ, prod, ih]

theorem prod_wnGshape (s : Shape) (d : Nat) (hd : d < s.length) : prod (wnGshape s d) = s.getD d 0 := by
  rw [map_range_split s d hd, prod_append, prod, prod_replicate_one, prod_replicate_one]; omega

theorem ravel_replicate_one (n : Nat) (j : List Nat) (h : InBounds (List.replicate n 1) j) : ravel (List.replicate n 1) j = 0 := by
  have := ravel_lt h
  rw [prod_replicate_one] at this
  omega

theorem ravel_wnG (s : Shape) (d : Nat) (hd : d < s.length) (hpos : 0 < prod s) (j : List Nat) (hj : InBounds s j) :
    ravel (wnGshape s d) (bcast (wnGshape s d) j) = j.getD d 0 := by
  have hl : j.length = (wnGshape s d).length := by rw [wnGshape_length, hj.length]
  have hb := (binary_value (fun a _ => a) s _ (wnG_setup s d hpos) (fun _ => 0) (fun _ => 0) (fun _ => 0) j hj).2
  have hc : (bcast (wnGshape s d) j).getD d 0 = j.getD d 0 := by
    rw [(bcast_getD _ j hl d (by rw [wnGshape_length]; exact hd)).2, wnGshape_getD s d d hd]
    rw [if_neg (show ¬ (d ≠ d) by simp)]
    have := inBounds_getD hj d hd
    by_cases e : s.getD d 0 = 1
    · rw [if_pos e]; omega
    · rw [if_neg e]
  generalize bcast (wnGshape s d) j = b at hb hc
  have hbl := hb.length
  rw [map_range_split s d hd] at hb hbl ⊢
  have hb' : b = b.take d ++ b.drop d := (List.take_append_drop d b).symm
  have hlen : d < b.length := by rw [hbl]; simp
  have hd' : b.drop d = b.getD d 0 :: b.drop (d + 1) := by
    rw [List.drop_eq_getElem_cons hlen, List.getD_eq_getElem?_getD, List.getElem?_eq_getElem hlen]; rfl
  rw [hb', hd'] at hb ⊢
  have lt : (b.take d).length = (List.replicate d 1).length := by simp; omega
  rw [inBounds_append _ _ _ _ lt] at hb
  rw [ravel_append _ _ _ _ lt, ravel_replicate_one _ _ hb.1]
  simp only [ravel]
  rw [prod_replicate_one, ravel_replicate_one _ _ hb.2.2, hc]
  omega

/-! ### C172 -/

/-- **C172 (accepted arguments).** Setup succeeds exactly when the axis is in range, g is a vector as long as that axis and eps
is positive; the output has the shape of w. -/
theorem C172_setup (dim : Int) (eps : ℝ) (wsh gsh : Shape) :
    ((∃ r, wnSetup dim eps wsh gsh = .ok r) ↔
      ∃ d : Nat, d < wsh.length ∧ (dim = d ∨ dim = (d : Int) - wsh.length) ∧ gsh = [wsh.getD d 0] ∧ 0 < eps) ∧
    ∀ o out, wnSetup dim eps wsh gsh = .ok (o, out) → out = wsh := by
  have key : ∀ r, wnSetup dim eps wsh gsh = .ok r → r.2 = wsh ∧
      ∃ d : Nat, d < wsh.length ∧ (dim = d ∨ dim = (d : Int) - wsh.length) ∧ gsh = [wsh.getD d 0] ∧ 0 < eps := by
    intro r h
    rw [wnSetup] at h
    by_cases hr : dim < -(wsh.length : Int) ∨ (wsh.length : Int) ≤ dim
    · obtain ⟨e, he⟩ := refineAxis_rejects dim wsh.length hr
      rw [he] at h; cases h
    · obtain ⟨d, hd, hax⟩ : ∃ d : Nat, d < wsh.length ∧ (dim = d ∨ dim = (d : Int) - wsh.length) := by
        by_cases hn : 0 ≤ dim
        · exact ⟨dim.toNat, by omega, Or.inl (by omega)⟩
        · exact ⟨(dim + wsh.length).toNat, by omega, Or.inr (by omega)⟩
      rw [refineAxis_ok d wsh.length hd dim hax] at h
      match gsh, h with
      | g0 :: rest, h =>
        simp only [] at h
        by_cases h1 : g0 = wsh.getD d 0
        · rw [if_neg (not_not.mpr h1)] at h
          by_cases h2 : (g0 :: rest).length = 1
          · rw [if_neg (not_not.mpr h2)] at h
            by_cases h3 : eps > 0
            · rw [if_neg (not_not.mpr h3)] at h
              injection h with h
              have hrest : rest = [] := by simpa using h2
              exact ⟨by rw [← h], d, hd, hax, by rw [h1, hrest], h3⟩
            · rw [if_pos h3] at h; cases h
          · rw [if_pos h2] at h; cases h
        · rw [if_pos h1] at h; cases h
  refine ⟨⟨fun ⟨r, h⟩ => (key r h).2, ?_⟩, fun o out h => (key _ h).1⟩
  rintro ⟨d, hd, hax, rfl, he⟩
  rw [wnSetup, refineAxis_ok d wsh.length hd dim hax]
  simp only [not_true_eq_false, if_false, List.length_cons, List.length_nil]
  rw [if_neg (not_not.mpr he)]
  exact ⟨_, rfl⟩

/-- **C172.** F.weight_normalization(w, g, dim, eps): each element of the result is w times the scale of its position along the
axis divided by the square root of the sum of the squares of all elements with that position plus eps; backward computes the
gradients with respect to w and g at every point; they are added to the old ones when accumulating; a gradient that is not
asked for is not touched; no uninitialised memory matters and nothing outside of the arrays is written. -/
theorem C172_weight_normalization (wsh : Shape) (d : Nat) (hd : d < wsh.length) (dim : Int) (hdim : dim = d ∨ dim = (d : Int) - wsh.length)
    (eps : ℝ) (heps : 0 < eps) (hpos : 0 < prod wsh) (t : WnFresh) (y0 : Mem ℝ) :
    ∃ o, wnSetup dim eps wsh [wsh.getD d 0] = .ok (o, wsh) ∧
    ∃ F : Mem ℝ → Mem ℝ → Mem ℝ, (∀ w g, wnForward o wsh t w g y0 = .ok (F w g)) ∧
      (∀ w g i, InBounds wsh i → F w g (ravel wsh i) =
        g (i.getD d 0) * w (ravel wsh i) / √(((sameSlice wsh d i).map fun i' => w (ravel wsh i') ^ 2).sum + eps)) ∧
      ∀ w g (y : Mem ℝ), ∃ Bw Bg : Mem ℝ → Mem ℝ,
        IsVJP2 (prod wsh) (wsh.getD d 0) (prod wsh) F w g Bw Bg ∧
        ∀ pw pg accw accg dy dw dg, ∃ rw rg, wnBackward o wsh t w g y pw pg accw accg dy dw dg = .ok (rw, rg) ∧
          (if pw then (∀ k, k < prod wsh → rw k = (if accw then dw k else 0) + Bw dy k) ∧ ∀ k, prod wsh ≤ k → rw k = dw k else rw = dw) ∧
          if pg then (∀ k, k < wsh.getD d 0 → rg k = (if accg then dg k else 0) + Bg dy k) ∧ ∀ k, wsh.getD d 0 ≤ k → rg k = dg k else rg = dg := by
  refine ⟨⟨d, eps, reduceNew ((wnAxes wsh.length d).map fun a : Nat => (a : Int)) true⟩, ?_, ?_⟩
  · rw [wnSetup, refineAxis_ok d wsh.length hd dim hdim]
    simp only [not_true_eq_false, if_false, List.length_cons, List.length_nil]
    rw [if_neg (not_not.mpr heps)]
  set red := wnAxes wsh.length d with hred
  set rsh := outShape true red wsh with hrsh
  set gsh := wnGshape wsh d with hgsh
  set n := prod wsh with hn
  have hs : red.Pairwise (· < ·) := wnAxes_sorted _ _
  have hhi : ∀ a ∈ red, a < wsh.length := fun a ha => wnAxes_lt _ _ a ha
  have hset := reduceSetup_sorted true red wsh hs hhi
  have hb0 : binarySetup wsh rsh = .ok wsh := keep_setup red wsh hpos
  have hb1 : binarySetup wsh gsh = .ok wsh := wnG_setup wsh d hpos
  have hpg : prod gsh = wsh.getD d 0 := prod_wnGshape wsh d hd
  obtain ⟨S, hS, hSl, hSv, hSb⟩ := sum_facts true red wsh hs hhi hpos t.buf t.o1
  set P : Mem ℝ → Mem ℝ := fun w => unaryForward (Unary.powScalar 2).forward n w t.o0 with hP
  -- the scale of each slice, as backward_impl computes it
  set A : Mem ℝ → Mem ℝ := fun r => unaryForward (Unary.addScalar eps).forward (prod rsh) r t.o2 with hA
  set C : Mem ℝ → Mem ℝ := fun r => unaryForward (Unary.powScalar (-0.5)).forward (prod rsh) r t.o3 with hC
  set N : Mem ℝ → Mem ℝ := fun w => C (A (S (P w))) with hN
  have hPv : ∀ w k, k < n → P w k = w k ^ 2 := by
    intro w k hk
    simp only [hP, unaryForward_eq, if_pos hk, powScalar_forward]
    exact_mod_cast Real.rpow_natCast (w k) 2
  have hNv0 : ∀ w k, k < prod rsh → N w k = (S (P w) k + eps) ^ (-0.5 : ℝ) := by
    intro w k hk
    simp only [hN, hC, hA, unaryForward_eq, if_pos hk, powScalar_forward]
    rfl
  have hSP : ∀ w i, InBounds wsh i → S (P w) (ravel rsh (outIndex true red wsh.length i)) = ((sameSlice wsh d i).map fun i' => w (ravel wsh i') ^ 2).sum := by
    intro w i hi
    rw [hSv _ i hi, hred, fiber_wn wsh d hd i]
    congr 1
    apply List.map_congr_left
    intro i' hi'
    have : InBounds wsh i' := by simp only [sameSlice, List.mem_filter, mem_indices] at hi'; exact hi'.1
    exact hPv _ _ (ravel_lt this)
  have hSnn : ∀ w k, k < prod rsh → 0 ≤ S (P w) k := by
    intro w k hk
    obtain ⟨i, hi, e⟩ := exists_fiber true red wsh hs hhi hpos k hk
    rw [← e, hSP w i hi]
    apply List.sum_nonneg
    intro z hz
    obtain ⟨i', _, rfl⟩ := List.mem_map.mp hz
    positivity
  have hlt : ∀ i, InBounds wsh i → ravel rsh (outIndex true red wsh.length i) < prod rsh := by
    intro i hi
    rw [(ravel_keep wsh red true i).1, (ravel_keep wsh red true []).2]
    exact ravel_lt (inBounds_pick wsh i _ (kept_lt _ _) hi)
  have hPl : Local n n P := local_unary _ _ _
  have hNl : Local n (prod rsh) N := by
    intro w w' h j hj
    rw [hNv0 w j hj, hNv0 w' j hj, hSl _ _ (hPl w w' h) j hj]
  set M : Mem ℝ → Mem ℝ := fun w => binaryForward Binary.mul2.forward wsh rsh n w (N w) t.o4 with hM
  have hMv : ∀ w i, InBounds wsh i → M w (ravel wsh i) = w (ravel wsh i) * N w (ravel rsh (outIndex true red wsh.length i)) := by
    intro w i hi
    simp only [hM]
    rw [(binary_value _ wsh rsh hb0 w (N w) t.o4 i hi).1, hrsh, keep_bcast red wsh i hi]
    rfl
  have hMl : Local n n M := by
    intro w w' h j hj
    obtain ⟨i, hi, rfl⟩ := exists_ravel wsh j hj
    rw [hMv w i hi, hMv w' i hi, h _ hj, hNl w w' h _ (hlt i hi)]
  set G : Mem ℝ → Mem ℝ → Mem ℝ → Mem ℝ := fun y w g => binaryForward Binary.mul2.forward wsh gsh n (M w) g y with hG
  have hGv : ∀ y w g i, InBounds wsh i → G y w g (ravel wsh i) = w (ravel wsh i) * N w (ravel rsh (outIndex true red wsh.length i)) * g (i.getD d 0) := by
    intro y w g i hi
    simp only [hG]
    rw [(binary_value _ wsh gsh hb1 (M w) g y i hi).1, hMv w i hi, hgsh, ravel_wnG wsh d hd hpos i hi]
    rfl
  -- forward
  set F : Mem ℝ → Mem ℝ → Mem ℝ := fun w g =>
    let o1 := unaryForward (Unary.addScalar eps).forward (prod rsh) (S (P w)) (S (P w))
    let o1 := unaryForward (Unary.powScalar (-0.5)).forward (prod rsh) o1 o1
    let y := binaryForward Binary.mul2.forward wsh rsh n w o1 y0
    binaryForward Binary.mul2.forward wsh gsh n y g y with hF
  have hFv : ∀ w g i, InBounds wsh i → F w g (ravel wsh i) = w (ravel wsh i) * N w (ravel rsh (outIndex true red wsh.length i)) * g (i.getD d 0) := by
    intro w g i hi
    simp only [hF]
    rw [(binary_value _ wsh gsh hb1 _ g _ i hi).1, (binary_value _ wsh rsh hb0 w _ y0 i hi).1, hgsh, ravel_wnG wsh d hd hpos i hi,
      hrsh, keep_bcast red wsh i hi, ← hrsh, hNv0 w _ (hlt i hi)]
    simp only [unaryForward_eq, if_pos (hlt i hi), powScalar_forward]
    rfl
  refine ⟨F, ?_, ?_, ?_⟩
  · intro w g
    rw [wnForward]
    simp only []
    rw [hset]
    simp only []
    rw [hS]
    simp only []
    rw [hb0]
    simp only []
    rw [hb1]
  · intro w g i hi
    rw [hFv w g i hi, hNv0 w _ (hlt i hi), hSP w i hi]
    set q := ((sameSlice wsh d i).map fun i' => w (ravel wsh i') ^ 2).sum with hq
    have hq0 : 0 ≤ q := by
      have := hSnn w _ (hlt i hi)
      rwa [hSP w i hi] at this
    rw [show (-0.5 : ℝ) = -(1 / 2) by norm_num, Real.rpow_neg (by linarith), ← Real.sqrt_eq_rpow]
    ring
  · intro w g y
    obtain ⟨SB, hSB, hSvjp, _⟩ := hSb (P w) t.gbuf t.g0
    -- derivatives of the pieces
    have hPvjp := (C82_unary_kernel (Unary.powScalar 2) n w t.o0).2.1
      (fun i _ => ⟨Or.inr ⟨⟨2, by norm_num⟩, Or.inr (by norm_num)⟩, Set.notMem_empty _⟩) (fun _ => 0)
    have hAvjp := (C82_unary_kernel (Unary.addScalar eps) (prod rsh) (S (P w)) t.o2).2.1
      (fun i _ => ⟨Set.mem_univ _, Set.notMem_empty _⟩) t.g1
    have hAv : ∀ i, i < prod rsh → 0 < A (S (P w)) i := by
      intro i hi
      simp only [hA, unaryForward_eq, if_pos hi]
      show 0 < S (P w) i + eps
      have := hSnn w i hi
      linarith
    have hCvjp := (C82_unary_kernel (Unary.powScalar (-0.5)) (prod rsh) (A (S (P w))) t.o3).2.1
      (fun i hi => ⟨Or.inl (hAv i hi), Set.notMem_empty _⟩) t.g2
    have c1 := IsVJP.comp (G := A) hSvjp hSl hAvjp
    have c2 := IsVJP.comp (G := fun q => A (S q)) hPvjp hPl c1
    have hASl : Local n (prod rsh) (fun w => A (S (P w))) := by
      intro x x' h j hj
      simp only [hA, unaryForward_eq, if_pos hj, hSl _ _ (hPl x x' h) j hj]
    have hNvjp := IsVJP.comp (F := fun w => A (S (P w))) (G := C) c2 hASl hCvjp
    set BN : Mem ℝ → Mem ℝ := fun dy => unaryBackward (Unary.powScalar 2).grad n w (P w) false (SB false
      (unaryBackward (Unary.addScalar eps).grad (prod rsh) (S (P w)) (A (S (P w))) false
        (unaryBackward (Unary.powScalar (-0.5)).grad (prod rsh) (A (S (P w))) (C (A (S (P w)))) false dy t.g2) t.g1)) (fun _ => 0) with hBN
    have hNvjp' : IsVJP n (prod rsh) N w BN := hNvjp
    have m0 := C82_binary_kernel Binary.mul2 wsh rsh wsh hb0 w (N w) (M w) t.o4 (fun _ => 0) t.g3 (fun j _ => trivial)
    have hMvjp := IsVJP2.diag (N := N) (G := fun w r => binaryForward Binary.mul2.forward wsh rsh n w r t.o4) m0 hNvjp' hNl
    set BM : Mem ℝ → Mem ℝ := fun dy i => binaryBackward Binary.mul2.grad0 wsh rsh n n false w (N w) (M w) false dy (fun _ => 0) i +
      BN (binaryBackward Binary.mul2.grad1 wsh rsh n (prod rsh) true w (N w) (M w) false dy t.g3) i with hBM
    have hMvjp' : IsVJP n n M w BM := hMvjp
    have m1 := C82_binary_kernel Binary.mul2 wsh gsh wsh hb1 (M w) g (G y w g) y t.g4 (fun _ => 0) (fun j _ => trivial)
    have hGvjp := IsVJP2.left (N := M) (G := fun m g => binaryForward Binary.mul2.forward wsh gsh n m g y) m1 hMvjp' hMl
    rw [hpg] at hGvjp
    refine ⟨fun dy => BM (binaryBackward Binary.mul2.grad0 wsh gsh n n false (M w) g (G y w g) false dy t.g4),
      fun dy => binaryBackward Binary.mul2.grad1 wsh gsh n (wsh.getD d 0) true (M w) g (G y w g) false dy (fun _ => 0), ?_, ?_⟩
    · intro c0 c1 v0 v1 h0 h1 dy
      have := hGvjp c0 c1 v0 v1 h0 h1 dy
      refine this.congr_of_eventuallyEq (Filter.Eventually.of_forall fun s => ?_)
      refine dot_congr fun j hj => ?_
      obtain ⟨i, hi, rfl⟩ := exists_ravel wsh j hj
      congr 1
      exact (hFv _ _ i hi).trans (hGv y _ _ i hi).symm
    · intro pw pg accw accg dy dw dg
      have a0 := binary_accum Binary.mul2.grad0 wsh rsh wsh hb0 false w (N w) (M w)
      have a1 := binary_accum Binary.mul2.grad1 wsh gsh wsh hb1 true (M w) g (G y w g)
      simp only [Bool.false_eq_true, if_false, if_true] at a0 a1
      rw [hpg] at a1
      set g4 := binaryBackward Binary.mul2.grad0 wsh gsh n n false (M w) g (G y w g) false dy t.g4 with hg4
      refine ⟨if pw then unaryBackward (Unary.powScalar 2).grad n w (P w) true (SB false
          (unaryBackward (Unary.addScalar eps).grad (prod rsh) (S (P w)) (A (S (P w))) false
            (unaryBackward (Unary.powScalar (-0.5)).grad (prod rsh) (A (S (P w))) (C (A (S (P w)))) false
              (binaryBackward Binary.mul2.grad1 wsh rsh n (prod rsh) true w (N w) (M w) false g4 t.g3) t.g2) t.g1))
          (binaryBackward Binary.mul2.grad0 wsh rsh n n false w (N w) (M w) accw g4 dw) else dw,
        if pg then binaryBackward Binary.mul2.grad1 wsh gsh n (prod gsh) true (M w) g (G y w g) accg dy dg else dg, ?_, ?_, ?_⟩
      · rw [wnBackward]
        by_cases hb : (pw || pg) = true
        · rw [if_neg (not_not.mpr hb)]
          simp only []
          rw [hset]
          simp only []
          rw [hS]
          simp only []
          rw [hb0]
          simp only []
          rw [hb1]
          simp only []
          cases pw
          · simp only [Bool.false_eq_true, if_false]
            rfl
          · simp only [if_true]
            have e := hSB false (unaryBackward (Unary.addScalar eps).grad (prod rsh) (S (P w)) (A (S (P w))) false
                (unaryBackward (Unary.powScalar (-0.5)).grad (prod rsh) (A (S (P w))) (C (A (S (P w)))) false
                  (binaryBackward Binary.mul2.grad1 wsh rsh n (prod rsh) true w (N w) (M w) false g4 t.g3) t.g2) t.g1)
            simp only [hA, hC, hN, hM, hG, hg4, hP] at e ⊢
            rw [e]
        · rw [if_pos hb]
          have h2 : pw = false ∧ pg = false := by cases pw <;> cases pg <;> simp_all
          rw [h2.1, h2.2]
          rfl
      · cases pw
        · rfl
        · simp only [if_true]
          constructor
          · intro k hk
            simp only [unaryBackward_eq, if_pos hk, if_true]
            rw [(a0 g4 accw dw).1 k hk]
            simp only [hBM, hBN, unaryBackward_eq, if_pos hk, Bool.false_eq_true, if_false, zero_add]
            rw [add_assoc]
          · intro k hk
            simp only [unaryBackward_eq]
            rw [if_neg (by omega), (a0 g4 accw dw).2 k hk]
      · cases pg
        · rfl
        · simp only [if_true]
          rw [hpg]
          exact a1 dy accg dg

/-- Non-vacuity: a 2 x 3 weight normalised along axis 0: row 0 is (1, 1, 1), eps = 1 and its scale is 4. -/
example : ∃ o, wnSetup (-2) 1 [2, 3] [2] = .ok (o, [2, 3]) ∧
    ∀ t y0, ∃ r, wnForward o [2, 3] t (fun k => if k < 3 then 1 else 2) (fun k => k + 4) y0 = .ok r ∧ r 1 = 2 := by
  let z : Mem ℝ := fun _ => 0
  obtain ⟨o, ho, _⟩ := C172_weight_normalization [2, 3] 0 (by decide) (-2) (Or.inr rfl) 1 one_pos (by decide) ⟨z, z, z, z, z, z, z, z, z, z, z, z⟩ z
  refine ⟨o, ho, ?_⟩
  intro t y0
  obtain ⟨o', ho', F, hF, hv, _⟩ := C172_weight_normalization [2, 3] 0 (by decide) (-2) (Or.inr rfl) 1 one_pos (by decide) t y0
  have : o' = o := by
    rw [ho] at ho'
    injection ho' with e
    exact (Prod.mk.inj e).1.symm
  subst this
  refine ⟨_, hF _ _, ?_⟩
  have h := hv (fun k => if k < 3 then 1 else 2) (fun k => k + 4) [0, 1] (by simp [InBounds])
  have e1 : ravel [2, 3] [0, 1] = 1 := by decide
  have e2 : sameSlice [2, 3] 0 [0, 1] = [[0, 0], [0, 1], [0, 2]] := by decide
  rw [e1, e2] at h
  rw [h]
  have e3 : ravel [2, 3] [0, 0] = 0 := by decide
  have e4 : ravel [2, 3] [0, 2] = 2 := by decide
  simp only [List.map_cons, List.map_nil, List.sum_cons, List.sum_nil, e1, e3, e4]
  norm_num
  rw [show (4 : ℝ) = 2 ^ 2 by norm_num, Real.sqrt_sq (by norm_num)]

end Verif.NormFn
