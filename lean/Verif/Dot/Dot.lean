import Verif.NormFn.Bcast
import Verif.Elem.Affine
import Verif.Fn.Props
/-
F.dot: models /repo/python/src/nnabla/numpy_compat_functions.py:100-161 (arguments that are Variables or NdArrays), on top of the
models of mul2, sum, affine, transpose. Exact reals. Building the graph and running it are separate: `dotBuild` gets the contents the
arguments have when F.dot is called and returns the output shape and the program run by forward (for NdArrays it runs at once). Not
modelled: the argument `out`, mixtures of Variable and NdArray.
-/
namespace Verif.Dot
open Verif.Fn Verif.ND Verif.Elem Verif.NormFn

/-! ### Model -/

/-- Contents of fresh buffers. -/
structure Fresh where
  h : Mem ℝ
  buf : Mem ℝ
  y : Mem ℝ

/-- index.insert(0, index.pop(b.ndim - 2)) (numpy_compat_functions.py:134-135). -/
def dotAxes (n : Nat) : List Nat := (List.range n).getD (n - 2) 0 :: (List.range n).eraseIdx (n - 2)

/-- F.affine without bias, applied to arrays of given shapes. -/
noncomputable def affineBuild (axis : Int) (xs ws : Shape) : Except String (Shape × (Mem ℝ → Mem ℝ → Mem ℝ → Mem ℝ)) :=
  match affineSetup axis xs ws none with
  | .error e => .error e
  | .ok ((r, K, C), out) => .ok (out, fun x w y => affineForward r K C x w none y)

/-- dot (numpy_compat_functions.py:113-141). -/
noncomputable def dotBuild (ash bsh : Shape) (a0 b0 : Mem ℝ) : Except String (Shape × (Fresh → Mem ℝ → Mem ℝ → Except String (Mem ℝ))) :=
  if ash.length = 1 ∧ bsh.length = 1 then
    match binarySetup ash bsh with
    | .error e => .error e
    | .ok s =>
      match reduceSetup (reduceNew ((List.range s.length).map fun a : Nat => (a : Int)) false) s with
      | .error e => .error e
      | .ok (o, out) => .ok (out, fun t a b => reduceForward sumRow o s (binaryForward Binary.mul2.forward ash bsh (prod s) a b t.h) t.buf t.y)
  else if ash.length = 2 ∧ bsh.length = 2 then
    match affineBuild 1 ash bsh with
    | .error e => .error e
    | .ok (out, f) => .ok (out, fun t a b => .ok (f a b t.y))
  else if ash.length = 0 ∨ bsh.length = 0 then
    if ash.length = 0 then .ok (bsh, fun t _ b => .ok (unaryForward (Unary.mulScalar (a0 0)).forward (prod bsh) b t.y))
    else .ok (ash, fun t a _ => .ok (unaryForward (Unary.mulScalar (b0 0)).forward (prod ash) a t.y))
  else if bsh.length = 1 then
    match affineBuild (ash.length - 1 : Int) ash [prod bsh, 1] with
    | .error e => .error e
    | .ok (out, f) => .ok (out.dropLast, fun t a b => .ok (f a b t.y))
  else
    match trSetup ((dotAxes bsh.length).map fun a : Nat => (a : Int)) bsh with
    | .error e => .error e
    | .ok (_, st) =>
      match affineBuild (ash.length - 1 : Int) ash st.oshape with
      | .error e => .error e
      | .ok (out, f) => .ok (out, fun t a b => .ok (f a (trForward st b t.h) t.y))

/-! ### Lemmas -/

theorem affineBuild_ok (A : Shape) (K : Nat) (hK : 0 < K) (C : Shape) (hC : C ≠ []) (axis : Int) (hax : axis = A.length) :
    affineBuild axis (A ++ [K]) (K :: C) = .ok (A ++ C, fun x w y => affineForward (prod A) K (prod C) x w none y) := by
  have h := (C87_affine_setup axis (A ++ [K]) (K :: C) none ((prod A, K, prod C), A ++ C)).mpr
    ⟨A, [K], C, rfl, by simp, by simp [prod], hC, Or.inl hax, by simpa [prod] using hK, by simp, by simp [prod]⟩
  rw [affineBuild, h]

theorem affineBuild_err (A : Shape) (K K' : Nat) (hne : K ≠ K') (C : Shape) (axis : Int) (hax : axis = A.length) :
    ∃ e, affineBuild axis (A ++ [K]) (K' :: C) = .error e := by
  cases h : affineSetup axis (A ++ [K]) (K' :: C) none with
  | error e => exact ⟨e, by rw [affineBuild, h]⟩
  | ok p =>
    obtain ⟨A', B, C', h1, h2, h3, _, h5, _⟩ := (C87_affine_setup _ _ _ _ _).mp h
    have hl := congrArg List.length h1
    have hB : 0 < B.length := List.length_pos_of_ne_nil h2
    simp only [List.length_append, List.length_cons, List.length_nil] at hl h5
    have hA : A.length = A'.length := by omega
    obtain ⟨e1, e2⟩ := List.append_inj h1 hA
    rw [← e2] at h3
    simp only [prod, List.cons.injEq] at h3
    omega

theorem affine_value (A C : Shape) (K : Nat) (x w y : Mem ℝ) (i c : List Nat) (hi : InBounds A i) (hc : InBounds C c) :
    affineForward (prod A) K (prod C) x w none y (ravel (A ++ C) (i ++ c)) =
      ∑ k ∈ Finset.range K, x (ravel (A ++ [K]) (i ++ [k])) * w (ravel (K :: C) (k :: c)) := by
  have e := affineForward_spec (prod A) K (prod C) x w none y (ravel A i) (ravel C c) (ravel_lt hi) (ravel_lt hc)
  have e1 : ravel (A ++ C) (i ++ c) = at_ 0 (prod C) (ravel A i) (ravel C c) := by
    rw [ravel_append A C i c hi.length, at_]; omega
  rw [e1, e]
  simp only [add_zero]
  refine Finset.sum_congr rfl fun k _ => ?_
  have e2 : ravel (A ++ [K]) (i ++ [k]) = at_ 0 K (ravel A i) k := by
    rw [ravel_append A [K] i [k] hi.length, at_]; simp [ravel, prod]
  have e3 : ravel (K :: C) (k :: c) = at_ 0 (prod C) k (ravel C c) := by
    simp [ravel, at_]
  rw [e2, e3]

theorem dotAxes_eq (P : Shape) (K N : Nat) : dotAxes (P ++ [K, N]).length = P.length :: (List.range P.length ++ [P.length + 1]) := by
  have hl : (P ++ [K, N]).length = P.length + 2 := by simp
  rw [hl, dotAxes]
  have e : P.length + 2 - 2 = P.length := by omega
  rw [e]
  congr 1
  · simp
  · rw [List.eraseIdx_eq_take_drop_succ]
    congr 1
    · rw [List.take_range]; congr 1; omega
    · apply List.ext_getElem (by simp)
      intro k h1 h2
      simp only [List.length_cons, List.length_nil] at h2
      have : k = 0 := by omega
      subst this
      simp

theorem getD_range_map (P : List Nat) (l : List Nat) : (List.range P.length).map (fun a => (P ++ l).getD a 0) = P := by
  apply List.ext_getElem (by simp)
  intro k h1 h2
  simp [List.getElem?_append_left h2, List.getElem?_eq_getElem h2]

theorem dotAxes_pick (P : List Nat) (K N : Nat) :
    (P.length :: (List.range P.length ++ [P.length + 1])).map (fun a => (P ++ [K, N]).getD a 0) = K :: (P ++ [N]) := by
  rw [List.map_cons, List.map_append, getD_range_map]
  simp

theorem dotAxes_perm (P : Shape) (K N : Nat) : PermAxes (P.length :: (List.range P.length ++ [P.length + 1])) (P ++ [K, N]).length := by
  refine ⟨?_, ?_, by simp⟩
  rotate_left
  · intro a ha
    simp only [List.mem_cons, List.mem_append, List.mem_range, List.not_mem_nil, or_false] at ha
    simp; omega
  · rw [List.nodup_cons]
    refine ⟨by simp, ?_⟩
    rw [List.nodup_append]
    refine ⟨List.nodup_range, by simp, ?_⟩
    intro a ha b hb
    simp at ha hb
    omega

/-! ### C175 -/

/-- **C175 (partial: no 0-dimensional argument, same inner extent, arrays with elements).** F.dot agrees with numpy.dot: inner product of
two vectors; otherwise the sum over the last axis of a and the second to last (or only) axis of b, on the contents the arguments
have when forward runs. What is missing: 0-dimensional arguments, where forward ignores the argument, and the rejection of
vectors of length 1 and n; both are false. -/
theorem C175_dot_partial (A P : Shape) (K N : Nat) (a0 b0 : Mem ℝ) (hK : 0 < K) :
    (∃ f, dotBuild [K] [K] a0 b0 = .ok ([], f) ∧ ∀ t a b, ∃ y, f t a b = .ok y ∧ y 0 = ∑ k ∈ Finset.range K, a k * b k) ∧
    (A ≠ [] → ∃ f, dotBuild (A ++ [K]) [K] a0 b0 = .ok (A, f) ∧ ∀ t a b, ∃ y, f t a b = .ok y ∧
      ∀ i, InBounds A i → y (ravel A i) = ∑ k ∈ Finset.range K, a (ravel (A ++ [K]) (i ++ [k])) * b k) ∧
    (0 < prod P → 0 < N → ∃ f, dotBuild (A ++ [K]) (P ++ [K, N]) a0 b0 = .ok (A ++ (P ++ [N]), f) ∧ ∀ t a b, ∃ y, f t a b = .ok y ∧
      ∀ i p n, InBounds A i → InBounds P p → n < N → y (ravel (A ++ (P ++ [N])) (i ++ (p ++ [n]))) =
        ∑ k ∈ Finset.range K, a (ravel (A ++ [K]) (i ++ [k])) * b (ravel (P ++ [K, N]) (p ++ [k, n]))) := by
  refine ⟨?_, ?_, ?_⟩
  · have hpos : 0 < prod [K] := by simpa [prod] using hK
    have hb : binarySetup [K] [K] = .ok [K] := binary_same [K] [K] rfl hpos fun a _ => Or.inl rfl
    have hr := reduceSetup_sorted false [0] [K] (by simp) (by simp)
    have hos : outShape false [0] [K] = [] := rfl
    rw [hos] at hr
    refine ⟨fun t a b => reduceForward sumRow (readyObj false [0] [K]) [K] (binaryForward Binary.mul2.forward [K] [K] (prod [K]) a b t.h) t.buf t.y, ?_, ?_⟩
    · rw [dotBuild, if_pos ⟨rfl, rfl⟩, hb]
      simp only []
      have e : ((List.range [K].length).map fun a : Nat => (a : Int)) = [0].map fun a : Nat => (a : Int) := rfl
      rw [e, hr]
    · intro t a b
      obtain ⟨F, hF, _, hv, _⟩ := sum_facts false [0] [K] (by simp) (by simp) hpos t.buf t.y
      refine ⟨_, hF _, ?_⟩
      have h0 : InBounds [K] [0] := ⟨hK, trivial⟩
      have := hv (binaryForward Binary.mul2.forward [K] [K] (prod [K]) a b t.h) [0] h0
      have e1 : ravel (outShape false [0] [K]) (outIndex false [0] [K].length [0]) = 0 := by rw [hos]; rfl
      rw [e1] at this
      rw [this]
      have e2 : fiber [0] [K] [0] = indices [K] := by
        unfold fiber
        rw [List.filter_eq_self]
        intro i _
        exact decide_eq_true rfl
      rw [e2]
      have e3 : indices [K] = (List.range K).map fun k => [k] := by
        rw [List.map_eq_flatMap]; rfl
      rw [e3, List.map_map, ← sum_range_list' K]
      refine Finset.sum_congr rfl fun k hk => ?_
      have hk : InBounds [K] [k] := ⟨Finset.mem_range.mp hk, trivial⟩
      have hv := (binary_value Binary.mul2.forward [K] [K] hb a b t.h [k] hk).1
      rw [bcast_self [K] [k] hk] at hv
      have er : ravel [K] [k] = k := by simp [ravel, prod]
      rw [er] at hv
      simp only [Function.comp, er]
      rw [hv]
      rfl
  · intro hA
    have hl : 0 < A.length := List.length_pos_of_ne_nil hA
    refine ⟨fun t a b => .ok (affineForward (prod A) K (prod [1]) a b none t.y), ?_, ?_⟩
    · rw [dotBuild, if_neg (by simp; intro h; exact absurd h hA), if_neg (by simp), if_neg (by simp), if_pos (by rfl)]
      have e : prod [K] = K := by simp [prod]
      rw [e, affineBuild_ok A K hK [1] (by simp) _ (by simp)]
      simp only []
      rw [List.dropLast_concat]
    · intro t a b
      refine ⟨_, rfl, ?_⟩
      intro i hi
      have := affine_value A [1] K a b t.y i [0] hi ⟨Nat.one_pos, trivial⟩
      have e : ravel (A ++ [1]) (i ++ [0]) = ravel A i := by
        rw [ravel_append A [1] i [0] hi.length]; simp [ravel, prod]
      rw [e] at this
      rw [this]
      refine Finset.sum_congr rfl fun k _ => ?_
      have : ravel [K, 1] [k, 0] = k := by simp [ravel, prod]
      rw [this]
  · intro hP hN
    have hposb : 0 < prod (P ++ [K, N]) := by
      rw [prod_append]; simp only [prod, Nat.mul_one]; positivity
    by_cases h22 : (A ++ [K]).length = 2 ∧ (P ++ [K, N]).length = 2
    · have hPn : P = [] := by
        have := h22.2; simp at this; exact this
      subst hPn
      refine ⟨fun t a b => .ok (affineForward (prod A) K (prod [N]) a b none t.y), ?_, ?_⟩
      · have h2 := h22.1
        simp only [List.length_append, List.length_cons, List.length_nil] at h2
        rw [dotBuild, if_neg (by simp), if_pos h22]
        rw [show ([] : List Nat) ++ [K, N] = K :: [N] from rfl, affineBuild_ok A K hK [N] (by simp) 1 (by omega)]
        rfl
      · intro t a b
        refine ⟨_, rfl, ?_⟩
        intro i p n hi hp hn
        have hp : p = [] := List.eq_nil_of_length_eq_zero (hp.length)
        subst hp
        exact affine_value A [N] K a b t.y i [n] hi ⟨hn, trivial⟩
    · obtain ⟨st, h1, h2, h3⟩ := C72_transpose_partial (R := ℝ) _ _ (dotAxes_perm P K N) hposb
      rw [dotAxes_pick] at h2
      refine ⟨fun t a b => .ok (affineForward (prod A) K (prod (P ++ [N])) a (trForward st b t.h) none t.y), ?_, ?_⟩
      · rw [dotBuild, if_neg (by simp), if_neg h22, if_neg (by simp), if_neg (by simp), dotAxes_eq, h1]
        simp only []
        rw [h2, affineBuild_ok A K hK (P ++ [N]) (by simp) _ (by simp)]
      · intro t a b
        refine ⟨_, rfl, ?_⟩
        intro i p n hi hp hn
        have hpn : InBounds (P ++ [N]) (p ++ [n]) := (inBounds_append P [N] p [n] hp.length).mpr ⟨hp, hn, trivial⟩
        rw [affine_value A (P ++ [N]) K a _ t.y i (p ++ [n]) hi hpn]
        refine Finset.sum_congr rfl fun k hk => ?_
        have hk := Finset.mem_range.mp hk
        congr 1
        have hb : InBounds (P ++ [K, N]) (p ++ [k, n]) := (inBounds_append P [K, N] p [k, n] hp.length).mpr ⟨hp, hk, hn, trivial⟩
        have := h3 b t.h (p ++ [k, n]) hb
        rw [h2] at this
        rw [← this]
        congr 2
        have := dotAxes_pick p k n
        rw [hp.length] at this
        exact this.symm

/-- **C175 (mismatches).** Unless both are vectors, arguments whose inner extents differ are rejected. -/
theorem C175_mismatch (A P : Shape) (K K' N : Nat) (a0 b0 : Mem ℝ) (hne : K ≠ K') :
    (A ≠ [] → ∃ e, dotBuild (A ++ [K]) [K'] a0 b0 = .error e) ∧ ∃ e, dotBuild (A ++ [K]) (P ++ [K', N]) a0 b0 = .error e := by
  constructor
  · intro hA
    obtain ⟨e, he⟩ := affineBuild_err A K K' hne [1] A.length rfl
    refine ⟨e, ?_⟩
    have hp : prod [K'] = K' := by simp [prod]
    have hax : (((A ++ [K]).length : Int) - 1) = A.length := by simp
    rw [dotBuild, if_neg (by simp; intro h; exact absurd h hA), if_neg (by simp), if_neg (by simp), if_pos (by rfl), hp, hax, he]
  · by_cases h22 : (A ++ [K]).length = 2 ∧ (P ++ [K', N]).length = 2
    · have hPn : P = [] := by
        have := h22.2; simp at this; exact this
      subst hPn
      have h2 := h22.1
      simp only [List.length_append, List.length_cons, List.length_nil] at h2
      obtain ⟨e, he⟩ := affineBuild_err A K K' hne [N] 1 (by omega)
      refine ⟨e, ?_⟩
      rw [dotBuild, if_neg (by simp), if_pos h22, show ([] : List Nat) ++ [K', N] = K' :: [N] from rfl, he]
    · have h1 := trSetup_ok _ _ (dotAxes_perm P K' N)
      have h2 : (trState (P.length :: (List.range P.length ++ [P.length + 1])) (P ++ [K', N])).oshape = K' :: (P ++ [N]) := dotAxes_pick P K' N
      have hax : (((A ++ [K]).length : Int) - 1) = A.length := by simp
      obtain ⟨e, he⟩ := affineBuild_err A K K' hne (P ++ [N]) A.length rfl
      refine ⟨e, ?_⟩
      rw [dotBuild, if_neg (by simp), if_neg h22, if_neg (by simp), if_neg (by simp), dotAxes_eq, h1]
      simp only []
      rw [h2, hax, he]

/-- **C175, refuted parts.** Vectors of lengths 1 and 3 are accepted (numpy.dot rejects them). And if one argument is 0-dimensional,
the result is computed with the value it had when F.dot was called: for Variables, forward ignores later changes (and no
gradient can reach it). -/
theorem C175_refuted (a0 b0 : Mem ℝ) : (∃ f, dotBuild [1] [3] a0 b0 = .ok ([], f)) ∧
    ∃ f, dotBuild [] [2] a0 b0 = .ok ([2], f) ∧ ∀ t a b, ∃ y, f t a b = .ok y ∧ ∀ k, k < 2 → y k = b k * a0 0 := by
  constructor
  · have hb : binarySetup [1] [3] = .ok [3] := by decide
    have hr := reduceSetup_sorted false [0] [3] (by simp) (by simp)
    have hos : outShape false [0] [3] = [] := by decide
    rw [hos] at hr
    refine ⟨fun t a b => reduceForward sumRow (readyObj false [0] [3]) [3] (binaryForward Binary.mul2.forward [1] [3] (prod [3]) a b t.h) t.buf t.y, ?_⟩
    rw [dotBuild, if_pos ⟨rfl, rfl⟩, hb]
    simp only []
    have e : ((List.range [3].length).map fun a : Nat => (a : Int)) = [0].map fun a : Nat => (a : Int) := rfl
    rw [e, hr]
  · refine ⟨fun t _ b => .ok (unaryForward (Unary.mulScalar (a0 0)).forward (prod [2]) b t.y), ?_, ?_⟩
    · rw [dotBuild, if_neg (by simp), if_neg (by simp), if_pos (by simp)]; rfl
    · intro t a b
      refine ⟨_, rfl, ?_⟩
      intro k hk
      rw [unaryForward_eq, if_pos (by simpa [prod] using hk)]
      rfl

/-- Non-vacuity: a 2 x 3 matrix times a 4 x 3 x 5 array. -/
example : ∃ f, dotBuild ([2] ++ [3]) ([4] ++ [3, 5]) (fun _ => 0) (fun _ => 0) = .ok ([2, 4, 5], f) := by
  obtain ⟨f, hf, _⟩ := (C175_dot_partial [2] [4] 3 5 (fun _ => 0) (fun _ => 0) (by decide)).2.2 (by decide) (by decide)
  exact ⟨f, hf⟩

end Verif.Dot
