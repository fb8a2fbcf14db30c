import Verif.NormFn.Bcast
import Verif.Elem.Bilinear
import Verif.Elem.ConvLoops
import Verif.Elem.PoolingProps
/-
F.global_average_pooling: models /repo/src/nbla/function/generic/global_average_pooling.cpp. Exact reals; `int` is unbounded.
-/
namespace Verif.NormFn
open Verif.Fn Verif.ND Verif.Elem

/-! ### Model -/

/-- GlobalAveragePooling::setup_impl (global_average_pooling.cpp:28-46). -/
def gapSetup (s : Shape) : Except String Shape :=
  if s.length ≥ 2 then .ok [s.getD 0 0, s.getD 1 0, 1, 1]
  else .error "value: GlobalAveragePooling averages across the channel"

/-- in_wh (global_average_pooling.cpp:58-60, 93-95). -/
def gapArea (s : Shape) : Nat := (if s.length ≥ 4 then s.getD 3 0 else 1) * (if s.length ≥ 3 then s.getD 2 0 else 1)

/-- GlobalAveragePooling::forward_impl (global_average_pooling.cpp:48-75). -/
noncomputable def gapForward (s : Shape) (x y : Mem ℝ) : Mem ℝ :=
  let c := s.getD 1 0
  let wh := gapArea s
  forMat (s.getD 0 0) c (fun n i => n * c + i) (fun n i _ => (∑ k ∈ Finset.range wh, x (n * (wh * c) + i * wh + k)) / wh) y

/-- GlobalAveragePooling::backward_impl (global_average_pooling.cpp:77-124). -/
noncomputable def gapBackward (s : Shape) (accum : Bool) (dy dx : Mem ℝ) : Mem ℝ :=
  let c := s.getD 1 0
  let wh := gapArea s
  (List.range (s.getD 0 0)).foldl (fun m n => forMat c wh (fun i k => n * (wh * c) + i * wh + k)
    (fun i _ old => (if accum then old else 0) + dy (n * c + i) / wh) m) dx

/-! ### Lemmas -/

theorem forMat3 (N C W : Nat) (g : Nat → Nat → Nat → ℝ → ℝ) (m : Mem ℝ) :
    (∀ n c k, n < N → c < C → k < W → (List.range N).foldl (fun m n => forMat C W (fun i k => n * (W * C) + i * W + k) (g n) m) m (n * (W * C) + c * W + k) =
      g n c k (m (n * (W * C) + c * W + k))) ∧
    ∀ j, N * (W * C) ≤ j → (List.range N).foldl (fun m n => forMat C W (fun i k => n * (W * C) + i * W + k) (g n) m) m j = m j := by
  have hs : ∀ n m, _ := fun n (m : Mem ℝ) => forMat_spec C W (fun i k => n * (W * C) + i * W + k) (g n) m
    (fun i j i' j' _ hj _ hj' e => divmod_unique W i i' j j' hj hj' (by omega))
  have hlt : ∀ i k, i < C → k < W → i * W + k < W * C := by
    intro i k hi hk
    have := row_lt hi hk
    rwa [Nat.mul_comm C W] at this
  induction N with
  | zero => exact ⟨fun n _ _ h => absurd h (by omega), fun _ _ => rfl⟩
  | succ N ih =>
    obtain ⟨ih1, ih2⟩ := ih
    have hout : ∀ j, j < N * (W * C) ∨ N * (W * C) + W * C ≤ j → ∀ m : Mem ℝ, forMat C W (fun i k => N * (W * C) + i * W + k) (g N) m j = m j := by
      intro j hj m
      refine (hs N m).2 j fun i k hi hk e => ?_
      have := hlt i k hi hk
      omega
    constructor
    · intro n c k hn hc hk
      rw [List.range_succ, List.foldl_append]
      simp only [List.foldl_cons, List.foldl_nil]
      have hl := hlt c k hc hk
      by_cases e : n = N
      · subst e
        rw [(hs n _).1 c k hc hk, ih2 _ (by omega)]
      · have h2 : n * (W * C) + W * C ≤ N * (W * C) := by
          have := Nat.mul_le_mul_right (W * C) (show n + 1 ≤ N by omega)
          rwa [Nat.succ_mul] at this
        rw [hout _ (Or.inl (by omega)), ih1 n c k (by omega) hc hk]
    · intro j hj
      rw [Nat.succ_mul] at hj
      rw [List.range_succ, List.foldl_append]
      simp only [List.foldl_cons, List.foldl_nil]
      rw [hout j (Or.inr hj), ih2 j (by omega)]

theorem gapArea_eq (N C : Nat) (rest : Shape) (h : rest.length ≤ 2) : gapArea (N :: C :: rest) = prod rest := by
  match rest, h with
  | [], _ => simp [gapArea, prod]
  | [a], _ => simp [gapArea, prod]
  | [a, b], _ => simp [gapArea, prod, Nat.mul_comm]

/-! ### C169 -/

/-- **C169 (rejections).** An input with fewer than two axes is rejected. -/
theorem C169_rejects (s : Shape) (h : s.length < 2) : ∃ e, gapSetup s = .error e := ⟨_, if_neg (by omega)⟩

/-- **C169 (partial: at most two axes after the channel).** Global average pooling of an array of shape (N, C, ...): the result
has shape (N, C, 1, 1) and holds the average of each channel; backward computes the gradient, added to the old one when
accumulating; nothing outside of the arrays is written. What is missing is the same for more axes, which is false. -/
theorem C169_global_average_pooling_partial (N C : Nat) (rest : Shape) (hr : rest.length ≤ 2) (x y : Mem ℝ) :
    let s := N :: C :: rest
    gapSetup s = .ok [N, C, 1, 1] ∧
    (∀ n c, n < N → c < C → gapForward s x y (ravel [N, C, 1, 1] [n, c, 0, 0]) =
      ((indices rest).map fun b => x (ravel s (n :: c :: b))).sum / prod rest) ∧
    (∀ dx, IsVJP (prod s) (prod [N, C, 1, 1]) (fun x => gapForward s x y) x (fun dy => gapBackward s false dy dx)) ∧
    (∀ dy dx dx' k, k < prod s → gapBackward s true dy dx k = dx k + gapBackward s false dy dx' k) ∧
    (∀ k, prod [N, C, 1, 1] ≤ k → gapForward s x y k = y k) ∧ ∀ acc dy dx k, prod s ≤ k → gapBackward s acc dy dx k = dx k := by
  intro s
  set W := prod rest with hW
  have hA : gapArea s = W := gapArea_eq N C rest hr
  have hps : prod s = N * (W * C) := by simp only [s, prod, ← hW]; ring
  have hpo : prod [N, C, 1, 1] = N * C := by simp [prod]
  have hF : ∀ x, gapForward s x y = forMat N C (fun n i => n * C + i) (fun n i _ => (∑ k ∈ Finset.range W, x (n * (W * C) + i * W + k)) / W) y := by
    intro x; rw [gapForward, hA]; rfl
  have hFs := fun (x : Mem ℝ) => forMat_spec N C (fun n i => n * C + i) (fun n i _ => (∑ k ∈ Finset.range W, x (n * (W * C) + i * W + k)) / W) y
    (fun i j i' j' _ hj _ hj' e => divmod_unique C i i' j j' hj hj' e)
  have hB : ∀ acc dy dx, gapBackward s acc dy dx = (List.range N).foldl (fun m n => forMat C W (fun i k => n * (W * C) + i * W + k)
      (fun i _ old => (if acc then old else 0) + dy (n * C + i) / W) m) dx := by
    intro acc dy dx; rw [gapBackward, hA]; rfl
  have hBs := fun acc (dy dx : Mem ℝ) => forMat3 N C W (fun n i _ old => (if acc = true then old else 0) + dy (n * C + i) / W) dx
  have hcov : ∀ k, k < prod s → ∃ n c j, n < N ∧ c < C ∧ j < W ∧ k = n * (W * C) + c * W + j := by
    intro k hk
    rw [hps] at hk
    obtain ⟨n, q, hn, hq, rfl⟩ := cover hk
    obtain ⟨c, j, hc, hj, rfl⟩ := cover (P := C) (Q := W) (by rwa [Nat.mul_comm C W])
    exact ⟨n, c, j, hn, hc, hj, by omega⟩
  refine ⟨if_pos (by simp [s]), ?_, ?_, ?_, ?_, ?_⟩
  · intro n c hn hc
    have e : ravel [N, C, 1, 1] [n, c, 0, 0] = n * C + c := by simp [ravel, prod]
    rw [e, hF, (hFs x).1 n c hn hc]
    congr 1
    rw [sum_range_list', hW, ← indices_ravel, List.map_map]
    congr 1
    apply List.map_congr_left
    intro b _
    simp only [Function.comp, s, ravel, prod]
    congr 1
    rw [← hW]
    ring
  · intro dx
    apply vjp_of_adjoint
    intro dy x
    rw [hpo, hps, dot_block, dot_block]
    refine Finset.sum_congr rfl fun n hn => ?_
    have hn := Finset.mem_range.mp hn
    rw [Nat.mul_comm W C, sum_range_mul]
    refine Finset.sum_congr rfl fun c hc => ?_
    have hc := Finset.mem_range.mp hc
    rw [hF, (hFs x).1 n c hn hc, mul_div_assoc', Finset.mul_sum, Finset.sum_div]
    refine Finset.sum_congr rfl fun k hk => ?_
    have hk := Finset.mem_range.mp hk
    have e : n * (C * W) + (c * W + k) = n * (W * C) + c * W + k := by rw [Nat.mul_comm C W]; omega
    rw [e, hB, (hBs false dy dx).1 n c k hn hc hk]
    simp only [Bool.false_eq_true, if_false, zero_add]
    ring
  · intro dy dx dx' k hk
    obtain ⟨n, c, j, hn, hc, hj, rfl⟩ := hcov k hk
    rw [hB, hB, (hBs true dy dx).1 n c j hn hc hj, (hBs false dy dx').1 n c j hn hc hj]
    simp
  · intro k hk
    rw [hpo] at hk
    rw [hF]
    refine (hFs x).2 k fun i j hi hj e => ?_
    have := row_lt hi hj
    omega
  · intro acc dy dx k hk
    rw [hB]
    exact (hBs acc dy dx).2 k (by rw [← hps]; exact hk)

/-- **C169, refuted part.** Further axes are accepted but ignored: of an input of shape (1, 1, 1, 1, 2) the "average" is the
first element. -/
theorem C169_more_axes_refuted (a b : ℝ) (y : Mem ℝ) : gapSetup [1, 1, 1, 1, 2] = .ok [1, 1, 1, 1] ∧
    gapForward [1, 1, 1, 1, 2] (fun k => if k = 0 then a else b) y 0 = a := by
  refine ⟨by decide, ?_⟩
  have := (forMat_spec 1 1 (fun n i => n * 1 + i) (fun n i _ => (∑ k ∈ Finset.range 1, (fun k => if k = 0 then a else b) (n * (1 * 1) + i * 1 + k)) / (1 : Nat)) y
    (fun i j i' j' hi hj hi' hj' _ => ⟨by omega, by omega⟩)).1 0 0 (by omega) (by omega)
  have hg : gapForward [1, 1, 1, 1, 2] (fun k => if k = 0 then a else b) y = forMat 1 1 (fun n i => n * 1 + i)
      (fun n i _ => (∑ k ∈ Finset.range 1, (fun k => if k = 0 then a else b) (n * (1 * 1) + i * 1 + k)) / (1 : Nat)) y := by
    rw [gapForward, show gapArea [1, 1, 1, 1, 2] = 1 from by decide]; rfl
  rw [hg]
  simp only [Finset.sum_range_one] at this
  simpa using this

/-- Non-vacuity: a 1 x 2 x 2 input. -/
example (y : Mem ℝ) : gapForward [1, 2, 2] (fun k => k) y 1 = 5 / 2 := by
  have := (C169_global_average_pooling_partial 1 2 [2] (by decide) (fun k => k) y).2.1 0 1 (by omega) (by omega)
  have e1 : ravel [1, 2, 1, 1] [0, 1, 0, 0] = 1 := by decide
  have e2 : indices [2] = [[0], [1]] := by decide
  have e3 : ravel [1, 2, 2] [0, 1, 0] = 2 := by decide
  have e4 : ravel [1, 2, 2] [0, 1, 1] = 3 := by decide
  rw [e1, e2] at this
  rw [this]
  simp only [List.map_cons, List.map_nil, List.sum_cons, List.sum_nil, e3, e4, prod]
  norm_num

end Verif.NormFn
