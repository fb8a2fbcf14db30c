import Verif.Solver.History
/-!
# C152: Lamb and Lars, whose step for one element depends on the whole array

Simplifications: exact reals; the parameter and its gradient are lists of the same length.
-/

namespace Verif.Solver

open Real Finset

noncomputable section

/-! ## Model -/

/-- `update_impl` of Lamb for a whole array, lamb.cpp L57-110: the averages, the direction, the step. `t` is the counter after L62. -/
def lambUpdate (eta b1 b2 gl gu eps wd : ℝ) (bias : Bool) (t : ℕ) (s : List Adam) (g w : List ℝ) : List Adam × List ℝ :=
  let s' := List.zipWith (fun s g => s.next b1 b2 g) s g
  (s', lambStep eta gl gu eps (List.zipWith (lambDir b1 b2 eps wd bias t) s' w) w)

/-- Lamb on a list of gradients, from the state of set_state_impl (lamb.cpp L43-53): zeros. -/
def lambRun (eta b1 b2 gl gu eps wd : ℝ) (bias : Bool) (w : List ℝ) (gs : List (List ℝ)) : List Adam × List ℝ :=
  (gs.foldl (fun (a : ℕ × List Adam × List ℝ) g =>
      (a.1 + 1, lambUpdate eta b1 b2 gl gu eps wd bias (a.1 + 1) a.2.1 g a.2.2)) (0, w.map (fun _ => ⟨0, 0⟩), w)).2

/-- `update_impl` of Lars for a whole array, lars.cpp L50-80; `weight_decay_cpu` (weight_decay.hpp L29-34) adds `wd * data` to the
gradient after the norms have been taken. -/
def larsUpdate (lr coef eps wd mu : ℝ) (v g w : List ℝ) : Except Err (List ℝ × List ℝ) :=
  match larsLr lr coef eps wd g w with
  | .error e => .error e
  | .ok l =>
    let g' := List.zipWith (fun g w => g + wd * w) g w
    let v' := List.zipWith (fun g v => mu * v + l * g) g' v
    .ok (v', List.zipWith (fun v x => x - v) v' w)

/-- Lars on a list of gradients, from velocity 0 (lars.cpp L36-43). -/
def larsRun (lr coef eps wd mu : ℝ) (w : List ℝ) (gs : List (List ℝ)) : Except Err (List ℝ × List ℝ) :=
  gs.foldl (fun a g => a.bind fun a => larsUpdate lr coef eps wd mu a.1 g a.2) (.ok (w.map fun _ => 0, w))

/-! ## Specification -/

/-- The history of one element. -/
def col (i : ℕ) (gs : List (List ℝ)) : List ℝ := gs.map fun g => g.getD i 0

/-- The Euclidean norm of the first `n` elements. -/
def norm2 (n : ℕ) (a : ℕ → ℝ) : ℝ := √(∑ i ∈ range n, a i ^ 2)

/-- The direction of Lamb: Adam's ratio for the whole history of element `i`, and the decay. -/
def lambRef (b1 b2 eps wd : ℝ) (bias : Bool) (gs : List (List ℝ)) (w : ℕ → ℝ) (i : ℕ) : ℝ :=
  (ema b1 (col i gs) / (if bias then 1 - b1 ^ gs.length else 1)) /
    (√(ema b2 (sq (col i gs)) / (if bias then 1 - b2 ^ gs.length else 1)) + eps) + wd * w i

/-- The learning rate Lars uses for a parameter `w` with gradient `g`. -/
def larsRef (lr coef eps wd : ℝ) (n : ℕ) (g w : ℕ → ℝ) : ℝ :=
  let x := norm2 n g + wd * norm2 n w
  if norm2 n w < eps then lr else lr * coef * norm2 n w / (if x < eps then x + eps else x)

/-! ## Lemmas -/

theorem sumSq_norm (l : List ℝ) (n : ℕ) (h : l.length = n) : √(sumSq l) = norm2 n fun i => l.getD i 0 := by
  subst h
  unfold sumSq norm2
  congr 1
  induction l with
  | nil => simp
  | cons a l ih =>
    rw [List.map_cons, List.sum_cons, List.length_cons, Finset.sum_range_succ', ih]
    simp only [List.getD_cons_succ, List.getD_cons_zero]
    ring

theorem norm2_congr {n : ℕ} {a b : ℕ → ℝ} (h : ∀ i, i < n → a i = b i) : norm2 n a = norm2 n b := by
  unfold norm2
  congr 1
  exact Finset.sum_congr rfl fun i hi => by rw [h i (Finset.mem_range.mp hi)]

theorem zipWith_getD {α β γ : Type} (f : α → β → γ) (a : List α) (b : List β) (da : α) (db : β) (dc : γ) (i : ℕ) (ha : i < a.length) (hb : i < b.length) :
    (List.zipWith f a b).getD i dc = f (a.getD i da) (b.getD i db) := by
  rw [List.getD_eq_getElem _ _ (by simp; omega), List.getD_eq_getElem _ _ ha, List.getD_eq_getElem _ _ hb, List.getElem_zipWith]

theorem lambRun_snoc (eta b1 b2 gl gu eps wd : ℝ) (bias : Bool) (w : List ℝ) (gs : List (List ℝ)) (g : List ℝ) :
    lambRun eta b1 b2 gl gu eps wd bias w (gs ++ [g]) =
      lambUpdate eta b1 b2 gl gu eps wd bias (gs.length + 1) (lambRun eta b1 b2 gl gu eps wd bias w gs).1 g
        (lambRun eta b1 b2 gl gu eps wd bias w gs).2 := by
  have hc : ∀ (gs : List (List ℝ)) a, (gs.foldl (fun (a : ℕ × List Adam × List ℝ) g =>
      (a.1 + 1, lambUpdate eta b1 b2 gl gu eps wd bias (a.1 + 1) a.2.1 g a.2.2)) a).1 = a.1 + gs.length := by
    intro gs
    induction gs with
    | nil => simp
    | cons g gs ih => intro a; rw [List.foldl_cons, ih]; simp; omega
  unfold lambRun
  rw [List.foldl_append, List.foldl_cons, List.foldl_nil, hc]
  simp

theorem lambRun_spec (eta b1 b2 gl gu eps wd : ℝ) (bias : Bool) (w : List ℝ) (gs : List (List ℝ)) (hg : ∀ g ∈ gs, g.length = w.length) :
    (lambRun eta b1 b2 gl gu eps wd bias w gs).1.length = w.length ∧
    (lambRun eta b1 b2 gl gu eps wd bias w gs).2.length = w.length ∧
    ∀ i, i < w.length → (lambRun eta b1 b2 gl gu eps wd bias w gs).1.getD i ⟨0, 0⟩ = ⟨ema b1 (col i gs), ema b2 (sq (col i gs))⟩ := by
  induction gs using List.reverseRecOn with
  | nil =>
    refine ⟨by simp [lambRun], by simp [lambRun], fun i hi => ?_⟩
    have : (lambRun eta b1 b2 gl gu eps wd bias w []).1 = w.map (fun _ => (⟨0, 0⟩ : Adam)) := rfl
    rw [this, List.getD_eq_getElem _ _ (by simpa using hi), List.getElem_map]
    simp [col, sq]
  | append_singleton gs g ih =>
    obtain ⟨h1, h2, h3⟩ := ih fun a ha => hg a (by simp [ha])
    have hl : g.length = w.length := hg g (by simp)
    rw [lambRun_snoc]
    refine ⟨by simp [lambUpdate, h1, hl], by simp [lambUpdate, lambStep, h1, h2, hl], fun i hi => ?_⟩
    show (List.zipWith (fun (s : Adam) g => s.next b1 b2 g) _ g).getD i ⟨0, 0⟩ = _
    rw [zipWith_getD _ _ _ ⟨0, 0⟩ 0 _ i (by omega) (by omega), h3 i hi]
    have hc : col i (gs ++ [g]) = col i gs ++ [g.getD i 0] := by simp [col]
    rw [hc, sq_snoc, ema_snoc, ema_snoc]
    simp only [Adam.next]
    congr 1
    ring

theorem larsRun_snoc (lr coef eps wd mu : ℝ) (w : List ℝ) (gs : List (List ℝ)) (g : List ℝ) :
    larsRun lr coef eps wd mu w (gs ++ [g]) = (larsRun lr coef eps wd mu w gs).bind fun a => larsUpdate lr coef eps wd mu a.1 g a.2 := by
  unfold larsRun
  rw [List.foldl_append, List.foldl_cons, List.foldl_nil]

/-! ## The theorems -/

/-- **C152 (Lamb).** After any list of gradient arrays, the next update moves every element by eta times its direction times the
clamped norm of the parameter over the norm of the direction (or by eta times the direction if that is negligible); the direction
is Adam's bias corrected ratio over the element's own complete history plus the decay. -/
theorem C152_lamb (eta b1 b2 gl gu eps wd : ℝ) (hgu : gl ≤ gu) (bias : Bool) (w : List ℝ) (gs : List (List ℝ)) (g : List ℝ)
    (hg : ∀ a ∈ gs ++ [g], a.length = w.length) (i : ℕ) (hi : i < w.length) :
    let now := fun j => (lambRun eta b1 b2 gl gu eps wd bias w gs).2.getD j 0
    let r := lambRef b1 b2 eps wd bias (gs ++ [g]) now
    (lambRun eta b1 b2 gl gu eps wd bias w (gs ++ [g])).2.getD i 0 =
      now i - eta * (if norm2 w.length r > eps then min gu (max gl (norm2 w.length now)) / norm2 w.length r else 1) * r i := by
  intro now r
  obtain ⟨h1, h2, -⟩ := lambRun_spec eta b1 b2 gl gu eps wd bias w gs fun a ha => hg a (by simp [ha])
  obtain ⟨k1, k2, k3⟩ := lambRun_spec eta b1 b2 gl gu eps wd bias w (gs ++ [g]) hg
  have hl : g.length = w.length := hg g (by simp)
  rw [lambRun_snoc] at k1 k3 ⊢
  simp only [lambUpdate] at k1 k3 ⊢
  set s' := List.zipWith (fun (s : Adam) g => s.next b1 b2 g) (lambRun eta b1 b2 gl gu eps wd bias w gs).1 g
  set w' := (lambRun eta b1 b2 gl gu eps wd bias w gs).2 with hw'
  set rl := List.zipWith (lambDir b1 b2 eps wd bias (gs.length + 1)) s' w' with hrl
  have hrlen : rl.length = w.length := by rw [hrl, List.length_zipWith, k1, h2, Nat.min_self]
  have hr : ∀ j, j < w.length → rl.getD j 0 = r j := by
    intro j hj
    rw [hrl, zipWith_getD _ _ _ ⟨0, 0⟩ 0 _ j (by omega) (by omega), k3 j hj]
    simp only [lambDir, r, lambRef, List.length_append, List.length_singleton, now]
    rfl
  have hn : √(sumSq rl) = norm2 w.length r := by rw [sumSq_norm rl _ hrlen]; exact norm2_congr hr
  have hv : √(sumSq w') = norm2 w.length now := sumSq_norm w' _ h2
  unfold lambStep
  rw [hn, hv]
  rw [zipWith_getD _ _ _ 0 0 _ i (by omega) (by omega), hr i hi]
  have hc : ∀ v : ℝ, (if (if v < gl then gl else v) > gu then gu else if v < gl then gl else v) = min gu (max gl v) := by
    intro v
    by_cases c : v < gl
    · rw [if_pos c, max_eq_left c.le, min_eq_right hgu, if_neg (not_lt.mpr hgu)]
    · rw [if_neg c, max_eq_right (not_lt.mp c)]
      by_cases d : v > gu
      · rw [if_pos d, min_eq_left d.le]
      · rw [if_neg d, min_eq_right (not_lt.mp d)]
  simp only [hc]
  rfl

/-- **C152 (Lars).** With a weight decay rate that is not negative no list of gradients raises, and every update subtracts from each
element the discounted sum over all updates so far of that update's local learning rate times the decayed gradient; the local rate
is the trust ratio of the norms of the whole parameter and gradient at that update. -/
theorem C152_lars (lr coef eps wd mu : ℝ) (hwd : 0 ≤ wd) (w : List ℝ) (gs : List (List ℝ)) (hg : ∀ a ∈ gs, a.length = w.length) :
    ∃ at_ : ℕ → ℕ → ℝ, (∀ i, i < w.length → at_ 0 i = w.getD i 0) ∧
      (∀ k, k ≤ gs.length → ∃ v x, larsRun lr coef eps wd mu w (gs.take k) = .ok (v, x) ∧ x.length = w.length ∧
        ∀ i, i < w.length → x.getD i 0 = at_ k i) ∧
      ∀ k, k < gs.length → ∀ i, i < w.length → at_ (k + 1) i = at_ k i -
        ∑ j ∈ range (k + 1), mu ^ (k - j) *
          (larsRef lr coef eps wd w.length (fun i => (gs.getD j []).getD i 0) (at_ j) * ((gs.getD j []).getD i 0 + wd * at_ j i)) := by
  -- the values, by recursion on the number of updates
  have main : ∀ k, k ≤ gs.length → ∃ v x, larsRun lr coef eps wd mu w (gs.take k) = .ok (v, x) ∧ v.length = w.length ∧ x.length = w.length := by
    intro k
    induction k with
    | zero => intro _; exact ⟨_, _, rfl, by simp, by simp⟩
    | succ k ih =>
      intro hk
      obtain ⟨v, x, h1, h2, h3⟩ := ih (by omega)
      have ht : gs.take (k + 1) = gs.take k ++ [gs.getD k []] := by
        rw [List.getD_eq_getElem _ _ (by omega), List.take_succ_eq_append_getElem (by omega)]
      rw [ht, larsRun_snoc, h1]
      obtain ⟨l, hl⟩ := lars_never_raises lr coef eps wd hwd (gs.getD k []) x
      have hgl : (gs.getD k []).length = w.length := hg _ (by rw [List.getD_eq_getElem _ _ (by omega)]; exact List.getElem_mem _)
      refine ⟨_, _, by show larsUpdate lr coef eps wd mu v _ x = _; unfold larsUpdate; rw [hl], ?_, ?_⟩ <;> simp only [List.length_zipWith, h2, h3, hgl, Nat.min_self]
  choose! v x h1 h2 h3 using main
  have hstep : ∀ k, k < gs.length → ∀ i, i < w.length →
      (v (k + 1)).getD i 0 = mu * (v k).getD i 0 + larsRef lr coef eps wd w.length (fun i => (gs.getD k []).getD i 0) (fun i => (x k).getD i 0) *
        ((gs.getD k []).getD i 0 + wd * (x k).getD i 0) ∧
      (x (k + 1)).getD i 0 = (x k).getD i 0 - (v (k + 1)).getD i 0 := by
    intro k hk i hi
    have ht : gs.take (k + 1) = gs.take k ++ [gs.getD k []] := by
      rw [List.getD_eq_getElem _ _ (by omega), List.take_succ_eq_append_getElem (by omega)]
    have e := h1 (k + 1) (by omega)
    rw [ht, larsRun_snoc, h1 k (by omega)] at e
    have hgl : (gs.getD k []).length = w.length := hg _ (by rw [List.getD_eq_getElem _ _ (by omega)]; exact List.getElem_mem _)
    have hvl := h2 k (by omega)
    have hxl := h3 k (by omega)
    change larsUpdate lr coef eps wd mu (v k) (gs.getD k []) (x k) = _ at e
    unfold larsUpdate at e
    have hll : larsLr lr coef eps wd (gs.getD k []) (x k) =
        .ok (larsRef lr coef eps wd w.length (fun i => (gs.getD k []).getD i 0) (fun i => (x k).getD i 0)) := by
      unfold larsLr
      rw [sumSq_norm _ _ hgl, sumSq_norm _ _ hxl]
      simp only []
      have : 0 ≤ wd * norm2 w.length fun i => (x k).getD i 0 := mul_nonneg hwd (Real.sqrt_nonneg _)
      have : 0 ≤ norm2 w.length fun i => (gs.getD k []).getD i 0 := Real.sqrt_nonneg _
      rw [if_neg (by linarith)]
      rfl
    rw [hll] at e
    simp only [Except.ok.injEq, Prod.mk.injEq] at e
    obtain ⟨e1, e2⟩ := e
    rw [e1] at e2
    constructor
    · rw [← e1, zipWith_getD _ _ _ 0 0 _ i (by rw [List.length_zipWith, hgl, hxl]; omega) (by omega), zipWith_getD _ _ _ 0 0 _ i (by omega) (by omega)]
    · rw [← e2, zipWith_getD _ _ _ 0 0 _ i (by rw [h2 (k + 1) (by omega)]; exact hi) (by omega)]
  refine ⟨fun k i => (x k).getD i 0, ?_, ?_, ?_⟩
  · intro i _
    have e := h1 0 (by omega)
    simp only [List.take_zero, larsRun, List.foldl_nil, Except.ok.injEq, Prod.mk.injEq] at e
    simp [← e.2]
  · intro k hk
    exact ⟨v k, x k, h1 k hk, h3 k hk, fun i _ => rfl⟩
  · have hv : ∀ k, k < gs.length → ∀ i, i < w.length → (v (k + 1)).getD i 0 = ∑ j ∈ range (k + 1), mu ^ (k - j) *
          (larsRef lr coef eps wd w.length (fun i => (gs.getD j []).getD i 0) (fun i => (x j).getD i 0) * ((gs.getD j []).getD i 0 + wd * (x j).getD i 0)) := by
      intro k
      induction k with
      | zero =>
        intro hk i hi
        rw [(hstep 0 hk i hi).1]
        have e := h1 0 (by omega)
        simp only [List.take_zero, larsRun, List.foldl_nil, Except.ok.injEq, Prod.mk.injEq] at e
        have hz : (v 0).getD i 0 = 0 := by
          rw [← e.1, List.getD_eq_getElem _ _ (by simpa using hi), List.getElem_map]
        rw [hz]
        simp
      | succ k ih =>
        intro hk i hi
        rw [(hstep (k + 1) hk i hi).1, ih (by omega) i hi, Finset.sum_range_succ _ (k + 1), Finset.mul_sum]
        congr 1
        · apply Finset.sum_congr rfl
          intro j hj
          rw [Finset.mem_range] at hj
          rw [← mul_assoc, ← pow_succ']
          congr 2
          omega
        · simp
    intro k hk i hi
    show (x (k + 1)).getD i 0 = (x k).getD i 0 - _
    rw [(hstep k hk i hi).2, hv k hk i hi]

/-- A Lars run that meets the hypotheses: zero decay, one gradient [2] on the parameter [0]. -/
example : larsRun 1 1 1 0 (1 / 2) [0] [[2]] = .ok ([2], [-2]) := by
  have h : ¬ (√4 : ℝ) < 0 := not_lt.mpr (Real.sqrt_nonneg _)
  norm_num [larsRun, larsUpdate, larsLr, sumSq, Except.bind, h]

example : ∀ a ∈ [[(1 : ℝ), 2]] ++ [[3, 4]], a.length = [(5 : ℝ), 6].length := by simp

/-- One Lamb step, b1 = b2 = 0, no decay, direction sign(g): the step is eta times the clamped norm of the parameter. -/
example : (lambRun 1 0 0 0 10 0 0 false [3] [[2]]).2 = [0] := by
  have h4 : √(4 : ℝ) = 2 := by rw [show (4 : ℝ) = 2 * 2 by norm_num]; exact Real.sqrt_mul_self (by norm_num)
  have h9 : √(9 : ℝ) = 3 := by rw [show (9 : ℝ) = 3 * 3 by norm_num]; exact Real.sqrt_mul_self (by norm_num)
  norm_num [lambRun, lambUpdate, Adam.next, lambDir, lambStep, sumSq, h4, h9]

end

end Verif.Solver
