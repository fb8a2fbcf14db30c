/-
C105, C106: batch normalization.
-/
import Verif.BatchNorm.Lemmas

namespace Verif.BatchNorm
open Verif.Fn Verif.Elem Real

/-- All sizes positive (otherwise setup divides by zero), eps positive. -/
structure Ok (a : Args) : Prop where
  n0 : 0 < a.n0
  n2 : 0 < a.n2
  eps : 0 < a.eps

theorem Ok.n02 {a : Args} (h : Ok a) : 0 < a.n02 := Nat.mul_pos h.n0 h.n2

theorem fwdChannel_eq (a : Args) (x : Mem ℝ) (beta gamma : Option (Mem ℝ)) (upd : Bool) (o : Out) (i1 : Nat) :
    fwdChannel a x beta gamma upd o i1 =
      { m := put o.m i1 (mu a.n02 fun j => x (pos a i1 j))
        v := put o.v i1 (vr a.n02 fun j => x (pos a i1 j))
        rm := if upd then put o.rm i1 (a.decay * o.rm i1 + (1 - a.decay) * mu a.n02 fun j => x (pos a i1 j)) else o.rm
        rv := if upd then put o.rv i1 (a.decay * o.rv i1 + (1 - a.decay) * (vr a.n02 fun j => x (pos a i1 j)) * a.n02 / ((a.n02 : ℝ) - 1)) else o.rv
        y := forPut a.n02 (pos a i1) (fun j _ => (x (pos a i1 j) - mu a.n02 fun j => x (pos a i1 j)) * scaleOf gamma i1 /
          √((vr a.n02 fun j => x (pos a i1 j)) + a.eps) + biasOf beta i1) o.y } := by
  unfold fwdChannel
  rw [foldl_add2]
  rfl

theorem forward_fold (a : Args) (x : Mem ℝ) (beta gamma : Option (Mem ℝ)) (upd : Bool) (c : Nat) (o : Out) :
    ((List.range c).foldl (fwdChannel a x beta gamma upd) o).y =
      (List.range c).foldl (fun y i1 => forPut a.n02 (pos a i1) (fun j _ => (x (pos a i1 j) - mu a.n02 fun j => x (pos a i1 j)) * scaleOf gamma i1 /
          √((vr a.n02 fun j => x (pos a i1 j)) + a.eps) + biasOf beta i1) y) o.y ∧
    (∀ k, ((List.range c).foldl (fwdChannel a x beta gamma upd) o).m k = if k < c then mu a.n02 fun j => x (pos a k j) else o.m k) ∧
    (∀ k, ((List.range c).foldl (fwdChannel a x beta gamma upd) o).v k = if k < c then vr a.n02 fun j => x (pos a k j) else o.v k) ∧
    (∀ k, ((List.range c).foldl (fwdChannel a x beta gamma upd) o).rm k = if k < c ∧ upd = true then a.decay * o.rm k + (1 - a.decay) * mu a.n02 fun j => x (pos a k j) else o.rm k) ∧
    (∀ k, ((List.range c).foldl (fwdChannel a x beta gamma upd) o).rv k = if k < c ∧ upd = true then
      a.decay * o.rv k + (1 - a.decay) * (vr a.n02 fun j => x (pos a k j)) * a.n02 / ((a.n02 : ℝ) - 1) else o.rv k) := by
  induction c with
  | zero => simp
  | succ c ih =>
    obtain ⟨i1, i2, i3, i4, i5⟩ := ih
    rw [List.range_succ, List.foldl_append, List.foldl_append]
    simp only [List.foldl_cons, List.foldl_nil]
    rw [fwdChannel_eq]
    refine ⟨by rw [i1], fun k => ?_, fun k => ?_, fun k => ?_, fun k => ?_⟩
    · by_cases e : k = c
      · subst e; simp [put]
      · simp only [put, if_neg e, i2 k]
        have : k < c + 1 ↔ k < c := by omega
        simp only [this]
    · by_cases e : k = c
      · subst e; simp [put]
      · simp only [put, if_neg e, i3 k]
        have : k < c + 1 ↔ k < c := by omega
        simp only [this]
    · cases upd with
      | false => simp only [Bool.false_eq_true, and_false, if_false] at i4 ⊢; exact i4 k
      | true =>
        simp only [if_true, and_true] at i4 ⊢
        by_cases e : k = c
        · subst e; simp [put, i4 k]
        · simp only [put, if_neg e, i4 k]
          have : k < c + 1 ↔ k < c := by omega
          simp only [this]
    · cases upd with
      | false => simp only [Bool.false_eq_true, and_false, if_false] at i5 ⊢; exact i5 k
      | true =>
        simp only [if_true, and_true] at i5 ⊢
        by_cases e : k = c
        · subst e; simp [put, i5 k]
        · simp only [put, if_neg e, i5 k]
          have : k < c + 1 ↔ k < c := by omega
          simp only [this]

/-! ### C105: the values -/

/-- C105, training mode.  Every element is normalised with the mean and the variance of its channel;
the statistics outputs are that mean and that variance. -/
theorem c105_forward (a : Args) (ok : Ok a) (x : Mem ℝ) (beta gamma : Option (Mem ℝ)) (upd : Bool) (o : Out) :
    let r := forwardBatch a x beta gamma upd o
    (∀ i0 i1 i2, i0 < a.n0 → i1 < a.n1 → i2 < a.n2 →
      r.y (off a.n1 a.n2 i0 i1 i2) =
        scaleOf gamma i1 * (x (off a.n1 a.n2 i0 i1 i2) - mean a x i1) / √(variance a x i1 + a.eps) + biasOf beta i1) ∧
    ∀ i1, i1 < a.n1 → r.m i1 = mean a x i1 ∧ r.v i1 = variance a x i1 := by
  intro r
  obtain ⟨h1, h2, h3, -, -⟩ := forward_fold a x beta gamma upd a.n1 o
  refine ⟨fun i0 i1 i2 k0 k1 k2 => ?_, fun i1 k1 => ⟨?_, ?_⟩⟩
  · change ((List.range a.n1).foldl (fwdChannel a x beta gamma upd) o).y _ = _
    rw [h1, ← pos_eq a i1 i0 i2 k2]
    rw [(channels_spec a (fun i1 j _ => (x (pos a i1 j) - mu a.n02 fun j => x (pos a i1 j)) * scaleOf gamma i1 /
          √((vr a.n02 fun j => x (pos a i1 j)) + a.eps) + biasOf beta i1) a.n1 (le_refl _) o.y).1 i1 _ k1 (idx_lt a k0 k2),
      mean_eq, variance_eq a x i1 ok.n02]
    ring
  · change ((List.range a.n1).foldl (fwdChannel a x beta gamma upd) o).m _ = _
    rw [h2, if_pos k1, mean_eq]
  · change ((List.range a.n1).foldl (fwdChannel a x beta gamma upd) o).v _ = _
    rw [h3, if_pos k1, variance_eq a x i1 ok.n02]

/-- The normalised channel (no scale, no bias) has mean 0. -/
theorem c105_normalised (a : Args) (ok : Ok a) (x : Mem ℝ) (o : Out) (i1 : Nat) (h1 : i1 < a.n1) :
    mean a (forwardBatch a x none none true o).y i1 = 0 := by
  obtain ⟨h, -⟩ := c105_forward a ok x none none true o
  have hs := sum_centered a.n02 (fun j => x (pos a i1 j)) ok.n02
  unfold mean
  have : ∑ i0 ∈ Finset.range a.n0, ∑ i2 ∈ Finset.range a.n2, (forwardBatch a x none none true o).y (off a.n1 a.n2 i0 i1 i2) =
      (∑ i0 ∈ Finset.range a.n0, ∑ i2 ∈ Finset.range a.n2, (x (off a.n1 a.n2 i0 i1 i2) - mean a x i1)) / √(variance a x i1 + a.eps) := by
    rw [Finset.sum_div]
    refine Finset.sum_congr rfl fun i0 k0 => ?_
    rw [Finset.sum_div]
    refine Finset.sum_congr rfl fun i2 k2 => ?_
    rw [h i0 i1 i2 (Finset.mem_range.mp k0) h1 (Finset.mem_range.mp k2)]
    simp [scaleOf, biasOf]
  rw [this, ← sum_pos a (fun k => x k - mean a x i1), mean_eq, hs]
  simp

/-- C105, running statistics.  A forward pass in training mode moves them by the exponential moving
average of the batch mean and of the *unbiased* batch variance; with at least two values per channel. -/
theorem c105_running (a : Args) (ok : Ok a) (h2 : 2 ≤ a.n0 * a.n2) (x : Mem ℝ) (beta gamma : Option (Mem ℝ)) (o : Out) (i1 : Nat) (h1 : i1 < a.n1) :
    (forwardBatch a x beta gamma true o).rm i1 = a.decay * o.rm i1 + (1 - a.decay) * mean a x i1 ∧
    (forwardBatch a x beta gamma true o).rv i1 = a.decay * o.rv i1 + (1 - a.decay) * unbiased a x i1 := by
  obtain ⟨-, -, -, h4, h5⟩ := forward_fold a x beta gamma true a.n1 o
  constructor
  · change ((List.range a.n1).foldl (fwdChannel a x beta gamma true) o).rm _ = _
    rw [h4, if_pos ⟨h1, rfl⟩, mean_eq]
  · change ((List.range a.n1).foldl (fwdChannel a x beta gamma true) o).rv _ = _
    rw [h5, if_pos ⟨h1, rfl⟩, ← variance_eq a x i1 ok.n02]
    have hn : ((a.n0 : ℝ) * a.n2) ≠ 0 := by
      have := ok.n0; have := ok.n2
      positivity
    have hm : ((a.n0 : ℝ) * a.n2 - 1) ≠ 0 := by
      have : (2 : ℝ) ≤ (a.n0 : ℝ) * a.n2 := by exact_mod_cast h2
      intro h; linarith
    have e : ((a.n02 : Nat) : ℝ) = (a.n0 : ℝ) * a.n2 := by simp [Args.n02]
    rw [e, variance, unbiased, mul_assoc (1 - a.decay), div_mul_cancel₀ _ hn, mul_div_assoc]

/-- Recomputation and the statistics: `recompute` gives the same outputs and leaves the running
statistics alone. -/
theorem c105_recompute (a : Args) (ok : Ok a) (x : Mem ℝ) (beta gamma : Option (Mem ℝ)) (o : Out) :
    (forwardBatch a x beta gamma false o).rm = o.rm ∧ (forwardBatch a x beta gamma false o).rv = o.rv ∧
    ∀ i0 i1 i2, i0 < a.n0 → i1 < a.n1 → i2 < a.n2 →
      (forwardBatch a x beta gamma false o).y (off a.n1 a.n2 i0 i1 i2) = (forwardBatch a x beta gamma true o).y (off a.n1 a.n2 i0 i1 i2) := by
  obtain ⟨-, -, -, h4, h5⟩ := forward_fold a x beta gamma false a.n1 o
  refine ⟨funext fun k => ?_, funext fun k => ?_, fun i0 i1 i2 k0 k1 k2 => ?_⟩
  · have := h4 k; simp only [Bool.false_eq_true, and_false, if_false] at this; exact this
  · have := h5 k; simp only [Bool.false_eq_true, and_false, if_false] at this; exact this
  · rw [(c105_forward a ok x beta gamma false o).1 i0 i1 i2 k0 k1 k2, (c105_forward a ok x beta gamma true o).1 i0 i1 i2 k0 k1 k2]

/-- The state after training on the batches, in order. -/
noncomputable def train (a : Args) (beta gamma : Option (Mem ℝ)) : List (Mem ℝ) → Out → Out
  | [], o => o
  | x :: xs, o => train a beta gamma xs (forwardBatch a x beta gamma true o)

/-- The exponential moving average of a sequence, from the initial value. -/
def ema (d : ℝ) : List ℝ → ℝ → ℝ
  | [], r => r
  | v :: vs, r => ema d vs (d * r + (1 - d) * v)

/-- C105, history.  After any sequence of training batches the running statistics are the exponential
moving averages of the batch means and unbiased variances. -/
theorem c105_history (a : Args) (ok : Ok a) (h2 : 2 ≤ a.n0 * a.n2) (beta gamma : Option (Mem ℝ)) (i1 : Nat) (h1 : i1 < a.n1) (xs : List (Mem ℝ)) :
    ∀ o : Out, (train a beta gamma xs o).rm i1 = ema a.decay (xs.map fun x => mean a x i1) (o.rm i1) ∧
      (train a beta gamma xs o).rv i1 = ema a.decay (xs.map fun x => unbiased a x i1) (o.rv i1) := by
  induction xs with
  | nil => intro o; exact ⟨rfl, rfl⟩
  | cons x xs ih =>
    intro o
    obtain ⟨e1, e2⟩ := c105_running a ok h2 x beta gamma o i1 h1
    obtain ⟨f1, f2⟩ := ih (forwardBatch a x beta gamma true o)
    exact ⟨by rw [train, f1, e1]; rfl, by rw [train, f2, e2]; rfl⟩

/-- Closed form: equal batches, mean `v` each time, after n batches `d^n r + (1 - d^n) v`. -/
theorem ema_const (d v : ℝ) (n : Nat) : ∀ r, ema d (List.replicate n v) r = d ^ n * r + (1 - d ^ n) * v := by
  induction n with
  | zero => intro r; simp [ema]
  | succ n ih => intro r; rw [List.replicate_succ, ema, ih]; ring

/-- C105, test mode: normalisation with the given statistics. -/
theorem c105_global (a : Args) (x : Mem ℝ) (beta gamma : Option (Mem ℝ)) (rm rv y : Mem ℝ) (i0 i1 i2 : Nat)
    (h0 : i0 < a.n0) (h1 : i1 < a.n1) (h2 : i2 < a.n2) :
    forwardGlobal a x beta gamma rm rv y (off a.n1 a.n2 i0 i1 i2) =
      scaleOf gamma i1 * (x (off a.n1 a.n2 i0 i1 i2) - rm i1) / √(rv i1 + a.eps) + biasOf beta i1 := by
  rw [← pos_eq a i1 i0 i2 h2, forwardGlobal,
    (channels_spec a (fun i1 j _ => (x (pos a i1 j) - rm i1) * scaleOf gamma i1 / √(rv i1 + a.eps) + biasOf beta i1) a.n1 (le_refl _) y).1
      i1 _ h1 (idx_lt a h0 h2)]
  ring

/-! ### C106: the gradients -/

/-- What is added to a gradient buffer. -/
def accOf (accum : Bool) (d g : ℝ) : ℝ := if accum then d + g else g

/-- The derivative of a number along paths through x, gamma and beta: `L` changes at the rate
Σ vx dx + Σ vb db + Σ vg dg. -/
def IsGrad (a : Args) (L : Mem ℝ → Mem ℝ → Mem ℝ → ℝ) (x gamma beta dx dg db : Mem ℝ) : Prop :=
  ∀ (cx cg cb : ℝ → Mem ℝ) (vx vg vb : Mem ℝ),
    (∀ k < a.n0 * a.n1 * a.n2, cx 0 k = x k ∧ HasDerivAt (fun t => cx t k) (vx k) 0) →
    (∀ k < a.n1, cg 0 k = gamma k ∧ HasDerivAt (fun t => cg t k) (vg k) 0) →
    (∀ k < a.n1, cb 0 k = beta k ∧ HasDerivAt (fun t => cb t k) (vb k) 0) →
    HasDerivAt (fun t => L (cx t) (cg t) (cb t)) (dot (a.n0 * a.n1 * a.n2) vx dx + dot a.n1 vg dg + dot a.n1 vb db) 0

theorem pos_lt (a : Args) {i1 j : Nat} (h1 : i1 < a.n1) (hj : j < a.n02) : pos a i1 j < a.n0 * a.n1 * a.n2 := by
  obtain ⟨i0, i2, h0, h2, rfl⟩ := exists_pos a j hj
  rw [pos_eq a _ _ _ h2]
  exact off_lt h0 h1 h2

theorem bwdChannel_eq (a : Args) (x : Mem ℝ) (gamma : Option (Mem ℝ)) (m v dy : Mem ℝ) (dm dv : Option (Mem ℝ)) (accum : Bool) (dx : Mem ℝ) (i1 : Nat) :
    bwdChannel a x gamma m v dy dm dv accum dx i1 =
      forPut a.n02 (pos a i1) (fun j d => accOf accum d (
        let dvar := (∑ j ∈ Finset.range a.n02, dy (pos a i1 j) * scaleOf gamma i1 * (x (pos a i1 j) - m i1)) * (-0.5) * (v i1 + a.eps) ^ (-1.5 : ℝ) + biasOf dv i1
        let dmean := (∑ j ∈ Finset.range a.n02, dy (pos a i1 j) * scaleOf gamma i1) * (-1 / √(v i1 + a.eps)) +
          dvar * (-2) * (∑ j ∈ Finset.range a.n02, (x (pos a i1 j) - m i1)) / a.n02 + biasOf dm i1
        dy (pos a i1 j) * scaleOf gamma i1 / √(v i1 + a.eps) + dvar * 2 * (x (pos a i1 j) - m i1) / a.n02 + dmean / a.n02)) dx := by
  unfold bwdChannel
  rw [foldl_add3]
  rfl

/-- The value backward writes. -/
noncomputable def gradAt (a : Args) (x : Mem ℝ) (gamma : Option (Mem ℝ)) (m v dy : Mem ℝ) (dm dv : Option (Mem ℝ)) (i1 j : Nat) : ℝ :=
  let dvar := (∑ j ∈ Finset.range a.n02, dy (pos a i1 j) * scaleOf gamma i1 * (x (pos a i1 j) - m i1)) * (-0.5) * (v i1 + a.eps) ^ (-1.5 : ℝ) + biasOf dv i1
  let dmean := (∑ j ∈ Finset.range a.n02, dy (pos a i1 j) * scaleOf gamma i1) * (-1 / √(v i1 + a.eps)) +
    dvar * (-2) * (∑ j ∈ Finset.range a.n02, (x (pos a i1 j) - m i1)) / a.n02 + biasOf dm i1
  dy (pos a i1 j) * scaleOf gamma i1 / √(v i1 + a.eps) + dvar * 2 * (x (pos a i1 j) - m i1) / a.n02 + dmean / a.n02

theorem backwardX_at (a : Args) (x : Mem ℝ) (gamma : Option (Mem ℝ)) (m v dy : Mem ℝ) (dm dv : Option (Mem ℝ)) (accum : Bool) (dx : Mem ℝ)
    (i1 j : Nat) (h1 : i1 < a.n1) (hj : j < a.n02) :
    backwardX a x gamma m v dy dm dv accum dx (pos a i1 j) = accOf accum (dx (pos a i1 j)) (gradAt a x gamma m v dy dm dv i1 j) := by
  have : backwardX a x gamma m v dy dm dv accum dx =
      (List.range a.n1).foldl (fun y i1 => forPut a.n02 (pos a i1) (fun j d => accOf accum d (gradAt a x gamma m v dy dm dv i1 j)) y) dx := by
    unfold backwardX
    congr 1
    funext dx i1
    exact bwdChannel_eq a x gamma m v dy dm dv accum dx i1
  rw [this]
  exact (channels_spec a (fun i1 j d => accOf accum d (gradAt a x gamma m v dy dm dv i1 j)) a.n1 (le_refl _) dx).1 i1 j h1 hj

/-- C106, training mode.  Let the loss depend on y, on the batch mean and on the batch variance, with
gradients dy, dm, dv (dm, dv absent: 0).  Then the backward pass computes, in buffers that were 0 or
overwritten (`accum = false`), the gradient of the loss with respect to x, gamma and beta, through the
mean and the variance too. -/
theorem c106_backward (a : Args) (ok : Ok a) (x gamma beta dy : Mem ℝ) (dm dv : Option (Mem ℝ)) (o : Out) (dx dg db : Mem ℝ) :
    let r := forwardBatch a x (some beta) (some gamma) true o
    IsGrad a
      (fun x gamma beta => let q := forwardBatch a x (some beta) (some gamma) true o
        dot (a.n0 * a.n1 * a.n2) dy q.y + ∑ i1 ∈ Finset.range a.n1, (biasOf dm i1 * q.m i1 + biasOf dv i1 * q.v i1))
      x gamma beta
      (backwardX a x (some gamma) r.m r.v dy dm dv false dx)
      (backwardGamma a x r.m r.v dy false dg) (backwardBeta a dy false db) := by
  intro r cx cg cb vx vg vb hx hg hb
  have hfun : ∀ (x gamma beta : Mem ℝ),
      dot (a.n0 * a.n1 * a.n2) dy (forwardBatch a x (some beta) (some gamma) true o).y +
        ∑ i1 ∈ Finset.range a.n1, (biasOf dm i1 * (forwardBatch a x (some beta) (some gamma) true o).m i1 + biasOf dv i1 * (forwardBatch a x (some beta) (some gamma) true o).v i1) =
      ∑ i1 ∈ Finset.range a.n1, (∑ j ∈ Finset.range a.n02, dy (pos a i1 j) * ((x (pos a i1 j) - mu a.n02 fun j => x (pos a i1 j)) * gamma i1 /
        √((vr a.n02 fun j => x (pos a i1 j)) + a.eps) + beta i1) + biasOf dm i1 * (mu a.n02 fun j => x (pos a i1 j)) + biasOf dv i1 * (vr a.n02 fun j => x (pos a i1 j))) := by
    intro x gamma beta
    obtain ⟨h1, h2, h3, -, -⟩ := forward_fold a x (some beta) (some gamma) true a.n1 o
    rw [dot, sum_channels, ← Finset.sum_add_distrib]
    refine Finset.sum_congr rfl fun i1 k1 => ?_
    have k1 := Finset.mem_range.mp k1
    change _ + (biasOf dm i1 * ((List.range a.n1).foldl (fwdChannel a x (some beta) (some gamma) true) o).m i1 +
      biasOf dv i1 * ((List.range a.n1).foldl (fwdChannel a x (some beta) (some gamma) true) o).v i1) = _
    rw [h2, h3, if_pos k1, if_pos k1, ← add_assoc]
    congr 2
    refine Finset.sum_congr rfl fun j kj => ?_
    congr 1
    change ((List.range a.n1).foldl (fwdChannel a x (some beta) (some gamma) true) o).y _ = _
    rw [h1]
    exact (channels_spec a (fun i1 j _ => (x (pos a i1 j) - mu a.n02 fun j => x (pos a i1 j)) * scaleOf (some gamma) i1 /
          √((vr a.n02 fun j => x (pos a i1 j)) + a.eps) + biasOf (some beta) i1) a.n1 (le_refl _) o.y).1 i1 j k1 (Finset.mem_range.mp kj)
  simp only [hfun]
  obtain ⟨-, hm, hv, -, -⟩ := forward_fold a x (some beta) (some gamma) true a.n1 o
  have hd := HasDerivAt.fun_sum (u := Finset.range a.n1) fun i1 k1 =>
    channel_deriv a.n02 ok.n02 a.eps ok.eps (fun t j => cx t (pos a i1 j)) (fun j => x (pos a i1 j)) (fun j => vx (pos a i1 j))
      (fun t => cg t i1) (fun t => cb t i1) (vg i1) (vb i1) (fun j hj => hx _ (pos_lt a (Finset.mem_range.mp k1) hj))
      (hg i1 (Finset.mem_range.mp k1)).2 (hb i1 (Finset.mem_range.mp k1)).2 (fun j => dy (pos a i1 j)) (biasOf dm i1) (biasOf dv i1)
  refine hd.congr_deriv ?_
  rw [dot, sum_channels, dot, dot, ← Finset.sum_add_distrib, ← Finset.sum_add_distrib]
  refine Finset.sum_congr rfl fun i1 k1 => ?_
  have k1 := Finset.mem_range.mp k1
  have em : r.m i1 = mu a.n02 fun j => x (pos a i1 j) := by have := hm i1; rw [if_pos k1] at this; exact this
  have ev : r.v i1 = vr a.n02 fun j => x (pos a i1 j) := by have := hv i1; rw [if_pos k1] at this; exact this
  have eg : cg 0 i1 = gamma i1 := (hg i1 k1).1
  have e2 : backwardGamma a x r.m r.v dy false dg i1 = ∑ j ∈ Finset.range a.n02, dy (pos a i1 j) * (x (pos a i1 j) - r.m i1) / √(r.v i1 + a.eps) := by
    unfold backwardGamma
    rw [(forPut_spec a.n1 (fun i1 => i1) _ dg (fun i j _ _ e => e)).1 i1 k1]
    simp only [Bool.false_eq_true, if_false]
    rw [foldl_add]; simp
  have e3 : backwardBeta a dy false db i1 = ∑ j ∈ Finset.range a.n02, dy (pos a i1 j) := by
    unfold backwardBeta
    rw [(forPut_spec a.n1 (fun i1 => i1) _ db (fun i j _ _ e => e)).1 i1 k1]
    simp only [Bool.false_eq_true, if_false]
    rw [foldl_add]; simp
  rw [e2, e3, em, ev]
  have e4 : ∑ j ∈ Finset.range a.n02, vx (pos a i1 j) * backwardX a x (some gamma) r.m r.v dy dm dv false dx (pos a i1 j) =
      ∑ j ∈ Finset.range a.n02, vx (pos a i1 j) * gradAt a x (some gamma) r.m r.v dy dm dv i1 j :=
    Finset.sum_congr rfl fun j hj => by rw [backwardX_at a x (some gamma) r.m r.v dy dm dv false dx i1 j k1 (Finset.mem_range.mp hj)]; rfl
  rw [e4]
  simp only [gradAt, scaleOf, em, ev, eg]
  ring

/-- C106, accumulation: with `accum = true` every gradient buffer is increased by exactly what
`accum = false` writes. -/
theorem c106_accum (a : Args) (x m v dy : Mem ℝ) (gamma dm dv : Option (Mem ℝ)) (dx dx' dg dg' db db' : Mem ℝ) :
    (∀ i0 i1 i2, i0 < a.n0 → i1 < a.n1 → i2 < a.n2 →
      backwardX a x gamma m v dy dm dv true dx (off a.n1 a.n2 i0 i1 i2) =
        dx (off a.n1 a.n2 i0 i1 i2) + backwardX a x gamma m v dy dm dv false dx' (off a.n1 a.n2 i0 i1 i2)) ∧
    (∀ i1 < a.n1, backwardGamma a x m v dy true dg i1 = dg i1 + backwardGamma a x m v dy false dg' i1) ∧
    (∀ i1 < a.n1, backwardBeta a dy true db i1 = db i1 + backwardBeta a dy false db' i1) := by
  refine ⟨fun i0 i1 i2 h0 h1 h2 => ?_, fun i1 h1 => ?_, fun i1 h1 => ?_⟩
  · rw [← pos_eq a i1 i0 i2 h2, backwardX_at a x gamma m v dy dm dv true dx i1 _ h1 (idx_lt a h0 h2),
      backwardX_at a x gamma m v dy dm dv false dx' i1 _ h1 (idx_lt a h0 h2)]
    rfl
  · unfold backwardGamma
    rw [(forPut_spec a.n1 (fun i1 => i1) _ dg (fun i j _ _ e => e)).1 i1 h1, (forPut_spec a.n1 (fun i1 => i1) _ dg' (fun i j _ _ e => e)).1 i1 h1]
    simp only [Bool.false_eq_true, if_false, if_true]
    rw [foldl_add, foldl_add]; ring
  · unfold backwardBeta
    rw [(forPut_spec a.n1 (fun i1 => i1) _ db (fun i j _ _ e => e)).1 i1 h1, (forPut_spec a.n1 (fun i1 => i1) _ db' (fun i j _ _ e => e)).1 i1 h1]
    simp only [Bool.false_eq_true, if_false, if_true]
    rw [foldl_add, foldl_add]; ring

/-- C106, test mode: the gradient with the statistics as constants, for a running variance above -eps. -/
theorem c106_global (a : Args) (x gamma beta rm rv dy : Mem ℝ) (hv : ∀ i1 < a.n1, 0 < rv i1 + a.eps) (y dx dg db : Mem ℝ) :
    IsGrad a (fun x gamma beta => dot (a.n0 * a.n1 * a.n2) dy (forwardGlobal a x (some beta) (some gamma) rm rv y)) x gamma beta
      (backwardXGlobal a (some gamma) rv dy false dx) (backwardGammaGlobal a x rm rv dy false dg) (backwardBetaGlobal a dy false db) := by
  intro cx cg cb vx vg vb hx hg hb
  have hfun : ∀ x gamma beta : Mem ℝ, dot (a.n0 * a.n1 * a.n2) dy (forwardGlobal a x (some beta) (some gamma) rm rv y) =
      ∑ i1 ∈ Finset.range a.n1, ∑ j ∈ Finset.range a.n02, dy (pos a i1 j) * ((x (pos a i1 j) - rm i1) * gamma i1 / √(rv i1 + a.eps) + beta i1) := by
    intro x gamma beta
    rw [dot, sum_channels]
    refine Finset.sum_congr rfl fun i1 k1 => Finset.sum_congr rfl fun j kj => ?_
    congr 1
    exact (channels_spec a (fun i1 j _ => (x (pos a i1 j) - rm i1) * scaleOf (some gamma) i1 / √(rv i1 + a.eps) + biasOf (some beta) i1) a.n1 (le_refl _) y).1
      i1 j (Finset.mem_range.mp k1) (Finset.mem_range.mp kj)
  simp only [hfun]
  have hd := HasDerivAt.fun_sum (u := Finset.range a.n1) fun i1 k1 => HasDerivAt.fun_sum (u := Finset.range a.n02) fun j kj =>
    ((((((hx _ (pos_lt a (Finset.mem_range.mp k1) (Finset.mem_range.mp kj))).2.sub_const (rm i1)).mul (hg i1 (Finset.mem_range.mp k1)).2).div_const
      (√(rv i1 + a.eps))).add (hb i1 (Finset.mem_range.mp k1)).2).const_mul (dy (pos a i1 j)))
  refine hd.congr_deriv ?_
  rw [dot, sum_channels, dot, dot, ← Finset.sum_add_distrib, ← Finset.sum_add_distrib]
  refine Finset.sum_congr rfl fun i1 k1 => ?_
  have k1 := Finset.mem_range.mp k1
  have hp := pow_neg_half _ (hv i1 k1)
  have e1 : ∀ j, j < a.n02 → backwardXGlobal a (some gamma) rv dy false dx (pos a i1 j) = dy (pos a i1 j) * (gamma i1 * (rv i1 + a.eps) ^ (-0.5 : ℝ)) := fun j hj =>
    (channels_spec a (fun i1 j d => let g := dy (pos a i1 j) * (gamma i1 * (rv i1 + a.eps) ^ (-0.5 : ℝ)); if false then d + g else g) a.n1 (le_refl _) dx).1 i1 j k1 hj
  have e2 : backwardGammaGlobal a x rm rv dy false dg i1 = ∑ j ∈ Finset.range a.n02, dy (pos a i1 j) * ((x (pos a i1 j) - rm i1) * (rv i1 + a.eps) ^ (-0.5 : ℝ)) := by
    unfold backwardGammaGlobal
    rw [(forPut_spec a.n1 (fun i1 => i1) _ dg (fun i j _ _ e => e)).1 i1 k1]
    simp only [Bool.false_eq_true, if_false]
    rw [foldl_add]; simp
  have e3 : backwardBetaGlobal a dy false db i1 = ∑ j ∈ Finset.range a.n02, dy (pos a i1 j) := by
    unfold backwardBetaGlobal
    rw [(forPut_spec a.n1 (fun i1 => i1) _ db (fun i j _ _ e => e)).1 i1 k1]
    simp only [Bool.false_eq_true, if_false]
    rw [foldl_add]; simp
  rw [e2, e3]
  have e4 : ∑ j ∈ Finset.range a.n02, vx (pos a i1 j) * backwardXGlobal a (some gamma) rv dy false dx (pos a i1 j) =
      ∑ j ∈ Finset.range a.n02, vx (pos a i1 j) * (dy (pos a i1 j) * (gamma i1 * (rv i1 + a.eps) ^ (-0.5 : ℝ))) :=
    Finset.sum_congr rfl fun j hj => by rw [e1 j (Finset.mem_range.mp hj)]
  rw [e4, Finset.mul_sum, Finset.mul_sum, ← Finset.sum_add_distrib, ← Finset.sum_add_distrib, hp]
  refine Finset.sum_congr rfl fun j kj => ?_
  rw [(hx _ (pos_lt a k1 (Finset.mem_range.mp kj))).1, (hg i1 k1).1]
  ring

/-- C106, missing parameters.  Without scale and/or bias, outputs and gradients are those of scale 1
and bias 0, so `c106_backward` and `c106_global` cover these cases too. -/
theorem c106_optional (a : Args) (x m v rm rv dy y dx : Mem ℝ) (beta gamma dm dv : Option (Mem ℝ)) (upd accum : Bool) (o : Out) :
    forwardBatch a x beta gamma upd o = forwardBatch a x (some (biasOf beta)) (some (scaleOf gamma)) upd o ∧
    forwardGlobal a x beta gamma rm rv y = forwardGlobal a x (some (biasOf beta)) (some (scaleOf gamma)) rm rv y ∧
    backwardX a x gamma m v dy dm dv accum dx = backwardX a x (some (scaleOf gamma)) m v dy dm dv accum dx ∧
    backwardXGlobal a gamma rv dy accum dx = backwardXGlobal a (some (scaleOf gamma)) rv dy accum dx := by
  refine ⟨rfl, rfl, rfl, ?_⟩
  cases gamma with
  | none => simp [backwardXGlobal, scaleOf]
  | some g => rfl

/-- C106, test mode, accumulation. -/
theorem c106_global_accum (a : Args) (x rm rv dy : Mem ℝ) (gamma : Option (Mem ℝ)) (dx dx' dg dg' db db' : Mem ℝ) :
    (∀ i0 i1 i2, i0 < a.n0 → i1 < a.n1 → i2 < a.n2 →
      backwardXGlobal a gamma rv dy true dx (off a.n1 a.n2 i0 i1 i2) =
        dx (off a.n1 a.n2 i0 i1 i2) + backwardXGlobal a gamma rv dy false dx' (off a.n1 a.n2 i0 i1 i2)) ∧
    (∀ i1 < a.n1, backwardGammaGlobal a x rm rv dy true dg i1 = dg i1 + backwardGammaGlobal a x rm rv dy false dg' i1) ∧
    (∀ i1 < a.n1, backwardBetaGlobal a dy true db i1 = db i1 + backwardBetaGlobal a dy false db' i1) := by
  refine ⟨fun i0 i1 i2 h0 h1 h2 => ?_, fun i1 h1 => ?_, fun i1 h1 => ?_⟩
  · rw [← pos_eq a i1 i0 i2 h2]
    have h := fun (acc : Bool) (d : Mem ℝ) => (channels_spec a (fun i1 j d =>
      let g := dy (pos a i1 j) * (match gamma with
        | none => (rv i1 + a.eps) ^ (-0.5 : ℝ)
        | some g => g i1 * (rv i1 + a.eps) ^ (-0.5 : ℝ))
      if acc then d + g else g) a.n1 (le_refl _) d).1 i1 _ h1 (idx_lt a h0 h2)
    refine (h true dx).trans ?_
    exact congrArg (fun z => dx (pos a i1 (i0 * a.n2 + i2)) + z) (h false dx').symm
  · unfold backwardGammaGlobal
    rw [(forPut_spec a.n1 (fun i1 => i1) _ dg (fun i j _ _ e => e)).1 i1 h1, (forPut_spec a.n1 (fun i1 => i1) _ dg' (fun i j _ _ e => e)).1 i1 h1]
    rfl
  · unfold backwardBetaGlobal
    rw [(forPut_spec a.n1 (fun i1 => i1) _ db (fun i j _ _ e => e)).1 i1 h1, (forPut_spec a.n1 (fun i1 => i1) _ db' (fun i j _ _ e => e)).1 i1 h1]
    rfl

/-! ### Examples and limits -/

/-- Two samples of two channels with two positions each. -/
def exArgs : Args := ⟨1, 0.9, 2, 2, 2⟩

example : Ok exArgs ∧ 2 ≤ exArgs.n0 * exArgs.n2 := ⟨⟨by decide, by decide, by norm_num [exArgs]⟩, by decide⟩

/-- The statistics of channel 0 of 0, 1, 2, ..., 7: values 0, 1, 4, 5. -/
example : mean exArgs (fun k => k) 0 = 2.5 ∧ variance exArgs (fun k => k) 0 = 4.25 := by
  have hm : mean exArgs (fun k => k) 0 = 2.5 := by
    norm_num [mean, exArgs, off, Finset.sum_range_succ]
  refine ⟨hm, ?_⟩
  rw [variance, hm]
  norm_num [exArgs, off, Finset.sum_range_succ]

end Verif.BatchNorm
