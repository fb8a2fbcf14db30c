import Verif.Stft.Setup
import Verif.Stft.Dft
/-
C162: what stft computes. C163: istft undoes stft.
-/
namespace Verif.Stft
open Verif.Fn Verif.ND Verif.Elem

/-! ### Specification -/

/-- The window functions (periodic form) of length n. -/
noncomputable def hann (wt : WType) (n i : Nat) : ℝ :=
  match wt with
  | .hanning => (1 - Real.cos (2 * Real.pi * (i / n))) / 2
  | .hamming => 0.54 - 0.46 * Real.cos (2 * Real.pi * (i / n))
  | .rectangular => 1

/-- The window of length ws in the middle of fft samples, 0 elsewhere. -/
noncomputable def window (c : Cfg) (t : Nat) : ℝ :=
  if (c.fft - c.ws) / 2 ≤ t ∧ t < (c.fft - c.ws) / 2 + c.ws then hann c.wt c.ws (t - (c.fft - c.ws) / 2) else 0

/-- The length of the (padded) signal. -/
def plen (c : Cfg) (L : Nat) : Nat := if c.center then L + 2 * (c.fft / 2) else L

/-- Sample p of the (padded) signal b: position p - fft/2 of x, extended by the padding mode. -/
noncomputable def signal (c : Cfg) (L : Nat) (x : Mem ℝ) (b p : Nat) : ℝ :=
  if c.center then (padIndex c.mode L ((p : Int) - (c.fft / 2 : Nat))).elim 0 fun k => x (b * L + k) else x (b * L + p)

/-- The angle of bin w at sample t. -/
noncomputable def angle (c : Cfg) (w t : Nat) : ℝ := 2 * Real.pi * (w * t / c.fft)

/-! ### Lemmas -/

theorem createWindow_eq (c : Cfg) (t : Nat) : createWindow c t = window c t := by
  have h := forPut_spec c.ws (fun i => (c.fft - c.ws) / 2 + i) (fun i _ => winVal c.wt c.ws i) (fun _ => (0 : ℝ)) (by intro i j _ _ e; simpa using e)
  unfold createWindow window
  by_cases ht : (c.fft - c.ws) / 2 ≤ t ∧ t < (c.fft - c.ws) / 2 + c.ws
  · rw [if_pos ht]
    have := h.1 (t - (c.fft - c.ws) / 2) (by omega)
    rw [show (c.fft - c.ws) / 2 + (t - (c.fft - c.ws) / 2) = t by omega] at this
    rw [this]
    unfold winVal hann
    cases c.wt with
    | hanning => simp only; rw [mul_div_assoc]; norm_num; ring
    | hamming => simp only; rw [mul_div_assoc]
    | rectangular => rfl
  · rw [if_neg ht, h.2 t (by intro i hi; omega)]

theorem angle_eq (c : Cfg) (w t : Nat) : 2 * Real.pi * (w : ℝ) * t / c.fft = angle c w t := by unfold angle; ring

theorem coefR (c : Cfg) (g : Mem ℝ) (w t : Nat) (hw : w < c.bins) (ht : t < c.fft) :
    mulWindow c (dftR c g) g (w * c.fft + t) = Real.cos (angle c w t) * window c t := by
  unfold mulWindow dftR
  rw [forMat_get _ _ _ _ w t hw ht, forMat_get _ _ _ _ w t hw ht, createWindow_eq, angle_eq]

theorem coefI (c : Cfg) (g : Mem ℝ) (w t : Nat) (hw : w < c.bins) (ht : t < c.fft) :
    mulWindow c (dftI c g) g (w * c.fft + t) = -Real.sin (angle c w t) * window c t := by
  unfold mulWindow dftI
  rw [forMat_get _ _ _ _ w t hw ht, forMat_get _ _ _ _ w t hw ht, createWindow_eq, angle_eq]

theorem coefC (c : Cfg) (g : Mem ℝ) (w t : Nat) (hw : w < c.bins) (ht : t < c.fft) :
    mulWindow c (idftCos c g) g (w * c.fft + t) = alpha c w * Real.cos (angle c w t) * window c t := by
  unfold mulWindow idftCos
  rw [forMat_get _ _ _ _ w t hw ht, forMat_get _ _ _ _ w t hw ht, createWindow_eq, angle_eq]

theorem coefS (c : Cfg) (g : Mem ℝ) (w t : Nat) (hw : w < c.bins) (ht : t < c.fft) :
    mulWindow c (idftSin c g) g (w * c.fft + t) = alpha c w * -Real.sin (angle c w t) * window c t := by
  unfold mulWindow idftSin
  rw [forMat_get _ _ _ _ w t hw ht, forMat_get _ _ _ _ w t hw ht, createWindow_eq, angle_eq]

theorem stft_setup (c : Cfg) (B L : Nat) (hB : 0 < B) (hL : 0 < L) (hs : 0 < c.stride) (hN : 0 < c.fft) (hw : c.ws ≤ c.fft) (hfit : c.fft ≤ plen c L) :
    ∃ p, stftSetup c B L = .ok (p, cv1 B c.bins (plen c L) c.fft c.stride, [B, c.fft / 2 + 1, (plen c L - c.fft) / c.stride + 1]) ∧
      ∀ (x g : Mem ℝ) (b q : Nat), b < B → q < plen c L →
        (if c.center then padForward c.mode p 0 x g else x) (b * plen c L + q) = signal c L x b q := by
  obtain ⟨p, h1, h2, h3⟩ := pad_setup c.mode B L (c.fft / 2) hB hL
  refine ⟨p, ?_, ?_⟩
  · have e : (if c.center then [p.oshape.getD 0 0, 1, p.oshape.getD 1 0] else [B, 1, L]) = [B, 1, plen c L] := by
      unfold plen
      rw [h2]
      cases c.center <;> rfl
    simp only [stftSetup]
    rw [if_neg (by omega), h1]
    simp only
    rw [e, conv1_setup B c.bins (plen c L) c.fft c.stride (by unfold Cfg.bins; omega) hs hN hfit]
    rfl
  · intro x g b q hb hq
    unfold plen signal at *
    cases hc : c.center with
    | false => simp
    | true =>
      simp only [hc, if_true] at hq ⊢
      exact h3 x g b q hb hq

/-- **C162.** stft of signals x of shape [B, L]: both outputs have shape [B, fft/2 + 1, frames], one frame for every position of
fft samples, stride apart, that fits in the (padded) signal; bin w of frame f is the discrete Fourier transform at w of the
windowed frame: real part Σ_t window(t) signal(f·stride + t) cos(2π w t / fft), imaginary part minus the same with the sine. -/
theorem C162_stft (c : Cfg) (B L : Nat) (hB : 0 < B) (hL : 0 < L) (hs : 0 < c.stride) (hN : 0 < c.fft) (hw : c.ws ≤ c.fft) (hfit : c.fft ≤ plen c L) :
    ∃ s, stftSetup c B L = .ok s ∧ s.2.2 = [B, c.fft / 2 + 1, (plen c L - c.fft) / c.stride + 1] ∧
      ∀ (x g : Mem ℝ) (b w f : Nat), b < B → w < c.fft / 2 + 1 → f < (plen c L - c.fft) / c.stride + 1 →
        (stftForward c s x g).1 (ravel s.2.2 [b, w, f]) =
          ∑ t ∈ Finset.range c.fft, window c t * signal c L x b (f * c.stride + t) * Real.cos (angle c w t) ∧
        (stftForward c s x g).2 (ravel s.2.2 [b, w, f]) =
          -∑ t ∈ Finset.range c.fft, window c t * signal c L x b (f * c.stride + t) * Real.sin (angle c w t) := by
  obtain ⟨p, h1, h2⟩ := stft_setup c B L hB hL hs hN hw hfit
  refine ⟨_, h1, rfl, ?_⟩
  intro x g b w f hb hw' hf
  have hfr := frames_eq (plen c L) c.fft c.stride hN hfit
  rw [← hfr] at hf
  have hi : ravel [B, c.fft / 2 + 1, (plen c L - c.fft) / c.stride + 1] [b, w, f] = (b * c.bins + w) * frames (plen c L) c.fft c.stride + f := by
    rw [hfr]; simp only [ravel, prod, Cfg.bins]; ring
  have hfit' := frame_fits (plen c L) c.fft c.stride f hN hfit hf
  have hsig : ∀ t ∈ Finset.range c.fft, (if c.center then padForward c.mode p 0 x g else x) (b * plen c L + (f * c.stride + t)) =
      signal c L x b (f * c.stride + t) := fun t ht => h2 x g b _ hb (by have := Finset.mem_range.mp ht; omega)
  simp only [stftForward]
  have hw' : w < c.bins := hw'
  rw [hi, conv1_forward _ _ _ _ _ hN hfit _ _ _ _ b w f hb hw' hf, conv1_forward _ _ _ _ _ hN hfit _ _ _ _ b w f hb hw' hf, ← Finset.sum_neg_distrib]
  refine ⟨Finset.sum_congr rfl fun t ht => ?_, Finset.sum_congr rfl fun t ht => ?_⟩
  · rw [hsig t ht, coefR c g w t hw' (Finset.mem_range.mp ht)]; ring
  · rw [hsig t ht, coefI c g w t hw' (Finset.mem_range.mp ht)]; ring

/-! ### The inverse -/

theorem inv_fold (c : Cfg) (K q : Nat) :
    (List.range K).foldl (fun m f => forPut c.fft (fun j => f * c.stride + j) (fun j old => old + createWindow c j * createWindow c j) m) (fun _ => (0 : ℝ)) q =
      ∑ t ∈ Finset.range c.fft, ∑ f ∈ Finset.range K, if f * c.stride + t = q then window c t ^ 2 else 0 := by
  induction K with
  | zero => simp
  | succ K ih =>
    rw [List.range_succ, List.foldl_append, List.foldl_cons, List.foldl_nil]
    simp only [Finset.sum_range_succ, Finset.sum_add_distrib]
    rw [← ih]
    generalize hm : (List.range K).foldl (fun m f => forPut c.fft (fun j => f * c.stride + j) (fun j old => old + createWindow c j * createWindow c j) m) (fun _ => (0 : ℝ)) = m
    have h := forPut_spec c.fft (fun j => K * c.stride + j) (fun j old => old + createWindow c j * createWindow c j) m (by intro i j _ _ e; simpa using e)
    by_cases hq : ∃ t, t < c.fft ∧ K * c.stride + t = q
    · obtain ⟨t, ht, rfl⟩ := hq
      rw [h.1 t ht, Finset.sum_eq_single_of_mem t (Finset.mem_range.mpr ht)]
      · rw [if_pos rfl, createWindow_eq]; ring
      · intro u _ hu; rw [if_neg (by omega)]
    · rw [h.2 q fun i hi e => hq ⟨i, hi, e⟩, Finset.sum_eq_zero, add_zero]
      intro t ht
      rw [if_neg fun e => hq ⟨t, Finset.mem_range.mp ht, e⟩]

/-- inv_window: the sum over the frames of the squared window. -/
theorem invWindow_eq (c : Cfg) (T q : Nat) (hT : 0 < T) (hs : 0 < c.stride) :
    invWindow c ((T - 1) * c.stride + c.fft) q = ∑ t ∈ Finset.range c.fft, ∑ f ∈ Finset.range T, if f * c.stride + t = q then window c t ^ 2 else 0 := by
  have e : ((T - 1) * c.stride + c.fft + 1 - c.fft + (c.stride - 1)) / c.stride = T := by
    have : (T - 1) * c.stride + c.fft + 1 - c.fft + (c.stride - 1) = T * c.stride := by
      obtain ⟨K, rfl⟩ : ∃ K, T = K + 1 := ⟨T - 1, by omega⟩
      rw [Nat.add_sub_cancel, Nat.succ_mul]; omega
    rw [this, Nat.mul_div_cancel _ hs]
  unfold invWindow
  rw [e, inv_fold]

theorem applyInv_at (c : Cfg) (s : IState) (x y : Mem ℝ) (b i : Nat) (hb : b < s.B) (hi : i < s.size)
    (hin : c.center → c.fft / 2 ≤ i ∧ i < s.size - c.fft / 2) :
    applyInv c s x y (b * s.size + i) = x (b * s.size + i) / invWindow c s.size i := by
  unfold applyInv
  have key : ∀ K, (∀ b, b < K → applyInv c { s with B := K } x y (b * s.size + i) = x (b * s.size + i) / invWindow c s.size i) ∧
      ∀ b, K ≤ b → applyInv c { s with B := K } x y (b * s.size + i) = y (b * s.size + i) := by
    intro K
    induction K with
    | zero => exact ⟨fun b hb => absurd hb (by omega), fun _ _ => rfl⟩
    | succ K ih =>
      have hstep : ∀ m : Mem ℝ, ∀ b, (if c.center then
          forPut (s.size - c.fft / 2 - c.fft / 2) (fun i => K * s.size + (c.fft / 2 + i))
            (fun i _ => x (K * s.size + (c.fft / 2 + i)) / invWindow c s.size (c.fft / 2 + i)) m
          else forPut s.size (fun i => K * s.size + i) (fun i _ => x (K * s.size + i) / invWindow c s.size i) m) (b * s.size + i) =
          if b = K then x (b * s.size + i) / invWindow c s.size i else m (b * s.size + i) := by
        intro m b
        have hne : ∀ j, j < s.size → b ≠ K → K * s.size + j ≠ b * s.size + i := by
          intro j hj hbK e
          have := at_inj (p := 0) hj hi (by unfold at_; omega : at_ 0 s.size K j = at_ 0 s.size b i)
          exact hbK this.1.symm
        cases hc : c.center with
        | true =>
          rw [if_pos rfl]
          have h := forPut_spec (s.size - c.fft / 2 - c.fft / 2) (fun i => K * s.size + (c.fft / 2 + i))
            (fun i _ => x (K * s.size + (c.fft / 2 + i)) / invWindow c s.size (c.fft / 2 + i)) m (by intro i j _ _ e; simpa using e)
          have hi' := hin hc
          by_cases hbK : b = K
          · subst hbK
            rw [if_pos rfl]
            have := h.1 (i - c.fft / 2) (by omega)
            simp only [show c.fft / 2 + (i - c.fft / 2) = i by omega] at this
            exact this
          · rw [if_neg hbK, h.2 _ fun j hj e => hne _ (by omega) hbK e]
        | false =>
          rw [if_neg (by simp)]
          have h := forPut_spec s.size (fun i => K * s.size + i) (fun i _ => x (K * s.size + i) / invWindow c s.size i) m (by intro i j _ _ e; simpa using e)
          by_cases hbK : b = K
          · subst hbK
            rw [if_pos rfl]
            exact h.1 i hi
          · rw [if_neg hbK, h.2 _ fun j hj e => hne _ hj hbK e]
      have e : applyInv c { s with B := K + 1 } x y = (if c.center then
          forPut (s.size - c.fft / 2 - c.fft / 2) (fun i => K * s.size + (c.fft / 2 + i))
            (fun i _ => x (K * s.size + (c.fft / 2 + i)) / invWindow c s.size (c.fft / 2 + i)) (applyInv c { s with B := K } x y)
          else forPut s.size (fun i => K * s.size + i) (fun i _ => x (K * s.size + i) / invWindow c s.size i) (applyInv c { s with B := K } x y)) := by
        unfold applyInv
        rw [List.range_succ, List.foldl_append, List.foldl_cons, List.foldl_nil]
      refine ⟨fun b hb => ?_, fun b hb => ?_⟩
      · rw [e, hstep]
        by_cases hbK : b = K
        · rw [if_pos hbK]
        · rw [if_neg hbK]; exact ih.1 b (by omega)
      · rw [e, hstep, if_neg (by omega)]; exact ih.2 b (by omega)
  exact (key s.B).1 b hb

/-- What the overlap-add of istft contains before the division, when its input is a stft. -/
theorem overlap (c : Cfg) (B L : Nat) (hN : 0 < c.fft) (he : c.fft % 2 = 0) (T : Nat) (yr yi g : Mem ℝ) (sig : Nat → Nat → ℝ)
    (hT : 0 < T) (hs : 0 < c.stride)
    (hr : ∀ b w f, b < B → w < c.bins → f < T → yr ((b * c.bins + w) * T + f) =
      ∑ t ∈ Finset.range c.fft, window c t * sig b (f * c.stride + t) * Real.cos (angle c w t))
    (hi : ∀ b w f, b < B → w < c.bins → f < T → yi ((b * c.bins + w) * T + f) =
      -∑ t ∈ Finset.range c.fft, window c t * sig b (f * c.stride + t) * Real.sin (angle c w t))
    (b q : Nat) (hb : b < B) (hq : q < (T - 1) * c.stride + c.fft) :
    (cv1 B c.bins ((T - 1) * c.stride + c.fft) c.fft c.stride).deForward yr (mulWindow c (idftCos c g) g) none g g (b * ((T - 1) * c.stride + c.fft) + q) +
      (cv1 B c.bins ((T - 1) * c.stride + c.fft) c.fft c.stride).deForward yi (mulWindow c (idftSin c g) g) none g g (b * ((T - 1) * c.stride + c.fft) + q) =
      sig b q * invWindow c ((T - 1) * c.stride + c.fft) q := by
  have hfr : frames ((T - 1) * c.stride + c.fft) c.fft c.stride = T := by
    rw [frames_eq _ _ _ hN (by omega), Nat.add_sub_cancel, Nat.mul_div_cancel _ hs]; omega
  rw [deconv1_forward _ _ _ _ _ hN (by omega) _ _ _ _ b q hb hq, deconv1_forward _ _ _ _ _ hN (by omega) _ _ _ _ b q hb hq, hfr,
    invWindow_eq c T q hT hs, Finset.mul_sum, ← Finset.sum_add_distrib]
  refine Finset.sum_congr rfl fun t ht => ?_
  have ht := Finset.mem_range.mp ht
  rw [Finset.mul_sum, ← Finset.sum_add_distrib]
  refine Finset.sum_congr rfl fun f hf => ?_
  have hf := Finset.mem_range.mp hf
  by_cases hq' : f * c.stride + t = q
  · rw [if_pos hq', if_pos hq', if_pos hq', ← Finset.sum_add_distrib]
    have e1 : ∀ w ∈ Finset.range c.bins, mulWindow c (idftCos c g) g (w * c.fft + t) * yr ((b * c.bins + w) * T + f) +
        mulWindow c (idftSin c g) g (w * c.fft + t) * yi ((b * c.bins + w) * T + f) =
        ∑ u ∈ Finset.range c.fft, window c t * (window c u * sig b (f * c.stride + u)) *
          (alpha c w * Real.cos (angle c w t) * Real.cos (angle c w u) + alpha c w * -Real.sin (angle c w t) * -Real.sin (angle c w u)) := by
      intro w hw
      have hw := Finset.mem_range.mp hw
      rw [coefC c g w t hw ht, coefS c g w t hw ht, hr b w f hb hw hf, hi b w f hb hw hf, ← Finset.sum_neg_distrib, Finset.mul_sum, Finset.mul_sum,
        ← Finset.sum_add_distrib]
      refine Finset.sum_congr rfl fun u _ => ?_
      ring
    rw [Finset.sum_congr rfl e1, Finset.sum_comm]
    have e2 : ∀ u ∈ Finset.range c.fft, ∑ w ∈ Finset.range c.bins, window c t * (window c u * sig b (f * c.stride + u)) *
          (alpha c w * Real.cos (angle c w t) * Real.cos (angle c w u) + alpha c w * -Real.sin (angle c w t) * -Real.sin (angle c w u)) =
        window c t * (window c u * sig b (f * c.stride + u)) * if t = u then 1 else 0 := by
      intro u hu
      rw [← Finset.mul_sum]
      congr 1
      have := dual_even c.fft hN he t u ht (Finset.mem_range.mp hu)
      rw [← this]
      refine Finset.sum_congr rfl fun w _ => ?_
      rw [angle_eq, angle_eq]; rfl
    rw [Finset.sum_congr rfl e2, Finset.sum_eq_single_of_mem t (Finset.mem_range.mpr ht)]
    · rw [if_pos rfl, hq']; ring
    · intro u _ hu; rw [if_neg (Ne.symm hu), mul_zero]
  · rw [if_neg hq', if_neg hq', if_neg hq']; ring

theorem padIndex_in (mode : PadMode) (L k : Nat) (h : k < L) : padIndex mode L (k : Int) = some k := by
  cases mode with
  | constant => simp only [padIndex]; rw [if_pos (by omega)]; simp
  | reflect =>
    simp only [padIndex, backForth]
    by_cases hL : L ≤ 1
    · rw [if_pos hL]; congr 1; omega
    · rw [if_neg hL]
      have : (k : Int) % (2 * ((L : Int) - 1)) = k := Int.emod_eq_of_lt (by omega) (by omega)
      rw [this]
      simp [h]
  | repeat_ => simp only [padIndex, clamped]; rw [if_neg (by omega), if_neg (by omega)]; simp

/-- **C163 (proved part: even fft_size).** If istft accepts (with pad_mode 'constant') the shape of stft's outputs, its window sums satisfying the NOLA
condition, then istft(stft(x)) has shape [B, L'] with L' the length covered by whole strides (L itself when the stride divides
L - or, without centring, L - fft), and every one of its elements equals the corresponding element of x - for every padding mode
of stft. -/
theorem C163_reconstruct_partial (c : Cfg) (B L : Nat) (hB : 0 < B) (hL : 0 < L) (hs : 0 < c.stride) (hN : 0 < c.fft) (hw : c.ws ≤ c.fft) (hfit : c.fft ≤ plen c L)
    (he : c.fft % 2 = 0) (hsmall : B < 2 ^ 31 - 1 ∧ plen c L < 2 ^ 31 - 1) (st : PadState × Conv × Shape) (hst : stftSetup c B L = .ok st)
    (s : IState) (hset : istftSetup { c with mode := .constant } st.2.2 = .ok s) :
    ∃ L', s.out = [B, L'] ∧ L' ≤ L ∧ L - L' < c.stride ∧ (c.stride ∣ (if c.center then L else L - c.fft) → L' = L) ∧
      ∀ (x g g' : Mem ℝ) (b n : Nat), b < B → n < L' →
        istftForward { c with mode := .constant } s (stftForward c st x g).1 (stftForward c st x g).2 g' (ravel s.out [b, n]) = x (ravel [B, L] [b, n]) := by
  obtain ⟨st', h1, h2, h3⟩ := C162_stft c B L hB hL hs hN hw hfit
  rw [h1] at hst
  injection hst with hst
  subst hst
  rw [h2] at hset
  generalize hT : (plen c L - c.fft) / c.stride + 1 = T at *
  have hT0 : 0 < T := by rw [← hT]; exact Nat.succ_pos _
  have hsize : (T - 1) * c.stride + c.fft ≤ plen c L := by
    have := Nat.div_mul_le_self (plen c L - c.fft) c.stride
    rw [← hT, Nat.add_sub_cancel]; omega
  have hgap : plen c L - ((T - 1) * c.stride + c.fft) < c.stride := by
    have h := Nat.div_add_mod (plen c L - c.fft) c.stride
    have h' := Nat.mod_lt (plen c L - c.fft) hs
    rw [Nat.mul_comm] at h
    rw [← hT, Nat.add_sub_cancel]; omega
  have hdvd : c.stride ∣ plen c L - c.fft → (T - 1) * c.stride + c.fft = plen c L := by
    intro h
    rw [← hT, Nat.add_sub_cancel, Nat.div_mul_cancel h]; omega
  generalize hc' : ({ c with mode := .constant } : Cfg) = c' at hset ⊢
  have ef : c'.fft = c.fft := by rw [← hc']
  have es : c'.stride = c.stride := by rw [← hc']
  have ecen : c'.center = c.center := by rw [← hc']
  have ebins : c'.bins = c.bins := by rw [← hc']; rfl
  have ewin : ∀ t, window c' t = window c t := by intro t; rw [← hc']; rfl
  have eang : ∀ w t, angle c' w t = angle c w t := by intro w t; rw [← hc']; rfl
  obtain ⟨sl, k1, k2, k3⟩ : ∃ sl, Index.setup [B, (T - 1) * c.stride + c.fft] [⟨0, B, 1⟩, ⟨(c.fft / 2 : Nat), -((c.fft / 2 : Nat) : Int), 1⟩] = .ok sl ∧
      Index.AllOK sl [B, (T - 1) * c.stride + c.fft] [List.range B, (List.range ((T - 1) * c.stride + c.fft - 2 * (c.fft / 2))).map (c.fft / 2 + ·)] ∧
      sl.map (fun p => p.2.toNat) = [B, (T - 1) * c.stride + c.fft - 2 * (c.fft / 2)] :=
    slice_setup B _ (c.fft / 2) (by omega) (by omega) (by unfold Index.sliceNone; omega) (by unfold Index.sliceNone; omega)
  have hnola : (∀ i, (if c.center then c.fft / 2 else 0) ≤ i → i < (if c.center then (T - 1) * c.stride + c.fft - c.fft / 2 else (T - 1) * c.stride + c.fft) →
      invWindow c' ((T - 1) * c.stride + c.fft) i ≥ 1e-11) ∧
      s = ⟨B, (T - 1) * c.stride + c.fft, cv1 B c.bins ((T - 1) * c.stride + c.fft) c.fft c.stride, sl,
        if c.center then [B, (T - 1) * c.stride + c.fft - 2 * (c.fft / 2)] else [B, (T - 1) * c.stride + c.fft]⟩ := by
    unfold istftSetup at hset
    rw [ef, es, ecen] at hset
    split at hset
    · cases hset
    split at hset
    · cases hset
    split at hset
    · cases hset
    rw [ebins, show c.fft / 2 + 1 = c.bins from rfl, deconv1_setup B c.bins T c.fft c.stride (by unfold Cfg.bins; omega) hs hN hT0] at hset
    simp only [show [B, c.bins, T].getD 0 0 = B from rfl, show [B, 1, (T - 1) * c.stride + c.fft].getD 2 0 = (T - 1) * c.stride + c.fft from rfl] at hset
    rw [k1] at hset
    simp only [k3] at hset
    by_cases hm : ¬ c'.mode = .constant
    · rw [if_pos hm] at hset; cases hset
    rw [if_neg hm] at hset
    by_cases hn : ∃ i, (if c.center then c.fft / 2 else 0) ≤ i ∧ i < (if c.center then (T - 1) * c.stride + c.fft - c.fft / 2 else (T - 1) * c.stride + c.fft) ∧
            ¬ invWindow c' ((T - 1) * c.stride + c.fft) i ≥ 1e-11
    · have h' := (if_pos hn).symm.trans hset
      cases h'
    replace hset := (if_neg hn).symm.trans hset
    injection hset with hset
    refine ⟨fun i hi1 hi2 => ?_, hset.symm⟩
    by_contra hcon
    exact hn ⟨i, hi1, hi2, hcon⟩
  obtain ⟨hnola, rfl⟩ := hnola
  have hov := overlap c' B L (by omega) (by omega) T
  rw [ef, es, ebins] at hov
  have hsum : ∀ (x g g' : Mem ℝ) (b q : Nat), b < B → q < (T - 1) * c.stride + c.fft →
      (cv1 B c.bins ((T - 1) * c.stride + c.fft) c.fft c.stride).deForward (stftForward c st' x g).1 (mulWindow c' (idftCos c' g') g') none g' g' (b * ((T - 1) * c.stride + c.fft) + q) +
      (cv1 B c.bins ((T - 1) * c.stride + c.fft) c.fft c.stride).deForward (stftForward c st' x g).2 (mulWindow c' (idftSin c' g') g') none g' g' (b * ((T - 1) * c.stride + c.fft) + q) =
      signal c L x b q * invWindow c' ((T - 1) * c.stride + c.fft) q := by
    intro x g g' b q hb hq
    have hri : ∀ b w f, (b * c.bins + w) * T + f = ravel st'.2.2 [b, w, f] := by
      intro b w f
      rw [h2]; simp only [ravel, prod, Cfg.bins]; ring
    refine hov _ _ g' (signal c L x) hT0 hs ?_ ?_ b q hb hq
    · intro b w f hb hw hf
      rw [hri, (h3 x g b w f hb hw hf).1]
      refine Finset.sum_congr rfl fun t _ => ?_
      rw [ewin, eang]
    · intro b w f hb hw hf
      rw [hri, (h3 x g b w f hb hw hf).2]
      congr 1
      refine Finset.sum_congr rfl fun t _ => ?_
      rw [ewin, eang]
  have hadd : ∀ (u v g : Mem ℝ) (i : Nat), i < B * ((T - 1) * c.stride + c.fft) →
      forPut (B * ((T - 1) * c.stride + c.fft)) (fun i => i) (fun i _ => u i + v i) g i = u i + v i := by
    intro u v g i hi
    exact (forPut_spec _ (fun i => i) (fun i _ => u i + v i) g (fun _ _ _ _ e => e)).1 i hi
  generalize hS : (T - 1) * c.stride + c.fft = S at *
  have hS0 : c.fft ≤ S := by omega
  have hdiv : ∀ (x g g' y : Mem ℝ) (b q : Nat) (ss : IState), ss.B = B → ss.size = S → b < B → q < S → (c.center = true → c.fft / 2 ≤ q ∧ q < S - c.fft / 2) →
      applyInv c' ss (forPut (B * S) (fun i => i) (fun i _ =>
        (cv1 B c.bins S c.fft c.stride).deForward (stftForward c st' x g).1 (mulWindow c' (idftCos c' g') g') none g' g' i +
        (cv1 B c.bins S c.fft c.stride).deForward (stftForward c st' x g).2 (mulWindow c' (idftSin c' g') g') none g' g' i) g') y (b * S + q) = signal c L x b q := by
    intro x g g' y b q ss hsB hsS hb hq hin
    have h := applyInv_at c' ss (forPut (B * S) (fun i => i) (fun i _ =>
        (cv1 B c.bins S c.fft c.stride).deForward (stftForward c st' x g).1 (mulWindow c' (idftCos c' g') g') none g' g' i +
        (cv1 B c.bins S c.fft c.stride).deForward (stftForward c st' x g).2 (mulWindow c' (idftSin c' g') g') none g' g' i) g') y b q (by omega) (by omega)
        (by rw [ecen, ef, hsS]; exact hin)
    rw [hsS] at h
    rw [h, hadd _ _ _ _ (row_lt hb hq), hsum x g g' b q hb hq]
    have hpos : invWindow c' S q ≥ 1e-11 := hnola q (by split <;> [exact (hin (by assumption)).1; omega]) (by split <;> [exact (hin (by assumption)).2; omega])
    rw [mul_div_cancel_right₀ _ (by intro h0; rw [h0] at hpos; norm_num at hpos)]
  cases hcen : c.center with
  | false =>
    have hp : plen c L = L := by simp [plen, hcen]
    rw [hp] at hsize hgap hdvd
    refine ⟨S, by simp, hsize, hgap, by simpa using hdvd, ?_⟩
    intro x g g' b n hb hn
    simp only [istftForward, ecen, hcen, Bool.false_eq_true, if_false]
    have hr : ravel [B, S] [b, n] = b * S + n := by simp [ravel, prod]
    rw [hr, hdiv x g g' g' b n _ rfl rfl hb hn (by simp [hcen])]
    simp [signal, hcen, ravel, prod]
  | true =>
    have hp : plen c L = L + 2 * (c.fft / 2) := by simp [plen, hcen]
    rw [hp] at hsize hgap hdvd
    refine ⟨S - 2 * (c.fft / 2), by simp, by omega, by omega, ?_, ?_⟩
    · intro h
      have := hdvd (by rw [show L + 2 * (c.fft / 2) - c.fft = L by omega]; simpa using h)
      omega
    · intro x g g' b n hb hn
      simp only [istftForward, ecen, hcen, if_true]
      have hj : InBounds [B, S - 2 * (c.fft / 2)] [b, n] := ⟨hb, hn, trivial⟩
      have hl : ([List.range B, (List.range (S - 2 * (c.fft / 2))).map (c.fft / 2 + ·)] : Index.Pos).map List.length = [B, S - 2 * (c.fft / 2)] := by simp
      have hf := fun (u v : Int → ℝ) => Index.forward_spec u v k2 (by simp) [b, n] (by rw [hl]; exact hj)
      rw [hl] at hf
      rw [hf]
      have hsrc : Index.srcIdx [List.range B, (List.range (S - 2 * (c.fft / 2))).map (c.fft / 2 + ·)] [b, n] = [b, c.fft / 2 + n] := by
        simp [Index.srcIdx, hb, hn]
      rw [hsrc]
      have hr : ravel [B, S] [b, c.fft / 2 + n] = b * S + (c.fft / 2 + n) := by simp [ravel, prod]
      simp only [hr, Int.toNat_natCast]
      rw [hdiv x g g' _ b _ _ rfl rfl hb (by omega) (fun _ => by omega)]
      unfold signal
      rw [if_pos hcen, show ((c.fft / 2 + n : Nat) : Int) - (c.fft / 2 : Nat) = (n : Int) by omega, padIndex_in c.mode L n (by omega)]
      simp [ravel, prod]

end Verif.Stft
