import Verif.Stft.Props
/-
C163: when istft accepts, and the refuted parts.
-/
namespace Verif.Stft
open Verif.Fn Verif.ND Verif.Elem

/-- **C163.** The reconstruction theorem is not vacuous: with a rectangular or Hamming window as long as the transform and a
stride that divides it, istft accepts every stft output of even transform size. -/
theorem C163_accepts (c : Cfg) (B T : Nat) (hT : 0 < T) (hN : 0 < c.fft) (hs : 0 < c.stride) (hd : c.fft % c.stride = 0) (hw : c.ws = c.fft)
    (hwt : c.wt ≠ .hanning) (hm : c.mode = .constant) : ∃ s, istftSetup c [B, c.fft / 2 + 1, T] = .ok s := by
  have hwin : ∀ t, t < c.fft → 0.0064 ≤ window c t ^ 2 := by
    intro t ht
    unfold window
    rw [hw, Nat.sub_self, Nat.zero_div, Nat.zero_add, if_pos ⟨Nat.zero_le _, ht⟩]
    have h8 : (0.08 : ℝ) ≤ hann c.wt c.fft (t - 0) := by
      unfold hann
      cases h : c.wt with
      | hanning => exact absurd h hwt
      | hamming =>
        simp only
        have := Real.cos_le_one (2 * Real.pi * (((t - 0 : Nat) : ℝ) / c.fft))
        linarith
      | rectangular => norm_num
    calc (0.0064 : ℝ) = 0.08 ^ 2 := by norm_num
      _ ≤ _ := by gcongr
  have hle : c.stride ≤ c.fft := Nat.le_of_dvd hN (Nat.dvd_of_mod_eq_zero hd)
  have hinv : ∀ q, q < (T - 1) * c.stride + c.fft → invWindow c ((T - 1) * c.stride + c.fft) q ≥ 1e-11 := by
    intro q hq
    rw [invWindow_eq c T q hT hs]
    obtain ⟨f, t, hf, ht, he⟩ : ∃ f t, f < T ∧ t < c.fft ∧ f * c.stride + t = q := by
      by_cases h : q / c.stride ≤ T - 1
      · refine ⟨q / c.stride, q % c.stride, by omega, ?_, ?_⟩
        · have := Nat.mod_lt q hs; omega
        · rw [Nat.mul_comm]; exact Nat.div_add_mod q c.stride
      · have : (T - 1) * c.stride ≤ q := by
          have h1 := Nat.div_mul_le_self q c.stride
          have h2 := Nat.mul_le_mul_right c.stride (show T - 1 ≤ q / c.stride by omega)
          omega
        exact ⟨T - 1, q - (T - 1) * c.stride, by omega, by omega, by omega⟩
    have hnn : ∀ t f : Nat, (0 : ℝ) ≤ if f * c.stride + t = q then window c t ^ 2 else 0 := by
      intro t f; split
      · positivity
      · exact le_refl _
    have h1 := Finset.single_le_sum (f := fun t => ∑ f ∈ Finset.range T, if f * c.stride + t = q then window c t ^ 2 else 0)
      (fun t _ => Finset.sum_nonneg fun f _ => hnn t f) (Finset.mem_range.mpr ht)
    have h2 := Finset.single_le_sum (f := fun f => if f * c.stride + t = q then window c t ^ 2 else 0) (fun f _ => hnn t f) (Finset.mem_range.mpr hf)
    simp only [if_pos he] at h2
    have h3 := hwin t ht
    have h4 : (1e-11 : ℝ) ≤ 0.0064 := by norm_num
    exact le_trans h4 (le_trans h3 (le_trans h2 h1))
  have hax : ∀ (d : Nat) (a : Index.Ax), a.step = 1 → ∃ r, Index.setupAxis d a = .ok r := by
    intro d a ha
    unfold Index.setupAxis
    rw [if_neg (by omega)]
    exact ⟨_, rfl⟩
  obtain ⟨r1, hr1⟩ := hax B ⟨0, B, 1⟩ rfl
  obtain ⟨r2, hr2⟩ := hax ((T - 1) * c.stride + c.fft) ⟨(c.fft / 2 : Nat), -((c.fft / 2 : Nat) : Int), 1⟩ rfl
  have hsl : Index.setup [B, (T - 1) * c.stride + c.fft] [⟨0, B, 1⟩, ⟨(c.fft / 2 : Nat), -((c.fft / 2 : Nat) : Int), 1⟩] = .ok [r1, r2] := by
    simp only [Index.setup, Index.fillAxes, List.length_cons, List.length_nil, Nat.sub_self, List.take_zero, List.map_nil, List.nil_append,
      Index.setupAxes, hr1, hr2]
  unfold istftSetup
  rw [if_neg (by omega), if_neg (by omega), if_neg (by omega), show c.fft / 2 + 1 = c.bins from rfl,
    deconv1_setup B c.bins T c.fft c.stride (by unfold Cfg.bins; omega) hs hN hT]
  simp only [show [B, c.bins, T].getD 0 0 = B from rfl]
  rw [show [B, 1, (T - 1) * c.stride + c.fft].getD 2 0 = (T - 1) * c.stride + c.fft from rfl, hsl]
  simp only
  rw [if_neg (by rw [hm]; simp)]
  refine ⟨_, if_neg ?_⟩
  rintro ⟨i, hi1, hi2, hi3⟩
  refine hi3 (hinv i ?_)
  have hi2 : i < if c.center then (T - 1) * c.stride + c.fft - c.fft / 2 else (T - 1) * c.stride + c.fft := hi2
  split at hi2 <;> omega

/-- **C163 (refuted part).** `F.istft` declares pad_mode='reflect' as its default, and setup refuses everything but 'constant':
with the default arguments istft never succeeds. -/
theorem C163_default_rejected (c : Cfg) (hm : c.mode = .reflect) (ys : Shape) : ∀ s, istftSetup c ys ≠ .ok s := by
  intro s h
  unfold istftSetup at h
  split at h
  · cases h
  split at h
  · cases h
  split at h
  · cases h
  cases hd : deconvSetup 1 [0] [c.stride] [1] [0] 1 ys [c.bins, 1, c.fft] none with
  | error e => rw [hd] at h; cases h
  | ok p =>
    rw [hd] at h
    simp only at h
    split at h
    · cases h
    · rw [if_pos (by rw [hm]; simp)] at h; cases h

theorem ite_ok {α} {p : Prop} {d : Decidable p} (e : String) (a b : α) (h : (if p then (.error e : Except String α) else .ok a) = .ok b) : a = b := by
  by_cases hp : p
  · rw [if_pos hp] at h; cases h
  · rw [if_neg hp] at h; injection h

theorem alpha_sum_odd (c : Cfg) (M : Nat) (hM : 0 < M) (hc : c.fft = 2 * M + 1) :
    ∑ w ∈ Finset.range c.bins, alpha c w = 2 * M / (2 * M + 1) := by
  obtain ⟨K, rfl⟩ : ∃ K, M = K + 1 := ⟨M - 1, by omega⟩
  have hb : c.bins = K + 1 + 1 := by unfold Cfg.bins; omega
  have h2 : c.fft / 2 = K + 1 := by omega
  have hf : (c.fft : ℝ) = 2 * ((K + 1 : Nat) : ℝ) + 1 := by rw [hc]; push_cast; ring
  unfold alpha
  rw [hb, h2, ← Finset.sum_div, Finset.sum_range_succ, Finset.sum_range_succ', hf]
  congr 1
  have : ∑ w ∈ Finset.range K, (if w + 1 = 0 ∨ w + 1 = K + 1 then (1 : ℝ) else 2) = ∑ w ∈ Finset.range K, 2 := by
    refine Finset.sum_congr rfl fun w hw => ?_
    have hw := Finset.mem_range.mp hw
    rw [if_neg (by omega)]
  rw [this]
  simp
  ring

/-- **C163 (refuted part).** For every odd fft_size = 2M + 1 ≥ 3 reconstruction fails although istft accepts: bin M, which is not
a Nyquist bin, is weighted 1 instead of 2. The unit impulse, in one frame with a rectangular window, comes back as 2M / (2M + 1). -/
theorem C163_odd_refuted (M : Nat) (hM : 0 < M) :
    let c : Cfg := ⟨2 * M + 1, 2 * M + 1, 2 * M + 1, .rectangular, false, .constant⟩
    ∃ st s, stftSetup c 1 (2 * M + 1) = .ok st ∧ istftSetup c st.2.2 = .ok s ∧ s.out = [1, 2 * M + 1] ∧
      ∀ g g' : Mem ℝ, istftForward c s (stftForward c st (fun k => if k = 0 then 1 else 0) g).1 (stftForward c st (fun k => if k = 0 then 1 else 0) g).2 g' 0 =
        2 * M / (2 * M + 1) := by
  intro c
  have hp : plen c (2 * M + 1) = 2 * M + 1 := rfl
  have hfft : c.fft = 2 * M + 1 := rfl
  have hstr : c.stride = 2 * M + 1 := rfl
  have hcen : c.center = false := rfl
  have hN : 0 < c.fft := by omega
  obtain ⟨st, h1, h2, h3⟩ := C162_stft c 1 (2 * M + 1) (by omega) (by omega) (by omega) (by omega) (Nat.le_refl _) (by rw [hp])
  rw [hp, hfft, Nat.sub_self, Nat.zero_div, Nat.zero_add] at h2
  rw [hp, hfft, Nat.sub_self, Nat.zero_div, Nat.zero_add] at h3
  obtain ⟨s, hs⟩ := C163_accepts c 1 1 (by omega) (by omega) (by omega) (by rw [hfft, hstr, Nat.mod_self]) rfl (by simp [c]) rfl
  have hbins : c.bins = (2 * M + 1) / 2 + 1 := rfl
  have hsv : ∃ sl, s = ⟨1, 2 * M + 1, cv1 1 c.bins (2 * M + 1) c.fft c.stride, sl, [1, 2 * M + 1]⟩ := by
    have hset := hs
    unfold istftSetup at hset
    split at hset
    · cases hset
    split at hset
    · cases hset
    split at hset
    · cases hset
    rw [show c.fft / 2 + 1 = c.bins from rfl, deconv1_setup 1 c.bins 1 c.fft c.stride (by unfold Cfg.bins; omega) (by omega) hN (by omega)] at hset
    simp only at hset
    split at hset
    · cases hset
    rename_i sl hsl
    by_cases hm : ¬ c.mode = .constant
    · rw [if_pos hm] at hset; cases hset
    rw [if_neg hm] at hset
    have hset := ite_ok _ _ _ hset
    refine ⟨sl, ?_⟩
    rw [← hset]
    simp [hfft, c]
  obtain ⟨sl, rfl⟩ := hsv
  refine ⟨st, _, h1, by rw [h2]; exact hs, rfl, ?_⟩
  intro g g'
  have hfr : frames (2 * M + 1) c.fft c.stride = 1 := by
    rw [frames_eq _ _ _ hN (by omega), hfft, Nat.sub_self, Nat.zero_div]
  have hwin : ∀ t, t < c.fft → window c t = 1 := by
    intro t ht
    unfold window hann
    simp only [c, Nat.sub_self, Nat.zero_div, Nat.zero_add, Nat.zero_le, true_and]
    rw [if_pos (by omega)]
  have hinv : invWindow c (2 * M + 1) 0 = 1 := by
    have := invWindow_eq c 1 0 (by omega) (by omega)
    rw [show (1 - 1) * c.stride + c.fft = 2 * M + 1 by omega] at this
    rw [this, Finset.sum_eq_single_of_mem 0 (Finset.mem_range.mpr hN)]
    · simp [hwin 0 hN]
    · intro t _ ht; simp [ht]
  have hsig : ∀ t, signal c (2 * M + 1) (fun k => if k = 0 then 1 else 0) 0 (0 * c.stride + t) = if t = 0 then 1 else 0 := by
    intro t; simp [signal, hcen]
  have hy : ∀ w, w < c.bins → (stftForward c st (fun k => if k = 0 then 1 else 0) g).1 w = 1 ∧ (stftForward c st (fun k => if k = 0 then 1 else 0) g).2 w = 0 := by
    intro w hw
    have h := h3 (fun k => if k = 0 then 1 else 0) g 0 w 0 (by omega) hw (by omega)
    have hr : ravel st.2.2 [0, w, 0] = w := by rw [h2]; simp [ravel, prod]
    rw [hr] at h
    rw [h.1, h.2]
    constructor
    · rw [Finset.sum_eq_single_of_mem 0 (Finset.mem_range.mpr (by omega))]
      · rw [hsig]; simp [hwin 0 hN, angle]
      · intro t _ ht; rw [hsig]; simp [ht]
    · rw [Finset.sum_eq_zero, neg_zero]
      intro t _
      rw [hsig]
      by_cases ht : t = 0
      · simp [ht, angle]
      · simp [ht]
  simp only [istftForward, hcen, Bool.false_eq_true, if_false]
  have ha := applyInv_at c ⟨1, 2 * M + 1, cv1 1 c.bins (2 * M + 1) c.fft c.stride, sl, [1, 2 * M + 1]⟩
    (forPut (1 * (2 * M + 1)) (fun i => i) (fun i _ =>
      (cv1 1 c.bins (2 * M + 1) c.fft c.stride).deForward (stftForward c st (fun k => if k = 0 then 1 else 0) g).1 (mulWindow c (idftCos c g') g') none g' g' i +
      (cv1 1 c.bins (2 * M + 1) c.fft c.stride).deForward (stftForward c st (fun k => if k = 0 then 1 else 0) g).2 (mulWindow c (idftSin c g') g') none g' g' i) g') g' 0 0
    (by simp) (by simp) (by simp [hcen])
  simp only [Nat.zero_mul, Nat.zero_add] at ha
  rw [ha, hinv, div_one]
  rw [(forPut_spec (1 * (2 * M + 1)) (fun i => i) (fun i _ => _) g' (fun _ _ _ _ e => e)).1 0 (by omega)]
  have d1 := deconv1_forward 1 c.bins (2 * M + 1) c.fft c.stride hN (by omega) (stftForward c st (fun k => if k = 0 then 1 else 0) g).1 (mulWindow c (idftCos c g') g') g' g' 0 0 (by omega) (by omega)
  have d2 := deconv1_forward 1 c.bins (2 * M + 1) c.fft c.stride hN (by omega) (stftForward c st (fun k => if k = 0 then 1 else 0) g).2 (mulWindow c (idftSin c g') g') g' g' 0 0 (by omega) (by omega)
  rw [hfr] at d1 d2
  simp only [Nat.zero_mul, Nat.zero_add, Finset.sum_range_one, Nat.mul_one, Nat.add_zero] at d1 d2
  rw [d1, d2, ← alpha_sum_odd c M hM hfft, Finset.sum_eq_single_of_mem 0 (Finset.mem_range.mpr hN), Finset.sum_eq_single_of_mem 0 (Finset.mem_range.mpr hN)]
  · rw [if_pos rfl, if_pos rfl, ← Finset.sum_add_distrib]
    refine Finset.sum_congr rfl fun w hw => ?_
    have hw := Finset.mem_range.mp hw
    rw [(hy w hw).1, (hy w hw).2, mul_zero, mul_one, add_zero]
    have := coefC c g' w 0 hw hN
    rw [Nat.add_zero] at this
    rw [Nat.add_zero, this, hwin 0 hN]
    simp [angle]
  · intro t _ ht; rw [if_neg ht]
  · intro t _ ht; rw [if_neg ht]

/-- The hypotheses of the reconstruction theorem on a centred, reflected signal with overlapping Hamming windows. -/
example : let c : Cfg := ⟨4, 2, 4, .hamming, true, .reflect⟩
    ∃ st s, stftSetup c 2 6 = .ok st ∧ st.2.2 = [2, 3, 4] ∧ istftSetup { c with mode := .constant } st.2.2 = .ok s := by
  intro c
  obtain ⟨st, h1, h2, _⟩ := C162_stft c 2 6 (by omega) (by omega) (by simp [c]) (by simp [c]) (by simp [c]) (by simp [c, plen])
  have h2 : st.2.2 = [2, 3, 4] := h2.trans (by simp [c, plen])
  obtain ⟨s, hs⟩ := C163_accepts { c with mode := .constant } 2 4 (by omega) (by simp [c]) (by simp [c]) (by simp [c]) rfl (by simp [c]) rfl
  exact ⟨st, s, h1, h2, by rw [h2]; exact hs⟩

end Verif.Stft
