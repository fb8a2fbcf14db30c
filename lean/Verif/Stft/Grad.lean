import Verif.Stft.Refute
/-
C164: the gradient of stft, by STFT::backward_impl and by istft(as_stft_backward=True), which nn.grad uses
(/repo/python/src/nnabla/backward_function/stft.py:20-42).
-/
namespace Verif.Stft
open Verif.Fn Verif.ND Verif.Elem

/-! ### Model -/

/-- `conv_->backward({x, w}, {y}, {true, false}, {a, false})`: the gradient of the data. -/
noncomputable def convDx (cv : Conv) (a : Bool) (x w dy dx g : Mem ℝ) : Mem ℝ :=
  (cv.backward true false false a false false x w dy ⟨g, dx, g, g⟩).dx

/-- STFT::backward_impl (stft.cpp:209-271) with as_istft_backward_ = false and propagate_down[0]: the gradient of x; `dx` is its
old content. -/
noncomputable def stftBackward (c : Cfg) (s : PadState × Conv × Shape) (x g : Mem ℝ) (accum : Bool) (dyr dyi dx : Mem ℝ) : Mem ℝ :=
  if c.center then
    let d1 := convDx s.2.1 false g (mulWindow c (dftR c g) g) dyr g g
    let d2 := convDx s.2.1 true g (mulWindow c (dftI c g) g) dyi d1 g
    callBackward (padBackward c.mode s.1) accum d2 dx
  else
    convDx s.2.1 true x (mulWindow c (dftI c g) g) dyi (convDx s.2.1 accum x (mulWindow c (dftR c g) g) dyr dx g) g

/-- ISTFT::setup_impl (istft.cpp:36-83, 120-134) with as_stft_backward_ = true: the padding, the members and the output shape. -/
def istftBwSetup (c : Cfg) (ys : Shape) : Except String (PadState × IState) :=
  if ¬ c.fft ≥ c.ws then .error "FFT size has to be at least as large as window size."
  else if c.stride = 0 then .error "division by zero"
  else if ¬ c.fft % c.stride = 0 then .error "FFT size needs to be a multiple of stride."
  else match deconvSetup 1 [0] [c.stride] [1] [0] 1 ys [c.bins, 1, c.fft] none with
    | .error e => .error e
    | .ok (cv, os) =>
      let B := ys.getD 0 0
      let size := os.getD 2 0
      match Index.setup [B, size] [⟨0, B, 1⟩, ⟨(c.fft / 2 : Nat), -((c.fft / 2 : Nat) : Int), 1⟩] with
      | .error e => .error e
      | .ok sl =>
        let out := if c.center then sl.map fun p => p.2.toNat else [B, size]
        match stftSetup c (out.getD 0 0) (out.getD 1 0) with
        | .error e => .error e
        | .ok _ =>
          match padSetup [((c.fft / 2 : Nat) : Int), ((c.fft / 2 : Nat) : Int)] out with
          | .error e => .error e
          | .ok p => .ok (p, ⟨B, size, cv, sl, out⟩)

/-- ISTFT::forward_impl (istft.cpp:268-322) with as_stft_backward_ = true: DFT coefficients (istft.cpp:157-162), then the backward
of the padding instead of division and slice. -/
noncomputable def istftBwForward (c : Cfg) (s : PadState × IState) (yr yi g : Mem ℝ) : Mem ℝ :=
  let xc := s.2.cv.deForward yr (mulWindow c (dftR c g) g) none g g
  let xs := s.2.cv.deForward yi (mulWindow c (dftI c g) g) none g g
  let sum := forPut (s.2.B * s.2.size) (fun i => i) (fun i _ => xc i + xs i) g
  if c.center then callBackward (padBackward c.mode s.1) false sum g else sum

/-! ### Lemmas -/

theorem eq_of_dot (n : Nat) (a b : Mem ℝ) (h : ∀ x, dot n a x = dot n b x) (k : Nat) (hk : k < n) : a k = b k := by
  have := h fun i => if i = k then 1 else 0
  unfold dot at this
  simpa [hk] using this

theorem dot_comm' (n : Nat) (a b : Mem ℝ) : dot n a b = dot n b a := Finset.sum_congr rfl fun _ _ => mul_comm _ _

theorem dot_add' (n : Nat) (a b x : Mem ℝ) : dot n (fun i => a i + b i) x = dot n a x + dot n b x := by
  unfold dot
  rw [← Finset.sum_add_distrib]
  exact Finset.sum_congr rfl fun _ _ => by ring

theorem convDx_dot (cv : Conv) (h : cv.WF) (x w dy dx g v : Mem ℝ) :
    dot (cv.outer * cv.I) v (convDx cv false x w dy dx g) = cv.form dy v w := by
  refine cv.dot_fold h w dy v _ fun i hi => ?_
  unfold convDx
  rw [cv.backward_dx h, if_pos rfl]
  simp [startGrad, hi]

theorem convDx_acc (cv : Conv) (h : cv.WF) (x w dy dx dx' g : Mem ℝ) (i : Nat) (hi : i < cv.outer * cv.I) :
    convDx cv true x w dy dx g i = dx i + convDx cv false x w dy dx' g i := by
  unfold convDx
  rw [cv.backward_dx h, cv.backward_dx h, if_pos rfl, if_pos rfl]
  simp [startGrad, hi]

theorem dot_congr (n : Nat) (a b v : Mem ℝ) (h : ∀ i, i < n → a i = b i) : dot n v a = dot n v b :=
  Finset.sum_congr rfl fun i hi => by rw [h i (Finset.mem_range.mp hi)]

theorem cv1_sizes (B F L N s : Nat) : (cv1 B F L N s).outer * (cv1 B F L N s).I = B * L ∧
    (cv1 B F L N s).outer * (cv1 B F L N s).Y = B * (F * frames L N s) := by
  simp [cv1, Conv.I, Conv.P, Conv.Y, Conv.O, inps, outs, prod, frames]

theorem pad_grad (mode : PadMode) (B L h : Nat) (hB : 0 < B) (hL : 0 < L) (p : PadState) (hp : padSetup [((h : Nat) : Int), ((h : Nat) : Int)] [B, L] = .ok p)
    (y : Mem ℝ) : GradAffine (B * L) (B * (L + 2 * h)) (fun x => padForward mode p 0 x y) (callBackward (padBackward mode p)) := by
  have a0 : axisPad [(h, h)] 2 0 = (0, 0) := by simp [axisPad]
  have a1 : axisPad [(h, h)] 2 1 = (h, h) := by simp [axisPad]
  have eo : (List.range 2).map (fun a => [B, L].getD a 0 + (axisPad [(h, h)] 2 a).1 + (axisPad [(h, h)] 2 a).2) = [B, L + 2 * h] := by
    simp only [List.range_succ, List.range_zero, List.nil_append, List.cons_append, List.map_cons, List.map_nil, a0, a1]
    simp; omega
  have hpos : 0 < prod [B, L] := by simp only [prod]; positivity
  have hy : 0 < prod ((List.range [B, L].length).map fun a => [B, L].getD a 0 + (axisPad [(h, h)] [B, L].length a).1 + (axisPad [(h, h)] [B, L].length a).2) := by
    rw [show [B, L].length = 2 from rfl, eo]; simp only [prod]; positivity
  obtain ⟨s, h1, h2⟩ := C76_pad_grad (R := ℝ) mode [B, L] [(h, h)] (by simp) (fun _ => hpos) hy 0 y
  obtain ⟨s', h1', h2', _⟩ := C76_pad (R := ℝ) mode [B, L] [(h, h)] (by simp) (fun _ => hpos) hy
  rw [h1'] at h1
  injection h1 with h1
  subst h1
  have : padSetup [((h : Nat) : Int), ((h : Nat) : Int)] [B, L] = .ok s' := h1'
  rw [hp] at this
  injection this with this
  subst this
  rw [show [B, L].length = 2 from rfl, eo] at h2'
  rw [h2'] at h2
  simpa [prod] using h2

theorem pad_zero (mode : PadMode) (B L h : Nat) (hB : 0 < B) (hL : 0 < L) (p : PadState) (hp : padSetup [((h : Nat) : Int), ((h : Nat) : Int)] [B, L] = .ok p)
    (y : Mem ℝ) (k : Nat) (hk : k < B * (L + 2 * h)) : padForward mode p 0 zeros y k = 0 := by
  obtain ⟨s, h1, _, h3⟩ := pad_setup mode B L h hB hL
  rw [hp] at h1
  injection h1 with h1
  subst h1
  obtain ⟨b, q, hb, hq, rfl⟩ := cover hk
  rw [h3 zeros y b q hb hq]
  cases padIndex mode L ((q : Int) - h) <;> rfl

/-- **C164.** Backward of stft: without accumulation it is the transpose of stft (the inner product of the output gradients with
stft(x) is that of the input gradient with x), whatever the gradient buffer and the internal buffers held; with accumulation it
adds that to the old gradient. For both centred and not centred frames, and every padding mode. -/
theorem C164_stft_grad (c : Cfg) (B L : Nat) (hB : 0 < B) (hL : 0 < L) (hs : 0 < c.stride) (hN : 0 < c.fft) (hw : c.ws ≤ c.fft) (hfit : c.fft ≤ plen c L)
    (st : PadState × Conv × Shape) (hst : stftSetup c B L = .ok st) :
    (∀ x g g' dyr dyi dx, dot (prod st.2.2) dyr (stftForward c st x g).1 + dot (prod st.2.2) dyi (stftForward c st x g).2 =
      dot (B * L) (stftBackward c st x g' false dyr dyi dx) x) ∧
    ∀ x g dyr dyi dx dx' k, k < B * L → stftBackward c st x g true dyr dyi dx k = dx k + stftBackward c st x g false dyr dyi dx' k := by
  obtain ⟨p, h1, h2⟩ := stft_setup c B L hB hL hs hN hw hfit
  rw [h1] at hst
  injection hst with hst
  subst hst
  have hwf := cv1_wf B c.bins (plen c L) c.fft c.stride
  obtain ⟨hI, hY⟩ := cv1_sizes B c.bins (plen c L) c.fft c.stride
  have hprod : prod [B, c.fft / 2 + 1, (plen c L - c.fft) / c.stride + 1] = (cv1 B c.bins (plen c L) c.fft c.stride).outer * (cv1 B c.bins (plen c L) c.fft c.stride).Y := by
    rw [hY, frames_eq _ _ _ hN hfit]; simp [prod, Cfg.bins]
  have hmw : ∀ (d : Cfg → Mem ℝ → Mem ℝ) (f : Nat → Nat → ℝ), (∀ g w t, w < c.bins → t < c.fft → mulWindow c (d c g) g (w * c.fft + t) = f w t) →
      ∀ g g' dy v, (cv1 B c.bins (plen c L) c.fft c.stride).form dy v (mulWindow c (d c g) g) = (cv1 B c.bins (plen c L) c.fft c.stride).form dy v (mulWindow c (d c g') g') := by
    intro d f hd g g' dy v
    unfold Conv.form
    refine Finset.sum_congr rfl fun n _ => Finset.sum_congr rfl fun j hj => Finset.sum_congr rfl fun r hr => Finset.sum_congr rfl fun o _ => ?_
    have hj : j < c.bins := Finset.mem_range.mp hj
    have hR : (cv1 B c.bins (plen c L) c.fft c.stride).R = c.fft := by simp [cv1, Conv.R, kers, prod]
    rw [hR] at hr ⊢
    rw [hd g j r hj (Finset.mem_range.mp hr), hd g' j r hj (Finset.mem_range.mp hr)]
  have hmr := hmw dftR _ (fun g w t => coefR c g w t)
  have hmi := hmw dftI _ (fun g w t => coefI c g w t)
  have hfwd : ∀ x w g dy, dot ((cv1 B c.bins (plen c L) c.fft c.stride).outer * (cv1 B c.bins (plen c L) c.fft c.stride).Y) dy
      ((cv1 B c.bins (plen c L) c.fft c.stride).forward x w none g g) = (cv1 B c.bins (plen c L) c.fft c.stride).form dy x w := by
    intro x w g dy
    rw [(cv1 B c.bins (plen c L) c.fft c.stride).dot_forward hwf]
    simp
  have hsum : ∀ x wr wi dyr dyi dx g v, dot (B * plen c L) v (convDx (cv1 B c.bins (plen c L) c.fft c.stride) true x wi dyi
      (convDx (cv1 B c.bins (plen c L) c.fft c.stride) false x wr dyr dx g) g) =
      (cv1 B c.bins (plen c L) c.fft c.stride).form dyr v wr + (cv1 B c.bins (plen c L) c.fft c.stride).form dyi v wi := by
    intro x wr wi dyr dyi dx g v
    rw [← hI, ← convDx_dot _ hwf x wr dyr dx g v, ← convDx_dot _ hwf x wi dyi dx g v, dot_comm' _ v, dot_comm' _ v, dot_comm' _ v, ← dot_add', dot_comm', dot_comm' _ _ v]
    exact dot_congr _ _ _ _ fun i hi => convDx_acc _ hwf x wi dyi _ dx g i hi
  cases hcen : c.center with
  | false =>
    have hp : plen c L = L := by simp [plen, hcen]
    constructor
    · intro x g g' dyr dyi dx
      simp only [stftForward, stftBackward, hcen, Bool.false_eq_true, if_false]
      rw [hprod, hfwd, hfwd]
      rw [hmr g g', hmi g g', ← hsum x _ _ dyr dyi dx g' x, hp, dot_comm']
    · intro x g dyr dyi dx dx' k hk
      simp only [stftBackward, hcen, Bool.false_eq_true, if_false]
      have hk' : k < (cv1 B c.bins (plen c L) c.fft c.stride).outer * (cv1 B c.bins (plen c L) c.fft c.stride).I := by rw [hI, hp]; exact hk
      rw [convDx_acc _ hwf x _ dyi _ dx' g k hk', convDx_acc _ hwf x _ dyi (convDx _ false x _ dyr dx' g) dx' g k hk', convDx_acc _ hwf x _ dyr dx dx' g k hk']
      ring
  | true =>
    have hp : plen c L = L + 2 * (c.fft / 2) := by simp [plen, hcen]
    obtain ⟨p', k1, _, _⟩ := pad_setup c.mode B L (c.fft / 2) hB hL
    have hpp : p = p' := by
      have := h1
      simp only [stftSetup] at this
      rw [if_neg (by omega), k1] at this
      simp only at this
      split at this
      · cases this
      · injection this with this
        exact (Prod.mk.inj this).1.symm
    subst hpp
    constructor
    · intro x g g' dyr dyi dx
      simp only [stftForward, stftBackward, hcen, if_true]
      rw [hprod, hfwd, hfwd, hmr g g', hmi g g']
      obtain ⟨q1, q2⟩ := pad_grad c.mode B L (c.fft / 2) hB hL p k1 g
      have := q1 dx x (convDx (cv1 B c.bins (plen c L) c.fft c.stride) true g' (mulWindow c (dftI c g') g') dyi
        (convDx (cv1 B c.bins (plen c L) c.fft c.stride) false g' (mulWindow c (dftR c g') g') dyr g' g') g')
      have hz : ∀ d, dot (B * (L + 2 * (c.fft / 2))) d (padForward c.mode p 0 zeros g) = 0 := by
        intro d
        refine Finset.sum_eq_zero fun k hk => ?_
        rw [pad_zero c.mode B L _ hB hL p k1 g k (Finset.mem_range.mp hk), mul_zero]
      rw [hz, add_zero] at this
      rw [← this, dot_comm', ← hp]
      exact (hsum g' _ _ dyr dyi g' g' _).symm
    · intro x g dyr dyi dx dx' k hk
      simp only [stftBackward, hcen, if_true]
      exact (pad_grad c.mode B L (c.fft / 2) hB hL p k1 g).2 _ dx dx' k

/-- **C164 (proved part: the stride divides the length beyond the first frame).** istft(…, as_stft_backward=True) with stft's
arguments, applied to the output gradients of stft: the result has the shape of x and is exactly the gradient that stft's own
backward computes. -/
theorem C164_as_stft_backward_partial (c : Cfg) (B L : Nat) (hB : 0 < B) (hL : 0 < L) (hs : 0 < c.stride) (hw : c.ws ≤ c.fft) (hfit : c.fft ≤ plen c L)
    (hN : if c.center then 2 ≤ c.fft else 0 < c.fft) (hdiv : c.stride ∣ plen c L - c.fft) (hmul : c.stride ∣ c.fft) (hsmall : B < 2 ^ 31 - 1 ∧ plen c L < 2 ^ 31 - 1)
    (st : PadState × Conv × Shape) (hst : stftSetup c B L = .ok st) :
    ∃ s, istftBwSetup c st.2.2 = .ok s ∧ s.2.out = [B, L] ∧ ∀ x g g' dyr dyi dx k, k < B * L →
      istftBwForward c s dyr dyi g k = stftBackward c st x g' false dyr dyi dx k := by
  have hN0 : 0 < c.fft := by split at hN <;> omega
  have hgrad := (C164_stft_grad c B L hB hL hs hN0 hw hfit st hst).1
  obtain ⟨p, h1, h2⟩ := stft_setup c B L hB hL hs hN0 hw hfit
  obtain ⟨p', k1, _, _⟩ := pad_setup c.mode B L (c.fft / 2) hB hL
  rw [h1] at hst
  injection hst with hst
  subst hst
  have hpp : p = p' := by
    have := h1
    simp only [stftSetup] at this
    rw [if_neg (by omega), k1] at this
    simp only at this
    split at this
    · cases this
    · injection this with this
      exact (Prod.mk.inj this).1.symm
  subst hpp
  have hS : ((plen c L - c.fft) / c.stride + 1 - 1) * c.stride + c.fft = plen c L := by
    rw [Nat.add_sub_cancel, Nat.div_mul_cancel hdiv]; omega
  have hde := deconv1_setup B c.bins ((plen c L - c.fft) / c.stride + 1) c.fft c.stride (by unfold Cfg.bins; omega) hs hN0 (Nat.succ_pos _)
  rw [hS] at hde
  obtain ⟨sl, hsl, hout⟩ : ∃ sl, Index.setup [B, plen c L] [⟨0, B, 1⟩, ⟨(c.fft / 2 : Nat), -((c.fft / 2 : Nat) : Int), 1⟩] = .ok sl ∧
      (if c.center then sl.map fun p => p.2.toNat else [B, plen c L]) = [B, L] := by
    cases hcen : c.center with
    | true =>
      have hp : plen c L = L + 2 * (c.fft / 2) := by simp [plen, hcen]
      rw [hcen, if_pos rfl] at hN
      obtain ⟨sl, q1, _, q3⟩ := slice_setup B (plen c L) (c.fft / 2) (by omega) (by omega) (by unfold Index.sliceNone; omega) (by unfold Index.sliceNone; omega)
      refine ⟨sl, q1, ?_⟩
      rw [if_pos rfl, q3, hp, Nat.add_sub_cancel]
    | false =>
      have hp : plen c L = L := by simp [plen, hcen]
      have hax : ∀ (d : Nat) (a : Index.Ax), a.step = 1 → ∃ r, Index.setupAxis d a = .ok r := by
        intro d a ha
        unfold Index.setupAxis
        rw [if_neg (by omega)]
        exact ⟨_, rfl⟩
      obtain ⟨r1, hr1⟩ := hax B ⟨0, B, 1⟩ rfl
      obtain ⟨r2, hr2⟩ := hax (plen c L) ⟨(c.fft / 2 : Nat), -((c.fft / 2 : Nat) : Int), 1⟩ rfl
      refine ⟨[r1, r2], ?_, by simp [hp]⟩
      simp only [Index.setup, Index.fillAxes, List.length_cons, List.length_nil, Nat.sub_self, List.take_zero, List.map_nil, List.nil_append,
        Index.setupAxes, hr1, hr2]
  have hset : istftBwSetup c [B, c.fft / 2 + 1, (plen c L - c.fft) / c.stride + 1] =
      .ok (p, ⟨B, plen c L, cv1 B c.bins (plen c L) c.fft c.stride, sl, [B, L]⟩) := by
    unfold istftBwSetup
    rw [if_neg (by omega), if_neg (by omega), if_neg (by rw [Nat.mod_eq_zero_of_dvd hmul]; simp), show c.fft / 2 + 1 = c.bins from rfl, hde]
    simp only [show [B, c.bins, (plen c L - c.fft) / c.stride + 1].getD 0 0 = B from rfl, show [B, 1, plen c L].getD 2 0 = plen c L from rfl]
    rw [hsl]
    simp only [hout, show [B, L].getD 0 0 = B from rfl, show [B, L].getD 1 0 = L from rfl]
    rw [h1]
    simp only
    rw [k1]
  refine ⟨_, hset, rfl, ?_⟩
  intro x g g' dyr dyi dx k hk
  -- both are determined by inner products
  have hwf := cv1_wf B c.bins (plen c L) c.fft c.stride
  obtain ⟨hI, hY⟩ := cv1_sizes B c.bins (plen c L) c.fft c.stride
  have hde1 : ∀ (w y g v : Mem ℝ), dot (B * plen c L) v ((cv1 B c.bins (plen c L) c.fft c.stride).deForward y w none g g) = (cv1 B c.bins (plen c L) c.fft c.stride).form y v w := by
    intro w y g v
    rw [← hI, (cv1 B c.bins (plen c L) c.fft c.stride).dot_deForward hwf]
    simp
  have hmw : ∀ (d : Cfg → Mem ℝ → Mem ℝ) (f : Nat → Nat → ℝ), (∀ g w t, w < c.bins → t < c.fft → mulWindow c (d c g) g (w * c.fft + t) = f w t) →
      ∀ g g' dy v, (cv1 B c.bins (plen c L) c.fft c.stride).form dy v (mulWindow c (d c g) g) = (cv1 B c.bins (plen c L) c.fft c.stride).form dy v (mulWindow c (d c g') g') := by
    intro d f hd g g' dy v
    unfold Conv.form
    refine Finset.sum_congr rfl fun n _ => Finset.sum_congr rfl fun j hj => Finset.sum_congr rfl fun r hr => Finset.sum_congr rfl fun o _ => ?_
    have hj : j < c.bins := Finset.mem_range.mp hj
    have hR : (cv1 B c.bins (plen c L) c.fft c.stride).R = c.fft := by simp [cv1, Conv.R, kers, prod]
    rw [hR] at hr ⊢
    rw [hd g j r hj (Finset.mem_range.mp hr), hd g' j r hj (Finset.mem_range.mp hr)]
  have hmr := hmw dftR _ (fun g w t => coefR c g w t)
  have hmi := hmw dftI _ (fun g w t => coefI c g w t)
  have hacc : ∀ x x' w w' wi wi' d g g' i, (∀ v, (cv1 B c.bins (plen c L) c.fft c.stride).form dyr v w = (cv1 B c.bins (plen c L) c.fft c.stride).form dyr v w') →
      (∀ v, (cv1 B c.bins (plen c L) c.fft c.stride).form dyi v wi = (cv1 B c.bins (plen c L) c.fft c.stride).form dyi v wi') → i < B * plen c L →
      (cv1 B c.bins (plen c L) c.fft c.stride).deForward dyr w none g g i + (cv1 B c.bins (plen c L) c.fft c.stride).deForward dyi wi none g g i =
      convDx (cv1 B c.bins (plen c L) c.fft c.stride) true x wi' dyi (convDx (cv1 B c.bins (plen c L) c.fft c.stride) false x' w' dyr d g') g' i := by
    intro x x' w w' wi wi' d g g' i e1 e2 hi
    rw [convDx_acc _ hwf x wi' dyi _ d g' i (by rw [hI]; exact hi)]
    congr 1
    · refine eq_of_dot (B * plen c L) _ _ (fun v => ?_) i hi
      rw [dot_comm', hde1, dot_comm', ← hI, convDx_dot _ hwf, e1]
    · refine eq_of_dot (B * plen c L) _ _ (fun v => ?_) i hi
      rw [dot_comm', hde1, dot_comm', ← hI, convDx_dot _ hwf, e2]
  have hadd : ∀ (u v g : Mem ℝ) (i : Nat), i < B * plen c L → forPut (B * plen c L) (fun i => i) (fun i _ => u i + v i) g i = u i + v i := by
    intro u v g i hi
    exact (forPut_spec _ (fun i => i) (fun i _ => u i + v i) g (fun _ _ _ _ e => e)).1 i hi
  cases hcen : c.center with
  | false =>
    have hp : plen c L = L := by simp [plen, hcen]
    simp only [istftBwForward, stftBackward, hcen, Bool.false_eq_true, if_false]
    rw [hadd _ _ _ _ (by rw [hp]; exact hk)]
    exact hacc x x _ _ _ _ dx g g' k (hmr g g' dyr) (hmi g g' dyi) (by rw [hp]; exact hk)
  | true =>
    have hp : plen c L = L + 2 * (c.fft / 2) := by simp [plen, hcen]
    simp only [istftBwForward, stftBackward, hcen, if_true]
    have q := (pad_grad c.mode B L (c.fft / 2) hB hL p k1 g).1
    have hz : ∀ d, dot (B * (L + 2 * (c.fft / 2))) d (padForward c.mode p 0 zeros g) = 0 := by
      intro d
      refine Finset.sum_eq_zero fun k hk => ?_
      rw [pad_zero c.mode B L _ hB hL p k1 g k (Finset.mem_range.mp hk), mul_zero]
    have fin : ∀ D1 D2 u w v : Mem ℝ, (∀ i, i < B * plen c L → D1 i = D2 i) →
        dot (B * L) (callBackward (padBackward c.mode p) false D1 u) v = dot (B * L) (callBackward (padBackward c.mode p) false D2 w) v := by
      intro D1 D2 u w v hD
      have e1 := q u v D1
      have e2 := q w v D2
      rw [hz, add_zero] at e1 e2
      rw [← e1, ← e2, dot_comm', dot_comm' _ D2]
      exact dot_congr _ _ _ _ (by rw [← hp]; exact hD)
    refine eq_of_dot (B * L) _ _ (fun v => fin _ _ _ _ v fun i hi => ?_) k hk
    rw [hadd _ _ _ _ hi]
    exact hacc g' g' _ _ _ _ g' g g' i (hmr g g' dyr) (hmi g g' dyi) hi

theorem ok_of {α} (e : Except String α) (f : α → Shape) (v : Shape) (h : (match e with | .ok a => some (f a) | .error _ => none) = some v) :
    ∃ a, e = .ok a ∧ f a = v := by
  cases e with
  | error _ => cases h
  | ok a => exact ⟨a, rfl, by simpa using h⟩

/-- **C164 (refuted part).** When the stride does not divide the length beyond the first frame, istft(as_stft_backward=True), and
so nn.grad, accepts but returns a gradient shorter than x: the trailing samples are lost. Here x has shape [1, 5], the result [1, 4]. -/
theorem C164_shape_refuted :
    let c : Cfg := ⟨4, 2, 4, .rectangular, false, .constant⟩
    ∃ st s, stftSetup c 1 5 = .ok st ∧ istftBwSetup c st.2.2 = .ok s ∧ s.2.out = [1, 4] := by
  intro c
  obtain ⟨st, h1, h2⟩ := ok_of (stftSetup c 1 5) (·.2.2) [1, 3, 1] (by decide)
  obtain ⟨s, h3, h4⟩ := ok_of (istftBwSetup c [1, 3, 1]) (·.2.out) [1, 4] (by decide)
  exact ⟨st, s, h1, by rw [h2]; exact h3, h4⟩

example : let c : Cfg := ⟨3, 2, 4, .hanning, true, .reflect⟩
    ∃ st s, stftSetup c 2 6 = .ok st ∧ st.2.2 = [2, 3, 4] ∧ istftBwSetup c st.2.2 = .ok s ∧ s.2.out = [2, 6] := by
  intro c
  obtain ⟨st, h1, h2⟩ := ok_of (stftSetup c 2 6) (·.2.2) [2, 3, 4] (by decide)
  obtain ⟨s, h3, h4⟩ := ok_of (istftBwSetup c [2, 3, 4]) (·.2.out) [2, 6] (by decide)
  exact ⟨st, s, h1, h2, by rw [h2]; exact h3, h4⟩

end Verif.Stft
