import Verif.Elem.ConvFormula
/-
Convolution::setup_impl and Deconvolution::setup_impl (channel_last = false): what they accept, the members they set and the
shape of the output. Simplifications: strides and dilations are natural numbers; where C++ would divide by zero the model
reports an error.
-/
namespace Verif.Elem
open Verif.Fn Verif.ND

/-! ### Model -/

/-- The spatial axes: extent, kernel, pad, stride, dilation of each (convolution.cpp:86-103). -/
def mkWins : List Nat → List Nat → List Int → List Nat → List Nat → List Win
  | i :: is, k :: ks, p :: ps, s :: ss, d :: ds => ⟨i, k, p, s, d⟩ :: mkWins is ks ps ss ds
  | _, _, _, _, _ => []

/-- The checks in the loop over the spatial axes (convolution.cpp:89-102). -/
def checkWins : List Win → Except String Unit
  | [] => .ok ()
  | w :: ws =>
    if w.stride = 0 then .error "division by zero"
    else if w.outInt > 0 then checkWins ws
    else .error "Invalid configuration of convolution"

/-- The bias check (convolution.cpp:125-134, deconvolution.cpp:149-157). -/
def checkBias (bs : Option Shape) (ch : Nat) : Except String Unit :=
  match bs with
  | none => .ok ()
  | some b => if b.length = 1 then if b.getD 0 0 = ch then .ok () else .error "Shape of bias(inputs[2]) and weights(inputs[1]) mismatch."
      else .error "Bias(inputs[2]) must be a 1d tensor."

/-- Convolution::setup_impl (convolution.cpp:40-157): the members and the shape of the output. -/
def convSetup (axis : Int) (pad : List Int) (stride dil : List Nat) (group : Nat) (xs ws : Shape) (bs : Option Shape) : Except String (Conv × Shape) :=
  match refineAxis axis xs.length with
  | .error e => .error e
  | .ok a =>
    if ¬ a < xs.length - 1 then .error "base_axis must be less than ndim - 1 of inputs[0]."
    else
      let sd := xs.length - a - 1
      if ws.length ≠ 2 + sd then .error "Weights must be a tensor more than 3D."
      else
        let chI := xs.getD a 0
        let chO := ws.getD 0 0
        let cg := ws.getD 1 0
        if group = 0 then .error "division by zero"
        else if chI % group ≠ 0 then .error "Number of input channel needs to be divisible by group."
        else if chO % group ≠ 0 then .error "Number of output channel needs to be divisible by group."
        else if chI / group ≠ cg then .error "Number of grouped channel mismatch."
        else if pad.length ≠ sd then .error "pad size mismatch."
        else if stride.length ≠ sd then .error "stride size mismatch."
        else if dil.length ≠ sd then .error "dilation size mismatch."
        else
          let wins := mkWins (xs.drop (a + 1)) (ws.drop 2) pad stride dil
          match checkWins wins with
          | .error e => .error e
          | .ok _ =>
            match checkBias bs chO with
            | .error e => .error e
            | .ok _ =>
              if chO = 0 then .error "division by zero"
              else .ok (⟨prod (xs.take a), group, cg, chI, chO, wins⟩, xs.take a ++ chO :: outs wins)

/-- The extents of the output of deconvolution (deconvolution.cpp:106-128): size_i of every spatial axis. -/
def deSizes : List Nat → List Nat → List Int → List Nat → List Nat → List Int → Except String (List Nat)
  | o :: os, k :: ks, p :: ps, s :: ss, d :: ds, op :: ops =>
    let k' : Int := d * ((k : Int) - 1) + 1
    let size : Int := s * ((o : Int) - 1) + k' - 2 * p + op
    if ¬ size > 0 then .error "Invalid configuration of deconvolution"
    else if ¬ op < s then .error "output padding must be smaller than either stride or dilation"
    else match deSizes os ks ps ss ds ops with
      | .error e => .error e
      | .ok l => .ok (size.toNat :: l)
  | _, _, _, _, _, _ => .ok []

/-- Deconvolution::setup_impl (deconvolution.cpp:42-175). The windows slide over the output. -/
def deconvSetup (axis : Int) (pad : List Int) (stride dil : List Nat) (opad : List Int) (group : Nat) (ys ws : Shape) (bs : Option Shape) :
    Except String (Conv × Shape) :=
  match refineAxis axis ys.length with
  | .error e => .error e
  | .ok a =>
    if ¬ a + 1 < ys.length then .error "base_axis must be less than ndim - 1 of inputs[0]."
    else
      let sd := ys.length - a - 1
      if ws.length ≠ 2 + sd then .error "Weights must be a tensor more than 3D."
      else
        let chO := ws.getD 0 0
        let cg := ws.getD 1 0
        let chI := cg * group
        let opad := if opad.isEmpty then List.replicate sd 0 else opad
        if group = 0 then .error "division by zero"
        else if chI % group ≠ 0 then .error "Number of input channel needs to be divisible by group."
        else if chO % group ≠ 0 then .error "Number of output channel needs to be divisible by group."
        else if chI / group ≠ cg then .error "Number of grouped channel mismatch."
        else if pad.length ≠ sd then .error "pad size mismatch."
        else if stride.length ≠ sd then .error "stride size mismatch."
        else if dil.length ≠ sd then .error "dilation size mismatch."
        else if opad.length ≠ sd then .error "output_padding size mismatch"
        else match deSizes (ys.drop (a + 1)) (ws.drop 2) pad stride dil opad with
          | .error e => .error e
          | .ok sizes =>
            match checkBias bs chI with
            | .error e => .error e
            | .ok _ =>
              if chO = 0 then .error "division by zero"
              else .ok (⟨prod (ys.take a), group, cg, chI, chO, mkWins sizes (ws.drop 2) pad stride dil⟩, ys.take a ++ chI :: sizes)

/-! ### Lemmas -/

theorem checkWins_ok (ws : List Win) (u : Unit) : checkWins ws = .ok u ↔ ∀ w ∈ ws, 0 < w.stride ∧ 0 < w.outInt := by
  induction ws with
  | nil => simp [checkWins]
  | cons w ws ih =>
    rw [checkWins]
    by_cases h1 : w.stride = 0
    · rw [if_pos h1]
      refine ⟨fun h => (by cases h), fun h => ?_⟩
      have := (h w (List.mem_cons_self ..)).1
      omega
    · rw [if_neg h1]
      by_cases h2 : w.outInt > 0
      · rw [if_pos h2, ih]
        constructor
        · intro h w' hw'
          rcases List.mem_cons.mp hw' with rfl | hw'
          · exact ⟨by omega, h2⟩
          · exact h w' hw'
        · intro h w' hw'
          exact h w' (List.mem_cons_of_mem _ hw')
      · rw [if_neg h2]
        refine ⟨fun h => (by cases h), fun h => ?_⟩
        exact absurd (h w (List.mem_cons_self ..)).2 h2

theorem checkBias_ok (bs : Option Shape) (ch : Nat) (u : Unit) : checkBias bs ch = .ok u ↔ ∀ b, bs = some b → b = [ch] := by
  cases bs with
  | none => simp [checkBias]
  | some b =>
    rw [checkBias]
    cases b with
    | nil => simp
    | cons d b => cases b with
      | nil =>
        simp only [List.length_singleton, if_true, List.getD_cons_zero]
        by_cases h : d = ch
        · simp [h]
        · simp [h]
      | cons _ _ => simp

theorem mkWins_inps (is ks : List Nat) (ps : List Int) (ss ds : List Nat) (h1 : ks.length = is.length) (h2 : ps.length = is.length)
    (h3 : ss.length = is.length) (h4 : ds.length = is.length) : inps (mkWins is ks ps ss ds) = is ∧ kers (mkWins is ks ps ss ds) = ks := by
  induction is generalizing ks ps ss ds with
  | nil => cases ks <;> simp_all [mkWins, inps, kers]
  | cons i is ih => cases ks with
    | nil => simp at h1
    | cons k ks => cases ps with
      | nil => simp at h2
      | cons p ps => cases ss with
        | nil => simp at h3
        | cons s ss => cases ds with
          | nil => simp at h4
          | cons d ds =>
            have := ih ks ps ss ds (by simpa using h1) (by simpa using h2) (by simpa using h3) (by simpa using h4)
            simp only [mkWins, inps, kers, List.map_cons] at this ⊢
            rw [this.1, this.2]; simp

theorem refine_split (axis : Int) (xs : Shape) (a : Nat) (h : refineAxis axis xs.length = .ok a) :
    a < xs.length ∧ (axis = a ∨ axis = (a : Int) - xs.length) := by
  by_cases hr : axis < xs.length ∧ axis ≥ -(xs.length : Int)
  · rw [refineAxis, if_pos hr] at h
    injection h with h
    by_cases hn : axis < 0
    · rw [if_pos hn] at h; omega
    · rw [if_neg hn] at h; omega
  · rw [refineAxis, if_neg hr] at h; cases h

theorem refine_at (axis : Int) (a n : Nat) (ha : a < n) (h : axis = a ∨ axis = (a : Int) - n) : refineAxis axis n = .ok a := by
  rw [refineAxis, if_pos (by omega)]
  by_cases hn : axis < 0
  · rw [if_pos hn]; congr 1; omega
  · rw [if_neg hn]; congr 1; omega

/-! ### C88: what convolution accepts -/

/-- **C88.** Convolution's setup accepts exactly data of shape A ++ [chI] ++ I with I not empty, split at the base axis, and
weights [chO, chI / group] ++ K with as many kernel extents, pads, strides and dilations as I has axes, channels divisible by
the group, a bias of shape [chO], and positive strides and output extents; the output has shape A ++ [chO] ++ extents. -/
theorem C88_conv_setup (axis : Int) (pad : List Int) (stride dil : List Nat) (group : Nat) (xs ws : Shape) (bs : Option Shape) (p : Conv × Shape) :
    convSetup axis pad stride dil group xs ws bs = .ok p ↔ ∃ (A I K : Shape) (cg m : Nat), xs = A ++ (group * cg) :: I ∧ I ≠ [] ∧
      ws = (group * m) :: cg :: K ∧ (axis = A.length ∨ axis = (A.length : Int) - xs.length) ∧ 0 < group ∧ 0 < m ∧ K.length = I.length ∧
      pad.length = I.length ∧ stride.length = I.length ∧ dil.length = I.length ∧ (∀ b, bs = some b → b = [group * m]) ∧
      (∀ w ∈ mkWins I K pad stride dil, 0 < w.stride ∧ 0 < w.outInt) ∧
      p = (⟨prod A, group, cg, group * cg, group * m, mkWins I K pad stride dil⟩, A ++ (group * m) :: outs (mkWins I K pad stride dil)) := by
  constructor
  · intro h
    rw [convSetup] at h
    cases ha : refineAxis axis xs.length with
    | error e => rw [ha] at h; cases h
    | ok a =>
      rw [ha] at h
      simp only at h
      obtain ⟨hal, hax⟩ := refine_split axis xs a ha
      by_cases h1 : ¬ a < xs.length - 1
      · rw [if_pos h1] at h; cases h
      rw [if_neg h1] at h
      by_cases h2 : ws.length ≠ 2 + (xs.length - a - 1)
      · rw [if_pos h2] at h; cases h
      rw [if_neg h2] at h
      by_cases h3 : group = 0
      · rw [if_pos h3] at h; cases h
      rw [if_neg h3] at h
      by_cases h4 : xs.getD a 0 % group ≠ 0
      · rw [if_pos h4] at h; cases h
      rw [if_neg h4] at h
      by_cases h5 : ws.getD 0 0 % group ≠ 0
      · rw [if_pos h5] at h; cases h
      rw [if_neg h5] at h
      by_cases h6 : xs.getD a 0 / group ≠ ws.getD 1 0
      · rw [if_pos h6] at h; cases h
      rw [if_neg h6] at h
      by_cases h7 : pad.length ≠ xs.length - a - 1
      · rw [if_pos h7] at h; cases h
      rw [if_neg h7] at h
      by_cases h8 : stride.length ≠ xs.length - a - 1
      · rw [if_pos h8] at h; cases h
      rw [if_neg h8] at h
      by_cases h9 : dil.length ≠ xs.length - a - 1
      · rw [if_pos h9] at h; cases h
      rw [if_neg h9] at h
      cases hw : checkWins (mkWins (xs.drop (a + 1)) (ws.drop 2) pad stride dil) with
      | error e => rw [hw] at h; cases h
      | ok u =>
        rw [hw] at h
        simp only at h
        cases hb : checkBias bs (ws.getD 0 0) with
        | error e => rw [hb] at h; cases h
        | ok u' =>
          rw [hb] at h
          simp only at h
          by_cases h10 : ws.getD 0 0 = 0
          · rw [if_pos h10] at h; cases h
          rw [if_neg h10] at h
          injection h with h
          have hx : xs = xs.take a ++ xs.getD a 0 :: xs.drop (a + 1) := by
            conv_lhs => rw [← List.take_append_drop a xs, List.drop_eq_getElem_cons hal]
            simp [List.getD_eq_getElem?_getD, List.getElem?_eq_getElem hal]
          obtain ⟨w0, w1, K, rfl⟩ : ∃ w0 w1 K, ws = w0 :: w1 :: K := by
            cases ws with
            | nil => exact absurd (show (0 : Nat) ≠ 2 + (xs.length - a - 1) by omega) h2
            | cons w0 ws => cases ws with
              | nil => exact absurd (show (1 : Nat) ≠ 2 + (xs.length - a - 1) by omega) h2
              | cons w1 K => exact ⟨w0, w1, K, rfl⟩
          simp only [List.getD_cons_zero, List.getD_cons_succ, List.drop_succ_cons, List.drop_zero] at *
          have hd : group * (xs.getD a 0 / group) = xs.getD a 0 := by
            have := Nat.div_add_mod (xs.getD a 0) group; omega
          have hd' : group * (w0 / group) = w0 := by
            have := Nat.div_add_mod w0 group; omega
          have hlen : (xs.drop (a + 1)).length = xs.length - a - 1 := by simp; omega
          have h6 : xs.getD a 0 / group = w1 := by simpa using h6
          have htl : (xs.take a).length = a := by simp; omega
          simp only [List.length_cons] at h2
          refine ⟨xs.take a, xs.drop (a + 1), K, w1, w0 / group, ?_, ?_, ?_, ?_, by omega, ?_, by omega, by omega, by omega, by omega, ?_, ?_, ?_⟩
          · rw [← h6, hd]; exact hx
          · intro e; rw [e] at hlen; simp at hlen; omega
          · rw [hd']
          · rw [htl]; exact hax
          · exact Nat.pos_of_ne_zero fun e => h10 (by rw [← hd', e, Nat.mul_zero])
          · rw [hd']; exact (checkBias_ok _ _ _).mp hb
          · exact (checkWins_ok _ _).mp hw
          · rw [← h, hd', ← h6, hd]
  · rintro ⟨A, I, K, cg, m, rfl, hI, rfl, hax, hg, hm, hK, hp, hs, hd, hb, hw, rfl⟩
    have hl : (A ++ (group * cg) :: I).length = A.length + (I.length + 1) := by simp
    have hIl : 0 < I.length := List.length_pos_iff.mpr hI
    have hr := refine_at axis A.length (A ++ (group * cg) :: I).length (by omega) hax
    have g1 : (A ++ (group * cg) :: I).getD A.length 0 = group * cg := by simp
    have g2 : (A ++ (group * cg) :: I).take A.length = A := by simp
    have g3 : (A ++ (group * cg) :: I).drop (A.length + 1) = I := by simp
    rw [convSetup, hr]
    simp only [g1, g2, g3, hl, List.getD_cons_zero, List.getD_cons_succ, List.drop_succ_cons, List.drop_zero, List.length_cons]
    rw [if_neg (by omega), if_neg (by omega), if_neg (by omega), if_neg (by simp), if_neg (by simp),
      if_neg (by rw [Nat.mul_div_cancel_left _ hg]; simp), if_neg (by omega), if_neg (by omega), if_neg (by omega),
      (checkWins_ok _ ()).mpr hw, (checkBias_ok _ _ ()).mpr hb]
    have : group * m ≠ 0 := Nat.ne_of_gt (Nat.mul_pos hg hm)
    simp only [if_neg this]

theorem mkWins_ne (I K : Shape) (pad : List Int) (stride dil : List Nat) (hI : I ≠ []) (hK : K.length = I.length) (hp : pad.length = I.length)
    (hs : stride.length = I.length) (hd : dil.length = I.length) : mkWins I K pad stride dil ≠ [] := by
  intro e
  have := (mkWins_inps I K pad stride dil hK hp hs hd).1
  rw [e] at this
  exact hI this.symm

/-- **C88.** What setup leaves satisfies the hypotheses of the other theorems. -/
theorem C88_conv_setup_wf (axis : Int) (pad : List Int) (stride dil : List Nat) (group : Nat) (xs ws : Shape) (bs : Option Shape) (c : Conv) (out : Shape)
    (h : convSetup axis pad stride dil group xs ws bs = .ok (c, out)) :
    c.WF ∧ ∃ A, c.outer = prod A ∧ xs = A ++ c.chI :: inps c.ws ∧ ws = c.chO :: c.cg :: kers c.ws ∧ out = A ++ c.chO :: outs c.ws ∧
      ∀ w ∈ c.ws, 0 < w.stride ∧ 0 < w.out := by
  obtain ⟨A, I, K, cg, m, rfl, hI, rfl, hax, hg, hm, hK, hp, hs, hd, hb, hw, e⟩ := (C88_conv_setup _ _ _ _ _ _ _ _ _).mp h
  injection e with e1 e2
  subst e1 e2
  obtain ⟨i1, i2⟩ := mkWins_inps I K pad stride dil hK hp hs hd
  refine ⟨⟨hg, rfl, ?_, mkWins_ne I K pad stride dil hI hK hp hs hd⟩, A, rfl, by rw [i1], by rw [i2], rfl, ?_⟩
  · simp only [Conv.M, Nat.mul_div_cancel_left _ hg]
  · intro w hw'
    have := hw w hw'
    exact ⟨this.1, by unfold Win.out; omega⟩

/-- **C88.** When the (dilated) kernel fits in the padded axis at all, the output extent is exactly the number of positions at
which it fits. -/
theorem C88_out_size (w : Win) (hs : 0 < w.stride) (hfit : (w.dil : Int) * (w.ker - 1) + 1 ≤ w.inp + 2 * w.pad) (p : Nat) :
    p < w.out ↔ (p : Int) * w.stride + ((w.dil : Int) * (w.ker - 1) + 1) ≤ w.inp + 2 * w.pad := by
  unfold Win.out Win.outInt
  generalize hX : (w.inp : Int) + 2 * w.pad - ((w.dil : Int) * ((w.ker : Int) - 1) + 1) = X
  have hX0 : 0 ≤ X := by omega
  rw [Int.tdiv_eq_ediv_of_nonneg hX0]
  have hs' : (0 : Int) < w.stride := by exact_mod_cast hs
  have e : p < (X / (w.stride : Int) + 1).toNat ↔ (p : Int) ≤ X / (w.stride : Int) := by
    have := Int.ediv_nonneg hX0 (Int.le_of_lt hs')
    omega
  rw [e, Int.le_ediv_iff_mul_le hs']
  omega

/-- **C88 (refuted part).** A kernel of 3 on an axis of 2 without padding fits nowhere, yet with a stride of 2 setup accepts
it and produces one output position, because C++ rounds (2 - 3) / 2 towards zero. -/
theorem C88_out_size_refuted : convSetup 1 [0] [2] [1] 1 [4, 1, 2] [1, 1, 3] none = .ok (⟨4, 1, 1, 1, 1, [⟨2, 3, 0, 2, 1⟩]⟩, [4, 1, 1]) := by
  rfl

example : convSetup (-3) [1, 0] [2, 1] [1, 2] 2 [5, 4, 6, 7] [6, 2, 3, 3] (some [6]) =
    .ok (⟨5, 2, 2, 4, 6, [⟨6, 3, 1, 2, 1⟩, ⟨7, 3, 0, 1, 2⟩]⟩, [5, 6, 3, 3]) := by rfl
example : convSetup 1 [0] [1] [1] 1 [4, 1, 2] [1, 1, 3] none = .error "Invalid configuration of convolution" := by rfl

/-! ### C89: what deconvolution accepts -/

/-- The output extent of deconvolution on one axis: stride * (o - 1) + dilated kernel - 2 pad + output padding. -/
def deSize (o k : Nat) (p : Int) (s d : Nat) (op : Int) : Int := s * ((o : Int) - 1) + (d * ((k : Int) - 1) + 1) - 2 * p + op

/-- All axes of deconvolution are acceptable. -/
def DeOk : List Nat → List Nat → List Int → List Nat → List Nat → List Int → List Nat → Prop
  | o :: os, k :: ks, p :: ps, s :: ss, d :: ds, op :: ops, l => 0 < deSize o k p s d op ∧ op < s ∧
      ∃ l', l = (deSize o k p s d op).toNat :: l' ∧ DeOk os ks ps ss ds ops l'
  | _, _, _, _, _, _, l => l = []

theorem deSizes_ok (os ks : List Nat) (ps : List Int) (ss ds : List Nat) (ops : List Int) (l : List Nat) :
    deSizes os ks ps ss ds ops = .ok l ↔ DeOk os ks ps ss ds ops l := by
  fun_induction deSizes os ks ps ss ds ops generalizing l with
  | case1 o os k ks p ps s ss d ds op ops k' size h =>
    refine ⟨fun h => (by cases h), fun h' => absurd h'.1 (by simpa [deSize, size, k'] using h)⟩
  | case2 o os k ks p ps s ss d ds op ops k' size h h' =>
    refine ⟨fun h => (by cases h), fun h2 => absurd h2.2.1 h'⟩
  | case3 o os k ks p ps s ss d ds op ops k' size h h' e he ih =>
    refine ⟨fun h => (by cases h), fun h2 => ?_⟩
    obtain ⟨_, _, l', _, hl'⟩ := h2
    have := (ih l').mpr hl'
    rw [he] at this; cases this
  | case4 o os k ks p ps s ss d ds op ops k' size h h' l1 he ih =>
    constructor
    · intro e
      injection e with e
      exact ⟨by simpa [deSize, size, k'] using h, by simpa using h', l1, e.symm, (ih l1).mp he⟩
    · rintro ⟨_, _, l', rfl, hl'⟩
      have := (ih l').mpr hl'
      rw [he] at this
      injection this with this
      rw [this]; rfl
  | case5 os ks ps ss ds ops hno =>
    have : DeOk os ks ps ss ds ops l = (l = []) := by
      unfold DeOk
      split
      · exact absurd rfl (hno _ _ _ _ _ _ _ _ _ _ _ _ · rfl rfl rfl rfl rfl)
      · rfl
    rw [this]
    constructor
    · intro e; injection e with e; exact e.symm
    · rintro rfl; rfl

/-- **C89.** Deconvolution's setup accepts exactly data A ++ [any number of channels] ++ O with O not empty, and weights
[group * m, cg] ++ K, with one kernel extent, pad, stride, dilation and output padding per axis (no output padding meaning
zeros), positive output extents, output paddings smaller than the strides and a bias of shape [group * cg]; the output has shape
A ++ [group * cg] ++ (stride * (o - 1) + dilated kernel - 2 * pad + output padding). -/
theorem C89_deconv_setup (axis : Int) (pad : List Int) (stride dil : List Nat) (opad : List Int) (group : Nat) (ys ws : Shape) (bs : Option Shape)
    (p : Conv × Shape) :
    deconvSetup axis pad stride dil opad group ys ws bs = .ok p ↔ ∃ (A O K sizes : Shape) (ch cg m : Nat) (op : List Int), ys = A ++ ch :: O ∧ O ≠ [] ∧
      ws = (group * m) :: cg :: K ∧ (axis = A.length ∨ axis = (A.length : Int) - ys.length) ∧ 0 < group ∧ 0 < m ∧ K.length = O.length ∧
      pad.length = O.length ∧ stride.length = O.length ∧ dil.length = O.length ∧ op.length = O.length ∧
      (op = if opad = [] then List.replicate O.length 0 else opad) ∧ (∀ b, bs = some b → b = [group * cg]) ∧
      DeOk O K pad stride dil op sizes ∧
      p = (⟨prod A, group, cg, group * cg, group * m, mkWins sizes K pad stride dil⟩, A ++ (group * cg) :: sizes) := by
  constructor
  · intro h
    rw [deconvSetup] at h
    cases ha : refineAxis axis ys.length with
    | error e => rw [ha] at h; cases h
    | ok a =>
      rw [ha] at h
      simp only at h
      obtain ⟨hal, hax⟩ := refine_split axis ys a ha
      by_cases h1 : ¬ a + 1 < ys.length
      · rw [if_pos h1] at h; cases h
      rw [if_neg h1] at h
      by_cases h2 : ws.length ≠ 2 + (ys.length - a - 1)
      · rw [if_pos h2] at h; cases h
      rw [if_neg h2] at h
      by_cases h3 : group = 0
      · rw [if_pos h3] at h; cases h
      rw [if_neg h3] at h
      by_cases h4 : ws.getD 1 0 * group % group ≠ 0
      · rw [if_pos h4] at h; cases h
      rw [if_neg h4] at h
      by_cases h5 : ws.getD 0 0 % group ≠ 0
      · rw [if_pos h5] at h; cases h
      rw [if_neg h5] at h
      by_cases h6 : ws.getD 1 0 * group / group ≠ ws.getD 1 0
      · rw [if_pos h6] at h; cases h
      rw [if_neg h6] at h
      by_cases h7 : pad.length ≠ ys.length - a - 1
      · rw [if_pos h7] at h; cases h
      rw [if_neg h7] at h
      by_cases h8 : stride.length ≠ ys.length - a - 1
      · rw [if_pos h8] at h; cases h
      rw [if_neg h8] at h
      by_cases h9 : dil.length ≠ ys.length - a - 1
      · rw [if_pos h9] at h; cases h
      rw [if_neg h9] at h
      obtain ⟨op, hop⟩ : ∃ op, op = if opad.isEmpty then List.replicate (ys.length - a - 1) 0 else opad := ⟨_, rfl⟩
      rw [← hop] at h
      by_cases h11 : op.length ≠ ys.length - a - 1
      · rw [if_pos h11] at h; cases h
      rw [if_neg h11] at h
      cases hw : deSizes (ys.drop (a + 1)) (ws.drop 2) pad stride dil op with
      | error e => rw [hw] at h; cases h
      | ok sizes =>
        rw [hw] at h
        simp only at h
        cases hb : checkBias bs (ws.getD 1 0 * group) with
        | error e => rw [hb] at h; cases h
        | ok u' =>
          rw [hb] at h
          simp only at h
          by_cases h10 : ws.getD 0 0 = 0
          · rw [if_pos h10] at h; cases h
          rw [if_neg h10] at h
          injection h with h
          have hx : ys = ys.take a ++ ys.getD a 0 :: ys.drop (a + 1) := by
            conv_lhs => rw [← List.take_append_drop a ys, List.drop_eq_getElem_cons hal]
            simp [List.getD_eq_getElem?_getD, List.getElem?_eq_getElem hal]
          obtain ⟨w0, w1, K, rfl⟩ : ∃ w0 w1 K, ws = w0 :: w1 :: K := by
            cases ws with
            | nil => exact absurd (show (0 : Nat) ≠ 2 + (ys.length - a - 1) by omega) h2
            | cons w0 ws => cases ws with
              | nil => exact absurd (show (1 : Nat) ≠ 2 + (ys.length - a - 1) by omega) h2
              | cons w1 K => exact ⟨w0, w1, K, rfl⟩
          simp only [List.getD_cons_zero, List.getD_cons_succ, List.drop_succ_cons, List.drop_zero] at *
          have hd' : group * (w0 / group) = w0 := by
            have := Nat.div_add_mod w0 group; omega
          have hlen : (ys.drop (a + 1)).length = ys.length - a - 1 := by simp; omega
          have htl : (ys.take a).length = a := by simp; omega
          simp only [List.length_cons] at h2
          refine ⟨ys.take a, ys.drop (a + 1), K, sizes, ys.getD a 0, w1, w0 / group, op, hx, ?_, ?_, ?_, by omega, ?_, by omega, by omega, by omega, by omega,
            by omega, ?_, ?_, ?_, ?_⟩
          · intro e; rw [e] at hlen; simp at hlen; omega
          · rw [hd']
          · rw [htl]; exact hax
          · exact Nat.pos_of_ne_zero fun e => h10 (by rw [← hd', e, Nat.mul_zero])
          · rw [hlen, hop]
            cases opad <;> simp
          · rw [Nat.mul_comm group w1]; exact (checkBias_ok _ _ _).mp hb
          · exact (deSizes_ok _ _ _ _ _ _ _).mp hw
          · rw [← h, hd', Nat.mul_comm group w1]
  · rintro ⟨A, O, K, sizes, ch, cg, m, op, rfl, hO, rfl, hax, hg, hm, hK, hp, hs, hd, hopl, hop, hb, hw, rfl⟩
    have hl : (A ++ ch :: O).length = A.length + (O.length + 1) := by simp
    have hIl : 0 < O.length := List.length_pos_iff.mpr hO
    have hr := refine_at axis A.length (A ++ ch :: O).length (by omega) hax
    have g2 : (A ++ ch :: O).take A.length = A := by simp
    have g3 : (A ++ ch :: O).drop (A.length + 1) = O := by simp
    have g4 : (if opad.isEmpty then List.replicate (A.length + (O.length + 1) - A.length - 1) (0 : Int) else opad) = op := by
      rw [hop, show A.length + (O.length + 1) - A.length - 1 = O.length by omega]
      cases opad <;> simp
    rw [deconvSetup, hr]
    simp only [g2, g3, g4, hl, List.getD_cons_zero, List.getD_cons_succ, List.drop_succ_cons, List.drop_zero, List.length_cons]
    rw [Nat.mul_comm cg group] 
    rw [if_neg (by omega), if_neg (by omega), if_neg (by omega), if_neg (by simp), if_neg (by simp),
      if_neg (by rw [Nat.mul_div_cancel_left _ hg]; simp), if_neg (by omega), if_neg (by omega), if_neg (by omega), if_neg (by omega),
      (deSizes_ok _ _ _ _ _ _ _).mpr hw]
    simp only
    rw [(checkBias_ok _ _ ()).mpr hb]
    have : group * m ≠ 0 := Nat.ne_of_gt (Nat.mul_pos hg hm)
    simp only [if_neg this]

/-- The windows that slide over the output have as many positions as the data has elements, axis by axis, when the output
paddings are not negative and no axis of the data is empty. -/
theorem deOk_outs (os ks : List Nat) (ps : List Int) (ss ds : List Nat) (ops : List Int) (l : List Nat) (h : DeOk os ks ps ss ds ops l)
    (h1 : ks.length = os.length) (h2 : ps.length = os.length) (h3 : ss.length = os.length) (h4 : ds.length = os.length) (h5 : ops.length = os.length)
    (hop : ∀ p ∈ ops, 0 ≤ p) (ho : ∀ o ∈ os, 0 < o) : l.length = os.length ∧ outs (mkWins l ks ps ss ds) = os := by
  induction os generalizing ks ps ss ds ops l with
  | nil =>
    have : l = [] := h
    subst this
    exact ⟨rfl, rfl⟩
  | cons o os ih => cases ks with
    | nil => simp at h1
    | cons k ks => cases ps with
      | nil => simp at h2
      | cons p ps => cases ss with
        | nil => simp at h3
        | cons s ss => cases ds with
          | nil => simp at h4
          | cons d ds => cases ops with
            | nil => simp at h5
            | cons op ops =>
              obtain ⟨hpos, hlt, l', rfl, hl'⟩ := h
              obtain ⟨i1, i2⟩ := ih ks ps ss ds ops l' hl' (by simpa using h1) (by simpa using h2) (by simpa using h3) (by simpa using h4)
                (by simpa using h5) (fun q hq => hop q (List.mem_cons_of_mem _ hq)) (fun q hq => ho q (List.mem_cons_of_mem _ hq))
              refine ⟨by simp [i1], ?_⟩
              have h0 := hop op (List.mem_cons_self ..)
              have ho0 := ho o (List.mem_cons_self ..)
              simp only [mkWins, outs, List.map_cons] at i2 ⊢
              rw [i2]
              congr 1
              have hs : (0 : Int) < s := by omega
              unfold Win.out Win.outInt
              have e : ((deSize o k p s d op).toNat : Int) + 2 * p - ((d : Int) * ((k : Int) - 1) + 1) = op + s * ((o : Int) - 1) := by
                rw [Int.toNat_of_nonneg (by omega)]
                unfold deSize; omega
              simp only [e]
              have hn : 0 ≤ (s : Int) * ((o : Int) - 1) := Int.mul_nonneg (by omega) (by omega)
              rw [Int.tdiv_eq_ediv_of_nonneg (by omega), Int.add_mul_ediv_left _ _ (by omega), Int.ediv_eq_zero_of_lt h0 hlt]
              omega

/-- **C89.** With output paddings that are not negative, no empty spatial axis and the data having the channels the weights
expect, what setup leaves satisfies the hypotheses of the other theorems and matches the shapes of data, weights and output. -/
theorem C89_deconv_setup_wf_partial (axis : Int) (pad : List Int) (stride dil : List Nat) (opad : List Int) (group : Nat) (ys ws : Shape) (bs : Option Shape)
    (c : Conv) (out : Shape) (h : deconvSetup axis pad stride dil opad group ys ws bs = .ok (c, out)) (hop : ∀ p ∈ opad, 0 ≤ p) (hpos : ∀ d ∈ ys, 0 < d) :
    c.WF ∧ ∃ A ch, c.outer = prod A ∧ ys = A ++ ch :: outs c.ws ∧ ws = c.chO :: c.cg :: kers c.ws ∧ out = A ++ c.chI :: inps c.ws := by
  obtain ⟨A, O, K, sizes, ch, cg, m, op, rfl, hO, rfl, hax, hg, hm, hK, hp, hs, hd, hopl, hope, hb, hw, e⟩ := (C89_deconv_setup _ _ _ _ _ _ _ _ _ _).mp h
  injection e with e1 e2
  subst e1 e2
  have hop' : ∀ p ∈ op, 0 ≤ p := by
    intro p hp
    rw [hope] at hp
    by_cases he : opad = []
    · rw [if_pos he] at hp
      rw [List.eq_of_mem_replicate hp]
    · rw [if_neg he] at hp
      exact hop p hp
  obtain ⟨o1, o2⟩ := deOk_outs O K pad stride dil op sizes hw hK hp hs hd hopl hop' fun o ho => hpos o (by simp [ho])
  obtain ⟨i1, i2⟩ := mkWins_inps sizes K pad stride dil (by omega) (by omega) (by omega) (by omega)
  refine ⟨⟨hg, rfl, ?_, ?_⟩, A, ch, rfl, by rw [o2], by rw [i2], by rw [i1]⟩
  · simp only [Conv.M, Nat.mul_div_cancel_left _ hg]
  · intro e
    have e : mkWins sizes K pad stride dil = [] := e
    rw [e] at o2
    exact hO o2.symm

/-- **C89 (refuted part).** The number of channels of the data is never compared with the weights: data of one channel is
accepted for weights that expect two, and the result depends on memory beyond the data's only element. -/
theorem C89_channels_unchecked : ∃ c out, deconvSetup 1 [0] [1] [1] [] 1 [1, 1, 1] [2, 1, 1] none = .ok (c, out) ∧ prod [1, 1, 1] = 1 ∧
    ∃ y y' w : Mem ℝ, y 0 = y' 0 ∧ c.deForward y w none (fun _ => 0) (fun _ => 0) 0 ≠ c.deForward y' w none (fun _ => 0) (fun _ => 0) 0 := by
  refine ⟨⟨1, 1, 1, 1, 2, [⟨1, 1, 0, 1, 1⟩]⟩, [1, 1, 1], by rfl, by rfl, fun _ => 0, fun k => if k = 1 then 1 else 0, fun _ => 1, by simp, ?_⟩
  have hwf : Conv.WF ⟨1, 1, 1, 1, 2, [⟨1, 1, 0, 1, 1⟩]⟩ := ⟨by decide, by decide, by decide, by simp⟩
  have f := fun y : Mem ℝ => Conv.C89_deconv ⟨1, 1, 1, 1, 2, [⟨1, 1, 0, 1, 1⟩]⟩ hwf [1] rfl y (fun _ => 1) none (fun _ => 0) (fun _ => 0) [0] 0 0 [0]
    (by decide) (by decide) (by decide) (by decide)
  have f1 := f (fun _ => 0)
  have f2 := f (fun k => if k = 1 then 1 else 0)
  simp [ravel, prod, inps, outs, kers, Win.out, Win.outInt, indices, srcIndex, Win.sees, Finset.sum_range_succ, List.range_succ] at f1 f2
  rw [f1, f2]
  norm_num

/-- **C89 (refuted part).** A negative output padding is accepted, and then the fold runs over fewer columns than setup
counted (2 instead of the 3 elements of the data). -/
theorem C89_negative_output_padding : ∃ c out, deconvSetup 1 [0] [2] [1] [-1] 1 [1, 1, 3] [1, 1, 2] none = .ok (c, out) ∧ outs c.ws = [2] := by
  exact ⟨⟨1, 1, 1, 1, 1, [⟨5, 2, 0, 2, 1⟩]⟩, [1, 1, 5], by rfl, by rfl⟩

example : deconvSetup 1 [1] [2] [1] [1] 2 [5, 6, 4] [6, 2, 3] (some [4]) = .ok (⟨5, 2, 2, 4, 6, [⟨8, 3, 1, 2, 1⟩]⟩, [5, 4, 8]) := by rfl
example : ∀ p ∈ [(1 : Int)], 0 ≤ p := by decide
/-- The hypotheses of the formula and gradient theorems on a two-group 2-d convolution. -/
example : Conv.WF ⟨5, 2, 2, 4, 6, [⟨6, 3, 1, 2, 1⟩, ⟨7, 3, 0, 1, 2⟩]⟩ ∧ InBounds (outs [⟨6, 3, 1, 2, 1⟩, ⟨7, 3, 0, 1, 2⟩]) [2, 1] ∧ InBounds [5] [4] :=
  ⟨⟨by decide, by decide, by decide, by simp⟩, by decide, by decide⟩

end Verif.Elem
