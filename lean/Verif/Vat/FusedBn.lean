import Mathlib.Algebra.Order.Ring.Int
/-
FusedBatchNormalization (/repo/src/nbla/function/generic/fused_batch_normalization.cpp) around the inner batch normalization. Property
C223. A buffer is a function from flat indices with its size beside it; α stands for the number type.
-/
namespace Verif.Vat.Fused

variable {α : Type} [LinearOrder α] [AddMonoid α]

/-- The in-place addition (fused_batch_normalization.cpp:73-77; add2.cpp:38-46 for equal shapes, otherwise
base_transform_binary.hpp:264-284 with idx0 = idx): `σ i` is the element of z added to element i. -/
def addLoop (σ : Nat → Nat) (z : Nat → α) (y : Nat → α) : Nat → Nat → α
  | 0 => y
  | i + 1 => let y' := addLoop σ z y i; fun p => if p = i then y' i + z (σ i) else y' p

/-- The in-place ReLU (fused_batch_normalization.cpp:81-84; relu.cpp:33-40). -/
def reluLoop (y : Nat → α) : Nat → Nat → α
  | 0 => y
  | i + 1 => let y' := reluLoop y i; fun p => if p = i then max 0 (y' i) else y' p

/-- forward_impl (fused_batch_normalization.cpp:62-85): `h` is what the inner batch normalization wrote to the output; z is optional. -/
def forward (size : Nat) (h : Nat → α) (z : Option ((Nat → Nat) × (Nat → α))) : Nat → α :=
  match z with
  | none => reluLoop h size
  | some (σ, z) => reluLoop (addLoop σ z h size) size

/-- relu_backward (fused_batch_normalization.cpp:32-40). -/
def reluBackward (dx dy y : Nat → α) : Nat → Nat → α
  | 0 => dx
  | i + 1 => let dx' := reluBackward dx dy y i; fun p => if p = i then (if y i > 0 then dy i else 0) else dx' p

/-- add2_backward (fused_batch_normalization.cpp:42-47). `zsize` is the size of the gradient written to: a write outside is an error here;
the program does not check it. -/
def add2Backward (zsize : Nat) (dz dx : Nat → α) (accum : Bool) : Nat → Except String (Nat → α)
  | 0 => .ok dz
  | i + 1 =>
    match add2Backward zsize dz dx accum i with
    | .error e => .error e
    | .ok dz' => if i < zsize then .ok fun p => if p = i then (if accum then dz' i + dx i else dx i) else dz' p
                 else .error "write outside of the gradient"

/-- What backward does around the inner batch normalization: (gradient handed to it, new gradient of z) (function.cpp:165-171,
fused_batch_normalization.cpp:112-162). `buf` is the initial content of relu_buf (undefined in the program), `pdBn` the flags of the
first three inputs, `pdz` that of z (false without z). -/
def backward (size zsize : Nat) (pdBn : List Bool) (pdz accz : Bool) (buf dy y dz : Nat → α) :
    Except String ((Nat → α) × (Nat → α)) :=
  let dz0 : Nat → α := if pdz && !accz then (fun i => if i < zsize then 0 else dz i) else dz
  let dx := if pdz || pdBn.any id then reluBackward buf dy y size else buf
  if pdz then
    match add2Backward zsize dz0 dx accz size with
    | .error e => .error e
    | .ok dz1 => .ok (dx, dz1)
  else .ok (dx, dz0)

omit [LinearOrder α] in
theorem addLoop_apply (σ : Nat → Nat) (z y : Nat → α) (n p : Nat) :
    addLoop σ z y n p = if p < n then y p + z (σ p) else y p := by
  induction n generalizing p with
  | zero => simp [addLoop]
  | succ n ih =>
    simp only [addLoop]
    by_cases h : p = n
    · subst h; rw [if_pos rfl, if_pos (by omega), ih, if_neg (by omega)]
    · rw [if_neg h, ih]
      by_cases h2 : p < n
      · rw [if_pos h2, if_pos (by omega)]
      · rw [if_neg h2, if_neg (by omega)]

theorem reluLoop_apply (y : Nat → α) (n p : Nat) : reluLoop y n p = if p < n then max 0 (y p) else y p := by
  induction n generalizing p with
  | zero => simp [reluLoop]
  | succ n ih =>
    simp only [reluLoop]
    by_cases h : p = n
    · subst h; rw [if_pos rfl, if_pos (by omega), ih, if_neg (by omega)]
    · rw [if_neg h, ih]
      by_cases h2 : p < n
      · rw [if_pos h2, if_pos (by omega)]
      · rw [if_neg h2, if_neg (by omega)]

theorem reluBackward_apply (dx dy y : Nat → α) (n p : Nat) :
    reluBackward dx dy y n p = if p < n then (if y p > 0 then dy p else 0) else dx p := by
  induction n generalizing p with
  | zero => simp [reluBackward]
  | succ n ih =>
    simp only [reluBackward]
    by_cases h : p = n
    · subst h
      have : p < p + 1 := by omega
      simp only [if_true, this]
    · rw [if_neg h, ih]
      by_cases h2 : p < n
      · have : p < n + 1 := by omega
        simp only [h2, this, if_true]
      · have : ¬ p < n + 1 := by omega
        simp only [h2, this, if_false]

omit [LinearOrder α] in
theorem add2Backward_ok (zsize : Nat) (dz dx : Nat → α) (accum : Bool) (n : Nat) (hn : n ≤ zsize) :
    ∃ dz', add2Backward zsize dz dx accum n = .ok dz' ∧
      ∀ p, dz' p = if p < n then (if accum then dz p + dx p else dx p) else dz p := by
  induction n with
  | zero => exact ⟨dz, rfl, fun p => by simp⟩
  | succ n ih =>
    obtain ⟨dz', h1, h2⟩ := ih (by omega)
    simp only [add2Backward, h1]
    rw [if_pos (by omega)]
    refine ⟨_, rfl, fun p => ?_⟩
    by_cases h : p = n
    · subst h
      have h4 : p < p + 1 := by omega
      simp only [if_true, h4, h2, lt_irrefl, if_false]
    · rw [if_neg h, h2]
      by_cases h3 : p < n
      · have h4 : p < n + 1 := by omega
        simp only [h3, h4, if_true]
      · have h4 : ¬ p < n + 1 := by omega
        simp only [h3, h4, if_false]

/-- C223 (forward). Every element of the output is max(0, batch normalization + residual), for every way z is broadcast; without z it is
max(0, batch normalization). -/
theorem C223_forward (size : Nat) (h : Nat → α) (σ : Nat → Nat) (z : Nat → α) (i : Nat) (hi : i < size) :
    forward size h (some (σ, z)) i = max 0 (h i + z (σ i)) ∧ forward size h none i = max 0 (h i) := by
  constructor
  · simp only [forward]
    rw [reluLoop_apply, if_pos hi, addLoop_apply, if_pos hi]
  · simp only [forward]
    rw [reluLoop_apply, if_pos hi]

/-- The gradient of max(0, s) by definition of the separate ReLU function: dy where s > 0, else 0. -/
def reluGrad (s dy : α) : α := if 0 < s then dy else 0

/-- C223 (backward). With z of the shape of the output: backward succeeds; if the batch normalization propagates to any of x, beta, gamma, it gets
the gradient of ReLU at (batch normalization + residual), as in the unfused graph; z gets the same gradient, added to the old one
exactly if it is to be accumulated; without propagation to z its gradient stays. -/
theorem C223_backward_partial (size : Nat) (h z : Nat → α) (pdBn : List Bool) (pdz accz : Bool) (buf dy dz : Nat → α) :
    ∃ dx dz', backward size size pdBn pdz accz buf dy (forward size h (some (id, z))) dz = .ok (dx, dz') ∧
      (true ∈ pdBn → ∀ i < size, dx i = reluGrad (h i + z i) (dy i)) ∧
      (∀ i < size, dz' i =
        if pdz then (if accz then dz i + reluGrad (h i + z i) (dy i) else reluGrad (h i + z i) (dy i)) else dz i) ∧
      ∀ i, size ≤ i → dz' i = dz i := by
  have hg : ∀ i, i < size → (if forward size h (some (id, z)) i > 0 then dy i else 0) = reluGrad (h i + z i) (dy i) := by
    intro i hi
    rw [(C223_forward size h id z i hi).1]
    unfold reluGrad
    simp only [id, gt_iff_lt, lt_max_iff, lt_self_iff_false, false_or]
  have hany : true ∈ pdBn → pdBn.any id = true := fun hm => List.any_eq_true.2 ⟨true, hm, rfl⟩
  cases pdz with
  | false =>
    refine ⟨_, _, rfl, fun hm i hi => ?_, fun i hi => by simp, fun i hi => by simp⟩
    simp only [hany hm, Bool.or_true, if_true]
    rw [reluBackward_apply, if_pos hi, hg i hi]
  | true =>
    obtain ⟨dz1, h1, h2⟩ := add2Backward_ok size (if true && !accz then (fun i => if i < size then 0 else dz i) else dz)
      (reluBackward buf dy (forward size h (some (id, z))) size) accz size le_rfl
    refine ⟨reluBackward buf dy (forward size h (some (id, z))) size, dz1, ?_, fun hm i hi => ?_, fun i hi => ?_, fun i hi => ?_⟩
    · simp only [backward, Bool.true_or, if_true, h1]
    · rw [reluBackward_apply, if_pos hi, hg i hi]
    · rw [h2, if_pos hi, reluBackward_apply, if_pos hi, hg i hi]
      cases accz <;> simp
    · rw [h2, if_neg (by omega)]
      cases accz
      · simp only [Bool.not_false, Bool.and_self, if_true]
        rw [if_neg (by omega)]
      · simp

/-- C223 (without z). -/
theorem C223_backward_no_residual (size zsize : Nat) (h : Nat → α) (pdBn : List Bool) (accz : Bool) (buf dy dz : Nat → α)
    (hm : true ∈ pdBn) :
    ∃ dx, backward size zsize pdBn false accz buf dy (forward size h none) dz = .ok (dx, dz) ∧
      ∀ i < size, dx i = reluGrad (h i) (dy i) := by
  have hany : pdBn.any id = true := List.any_eq_true.2 ⟨true, hm, rfl⟩
  refine ⟨reluBackward buf dy (forward size h none) size, by simp [backward, hany], fun i hi => ?_⟩
  rw [reluBackward_apply, if_pos hi, (C223_forward size h id h i hi).2]
  unfold reluGrad
  simp only [gt_iff_lt, lt_max_iff, lt_self_iff_false, false_or]

/-- What is false: a z that is broadcast (fewer elements than the output) is accepted by forward, and backward always writes outside of its gradient. -/
theorem C223_broadcast_outside (size zsize : Nat) (hz : zsize < size) (pdBn : List Bool) (accz : Bool) (buf dy y dz : Nat → α) :
    (backward size zsize pdBn true accz buf dy y dz).toOption = none := by
  have : ∀ (dz dx : Nat → α) n, zsize < n → ∃ e, add2Backward zsize dz dx accz n = .error e := by
    intro dz dx n
    induction n with
    | zero => omega
    | succ n ih =>
      intro h
      simp only [add2Backward]
      by_cases h2 : zsize < n
      · obtain ⟨e, he⟩ := ih h2
        exact ⟨e, by rw [he]⟩
      · obtain ⟨d, hd, _⟩ := add2Backward_ok zsize dz dx accz n (by omega)
        rw [hd]
        exact ⟨_, by simp only; rw [if_neg (by omega)]⟩
  obtain ⟨e, he⟩ := this (if true && !accz then (fun i => if i < zsize then 0 else dz i) else dz)
    (reluBackward buf dy y size) size hz
  simp only [backward, Bool.true_or, if_true, he]
  rfl

/-- A case of the theorems: two elements, one of them cut off by ReLU. -/
example : forward 2 (fun i => if i = 0 then (3 : Int) else -5) (some (id, fun _ => 1)) 0 = 4 ∧
    forward 2 (fun i => if i = 0 then (3 : Int) else -5) (some (id, fun _ => 1)) 1 = 0 := by decide +kernel
example : ∃ dx dz', backward 2 2 [true, false, false] true true (fun _ => (99 : Int)) (fun _ => 7)
      (forward 2 (fun i => if i = 0 then 3 else -5) (some (id, fun _ => 1))) (fun _ => 10) = .ok (dx, dz') ∧
    dx 0 = 7 ∧ dx 1 = 0 ∧ dz' 0 = 17 ∧ dz' 1 = 10 := by
  obtain ⟨dx, dz', h1, h2, h3, _⟩ := C223_backward_partial (α := Int) 2 (fun i => if i = 0 then 3 else -5) (fun _ => 1)
    [true, false, false] true true (fun _ => 99) (fun _ => 7) (fun _ => 10)
  refine ⟨dx, dz', h1, ?_, ?_, ?_, ?_⟩
  · rw [h2 (by decide) 0 (by decide)]; decide
  · rw [h2 (by decide) 1 (by decide)]; decide
  · rw [h3 0 (by decide)]; decide
  · rw [h3 1 (by decide)]; decide

end Verif.Vat.Fused
