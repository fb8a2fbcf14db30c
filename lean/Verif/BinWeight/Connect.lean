import Verif.BinWeight.Model
/-
BinaryConnectAffine with bias (/repo/src/nbla/function/generic/binary_connect_affine.cpp). Property C236.
Exact reals; matrices are functions of (row, column); n rows of x, k inner, m columns. The internal Affine is modelled by its documented result
(/repo/src/nbla/function/generic/affine.cpp), Sign's backward passes the gradient (/repo/include/nbla/function/sign.hpp:50).
-/
namespace Verif.BinWeight

open Finset

/-- Data and gradients of the inputs x, float weights w, binary weights wb, bias b, and the output y. -/
structure St where
  (x w wb y gx gw gwb : Nat → Nat → ℝ)
  (b gb : Nat → ℝ)

/-- forward_impl (binary_connect_affine.cpp:59-72). -/
noncomputable def connectForward (z : ℝ) (k : Nat) (s : St) : St :=
  let s := { s with wb := fun i j => sign z (s.w i j) }
  { s with y := fun r c => ∑ i ∈ range k, s.x r i * s.wb i c + s.b c }

/-- The backward of Affine on (x, wb, b) for the output gradient gy, the i-th gradient if requested, overwriting or accumulating (affine.cpp backward_impl). -/
def affineBackward (n m : Nat) (gy : Nat → Nat → ℝ) (pd acc : Bool × Bool × Bool) (s : St) : St :=
  { s with
    gx := fun r i => if pd.1 then (if acc.1 then s.gx r i else 0) + ∑ c ∈ range m, gy r c * s.wb i c else s.gx r i
    gwb := fun i c => if pd.2.1 then (if acc.2.1 then s.gwb i c else 0) + ∑ r ∈ range n, s.x r i * gy r c else s.gwb i c
    gb := fun c => if pd.2.2 then (if acc.2.2 then s.gb c else 0) + ∑ r ∈ range n, gy r c else s.gb c }

/-- backward_impl (binary_connect_affine.cpp:74-94); `pd`, `acc` for x, w, b. -/
def connectBackward (n m : Nat) (gy : Nat → Nat → ℝ) (pd acc : Bool × Bool × Bool) (s : St) : St :=
  let s := affineBackward n m gy pd (acc.1, false, acc.2.2) s
  if pd.2.1 then { s with gw := fun i c => (if acc.2.1 then s.gw i c else 0) + s.gwb i c } else s

/-- C236. Forward: the output is the affine map with the signs of the weights, so only their signs matter, and the float weights are kept. Backward after it: the float
weights get (or accumulate) the gradient with respect to the binary weights, whatever the binary weights' gradient held before; x gets the gradient through
the binary weights; what is not requested is not touched. -/
theorem C236_binary_connect (z : ℝ) (n k m : Nat) (s : St) (gy : Nat → Nat → ℝ) (pd acc : Bool × Bool × Bool) :
    let f := connectForward z k s
    let t := connectBackward n m gy pd acc f
    (∀ r c, f.y r c = ∑ i ∈ range k, s.x r i * sign z (s.w i c) + s.b c) ∧ f.w = s.w ∧ t.w = s.w ∧
      (∀ i c, f.wb i c = 1 ∨ f.wb i c = -1 ∨ (f.wb i c = z ∧ s.w i c = 0)) ∧
      (∀ i c, t.gw i c = if pd.2.1 then (if acc.2.1 then s.gw i c else 0) + ∑ r ∈ range n, s.x r i * gy r c else s.gw i c) ∧
      (∀ r i, t.gx r i = if pd.1 then (if acc.1 then s.gx r i else 0) + ∑ c ∈ range m, gy r c * sign z (s.w i c) else s.gx r i) ∧
      ∀ c, t.gb c = if pd.2.2 then (if acc.2.2 then s.gb c else 0) + ∑ r ∈ range n, gy r c else s.gb c := by
  intro f t
  refine ⟨fun r c => rfl, rfl, ?_, fun i c => ?_, fun i c => ?_, fun r i => ?_, fun c => ?_⟩
  · show (connectBackward n m gy pd acc f).w = s.w
    unfold connectBackward; simp only; split <;> rfl
  · show sign z (s.w i c) = 1 ∨ sign z (s.w i c) = -1 ∨ (sign z (s.w i c) = z ∧ s.w i c = 0)
    unfold sign
    split
    · exact Or.inl rfl
    · split
      · exact Or.inr (Or.inl rfl)
      · next h1 h2 => exact Or.inr (Or.inr ⟨rfl, le_antisymm (not_lt.1 h1) (not_lt.1 h2)⟩)
  · show (connectBackward n m gy pd acc f).gw i c = _
    unfold connectBackward affineBackward
    by_cases h : pd.2.1 = true
    · simp [h, f, connectForward]
    · simp [h, f, connectForward]
  · show (connectBackward n m gy pd acc f).gx r i = _
    unfold connectBackward affineBackward
    by_cases h : pd.2.1 = true <;> simp [h, f, connectForward]
  · show (connectBackward n m gy pd acc f).gb c = _
    unfold connectBackward affineBackward
    by_cases h : pd.2.1 = true <;> simp [h, f, connectForward]

/-- C236 (signs only). Weights of the same signs give the same output. -/
theorem C236_signs (z : ℝ) (k : Nat) (s : St) (w' : Nat → Nat → ℝ) (h : ∀ i c, sign z (w' i c) = sign z (s.w i c)) :
    (connectForward z k { s with w := w' }).y = (connectForward z k s).y := by
  funext r c
  simp only [connectForward, h]

/-- A case: 1 x 1, x = 3, w = -1/5, b = 1: the output is -2, the gradient of w accumulates 3 on 10, whatever the binary gradient held. -/
example : let s : St := ⟨fun _ _ => 3, fun _ _ => -1 / 5, fun _ _ => 0, fun _ _ => 0, fun _ _ => 0, fun _ _ => 10, fun _ _ => 77, fun _ => 1, fun _ => 0⟩
    (connectForward 0 1 s).y 0 0 = -2 ∧
      (connectBackward 1 1 (fun _ _ => 1) (true, true, true) (false, true, false) (connectForward 0 1 s)).gw 0 0 = 13 := by
  intro s
  have h := C236_binary_connect 0 1 1 1 s (fun _ _ => 1) (true, true, true) (false, true, false)
  refine ⟨?_, ?_⟩
  · rw [h.1]; simp only [s, sign]; norm_num
  · rw [h.2.2.2.2.1]; simp only [s]; norm_num

end Verif.BinWeight
