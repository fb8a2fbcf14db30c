import Mathlib.Analysis.SpecialFunctions.Log.Base
import Mathlib.Data.List.Sort
/-!
C157: incremental network quantization (src/nbla/function/generic/inq_affine.cpp, the same code in inq_convolution.cpp): the histories of
the weights and indicators of one function object.

Simplifications: weights are real numbers and log2, floor, ldexp are exact (T is float; the constant d of L180 is log2(1.5)); the weights
are indexed by `Fin n` in memory order; the affine or convolution that follows is not part of this model (it gets the weights that the
model returns). The order that std::sort gives to weights with the same absolute value, and the random bits, are inputs of the model.
-/
namespace Verif.Inq
open Classical

/-- Arguments of the function: num_bits, inq_iterations, selection_algorithm = "largest_abs" (inq_affine.hpp:84-93). -/
structure Conf where
  bits : ℕ
  iters : List ℕ
  largest : Bool

/-- The variables and the members of the function object: weights, indicators, old_weights_, old_indicators_, minibatch_counter_. -/
structure St (n : ℕ) where
  w : Fin n → ℝ
  ind : Fin n → ℕ
  oldW : Fin n → ℝ
  oldI : Fin n → ℕ
  cnt : ℕ

/-- setup_impl, part F (inq_affine.cpp:73-77). -/
def setup {n : ℕ} (w : Fin n → ℝ) (ind : Fin n → ℕ) (old : Fin n → ℝ) : St n := ⟨w, ind, old, fun _ => 0, 0⟩

/-- Part A of forward_impl (inq_affine.cpp:95-103): fixed weights get their old values. -/
noncomputable def restore {n : ℕ} (s : St n) : Fin n → ℝ := fun i => if s.oldI i = 1 then s.oldW i else s.w i

/-- The loop that fixes weights in the given order until `half` have been fixed (inq_affine.cpp:132-141). -/
def fixLoop {n : ℕ} (half : ℕ) : List (Fin n) → (Fin n → ℕ) → ℕ → (Fin n → ℕ)
  | [], ind, _ => ind
  | i :: is, ind, k =>
    let ind' := if ind i = 0 then Function.update ind i 1 else ind
    let k' := if ind i = 0 then k + 1 else k
    if half ≤ k' then ind' else fixLoop half is ind' k'

/-- The number of learnable weights (inq_affine.cpp:125-130). -/
def learnable {n : ℕ} (ind : Fin n → ℕ) : ℕ := (List.finRange n).countP fun i => ind i = 0

/-- Part B (inq_affine.cpp:105-150). `order`: the result of std::sort; `coin`: the random bits. -/
noncomputable def select {n : ℕ} (C : Conf) (cnt : ℕ) (ind : Fin n → ℕ) (order : List (Fin n)) (coin : Fin n → Bool) : Fin n → ℕ :=
  if cnt ∈ C.iters then
    if C.iters.getLast? = some cnt then fun _ => 1
    else if C.largest then fixLoop (learnable ind / 2) order ind 0
    else fun i => if ind i = 0 then (if coin i then 1 else 0) else ind i
  else ind

/-- The largest absolute value (inq_affine.cpp:153-162). -/
noncomputable def maxAbs {n : ℕ} (w : Fin n → ℝ) : ℝ :=
  let m := (List.finRange n).foldl (fun m i => if m < |w i| then |w i| else m) 0
  if m = 0 then 1 else m

/-- `floor(b) + (b - floor(b) >= log2(1.5))` with `b = log2(x)` (inq_affine.cpp:163-165, 179-182). -/
noncomputable def roundExp (x : ℝ) : ℤ :=
  ⌊Real.logb 2 x⌋ + if Real.logb 2 (3 / 2) ≤ Real.logb 2 x - ⌊Real.logb 2 x⌋ then 1 else 0

/-- n1 (inq_affine.cpp:163-165). -/
noncomputable def expMax {n : ℕ} (w : Fin n → ℝ) : ℤ := roundExp (maxAbs w)

/-- n2 (inq_affine.cpp:166). -/
noncomputable def expMin {n : ℕ} (bits : ℕ) (w : Fin n → ℝ) : ℤ := expMax w + 1 - if 2 ≤ bits then 2 ^ (bits - 2) else 0

/-- The value of one fixed weight (inq_affine.cpp:171-193). -/
noncomputable def quant (n1 n2 : ℤ) (x : ℝ) : ℝ :=
  if |x| < (2 : ℝ) ^ (n2 - 1) then 0
  else
    let s : ℝ := if x < 0 then -1 else 1
    let e := roundExp |x|
    let e := if n1 < e then n1 else e
    let e := if e < n2 then n2 else e
    s * (2 : ℝ) ^ e

/-- What a call of forward needs from outside. -/
structure Choice (n : ℕ) where
  order : List (Fin n)
  coin : Fin n → Bool

/-- forward_impl (inq_affine.cpp:80-209). -/
noncomputable def forward {n : ℕ} (C : Conf) (s : St n) (c : Choice n) : St n :=
  let w := restore s
  let ind := select C s.cnt s.ind c.order c.coin
  let w' := fun i => if ind i = 1 then quant (expMax w) (expMin C.bits w) (w i) else w i
  ⟨w', ind, w', ind, s.cnt + 1⟩

/-- A solver changes the weights. -/
def update {n : ℕ} (s : St n) (w : Fin n → ℝ) : St n := { s with w := w }

/-- A training history: before each forward the solver puts arbitrary weights. -/
noncomputable def run {n : ℕ} (C : Conf) (s : St n) : List ((Fin n → ℝ) × Choice n) → St n
  | [] => s
  | (w, c) :: r => run C (forward C (update s w) c) r

/-! ## Specification -/

/-- The values a fixed weight may have: 0 and the powers of two with exponents from `n2` to `n1`, of both signs. -/
def Codebook (n1 n2 : ℤ) (v : ℝ) : Prop := v = 0 ∨ ∃ e : ℤ, n2 ≤ e ∧ e ≤ n1 ∧ (v = (2 : ℝ) ^ e ∨ v = -(2 : ℝ) ^ e)

/-- The order is one that std::sort may give: all indices, by decreasing absolute value. -/
def Sorted {n : ℕ} (w : Fin n → ℝ) (order : List (Fin n)) : Prop :=
  order.Perm (List.finRange n) ∧ order.Pairwise fun a b => |w b| ≤ |w a|

end Verif.Inq
