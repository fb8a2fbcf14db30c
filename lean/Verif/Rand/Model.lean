import Verif.Fn.Masked
/-
Random augmentation functions: RandomShift, RandomCrop, RandomFlip.
Models /repo/src/nbla/function/generic/{random_shift,random_crop,random_flip}.cpp.
Simplifications: `int` is unbounded; the output of `std::mt19937` is a natural number; pointers are offsets;
the recursions are described by the list of (offset in y, offset in x) pairs in execution order (the loop
bodies are `fwdC`, `fwd`, `bwdAdd`, `bwdSet` of Verif.Fn); an array has at least one axis (refine_axis raises
on a scalar), so the last-axis branch is the recursion with one more level whose body is a single element.
-/
namespace Verif.Rand
open Verif.ND Verif.Fn

/-- A pseudo random generator: the next number and the next state (`rgen()`). -/
abbrev Gen (G : Type) := G → Nat × G

/-- `n` successive calls of the generator, in order. -/
def draws {G} (next : Gen G) : Nat → G → List Nat × G
  | 0, g => ([], g)
  | n + 1, g => let r := next g; let r' := draws next n r.2; (r.1 :: r'.1, r'.2)

/-- `x_offset + table[i]`, where CVAL_INDEX (here `none`) in either makes the result CVAL_INDEX
(random_shift.cpp:90-104). -/
def addOff (xo t : Option Nat) : Option Nat :=
  match xo, t with
  | some a, some b => some (a + b)
  | _, _ => none

/-- shift_recursive, slice_forward_recursive, flip_recursive (random_shift.cpp:81-112,
random_crop.cpp:56-91, random_flip.cpp:45-87): one level per axis. `tab k dim i` is what step `i` along axis
`dim` adds to the offset in x when the pattern number at entry of the level is `k`; the pattern number is a
reference shared by all levels, advanced modulo the number `n` of patterns after each step along an axis
before `base`. Returns the pairs visited and the pattern number at exit. -/
def walk (base n : Nat) (tab : Nat → Nat → Nat → Option Nat) :
    Shape → Nat → Nat → Option Nat → Nat → CPairs × Nat
  | [], _, yo, xo, k => ([(yo, xo)], k)
  | s :: rest, dim, yo, xo, k =>
    (List.range s).foldl (fun (acc : CPairs × Nat) i =>
      let r := walk base n tab rest (dim + 1) (yo + i * prod rest) (addOff xo (tab k dim i)) acc.2
      (acc.1 ++ r.1, if dim < base then (r.2 + 1) % n else r.2)) ([], k)

/-- size_ = inputs[0]->size() / inputs[0]->size(base_axis_) (random_shift.cpp:39, random_crop.cpp:41,
random_flip.cpp:39): the number of patterns. Integer division by zero (an empty sample) is out of the model:
the theorems assume a non-empty input. -/
def nPatterns (sh : Shape) (base : Nat) : Nat := prod sh / prod (sh.drop base)

/-! ### RandomShift -/

/-- border_mode_. -/
inductive Border | reflect | nearest | constant
deriving DecidableEq, Repr

/-- One entry of prepare_addr_table without the stride (random_shift.cpp:59-77): the position along an axis
of extent `size` read for position `i` of the output when the drawn shift is `-shift`. -/
def tableEntry (mode : Border) (size : Nat) (shift : Int) (i : Nat) : Option Nat :=
  match mode with
  | .reflect =>
    let a : Nat := if size > 1 then ((i : Int) + size * 2 + shift).natAbs % (size * 2) else 0
    some (if a ≥ size then size * 2 - 1 - a else a)
  | .nearest => some (min (max ((i : Int) + shift) 0) ((size : Int) - 1)).toNat
  | .constant =>
    if (i : Int) + shift < 0 ∨ (i : Int) + shift ≥ size then none else some ((i : Int) + shift).toNat

/-- `rgen() % (shifts_[id] * 2 + 1) - shifts_[id]` (random_shift.cpp:160). -/
def drawShift (s : Nat) (r : Nat) : Int := ((r % (s * 2 + 1) : Nat) : Int) - s

/-- The drawn shifts, one list per pattern (random_shift.cpp:156-163). -/
def drawShifts {G} (next : Gen G) (shifts : List Nat) : Nat → G → List (List Int) × G
  | 0, g => ([], g)
  | n + 1, g =>
    let r := draws next shifts.length g
    let r' := drawShifts next shifts n r.2
    (List.zipWith drawShift shifts r.1 :: r'.1, r'.2)

/-- `shift_index >= 0 ? -shifts[shift_index] : 0` with shift_index = shifts.size() - in_dim + id
(random_shift.cpp:56-57). -/
def axisShift (shifts : List Int) (ndim dim : Nat) : Int :=
  if shifts.length + dim ≥ ndim then - shifts.getD (shifts.length + dim - ndim) 0 else 0

/-- addr_table_[k][dim][i] (random_shift.cpp:44-79). -/
def shiftTab (mode : Border) (sh : Shape) (pats : List (List Int)) (k dim i : Nat) : Option Nat :=
  (tableEntry mode (sh.getD dim 0) (axisShift (pats.getD k []) sh.length dim) i).map (· * prod (sh.drop (dim + 1)))

/-- The pairs visited by shift_recursive(…, 0, 0, 0, shift_index = 0) (random_shift.cpp:167-168). -/
def shiftPairs (mode : Border) (sh : Shape) (base : Nat) (pats : List (List Int)) : CPairs :=
  (walk base pats.length (shiftTab mode sh pats) sh 0 0 (some 0) 0).1

/-- RandomShift::random_shift (random_shift.cpp:152-169) after the patterns have been drawn. -/
def shiftForward {R} (mode : Border) (c : R) (sh : Shape) (base : Nat) (pats : List (List Int)) (x y : Mem R) : Mem R :=
  fwdC (shiftPairs mode sh base pats) c x y

/-- RandomShift::backward_impl (random_shift.cpp:192-207) with propagate_down[0]; shift_backward_recursive
(random_shift.cpp:114-144) visits the same pairs. -/
def shiftBackward {R} [Zero R] [Add R] (mode : Border) (sh : Shape) (base : Nat) (pats : List (List Int))
    (accum : Bool) (dy dx : Mem R) : Mem R :=
  bwdAdd (somes (shiftPairs mode sh base pats)) dy (if accum then dx else zeros)

/-! ### RandomCrop -/

/-- RandomCrop::setup_impl (random_crop.cpp:43-53): the output shape; `none` is the raised error.
Simplification: more crop extents than axes (a negative dim_offset_, out of bounds in C++) is an error here. -/
def cropSetup (xsh crop : Shape) : Option Shape :=
  if crop.length ≤ xsh.length then
    if (List.zip crop (xsh.drop (xsh.length - crop.length))).all (fun p => p.1 ≤ p.2) then
      some (xsh.take (xsh.length - crop.length) ++ crop)
    else none
  else none

/-- One random crop position per axis (random_crop.cpp:143-149): axes before dim_offset_ consume no number. -/
def drawLefts {G} (next : Gen G) : Nat → Shape → Shape → G → List Nat × G
  | 0, x :: xs, c :: cs, g =>
    let r := next g
    let r' := drawLefts next 0 xs cs r.2
    (r.1 % (x - c + 1) :: r'.1, r'.2)
  | 0, _, _, g => ([], g)
  | off + 1, _ :: xs, cs, g => let r' := drawLefts next off xs cs g; (0 :: r'.1, r'.2)
  | _ + 1, [], _, g => ([], g)

/-- start_ for all patterns (random_crop.cpp:136-154). -/
def drawCrops {G} (next : Gen G) (xsh crop : Shape) : Nat → G → List (List Nat) × G
  | 0, g => ([], g)
  | n + 1, g =>
    let r := drawLefts next (xsh.length - crop.length) xsh crop g
    let r' := drawCrops next xsh crop n r.2
    (r.1 :: r'.1, r'.2)

/-- Offset added by step `i` along axis `dim` (random_crop.cpp:62-65, 84-85): start_ times the stride of x, plus
`i` strides of x (step_ is 1). -/
def cropTab (xsh : Shape) (starts : List (List Nat)) (k dim i : Nat) : Option Nat :=
  some ((((starts.getD k []).getD dim 0) + i) * prod (xsh.drop (dim + 1)))

/-- The pairs visited by slice_forward_recursive (random_crop.cpp:159-160). -/
def cropPairs (xsh ysh : Shape) (base : Nat) (starts : List (List Nat)) : CPairs :=
  (walk base starts.length (cropTab xsh starts) ysh 0 0 (some 0) 0).1

/-- RandomCrop::random_crop (random_crop.cpp:133-161) after the positions have been drawn. -/
def cropForward {R} (xsh ysh : Shape) (base : Nat) (starts : List (List Nat)) (x y : Mem R) : Mem R :=
  fwd (somes (cropPairs xsh ysh base starts)) x y

/-- RandomCrop::backward_impl (random_crop.cpp:184-200) with propagate_down[0]; slice_backward_recursive
(random_crop.cpp:93-124) visits the same pairs. -/
def cropBackward {R} [Zero R] [Add R] (xsh ysh : Shape) (base : Nat) (starts : List (List Nat))
    (accum : Bool) (dy dx : Mem R) : Mem R :=
  bwdAdd (somes (cropPairs xsh ysh base starts)) dy (if accum then dx else zeros)

/-! ### RandomFlip -/

/-- flip_ for all patterns (random_flip.cpp:99-107): one number per axis, used only on the axes listed. -/
def drawFlips {G} (next : Gen G) (ndim : Nat) (axes : List Nat) : Nat → G → List (List Bool) × G
  | 0, g => ([], g)
  | n + 1, g =>
    let r := draws next ndim g
    let r' := drawFlips next ndim axes n r.2
    ((List.range ndim).map (fun id => r.1.getD id 0 % 2 != 0 && axes.contains id) :: r'.1, r'.2)

/-- Offset added by step `i` along axis `dim` (random_flip.cpp:49-56, 78-82): from the last position backwards if
flipped. -/
def flipTab (sh : Shape) (flips : List (List Bool)) (k dim i : Nat) : Option Nat :=
  some ((if (flips.getD k []).getD dim false then sh.getD dim 0 - 1 - i else i) * prod (sh.drop (dim + 1)))

/-- The pairs visited by flip_recursive (random_flip.cpp:109-112). -/
def flipPairs (sh : Shape) (base : Nat) (flips : List (List Bool)) : CPairs :=
  (walk base flips.length (flipTab sh flips) sh 0 0 (some 0) 0).1

/-- RandomFlip::random_flip (random_flip.cpp:96-113) after the flips have been drawn. -/
def flipForward {R} (sh : Shape) (base : Nat) (flips : List (List Bool)) (x y : Mem R) : Mem R :=
  fwd (somes (flipPairs sh base flips)) x y

/-- RandomFlip::backward_impl (random_flip.cpp:136-148) with propagate_down[0]: the same recursion with the
output gradient as its input and the input gradient as its output. -/
def flipBackward {R} [Add R] (sh : Shape) (base : Nat) (flips : List (List Bool))
    (accum : Bool) (dy dx : Mem R) : Mem R :=
  let ps := (somes (flipPairs sh base flips)).map Prod.swap
  if accum then bwdAdd ps dy dx else bwdSet ps dy dx

end Verif.Rand
