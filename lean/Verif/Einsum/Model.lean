import Mathlib.Data.List.Basic
import Mathlib.Tactic.Common
/-
The reading of an einsum equation: models EinsumGraph::preprocess_equation, compute_ellipsis_ndim, create_term, validate_input_shapes and
split_string of /repo/src/nbla/function/generic/einsum.cpp. Strings are lists of characters; only ASCII is considered. The graph that is
built from the terms (diagonals, sums, matrix products, transposition) is not modelled.
-/
namespace Verif.Einsum

/-- std::isalpha in the C locale. -/
def alpha (c : Char) : Bool := (decide ('a' ≤ c) && decide (c ≤ 'z')) || (decide ('A' ≤ c) && decide (c ≤ 'Z'))

/-- The regular expression ([a-zA-Z, ]|\.{3}|->)* matched against the whole equation (einsum.cpp:93-97). -/
def tokensOk : List Char → Bool
  | [] => true
  | '.' :: '.' :: '.' :: r => tokensOk r
  | '-' :: '>' :: r => tokensOk r
  | c :: r => (alpha c || c == ',' || c == ' ') && tokensOk r

/-- std::remove(begin, end, ' ') whose result is not used to shorten the string (einsum.cpp:100): the other characters are moved to the
front and the end of the string stays as it was (the C++ standard leaves the values there unspecified; this is what moving characters does). -/
def removeSpaces (s : List Char) : List Char :=
  let kept := s.filter (· ≠ ' ')
  kept ++ s.drop kept.length

/-- regex_replace of "..." by "." (einsum.cpp:103). -/
def dots : List Char → List Char
  | [] => []
  | '.' :: '.' :: '.' :: r => '.' :: dots r
  | c :: r => c :: dots r

/-- equation.find("->") and the two parts (einsum.cpp:109-114). -/
def splitArrow : List Char → Option (List Char × List Char)
  | [] => none
  | '-' :: '>' :: r => some ([], r)
  | c :: r => (splitArrow r).map fun p => (c :: p.1, p.2)

/-- split_string with getline (einsum.cpp:651-659); `acc` is what has been read of the current element. There is no element for an empty
string or after a comma at the end. -/
def splitFrom : List Char → List Char → List (List Char)
  | [], acc => if acc = [] then [] else [acc]
  | c :: r, acc => if c = ',' then acc :: splitFrom r [] else splitFrom r (acc ++ [c])

def splitComma (s : List Char) : List (List Char) := splitFrom s []

/-- The output labels of an equation without "->" (einsum.cpp:115-136): the ellipsis, then the letters that occur once, in the order of a
map with characters as keys. -/
def implicitOut (left : List Char) : List Char :=
  (if '.' ∈ left then ['.'] else []) ++
    ((List.range 128).map Char.ofNat).filter fun c => alpha c && left.count c == 1

/-- left_equation and output_label (einsum.cpp:106-137). -/
def splitEq (eq : List Char) : List Char × List Char :=
  match splitArrow eq with
  | some p => p
  | none => (eq, implicitOut eq)

/-- preprocess_equation (einsum.cpp:90-152). -/
def parse (eq : List Char) : Except String (List (List Char) × List Char) :=
  if !tokensOk eq then .error "Only ahphabet, commas, ellipsis(...) and '->' are allowed in equation."
  else
    let p := splitEq (dots (removeSpaces eq))
    let ins := splitComma p.1
    if ins.any List.isEmpty then .error "equation has an empty input term."
    else .ok (ins, p.2)

/-- The first loop of compute_ellipsis_ndim (einsum.cpp:154-186), over the input terms and the numbers of dimensions of the inputs. -/
def ellipsisLoop : List (List Char × Nat) → Nat → Except String Nat
  | [], e => .ok e
  | (l, nd) :: rest, e =>
    if ¬ l.count '.' < 2 then .error "Only one ellipsis is allowed per input_label."
    else if ¬ nd ≥ l.length then .error "The number of input dimensions is invalid"
    else if '.' ∈ l then
      let cur := nd - (l.length - 1)
      if e = 0 then ellipsisLoop rest cur
      else if e = cur then ellipsisLoop rest e
      else .error "Ellipsis must have the same number of dimension for all inputs"
    else ellipsisLoop rest e

/-- compute_ellipsis_ndim (einsum.cpp:154-201). -/
def ellipsisNdim (ins : List (List Char × Nat)) : Except String Nat :=
  match ellipsisLoop ins 0 with
  | .error e => .error e
  | .ok e =>
    if e = 0 ∧ ∃ p ∈ ins, p.1.length ≠ p.2 then
      .error "The number of dimensions indicated by equation does not match the number of dimensions of inputs."
    else .ok e

/-- create_term (einsum.cpp:203-226): for every label its dimensions (the empty list for a label that is not in the map); a later
ellipsis replaces an earlier one. -/
def createTermFrom (e : Nat) : List Char → Nat → (Char → List Nat) → Char → List Nat
  | [], _, t => t
  | c :: r, dim, t =>
    if alpha c then createTermFrom e r (dim + 1) (fun x => if x = c then t c ++ [dim] else t x)
    else createTermFrom e r (dim + e) (fun x => if x = c then List.range' dim e else t x)

def createTerm (label : List Char) (e : Nat) : Char → List Nat := createTermFrom e label 0 fun _ => []

/-- The checks of validate_input_shapes for one input (einsum.cpp:228-270), over its labels in order and the sizes of their dimensions;
`sizes` is label_dim_size (none: no entry), `ell` is ellipsis_dim_sizes. -/
def validateDims (c : Char) : List Nat → (Char → Option Nat) → Except String (Char → Option Nat)
  | [], sizes => .ok sizes
  | d :: r, sizes =>
    match sizes c with
    | none => validateDims c r (fun x => if x = c then some d else sizes x)
    | some n => if n = d then validateDims c r sizes else .error "Same label must have same dimension size for all Inputs."

/-- The loop over the dimensions of an ellipsis that is not the first (einsum.cpp:253-266). -/
def validateEll : List Nat → List Nat → Except String (List Nat)
  | n :: ell, d :: r =>
    if n = d ∨ n = 1 ∨ d = 1 then
      match validateEll ell r with
      | .error e => .error e
      | .ok l => .ok (max n d :: l)
    else .error "Ellipsis must have same dimension size or either one is 1 for broadcast."
  | ell, [] => .ok ell
  | [], _ :: _ => .error "read outside of the vector"

/-- validate_input_shapes (einsum.cpp:228-270), over all (label, sizes of its dimensions) of all inputs in order. -/
def validate : List (Char × List Nat) → (Char → Option Nat) → List Nat → Except String ((Char → Option Nat) × List Nat)
  | [], sizes, ell => .ok (sizes, ell)
  | (c, ds) :: rest, sizes, ell =>
    if alpha c then
      match validateDims c ds sizes with
      | .error e => .error e
      | .ok sizes => validate rest sizes ell
    else if ell = [] then validate rest sizes ds
    else match validateEll ell ds with
      | .error e => .error e
      | .ok ell => validate rest sizes ell

end Verif.Einsum
