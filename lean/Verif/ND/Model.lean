/-
Shapes, strides, multi-indices.
Models /repo/include/nbla/common.hpp (compute_size_by_shape, get_c_contiguous_strides) and
/repo/include/nbla/utils/nd_index.hpp (strides, nd2flat, flat2nd, inner_size, outer_size, increment,
multiply, expand).
Simplification: `Size_t` is unbounded; shapes are lists of naturals (a shape never has a negative
extent).
-/
namespace Verif.ND

abbrev Shape := List Nat

/-- compute_size_by_shape(shape, axis) (common.hpp:51-59): `accumulate(begin+axis, end, 1, *)`. -/
def sizeFrom (shape : Shape) (axis : Nat) : Nat := (shape.drop axis).foldl (· * ·) 1

/-- compute_size_by_shape(shape). -/
def size (shape : Shape) : Nat := sizeFrom shape 0

/-- get_c_contiguous_strides (common.hpp:63-72). The loop runs from the last axis to the first and
computes each stride from the one to its right, which is recursion on the list. -/
def cStrides : Shape → List Nat
  | [] => []
  | [_] => [1]
  | _ :: e :: ds =>
    let s := cStrides (e :: ds)
    (1 * (s.headD 1 * e)) :: s

/-- `std::partial_sum(v.rbegin(), v.rend(), v.rbegin(), multiplies)` (nd_index.hpp:41): replaces each
element by the product of the elements from it to the end. -/
def suffixProducts : List Nat → List Nat
  | [] => []
  | [x] => [x]
  | x :: y :: r =>
    let s := suffixProducts (y :: r)
    (s.headD 1 * x) :: s

/-- ndi::strides (nd_index.hpp:38-43): copy shape[1:] over a vector of ones, then suffix products. -/
def ndiStrides (shape : Shape) : List Nat := suffixProducts (shape.drop 1 ++ List.replicate (min 1 shape.length) 1)

/-- ndi::nd2flat (nd_index.hpp:47-51): inner product over the length of `index`. -/
def nd2flat : List Nat → List Nat → Nat
  | i :: is, s :: ss => i * s + nd2flat is ss
  | _, _ => 0

/-- ndi::flat2nd (nd_index.hpp:88-97). -/
def flat2nd (index : Nat) : List Nat → List Nat
  | [] => []
  | s :: ss => (index / s) :: flat2nd (index - index / s * s) ss

/-- ndi::inner_size (nd_index.hpp:104-112), non-negative axis. -/
def innerSize (shape : Shape) (axis : Nat) : Nat := (shape.drop axis).foldl (· * ·) 1

/-- ndi::outer_size (nd_index.hpp:119-127), non-negative axis. -/
def outerSize (shape : Shape) (axis : Nat) : Nat := (shape.take axis).foldl (· * ·) 1

/-- ndi::increment (nd_index.hpp:141-153). The loop runs from the last axis to the first, stopping at
the first axis that does not wrap. -/
def increment : List Nat → Shape → Bool × List Nat
  | i :: is, d :: ds =>
    match increment is ds with
    | (true, is') => (true, i :: is')
    | (false, is') => if i + 1 < d then (true, (i + 1) :: is') else (false, 0 :: is')
  | _, _ => (false, [])

/-- The loop `do { visit(index) } while (ndi::increment(index, shape))`; `fuel` bounds the number of
iterations (theorem `C33_iterate` shows `size shape` is enough). -/
def visitLoop (shape : Shape) : Nat → List Nat → List (List Nat)
  | 0, _ => []
  | fuel + 1, index =>
    index :: (match increment index shape with
      | (true, index') => visitLoop shape fuel index'
      | (false, _) => [])

/-- ndi::expand (nd_index.hpp:204-209): prepend `v` up to length `n`. -/
def expand (a : List Nat) (n v : Nat) : List Nat := List.replicate (max a.length n - a.length) v ++ a

/-- ndi::make_index (nd_index.hpp:211-214) with zero. -/
def zeroIndex (n : Nat) : List Nat := List.replicate n 0

end Verif.ND
