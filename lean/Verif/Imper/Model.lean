import Mathlib.Algebra.Order.Ring.Int
import Mathlib.Algebra.BigOperators.Group.List.Basic
import Mathlib.Tactic.Ring
import Mathlib.Tactic.Common
/-
Imperative calls of functions on NdArrays: models nbla::execute (/repo/src/nbla/imperative.cpp:22-70), the part of Function it uses
(ask_if_used_and_use and copy, /repo/include/nbla/function.hpp:342-346) and, as an instance, Reshape
(/repo/src/nbla/function/generic/reshape.cpp, /repo/include/nbla/function/reshape.hpp). Simplifications: an NdArray is a shape and
the number of its SyncedArray; SyncedArrays hold abstract values; forward_impl reads all its inputs before it writes its outputs and
does not fail; int arithmetic does not overflow.
-/
namespace Verif.Imper

abbrev Shape := List Nat

/-- compute_size_by_shape. -/
def size : Shape → Nat
  | [] => 1
  | d :: s => d * size s

/-- An NdArray: shape_ and array_ (/repo/include/nbla/nd_array.hpp). -/
structure Nd where
  shape : Shape
  arr : Nat
deriving DecidableEq, Repr

/-- All NdArrays, the contents of all SyncedArrays; numbers from nNd and nArr on are not in use. -/
structure Heap (V : Type) where
  nd : Nat → Nd
  mem : Nat → V
  nNd : Nat
  nArr : Nat

/-- A function class: setup_impl, from the members and input shapes to new members, the output shapes, and for each output the input
whose array it takes over (outputs[k]->data()->set_array(inputs[i]->data()->array())); the members may change even if it fails; forward_impl, which gives the values it writes
to the outputs (none: it does not write to that output); copy(), the members of the copy. -/
structure Fn (V σ : Type) where
  setup : σ → List Shape → σ × Except String (List (Shape × Option Nat))
  fwd : σ → List V → List (Option V)
  copy : σ → σ

/-- A function object: used_ and members. -/
structure Obj (σ : Type) where
  used : Bool
  st : σ
deriving DecidableEq, Repr

variable {V σ : Type}

/-- Point update. -/
def upd {α : Type} (f : Nat → α) (a : Nat) (b : α) : Nat → α := fun x => if x = a then b else f x

/-- The buffer of a new output: its own, or that of an input. -/
def outArr (h : Heap V) (ins : List Nat) : Option Nat → Nat
  | none => h.nArr
  | some i => (h.nd (ins.getD i 0)).arr

/-- The arrays of the output variables after setup (imperative.cpp:46-56 and Variable::reshape): new NdArrays with new SyncedArrays, or
the SyncedArrays of inputs. -/
def alloc (h : Heap V) (ins : List Nat) : List (Shape × Option Nat) → Heap V
  | [] => h
  | (s, o) :: rest =>
    alloc { h with nd := upd h.nd h.nNd ⟨s, outArr h ins o⟩, nNd := h.nNd + 1, nArr := h.nArr + 1 } ins rest

/-- The loop over the outputs (imperative.cpp:59-70): `first` is the NdArray of the first output variable; given[i] is the array given by
the caller or null. -/
def bind (h : Heap V) (first : Nat) : List (Option Nat) → Nat → Except String (Heap V × List Nat)
  | [], _ => .ok (h, [])
  | g :: rest, i =>
    let out := g.getD (first + i)
    if size (h.nd out).shape ≠ size (h.nd (first + i)).shape then .error "In-place array size and function output size must match."
    else
      let h := { h with nd := upd h.nd (first + i) ⟨(h.nd (first + i)).shape, (h.nd out).arr⟩ }
      match bind h first rest (i + 1) with
      | .error e => .error e
      | .ok (h, outs) => .ok (h, out :: outs)

/-- forward_impl writes to the arrays of the output variables. -/
def write (h : Heap V) (first : Nat) : List (Option V) → Nat → Heap V
  | [], _ => h
  | none :: vs, i => write h first vs (i + 1)
  | some v :: vs, i => write { h with mem := upd h.mem (h.nd (first + i)).arr v } first vs (i + 1)

/-- execute (imperative.cpp:22-72): the result, the function object and the heap afterwards. -/
def execute (f : Fn V σ) (o : Obj σ) (h : Heap V) (ins : List Nat) (n : Nat) (given : List (Option Nat)) :
    Except String (List Nat) × Obj σ × Heap V :=
  if ¬ given.length ≤ n then (.error "Num of in-place arrays must not be greater than n_outputs.", o, h)
  else
    let outputs := given ++ List.replicate (n - given.length) none
    -- ask_if_used_and_use, copy
    let o' : Obj σ := ⟨true, o.st⟩
    let st := if o.used then f.copy o.st else o.st
    match f.setup st (ins.map fun i => (h.nd i).shape) with
    | (st, .error e) => (.error e, if o.used then o' else ⟨true, st⟩, h)
    | (st, .ok shapes) =>
      let o'' : Obj σ := if o.used then o' else ⟨true, st⟩
      if shapes.length ≠ n then (.error "number of outputs", o'', h)
      else
        let first := h.nNd
        let h1 := alloc h ins shapes
        match bind h1 first outputs 0 with
        | .error e => (.error e, o'', h1)
        | .ok (h2, outs) => (.ok outs, o'', write h2 first (f.fwd st (ins.map fun i => h2.mem (h2.nd i).arr)) 0)

/-! ### Reshape -/

/-- Members of Reshape: shape_ and inplace_ (reshape.hpp). -/
structure RState where
  shape : List ℤ
  inplace : Bool
deriving DecidableEq, Repr

/-- rest_size (reshape.cpp:33-46): the product of the sizes that are not negative. -/
def restSize (s : List ℤ) : ℤ := s.foldl (fun r d => if d < 0 then r else r * d) 1

/-- Reshape::setup_impl, steps A and B (reshape.cpp:29-60): shape_ afterwards and the error, if any. The size of the inferred axis is
stored in shape_ before the check of the product. A zero rest_size with an axis to infer is an integer division by zero (the program is
ended); it is an error here. -/
def reshapeShape (s : List ℤ) (tsize : Nat) : List ℤ × Option String :=
  if 2 ≤ (s.filter (· < 0)).length then
    (s, some "The shape option in Reshape function can take negative size only in one axis.")
  else if (∃ d ∈ s, d < 0) ∧ restSize s = 0 then (s, some "division by zero")
  else
    let s' := s.map fun d => if d < 0 then (tsize : ℤ).tdiv (restSize s) else d
    (s', if (tsize : ℤ) ≠ s'.foldl (· * ·) 1 then some "Product of dimensions of inputs and outputs must be same." else none)

/-- The class Reshape (reshape.cpp:28-80, reshape.hpp:58-62). -/
def reshape (V : Type) : Fn V RState where
  setup st ins :=
    match reshapeShape st.shape (size (ins.getD 0 [])) with
    | (s, some e) => (⟨s, st.inplace⟩, .error e)
    | (s, none) => (⟨s, st.inplace⟩, .ok [(s.map Int.toNat, if st.inplace then some 0 else none)])
  fwd st vs := if st.inplace then [none] else [vs.head?]
  copy st := st

end Verif.Imper
