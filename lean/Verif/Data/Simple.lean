import Verif.Data.Iterator
/-
Model of `SimpleDataSource` (/repo/python/src/nnabla/utils/data_source_implements.py:37-87) and of
`get_slice_start_end` (/repo/python/src/nnabla/utils/data_iterator.py:291-309).
-/
namespace Verif.Data

/-- `SimpleDataSource` object.  `orders` is the `deque(maxlen=15)` of snapshots (generation, order),
oldest first; `drawn` counts calls of `rng.permutation`. -/
structure Simple where
  pos : Nat
  gen : Nat
  orders : List (Nat × List Nat)
  drawn : Nat
  deriving DecidableEq, Repr

/-- Fixed data of a SimpleDataSource: `load_func`, `num_examples`, `shuffle`, and the
random generator as the stream of permutations it will produce. -/
structure SimpleCfg (D : Type) where
  load : Nat → D
  n : Nat
  shuffle : Bool
  perm : Nat → List Nat

variable {D : Type}

/-- `deque.append` with `maxlen=15`. -/
def dequeAppend (q : List (Nat × List Nat)) (x : Nat × List Nat) : List (Nat × List Nat) :=
  let q := q ++ [x]
  q.drop (q.length - 15)

/-- `_generate_order(generation)` (data_source_implements.py:61-72). -/
def Simple.generateOrder (c : SimpleCfg D) (g : Nat) (s : Simple) : Simple :=
  if s.orders.any (fun o => o.1 == g) then s
  else if c.shuffle then
    { s with orders := dequeAppend s.orders (g, c.perm s.drawn), drawn := s.drawn + 1 }
  else { s with orders := dequeAppend s.orders (g, List.range c.n) }

/-- `_get_data_of_generation(position, generation)` (:47-55); `none` stands for an exception
(ValueError "not synchronized" or IndexError). -/
def Simple.getOfGen (c : SimpleCfg D) (p g : Nat) (s : Simple) : Option D :=
  match s.orders.find? (fun o => o.1 == g) with
  | none => none
  | some o => (o.2[p]?).map c.load

/-- `__init__` (:77-87). -/
def Simple.init (c : SimpleCfg D) : Simple :=
  Simple.generateOrder c 0 ⟨0, 0, [], 0⟩

/-- The source interface: `next` is `DataSource.next` (data_source.py:127-130), `reset` sets the
position to 0 (:74-75), `apply_order` (:57-59) generates the order of the next generation. -/
def simpleSource (c : SimpleCfg D) : Source Simple D where
  pos s := s.pos
  next s := (s.getOfGen c s.pos s.gen, { s with pos := s.pos + 1 })
  reset s := { s with pos := 0 }
  applyOrder s := Simple.generateOrder c (s.gen + 1) { s with gen := s.gen + 1 }

/-- `get_slice_start_end(size, n_slices, rank)` (data_iterator.py:291-309). Python integers; the
subtraction at :306-307 cannot go below zero when `size ≥ size_rank` (shown in the proofs). -/
def sliceStartEnd (size nSlices rank : Nat) (dropLast : Bool) : Int × Int :=
  if dropLast then
    let sizeRank : Int := size / nSlices
    (sizeRank * rank, sizeRank * rank + sizeRank)
  else
    let sizeRank : Int := (size + nSlices - 1) / nSlices
    let start : Int := (sizeRank * rank) % size
    let stop : Int := start + sizeRank
    if stop > size then
      let offset := stop - size
      (start - offset, stop - offset)
    else (start, stop)

end Verif.Data
