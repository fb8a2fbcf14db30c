import Mathlib.Data.List.Basic
import Mathlib.Data.List.Nodup
import Mathlib.Data.List.Perm.Basic
import Mathlib.Algebra.BigOperators.Group.List.Basic
/-!
# Packed sequences (`nnabla.utils.rnn` and the C++ functions PackPaddedSequence, PadPackedSequence)

Arrays are flat memories `Nat → α`, addressed with the strides of the code. Nested `for` loops are
folds over the list of index triples in loop order; the output pointer that the code increments is
part of the fold's state. An output buffer starts with arbitrary content (it is not cleared).
-/

namespace Verif.Rnn

/-- A flat buffer. -/
abbrev Mem (α : Type) := Nat → α

/-- One store. -/
def upd {α : Type} (m : Mem α) (a : Nat) (v : α) : Mem α := fun x => if x = a then v else m x

/-! ## include/nbla/function/utils/rnn.hpp -/

/-- `std::transform(..., [](int l) { return l - 1; })`. -/
def decr (l : List Int) : List Int := l.map (· - 1)

theorem dec_measure (l : List Int) (h : ¬ l.countP (fun x => decide (0 < x)) = 0) :
    ((decr l).map Int.toNat).sum < (l.map Int.toNat).sum := by
  induction l with
  | nil => simp at h
  | cons a l ih =>
    unfold decr at ih ⊢
    simp only [List.map_cons, List.sum_cons]
    by_cases ha : 0 < a
    · have h1 : ((l.map (· - 1)).map Int.toNat).sum ≤ (l.map Int.toNat).sum := by
        clear ih h
        induction l with
        | nil => simp
        | cons b l ih => simp only [List.map_cons, List.sum_cons]; omega
      omega
    · rw [List.countP_cons_of_neg (by simpa using ha)] at h
      have := ih h
      omega

/-- The `while (true)` loop of `compute_batch_sizes` (L26-43) and of `compute_lengths` (L100-119):
count the positive entries, stop if there are none, store the count, decrement. -/
def countLoop (l : List Int) (i : Nat) (out : Mem Nat) : Mem Nat :=
  if h : l.countP (fun x => decide (0 < x)) = 0 then out
  else countLoop (decr l) (i + 1) (upd out i (l.countP (fun x => decide (0 < x))))
termination_by (l.map Int.toNat).sum
decreasing_by exact dec_measure l h

/-- L26-43 `compute_batch_sizes(lengths, lsize, batch_sizes)`. -/
def computeBatchSizes (lengths : List Nat) (out : Mem Nat) : Mem Nat :=
  countLoop (lengths.map Int.ofNat) 0 out

/-- L100-119 `compute_lengths(batch_sizes, bsize, lengths)`. -/
def computeLengths (batchSizes : List Nat) (out : Mem Nat) : Mem Nat :=
  countLoop (batchSizes.map Int.ofNat) 0 out

/-- Loop order of `for t < T, for b < bs(t), for d < D`. -/
def idx (T : Nat) (bs : Nat → Nat) (D : Nat) : List (Nat × Nat × Nat) :=
  (List.range T).flatMap (fun t =>
    (List.range (bs t)).flatMap (fun b => (List.range D).map (fun d => (t, b, d))))

/-- Address of element `(t, b, d)` of the padded buffer: `padded_sequence + t * stride_t` with
`stride_t = B * D` (pack, unpack) or `padded_sequence + b * stride_b + t * stride_t` with
`stride_b = S * D`, `stride_t = D` (pack_batch_first, unpack_batch_first; `S` is `T` or `TL`). -/
def addr (bf : Bool) (S B D : Nat) : Nat × Nat × Nat → Nat
  | (t, b, d) => if bf then b * (S * D) + t * D + d else t * (B * D) + b * D + d

variable {α : Type}

/-- The stores of pack, in order. -/
def packFold [Add α] (accum : Bool) (padded : Mem α) (ad : Nat × Nat × Nat → Nat)
    (L : List (Nat × Nat × Nat)) (p : Nat) (packed : Mem α) : Nat × Mem α :=
  L.foldl (fun s e =>
    (s.1 + 1, upd s.2 s.1 (if accum then s.2 s.1 + padded (ad e) else padded (ad e)))) (p, packed)

/-- L45-98 `pack<U, accum>`, `pack_batch_first<U, accum>` (with `S = T` or `S = TL`). -/
def pack [Add α] (accum bf : Bool) (padded : Mem α) (bs : Nat → Nat) (packed : Mem α)
    (S T B D : Nat) : Mem α :=
  (packFold accum padded (addr bf S B D) (idx T bs D) 0 packed).2

/-- The stores of unpack, in order; `m` tells which elements exist in the packed sequence. -/
def unpackFold [Add α] [Zero α] (accum : Bool) (packed : Mem α) (m : Nat × Nat × Nat → Bool)
    (ad : Nat × Nat × Nat → Nat) (L : List (Nat × Nat × Nat)) (p : Nat) (padded : Mem α) :
    Nat × Mem α :=
  L.foldl (fun s e =>
    if m e then
      (s.1 + 1, upd s.2 (ad e) (if accum then s.2 (ad e) + packed s.1 else packed s.1))
    else (s.1, if accum then s.2 else upd s.2 (ad e) 0)) (p, padded)

/-- `t < T && b < batch_sizes[t]`. -/
def inSeq (T : Nat) (bs : Nat → Nat) : Nat × Nat × Nat → Bool
  | (t, b, _) => decide (t < T) && decide (b < bs t)

/-- L121-227 `unpack<U, accum>`, `unpack_batch_first<U, accum>`: `S = T`, or `S = TL ≥ T`. -/
def unpack [Add α] [Zero α] (accum bf : Bool) (packed : Mem α) (bs : Nat → Nat) (padded : Mem α)
    (S T B D : Nat) : Mem α :=
  (unpackFold accum packed (inSeq T bs) (addr bf S B D) (idx S (fun _ => B) D) 0 padded).2

/-! ## The two functions -/

/-- src/nbla/function/generic/pack_padded_sequence.cpp L61-94 `forward_impl`: the packed data and
the batch sizes (`T` entries). `gp`, `gb` are the previous contents of the output buffers. -/
def packForward [Add α] (bf : Bool) (padded : Mem α) (T D : Nat) (lengths : List Nat)
    (gp : Mem α) (gb : Mem Nat) : Mem α × Mem Nat :=
  let bs := computeBatchSizes lengths gb
  (pack false bf padded bs gp T T lengths.length D, bs)

/-- L96-143 `backward_impl`. -/
def packBackward [Add α] [Zero α] (accum bf : Bool) (gradPacked : Mem α) (bs : Mem Nat)
    (T B D : Nat) (gradPadded : Mem α) : Mem α :=
  unpack accum bf gradPacked bs gradPadded T T B D

/-- The list of the first `n` entries of a buffer. -/
def firstN (m : Mem Nat) (n : Nat) : List Nat := (List.range n).map m

/-- src/nbla/function/generic/pad_packed_sequence.cpp L44-51: `B` is the largest batch size. -/
def batchOf (bs : Mem Nat) (T : Nat) : Nat := (firstN bs T).foldr max 0

/-- `T0 = (total_length_ > T) ? total_length_ : T` (L52); `-1` (none) is `0` here. -/
def totalOf (total T : Nat) : Nat := if total > T then total else T

/-- pad_packed_sequence.cpp L64-102 `forward_impl`: the padded data, the lengths (`batchOf bs T`
entries). Note that `padding_value` is not used. -/
def padForward [Add α] [Zero α] (bf : Bool) (_paddingValue : α) (total : Nat) (packed : Mem α)
    (bs : Mem Nat) (T D : Nat) (gp : Mem α) (gl : Mem Nat) : Mem α × Mem Nat :=
  (unpack false bf packed bs gp (totalOf total T) T (batchOf bs T) D,
    computeLengths (firstN bs T) gl)

/-- pad_packed_sequence.cpp L104-156 `backward_impl`. -/
def padBackward [Add α] (accum bf : Bool) (total : Nat) (gradPadded : Mem α) (bs : Mem Nat)
    (T D : Nat) (gradPacked : Mem α) : Mem α :=
  pack accum bf gradPadded bs gradPacked (totalOf total T) T (batchOf bs T) D

/-! ## python/src/nnabla/utils/rnn.py -/

/-- L88-105 `pad_sequence`: `F.constant(padding_value, ...)` then the rows of every sequence. `seqs`
holds the sequences as lists of rows of `D` elements. -/
def padSequence (bf : Bool) (pv : α) (T D : Nat) (seqs : List (List (Nat → α))) : Mem α :=
  (seqs.zipIdx.flatMap (fun sb =>
      sb.1.zipIdx.flatMap (fun rt => (List.range D).map (fun d => (rt.1 d, (rt.2, sb.2, d)))))).foldl
    (fun m e => upd m (addr bf T seqs.length D e.2) e.1) (fun _ => pv)

/-- `F.gather(x, indices, axis)` on the batch axis of a padded array (`S` time steps). -/
def gatherBatch (bf : Bool) (S B D : Nat) (x : Mem α) (ix : List Nat) : Mem α :=
  (idx S (fun _ => ix.length) D).foldl
    (fun m e => upd m (addr bf S ix.length D e) (x (addr bf S B D (e.1, ix.getD e.2.1 0, e.2.2)))) x

/-- `F.scatter_nd(F.arange(0, B), sorted_indices.reshape((1, B)), shape=(B,))` (L186-187). -/
def scatterArange (ix : List Nat) : Mem Nat :=
  ix.zipIdx.foldl (fun m e => upd m e.1 e.2) (fun _ => 0)

/-- The class `PackedSequence` (L21-35). -/
structure Packed (α : Type) where
  data : Mem α
  batchSizes : Mem Nat
  T : Nat
  /-- `sorted_indices`, `unsorted_indices` -/
  indices : Option (List Nat × Mem Nat)

/-- L108-200 `pack_padded_sequence`. `sort`: the index result of `F.sort(lengths, reverse=True,
with_index=True)` when `enforce_sorted=False`, none when `enforce_sorted=True`. -/
def packPadded [Add α] (bf : Bool) (padded : Mem α) (T D : Nat) (lengths : List Nat)
    (sort : Option (List Nat)) (gp : Mem α) (gb : Mem Nat) : Packed α :=
  match sort with
  | none =>
    let r := packForward bf padded T D lengths gp gb
    ⟨r.1, r.2, T, none⟩
  | some ix =>
    let lengths' := ix.map (fun i => lengths.getD i 0)
    let r := packForward bf (gatherBatch bf T lengths.length D padded ix) T D lengths' gp gb
    ⟨r.1, r.2, T, some (ix, scatterArange ix)⟩

/-- L259-331 `pad_packed_sequence`: error, or the padded array with `totalOf total T` steps and the
list of lengths. `total = 0` stands for `None`. -/
def padPacked [Add α] [Zero α] (bf : Bool) (pv : α) (total : Nat) (p : Packed α) (D : Nat)
    (gp : Mem α) (gl : Mem Nat) : Option (Mem α × List Nat) :=
  if total ≠ 0 ∧ total < p.T then none
  else
    let r := padForward bf pv total p.data p.batchSizes p.T D gp gl
    let B := batchOf p.batchSizes p.T
    match p.indices with
    | none => some (r.1, firstN r.2 B)
    | some (ix, un) =>
      some (gatherBatch bf (totalOf total p.T) B D r.1 (firstN un ix.length),
        (firstN un ix.length).map r.2)

end Verif.Rnn
