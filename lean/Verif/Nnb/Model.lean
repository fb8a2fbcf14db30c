/-
The NNB binary exporter: /repo/python/src/nnabla/utils/converter/nnablart/nnb.py
(NnbExporter._align, _alloc, execute).
Simplifications: a byte is a natural number; `struct.pack` is little endian with native alignment
(x86/ARM) and its range errors are the hypothesis `NetOK` of the theorems; `_align` goes through a float,
which is exact below 2^53; floats are their 32-bit pattern; parameters and generator data are the byte
string produced from them; the settings file, API-level checks and the omission of arguments for lower
API levels are not modelled.
-/
namespace Verif.Nnb

/-- `_memory_index` and `_memory_data` (nnb.py:71-72). -/
structure Mem where
  index : List Nat
  data : List Nat
deriving DecidableEq, Repr

/-- `_align` (nnb.py:48-49). -/
def align (size : Nat) : Nat := (size + 3) / 4 * 4

/-- `_alloc(data=...)` (nnb.py:51-59): the new memory and the index. -/
def alloc (m : Mem) (d : List Nat) : Mem × Nat :=
  (⟨m.index ++ [m.data.length], m.data ++ d ++ List.replicate (align d.length - d.length) 0⟩, m.index.length)

/-- struct 'I'. -/
def enc32 (n : Nat) : List Nat := [n % 256, n / 256 % 256, n / 65536 % 256, n / 16777216 % 256]

/-- struct 'i': two's complement. -/
def encI (z : Int) : List Nat := enc32 (z % 4294967296).toNat

/-- struct 'H'. -/
def enc16 (n : Nat) : List Nat := [n % 256, n / 256 % 256]

/-- `struct.pack('{}I'.format(len(l)), *l)`. -/
def encWords (l : List Nat) : List Nat := l.flatMap enc32

/-- `struct.pack('{}i'.format(len(l)), *l)`. -/
def encInts (l : List Int) : List Nat := l.flatMap encI

/-- Where a variable's content is: stored data (parameters, generators) or an actual buffer. -/
inductive Content
  | stored (d : List Nat)
  | buffer (ab : Nat)
deriving DecidableEq, Repr

/-- A variable of the exported network: shape, data type code, fixed point position, content. -/
structure NVar where
  shape : List Nat
  typ : Nat
  fpPos : Nat
  content : Content
deriving DecidableEq, Repr

/-- A function argument: bool, 32-bit value (int, float bits, enum index), list. -/
inductive Arg
  | byte (b : Nat)
  | word (w : Int)
  | list (l : List Int)
deriving DecidableEq, Repr

/-- A function: id, implementation, inputs, outputs, arguments. -/
structure NFn where
  id : Nat
  impl : Nat
  ins : List Nat
  outs : List Nat
  args : List Arg
deriving DecidableEq, Repr

/-- The network to export; `buffers` are the actual buffer sizes. -/
structure NNet where
  version : Nat
  level : Nat
  buffers : List Nat
  vars : List NVar
  fns : List NFn
  inputs : List Nat
  outputs : List Nat
deriving DecidableEq, Repr

/-- The variable loop body (nnb.py:148-241): shape, data, then the variable record 'IiIBi' (native
alignment puts 3 padding bytes after the 'B'). -/
def writeVar (m : Mem) (n : Nat) (v : NVar) : Mem × Nat :=
  let (m, si) := alloc m (encWords v.shape)
  let (m, di) := match v.content with
    | .stored d => let (m, i) := alloc m d; (m, (i : Int))
    | .buffer ab => (m, ((ab : Int) + 1) * -1)
  alloc m (enc32 n ++ encI v.shape.length ++ enc32 si ++ [v.fpPos % 16 * 16 + v.typ % 16] ++ [0, 0, 0] ++ encI di)

/-- nnb.py:148-241: all variables from index `n` on; returns `vindexes`. -/
def writeVars (m : Mem) (n : Nat) : List NVar → Mem × List Nat
  | [] => (m, [])
  | v :: vs =>
    let (m, i) := writeVar m n v
    let (m, is) := writeVars m (n + 1) vs
    (m, i :: is)

/-- An item of `values` with its format. -/
inductive PackItem
  | b (x : Nat)
  | w (x : Int)
deriving DecidableEq, Repr

/-- `struct.pack(argfmt, *values)` (nnb.py:322) from position `pos`: 4-byte items are aligned. -/
def packItems : Nat → List PackItem → List Nat
  | _, [] => []
  | pos, .b x :: r => (x % 256) :: packItems (pos + 1) r
  | pos, .w x :: r => List.replicate (align pos - pos) 0 ++ encI x ++ packItems (align pos + 4) r

/-- The argument loop (nnb.py:280-321). -/
def writeArgs (m : Mem) : List Arg → Mem × List PackItem
  | [] => (m, [])
  | .byte b :: r => let (m, is) := writeArgs m r; (m, .b b :: is)
  | .word w :: r => let (m, is) := writeArgs m r; (m, .w w :: is)
  | .list l :: r =>
    let (m, i) := alloc m (encInts l)
    let (m, is) := writeArgs m r
    (m, .w l.length :: .w i :: is)

/-- The function loop body (nnb.py:250-332). -/
def writeFn (m : Mem) (f : NFn) : Mem × Nat :=
  let (m, ii) := alloc m (encWords f.ins)
  let (m, oi) := alloc m (encWords f.outs)
  let (m, items) := writeArgs m f.args
  alloc m (enc16 f.id ++ enc16 f.impl ++ encI f.ins.length ++ enc32 ii ++ encI f.outs.length ++ enc32 oi ++
    packItems 0 items)

/-- nnb.py:249-332: all functions; returns `findexes`. -/
def writeFns (m : Mem) : List NFn → Mem × List Nat
  | [] => (m, [])
  | f :: fs =>
    let (m, i) := writeFn m f
    let (m, is) := writeFns m fs
    (m, i :: is)

/-- `execute` (nnb.py:90-362): the bytes of the NNB file. -/
def exportNnb (n : NNet) : List Nat :=
  let (m, inI) := alloc ⟨[], []⟩ (encWords n.inputs)
  let (m, outI) := alloc m (encWords n.outputs)
  let (m, bufI) := alloc m (encWords n.buffers)
  let (m, vindexes) := writeVars m 0 n.vars
  let (m, varI) := alloc m (encWords vindexes)
  let (m, findexes) := writeFns m n.fns
  let (m, fnI) := alloc m (encWords findexes)
  let network := enc32 n.version ++ enc32 n.level ++ encI n.buffers.length ++ enc32 bufI ++
    encI vindexes.length ++ enc32 varI ++ encI findexes.length ++ enc32 fnI ++
    encI n.inputs.length ++ enc32 inI ++ encI n.outputs.length ++ enc32 outI ++
    enc32 m.index.length ++ enc32 m.data.length
  network ++ encWords m.index ++ m.data

end Verif.Nnb
