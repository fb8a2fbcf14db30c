import Verif.Nnb.Model
/-
A reader of the NNB format: the specification the exporter is checked against. It follows pointers
(memory index → offset → bytes) only; it shares no code with the exporter except the data types.
-/
namespace Verif.Nnb

/-- Little-endian value of the bytes of `f` at `off`. -/
def byteAt (f : List Nat) (off : Nat) : Nat := f.getD off 0
def u16 (f : List Nat) (off : Nat) : Nat := byteAt f off + 256 * byteAt f (off + 1)
def u32 (f : List Nat) (off : Nat) : Nat :=
  byteAt f off + 256 * byteAt f (off + 1) + 65536 * byteAt f (off + 2) + 16777216 * byteAt f (off + 3)
def i32 (f : List Nat) (off : Nat) : Int :=
  if u32 f off < 2147483648 then (u32 f off : Int) else (u32 f off : Int) - 4294967296

/-- Offset in the file of memory block `i`: header (14 words), index table, data. -/
def blockAt (f : List Nat) (i : Nat) : Nat := 56 + 4 * u32 f 48 + u32 f (56 + 4 * i)

/-- `n` words at an offset. -/
def words (f : List Nat) (off n : Nat) : List Nat := (List.range n).map fun k => u32 f (off + 4 * k)
def ints (f : List Nat) (off n : Nat) : List Int := (List.range n).map fun k => i32 f (off + 4 * k)
def bytes (f : List Nat) (off n : Nat) : List Nat := (List.range n).map fun k => byteAt f (off + k)

/-- A list field: element count at `off` and block index at `off + 4`. -/
def listAt (f : List Nat) (off : Nat) : List Nat := words f (blockAt f (u32 f (off + 4))) (i32 f off).toNat

/-- A variable record at `off`; `dataLen` gives the number of stored bytes for a shape and type. -/
def readVar (dataLen : List Nat → Nat → Nat) (f : List Nat) (off : Nat) : NVar :=
  let shape := listAt f (off + 4)
  let typ := byteAt f (off + 12) % 16
  { shape := shape
    typ := typ
    fpPos := byteAt f (off + 12) / 16
    content :=
      if i32 f (off + 16) < 0 then .buffer (-(i32 f (off + 16)) - 1).toNat
      else .stored (bytes f (blockAt f (i32 f (off + 16)).toNat) (dataLen shape typ)) }

/-- Kinds of function arguments. -/
inductive Code
  | b | w | l
deriving DecidableEq, Repr

/-- Next multiple of four relative to `base`. -/
def up4 (pos : Nat) : Nat := if pos % 4 = 0 then pos else pos + (4 - pos % 4)

/-- Arguments of kinds `cs`, starting `pos` bytes after `base`. -/
def readArgs (f : List Nat) (base : Nat) : Nat → List Code → List Arg
  | _, [] => []
  | pos, .b :: cs => .byte (byteAt f (base + pos)) :: readArgs f base (pos + 1) cs
  | pos, .w :: cs => .word (i32 f (base + up4 pos)) :: readArgs f base (up4 pos + 4) cs
  | pos, .l :: cs =>
    .list (ints f (blockAt f (i32 f (base + up4 pos + 4)).toNat) (i32 f (base + up4 pos)).toNat) ::
      readArgs f base (up4 pos + 8) cs

/-- A function record at `off`; `codes` gives the argument kinds of a function id. -/
def readFn (codes : Nat → List Code) (f : List Nat) (off : Nat) : NFn where
  id := u16 f off
  impl := u16 f (off + 2)
  ins := listAt f (off + 4)
  outs := listAt f (off + 12)
  args := readArgs f (off + 20) 0 (codes (u16 f off))

/-- The whole network. -/
def readNet (dataLen : List Nat → Nat → Nat) (codes : Nat → List Code) (f : List Nat) : NNet where
  version := u32 f 0
  level := u32 f 4
  buffers := listAt f 8
  vars := (listAt f 16).map fun i => readVar dataLen f (blockAt f i)
  fns := (listAt f 24).map fun i => readFn codes f (blockAt f i)
  inputs := listAt f 32
  outputs := listAt f 40

/-- Kind of an argument. -/
def Arg.code : Arg → Code
  | .byte _ => .b
  | .word _ => .w
  | .list _ => .l

def U32 (n : Nat) : Prop := n < 4294967296
def I32 (z : Int) : Prop := -2147483648 ≤ z ∧ z < 2147483648

/-- Argument in range. -/
def Arg.OK : Arg → Prop
  | .byte b => b < 256
  | .word w => I32 w
  | .list l => l.length < 2147483648 ∧ ∀ z ∈ l, I32 z

/-- Variable in range; stored data has the length the reader expects. -/
def NVar.OK (dataLen : List Nat → Nat → Nat) (v : NVar) : Prop :=
  v.shape.length < 2147483648 ∧ (∀ d ∈ v.shape, U32 d) ∧ v.typ < 16 ∧ v.fpPos < 16 ∧
  match v.content with
  | .stored d => d.length = dataLen v.shape v.typ ∧ ∀ b ∈ d, b < 256
  | .buffer ab => ab < 2147483648

/-- Function in range; its argument kinds are those of its id. -/
def NFn.OK (codes : Nat → List Code) (f : NFn) : Prop :=
  f.id < 65536 ∧ f.impl < 65536 ∧ f.ins.length < 2147483648 ∧ f.outs.length < 2147483648 ∧
  (∀ i ∈ f.ins, U32 i) ∧ (∀ i ∈ f.outs, U32 i) ∧ f.args.map Arg.code = codes f.id ∧ ∀ a ∈ f.args, a.OK

/-- The export does not raise: everything fits its field, and the file has fewer than 2^31 bytes. -/
def NetOK (dataLen : List Nat → Nat → Nat) (codes : Nat → List Code) (n : NNet) : Prop :=
  U32 n.version ∧ U32 n.level ∧ (∀ b ∈ n.buffers, U32 b) ∧ (∀ i ∈ n.inputs, U32 i) ∧ (∀ i ∈ n.outputs, U32 i) ∧
  (∀ v ∈ n.vars, v.OK dataLen) ∧ (∀ f ∈ n.fns, f.OK codes) ∧ (exportNnb n).length < 2147483648

end Verif.Nnb
