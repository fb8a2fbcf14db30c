import Verif.ND.Indices
import Verif.HalfFloat.Model
/-!
C156: what a DLPack tensor means: element types and memory layout (src/nbla/utils/dlpack_utils.cpp:20-135, 161-233).

Simplifications: shapes, strides and bit numbers are natural numbers (int64_t, uint8_t); the type checks of `DLDataType` only, not the
device.
-/
namespace Verif.Dlpack
open Verif.ND

/-! ## Model -/

/-- dtypes (include/nbla/dtypes.hpp:32-65). -/
inductive DT
  | BOOL | BYTE | UBYTE | SHORT | USHORT | INT | UINT | LONG | ULONG | LONGLONG | ULONGLONG | FLOAT | DOUBLE | LONGDOUBLE | HALF
  deriving DecidableEq

/-- DLDataTypeCode (include/third_party/dlpack/dlpack.h:79-84). -/
inductive Code
  | int | uint | float | bfloat
  deriving DecidableEq

/-- The sizes of the C++ types in bytes; they depend on the platform. -/
structure Platform where
  short : Nat
  int : Nat
  long : Nat
  longlong : Nat
  float : Nat
  double : Nat
  longdouble : Nat

/-- `sizeof_dtype` (dtypes.hpp:125-152). -/
def sizeOf (P : Platform) : DT → Nat
  | .BOOL | .BYTE | .UBYTE => 1
  | .SHORT | .USHORT => P.short
  | .INT | .UINT => P.int
  | .LONG | .ULONG => P.long
  | .LONGLONG | .ULONGLONG => P.longlong
  | .FLOAT => P.float
  | .DOUBLE => P.double
  | .LONGDOUBLE => P.longdouble
  | .HALF => 2

/-- `convert_dtype_to_dlpack_code` (dlpack_utils.cpp:21-56). -/
def toCode : DT → Code
  | .BOOL | .BYTE | .SHORT | .INT | .LONG | .LONGLONG => .int
  | .UBYTE | .USHORT | .UINT | .ULONG | .ULONGLONG => .uint
  | .FLOAT | .DOUBLE | .LONGDOUBLE => .float
  | .HALF => .bfloat

/-- The exported code and bits; `bits` is a uint8_t (dlpack_utils.cpp:194-201). -/
def toType (P : Platform) (d : DT) : Code × Nat := (toCode d, sizeOf P d * 8 % 256)

/-- `convert_dlpack_type_to_dtype` (dlpack_utils.cpp:82-124): the first dtype of a list with as many bits. -/
def toDtype (P : Platform) (code : Code) (bits lanes : Nat) : Option DT :=
  if lanes = 1 then
    match code with
    | .bfloat => [DT.HALF].find? fun d => bits == sizeOf P d * 8
    | .float => [DT.FLOAT, .DOUBLE, .LONGDOUBLE].find? fun d => bits == sizeOf P d * 8
    | .int => [DT.INT, .BYTE, .SHORT, .LONG, .LONGLONG, .BOOL].find? fun d => bits == sizeOf P d * 8
    | .uint => [DT.UINT, .UBYTE, .USHORT, .ULONG, .ULONGLONG].find? fun d => bits == sizeOf P d * 8
  else none

/-- The loop of `get_shape_with_contiguous_memory` (dlpack_utils.cpp:58-76), from the last axis to the first: the product of the axes
seen so far, or nothing if a stride differs. -/
def checkStrides : List Nat → List Nat → Option Nat
  | d :: ds, st :: sts => match checkStrides ds sts with
    | none => none
    | some c => if st = c then some (c * d) else none
  | [], [] => some 1
  | _, _ => none

/-- The result of an import's layout check; `strides = none` is the NULL pointer. -/
inductive Layout
  | accepted (shape : List Nat)
  | rejected
  | nullAccess
  deriving DecidableEq

/-- `get_shape_with_contiguous_memory`. A tensor without axes does not read its strides. -/
def importLayout (shape : List Nat) (strides : Option (List Nat)) : Layout :=
  match strides with
  | none => if shape = [] then .accepted shape else .nullAccess
  | some st => if (checkStrides shape st).isSome then .accepted shape else .rejected

/-- `get_c_contiguous_strides` (include/nbla/common.hpp:63-72), the strides of an NdArray (nd_array.cpp:50), which `to_dlpack_impl`
exports. -/
def exportStrides : List Nat → List Nat
  | [] => []
  | [_] => [1]
  | _ :: d :: ds => ((exportStrides (d :: ds)).headD 1 * d) :: exportStrides (d :: ds)

/-! ## Specification -/

/-- What the elements are: the DLPack codes have these meanings (dlpack.h:71-84); HALF is the IEEE 754 binary16 of half.hpp. -/
inductive Kind
  | signed | unsigned | ieee | brain
  deriving DecidableEq

def kindOf : DT → Kind
  | .BOOL | .BYTE | .SHORT | .INT | .LONG | .LONGLONG => .signed
  | .UBYTE | .USHORT | .UINT | .ULONG | .ULONGLONG => .unsigned
  | .FLOAT | .DOUBLE | .LONGDOUBLE | .HALF => .ieee

def kindOfCode : Code → Kind
  | .int => .signed
  | .uint => .unsigned
  | .float => .ieee
  | .bfloat => .brain

/-- The position of an element, in elements, when the strides are given. -/
def position : List Nat → List Nat → Nat
  | i :: is, st :: sts => i * st + position is sts
  | _, _ => 0

/-- The memory is compact and row-major: every element is at its row-major position. -/
def Compact (shape strides : List Nat) : Prop :=
  strides.length = shape.length ∧ ∀ i, InBounds shape i → position i strides = ravel shape i

/-! ## Theorems: types -/

theorem find_ok {P : Platform} {l : List DT} {bits : Nat} {d : DT} (h : l.find? (fun d => bits == sizeOf P d * 8) = some d) :
    d ∈ l ∧ bits = sizeOf P d * 8 := by
  refine ⟨List.mem_of_find?_eq_some h, ?_⟩
  have := List.find?_some h
  simpa using this

/-- **C156 (types, import, part).** A tensor of integers or of IEEE floats is imported as a dtype of the same kind and the same number of
bits, on every platform. Missing: bfloat tensors, see `C156_bfloat_refuted`. -/
theorem C156_import_type_partial (P : Platform) (code : Code) (bits lanes : Nat) (d : DT) (hc : code ≠ .bfloat)
    (h : toDtype P code bits lanes = some d) : lanes = 1 ∧ kindOf d = kindOfCode code ∧ sizeOf P d * 8 = bits := by
  unfold toDtype at h
  by_cases hl : lanes = 1
  · rw [if_pos hl] at h
    refine ⟨hl, ?_⟩
    cases code with
    | bfloat => exact absurd rfl hc
    | int =>
      obtain ⟨h1, h2⟩ := find_ok h
      refine ⟨?_, h2.symm⟩
      simp at h1
      rcases h1 with rfl | rfl | rfl | rfl | rfl | rfl <;> rfl
    | uint =>
      obtain ⟨h1, h2⟩ := find_ok h
      refine ⟨?_, h2.symm⟩
      simp at h1
      rcases h1 with rfl | rfl | rfl | rfl | rfl <;> rfl
    | float =>
      obtain ⟨h1, h2⟩ := find_ok h
      refine ⟨?_, h2.symm⟩
      simp at h1
      rcases h1 with rfl | rfl | rfl <;> rfl
  · rw [if_neg hl] at h; simp at h

/-- x86-64 Linux. -/
def linux : Platform := ⟨2, 4, 8, 8, 4, 8, 16⟩

example : toDtype linux .int 64 1 = some .LONG ∧ toDtype linux .float 32 1 = some .FLOAT ∧ toDtype linux .float 32 4 = none ∧
    toDtype linux .uint 128 1 = none := by decide

/-- The full claim: types are imported as what they are. -/
def ImportType : Prop := ∀ (P : Platform) (code : Code) (bits lanes : Nat) (d : DT), toDtype P code bits lanes = some d →
  kindOf d = kindOfCode code

/-- **C156 (refuted).** A bfloat16 tensor is imported as HALF, which is another format (dlpack_utils.cpp:93-94) ... -/
theorem C156_bfloat_refuted : ¬ ImportType := by
  intro h
  have := h linux .bfloat 16 1 .HALF rfl
  simp [kindOf, kindOfCode] at this

/-- ... so its values change: the bfloat16 number 1 (0x3F80, the upper half of the binary32 number 0x3F800000) becomes 1.875
(0x3FF00000). -/
theorem C156_bfloat_values : Verif.HalfFloat.up 0x3F80 = 0x3FF00000 ∧ 0x3F80 <<< 16 = 0x3F800000 := by decide

/-- ... and a tensor of IEEE 754 binary16 numbers is rejected. -/
theorem C156_float16_rejected : toDtype linux .float 16 1 = none := by decide

theorem find_exists {P : Platform} {l : List DT} {bits : Nat} {d : DT} (hm : d ∈ l) (hb : bits = sizeOf P d * 8) :
    ∃ d', l.find? (fun d => bits == sizeOf P d * 8) = some d' := by
  rcases h : l.find? (fun d => bits == sizeOf P d * 8) with _ | d'
  · have := List.find?_eq_none.mp h d hm
    simp [hb] at this
  · exact ⟨d', rfl⟩

/-- **C156 (types, round trip).** What `to_dlpack` exports, `from_dlpack` imports as a dtype of the same kind and size, on every platform
whose types have less than 256 bits. -/
theorem C156_roundtrip_type (P : Platform) (d : DT) (h : sizeOf P d < 32) :
    ∃ d', toDtype P (toType P d).1 (toType P d).2 1 = some d' ∧ kindOf d' = kindOf d ∧ sizeOf P d' = sizeOf P d := by
  have hb : sizeOf P d * 8 % 256 = sizeOf P d * 8 := Nat.mod_eq_of_lt (by omega)
  have fin : ∀ (l : List DT), d ∈ l → (∀ x ∈ l, kindOf x = kindOf d) →
      ∃ d', l.find? (fun x => sizeOf P d * 8 == sizeOf P x * 8) = some d' ∧ kindOf d' = kindOf d ∧ sizeOf P d' = sizeOf P d := by
    intro l hm hk
    obtain ⟨d', hd'⟩ := find_exists (P := P) hm rfl
    obtain ⟨h1, h2⟩ := find_ok hd'
    exact ⟨d', hd', hk d' h1, by omega⟩
  simp only [toType, toDtype, if_true, hb]
  cases d <;> (simp only [toCode]; exact fin _ (by simp) (by simp [kindOf]))

/-- Some dtypes come back as others: bool as int8, long long as long. -/
example : toDtype linux (toType linux .BOOL).1 (toType linux .BOOL).2 1 = some .BYTE ∧
    toDtype linux (toType linux .LONGLONG).1 (toType linux .LONGLONG).2 1 = some .LONG ∧
    toDtype linux (toType linux .HALF).1 (toType linux .HALF).2 1 = some .HALF := by decide

/-- The claim that exported types have the DLPack meaning. -/
def ExportType : Prop := ∀ d, kindOfCode (toCode d) = kindOf d

/-- **C156 (refuted).** Half precision arrays are exported as bfloat. -/
theorem C156_half_export_refuted : ¬ ExportType := fun h => by have := h .HALF; simp [toCode, kindOfCode, kindOf] at this

/-- **C156 (types, export, part).** All other dtypes are exported as what they are. -/
theorem C156_export_type_partial (P : Platform) (d : DT) (hd : d ≠ .HALF) (h : sizeOf P d < 32) :
    kindOfCode (toType P d).1 = kindOf d ∧ (toType P d).2 = sizeOf P d * 8 := by
  refine ⟨?_, Nat.mod_eq_of_lt (by omega)⟩
  cases d <;> simp_all [toType, toCode, kindOfCode, kindOf]

example : sizeOf linux .LONGDOUBLE < 32 ∧ toType linux .LONGDOUBLE = (.float, 128) := by decide

/-! ## Theorems: layout -/

theorem checkStrides_prod {shape strides : List Nat} {c : Nat} (h : checkStrides shape strides = some c) : c = prod shape := by
  induction shape generalizing strides c with
  | nil =>
    cases strides with
    | nil => simp [checkStrides] at h; simp [prod, h]
    | cons => simp [checkStrides] at h
  | cons d ds ih =>
    cases strides with
    | nil => simp [checkStrides] at h
    | cons st sts =>
      simp only [checkStrides] at h
      rcases hc : checkStrides ds sts with _ | c'
      · rw [hc] at h; simp at h
      · rw [hc] at h
        simp only [] at h
        split at h
        · simp only [Option.some.injEq] at h
          rw [← h, ih hc, prod, Nat.mul_comm]
        · simp at h

theorem checkStrides_compact {shape strides : List Nat} (h : (checkStrides shape strides).isSome) : Compact shape strides := by
  induction shape generalizing strides with
  | nil =>
    cases strides with
    | nil => exact ⟨rfl, fun i hi => by cases i <;> simp [InBounds, position, ravel] at hi ⊢⟩
    | cons => simp [checkStrides] at h
  | cons d ds ih =>
    cases strides with
    | nil => simp [checkStrides] at h
    | cons st sts =>
      simp only [checkStrides] at h
      rcases hc : checkStrides ds sts with _ | c
      · rw [hc] at h; simp at h
      · rw [hc] at h
        simp only [] at h
        split at h
        · rename_i e
          obtain ⟨h1, h2⟩ := ih (strides := sts) (by rw [hc]; rfl)
          refine ⟨by simp [h1], ?_⟩
          intro i hi
          cases i with
          | nil => simp [InBounds] at hi
          | cons i is =>
            simp only [position, ravel]
            rw [h2 is hi.2, e, checkStrides_prod hc]
        · simp at h

/-- **C156 (layout, soundness).** When an import is accepted, the NdArray has the shape of the tensor and each of its elements, which
nnabla reads at the row-major position, is where the tensor's strides put it. -/
theorem C156_layout_sound (shape strides s : List Nat) (h : importLayout shape (some strides) = .accepted s) : s = shape ∧ Compact shape strides := by
  simp only [importLayout] at h
  split at h
  · rename_i hc
    exact ⟨by simpa using h.symm, checkStrides_compact hc⟩
  · simp at h

example : importLayout [2, 3] (some [3, 1]) = .accepted [2, 3] ∧ importLayout [2, 3] (some [1, 2]) = .rejected := by decide

/-- The full claim: compact row-major tensors are imported, with strides or without (dlpack.h:141-145: "can be NULL, indicating tensor is
compact and row-majored"). -/
def LayoutComplete : Prop := (∀ shape, importLayout shape none = .accepted shape) ∧
  ∀ shape strides, Compact shape strides → importLayout shape (some strides) = .accepted shape

/-- **C156 (refuted).** A NULL `strides` is read. -/
theorem C156_null_strides_refuted : ¬ LayoutComplete := fun h => by have := h.1 [3]; simp [importLayout] at this

/-- **C156 (refuted).** The stride of an axis of size 1 does not matter, but is compared. -/
theorem C156_unit_axis_refuted : ¬ LayoutComplete := by
  intro h
  have := h.2 [1, 3] [7, 1] ⟨rfl, ?_⟩
  · simp [importLayout, checkStrides] at this
  · intro i hi
    match i, hi with
    | [0, j], _ => simp [position, ravel, prod]
    | [_ + 1, _], hi => simp [InBounds] at hi

theorem inBounds_zero {ds : List Nat} (hd : ∀ d ∈ ds, 2 ≤ d) : InBounds ds (ds.map fun _ => 0) := by
  induction ds with
  | nil => trivial
  | cons d ds ih => exact ⟨Nat.lt_of_lt_of_le (Nat.zero_lt_two) (hd d (by simp)), ih fun x hx => hd x (by simp [hx])⟩

theorem position_zero (ds st : List Nat) : position (ds.map fun _ => 0) st = 0 := by
  induction ds generalizing st with
  | nil => cases st <;> rfl
  | cons d ds ih => cases st with
    | nil => rfl
    | cons s st => simp [position, ih]

theorem ravel_zero (sh ds : List Nat) : ravel sh (ds.map fun _ => 0) = 0 := by
  induction ds generalizing sh with
  | nil => cases sh <;> rfl
  | cons d ds ih => cases sh with
    | nil => rfl
    | cons s sh => simp [ravel, ih]

/-- **C156 (layout, completeness, part).** Compact row-major tensors whose axes all have at least two elements are imported. Missing: axes
of size 0 and 1, and NULL strides. -/
theorem C156_layout_complete_partial (shape strides : List Nat) (hd : ∀ d ∈ shape, 2 ≤ d) (h : Compact shape strides) :
    importLayout shape (some strides) = .accepted shape := by
  have key : (checkStrides shape strides).isSome := by
    induction shape generalizing strides with
    | nil =>
      have := h.1
      simp at this
      subst this
      rfl
    | cons d ds ih =>
      obtain ⟨hl, hp⟩ := h
      cases strides with
      | nil => simp at hl
      | cons st sts =>
        have hd' : ∀ x ∈ ds, 2 ≤ x := fun x hx => hd x (by simp [hx])
        have h2 : 2 ≤ d := hd d (by simp)
        have hc : Compact ds sts := by
          refine ⟨by simpa using hl, fun i hi => ?_⟩
          have := hp (0 :: i) ⟨by omega, hi⟩
          simpa [position, ravel] using this
        have h3 := ih sts hd' hc
        obtain ⟨c, hcs⟩ := Option.isSome_iff_exists.mp h3
        have := hp (1 :: ds.map fun _ => 0) ⟨by omega, inBounds_zero hd'⟩
        simp only [position, ravel, position_zero, ravel_zero] at this
        have e : st = c := by rw [checkStrides_prod hcs]; omega
        simp [checkStrides, hcs, e]
  simp [importLayout, key]

example : Compact [2, 3] [3, 1] := (C156_layout_sound [2, 3] [3, 1] [2, 3] (by decide)).2

theorem export_head (d : Nat) (ds : List Nat) : (exportStrides (d :: ds)).headD 1 = prod ds := by
  induction ds generalizing d with
  | nil => rfl
  | cons e es ih => simp only [exportStrides, List.headD_cons, ih, prod, Nat.mul_comm]

theorem export_check (shape : List Nat) : checkStrides shape (exportStrides shape) = some (prod shape) := by
  induction shape with
  | nil => rfl
  | cons d ds ih =>
    cases ds with
    | nil => simp [checkStrides, exportStrides, prod]
    | cons e es =>
      simp only [exportStrides, checkStrides, ih, export_head]
      rw [if_pos (by simp [prod, Nat.mul_comm])]
      simp [prod, Nat.mul_comm]

/-- **C156 (layout, round trip).** What `to_dlpack` exports is compact, and `from_dlpack` accepts it with the same shape. -/
theorem C156_roundtrip_layout (shape : List Nat) : Compact shape (exportStrides shape) ∧
    importLayout shape (some (exportStrides shape)) = .accepted shape := by
  have h := export_check shape
  exact ⟨checkStrides_compact (by rw [h]; rfl), by simp [importLayout, h]⟩

end Verif.Dlpack
