import Mathlib.Logic.Function.Basic
import Mathlib.Tactic.Common
/-!
C155: DLPack tensors: who owns them, when their deleter is called (python/src/nnabla/utils/dlpack.pyx,
src/nbla/utils/dlpack_utils.cpp, src/nbla/array/dlpack_array.cpp, the parts of src/nbla/synced_array.cpp they use).

Simplifications: CPU arrays only (all array classes are in the group "cpu", init.cpp.tmpl:79-81, so the key of an array in a
SyncedArray is its dtype); one SyncedArray per NdArray, not narrowed; dtypes are numbers (dtypes.hpp:32-65). The destruction of an
Array whose last shared_ptr is gone is a step of its own, so it may happen later than in C++.
-/
namespace Verif.Dlpack

/-! ## Model -/

/-- An Array object: an ordinary one, or a DlpackArray with its `dlp_` (dlpack_array.hpp:24-50). -/
inductive Arr
  | plain
  | dl (t : Option Nat)
  deriving DecidableEq

/-- A PyCapsule of a DLManagedTensor. `fresh`: its name is "dltensor" (and its destructor is set). -/
structure Cap where
  tensor : Nat
  fresh : Bool
  deriving DecidableEq

/-- An NdArray: its SyncedArray's `array_` by dtype, `head_` and size. -/
structure Nd where
  slots : Nat → Option Nat
  head : Option Nat
  size : Nat

/-- The fields of a DLTensor that matter here; `contig`: the strides pass the check, `typed`: the type has a dtype. -/
structure Desc where
  dtype : Nat
  size : Nat
  contig : Bool
  typed : Bool

/-- Everything. The numbers `nt nc na nn` have been used for tensors, capsules, arrays and NdArrays. -/
structure St where
  desc : Nat → Desc
  /-- how often the deleter of a tensor has been called -/
  dels : Nat → Nat
  /-- the array that a tensor made by nnabla keeps alive (manager_ctx, dlpack_utils.cpp:150-156) -/
  holds : Nat → Option Nat
  /-- the tensor belongs to another framework, which has taken it from a capsule -/
  foreign : Nat → Bool
  caps : Nat → Option Cap
  arrs : Nat → Option Arr
  nds : Nat → Nd
  nt : Nat
  nc : Nat
  na : Nat
  nn : Nat

/-- The result of an operation: done, an exception, or an access through a null pointer. -/
inductive Out
  | ok (s : St)
  | raised (s : St)
  | crash

/-- No arrays. -/
def noSlots : Nat → Option Nat := fun _ => none

/-- Nothing exists. -/
def init : St := ⟨fun _ => ⟨0, 0, true, true⟩, fun _ => 0, fun _ => none, fun _ => false, fun _ => none, fun _ => none, fun _ => ⟨noSlots, none, 0⟩, 0, 0, 0, 0⟩

/-- `cast_sp(dtype, ctx)` (synced_array.cpp:138-196): the array of the dtype, created as `k` if there is none, stays as the only one. -/
def cast (s : St) (n d : Nat) (k : Arr) : St × Nat :=
  match (s.nds n).slots d with
  | some a => ({ s with nds := Function.update s.nds n { s.nds n with slots := Function.update noSlots d (some a), head := some d } }, a)
  | none => ({ s with nds := Function.update s.nds n { s.nds n with slots := Function.update noSlots d (some s.na), head := some d },
                      arrs := Function.update s.arrs s.na (some k), na := s.na + 1 }, s.na)

/-- `get_sp` (synced_array.cpp:203-227): an array of the dtype is added. -/
def get (s : St) (n d : Nat) : St :=
  match (s.nds n).slots d with
  | some _ => s
  | none => { s with nds := Function.update s.nds n { s.nds n with slots := Function.update (s.nds n).slots d (some s.na), head := some ((s.nds n).head.getD d) },
                     arrs := Function.update s.arrs s.na (some .plain), na := s.na + 1 }

/-- `clear` (synced_array.cpp:468-489), also of fill, zero and destruction of the NdArray; `head_` stays. -/
def clear (s : St) (n : Nat) : St := { s with nds := Function.update s.nds n { s.nds n with slots := noSlots } }

/-- A new NdArray. -/
def newNd (s : St) (size : Nat) : St × Nat :=
  ({ s with nds := Function.update s.nds s.nn ⟨noSlots, none, size⟩, nn := s.nn + 1 }, s.nn)

/-- `from_dlpack` (dlpack.pyx:72-90, dlpack_utils.cpp:126-139) with a given NdArray: the shape check, `reshape(shape, true)`
(nd_array.cpp:68-87), the dtype conversion, the cast, `dynamic_cast<DlpackArray *>` and `borrow` (dlpack_array.cpp:41-44). -/
def fromInto (s : St) (c n : Nat) : Out :=
  match s.caps c with
  | none => .raised s
  | some cap =>
    if cap.fresh = false then .raised s
    else if (s.desc cap.tensor).contig = false then .raised s
    else
      let s1 := if (s.nds n).size = (s.desc cap.tensor).size then s
        else { s with nds := Function.update s.nds n ⟨noSlots, none, (s.desc cap.tensor).size⟩ }
      if (s.desc cap.tensor).typed = false then .raised s1
      else
        let r := cast s1 n (s.desc cap.tensor).dtype (.dl none)
        match r.1.arrs r.2 with
        | some (.dl _) => .ok { r.1 with arrs := Function.update r.1.arrs r.2 (some (.dl (some cap.tensor))), caps := Function.update r.1.caps c (some { cap with fresh := false }) }
        | _ => .crash

/-- `from_dlpack(dlp)`: into a new NdArray of size 1 (dlpack_utils.cpp:126-130). -/
def fromNew (s : St) (c : Nat) : Out :=
  let r := newNd s 1
  fromInto r.1 c r.2

/-- `to_dlpack_impl` (dlpack_utils.cpp:161-233): an array class without a DLPack device type raises (dlpack_array_registry.cpp:86-95;
init.cpp.tmpl:70-71 registers CpuArray and CpuCachedArray, not CpuDlpackArray). -/
def export_ (s : St) (n d a : Nat) : Out :=
  match s.arrs a with
  | none => .crash
  | some (.dl _) => .raised s
  | some .plain => .ok { s with
      desc := Function.update s.desc s.nt ⟨d, (s.nds n).size, true, true⟩
      holds := Function.update s.holds s.nt (some a), nt := s.nt + 1,
      caps := Function.update s.caps s.nc (some ⟨s.nt, true⟩), nc := s.nc + 1 }

/-- `to_dlpack(a, dtype, ctx)` (dlpack.pyx:143-165, dlpack_utils.cpp:235-244): without a cast if both arguments are given, with a cast
otherwise; the default dtype is that of the head, FLOAT = 11 before the first access. -/
def toDlpack (s : St) (n : Nat) (dtype : Option Nat) (ctx : Bool) : Out :=
  if ctx = true ∧ dtype.isSome then
    match (s.nds n).head with
    | none => .crash
    | some h => match (s.nds n).slots h with
      | none => .crash
      | some a => export_ s n h a
  else
    let d := dtype.getD ((s.nds n).head.getD 11)
    let r := cast s n d .plain
    export_ r.1 n d r.2

/-- The deleter of a tensor is called. -/
def del (s : St) (t : Nat) : St := { s with dels := Function.update s.dels t (s.dels t + 1) }

/-- Operations of the user, of other frameworks and of the memory management. -/
inductive Op
  /-- another framework makes a tensor and a capsule -/
  | foreignExport (d : Desc)
  | fromNew (c : Nat)
  | fromInto (c n : Nat)
  | toDlpack (n : Nat) (dtype : Option Nat) (ctx : Bool)
  /-- a capsule dies: the destructor calls the deleter if nobody has taken the tensor (dlpack.pyx:95-97) -/
  | dropCapsule (c : Nat)
  /-- another framework takes the tensor of a capsule and renames it -/
  | consume (c : Nat)
  /-- ... and releases it -/
  | release (t : Nat)
  | newNd (size : Nat) | cast (n d : Nat) | get (n d : Nat) | clear (n : Nat)
  /-- an array that nobody refers to is destroyed (dlpack_array.cpp:31-33) -/
  | collect (a : Nat)

/-- No NdArray and no tensor refers to the array. -/
def unreferenced (s : St) (a : Nat) : Prop := (∀ n d, (s.nds n).slots d ≠ some a) ∧ ∀ t, s.holds t = some a → s.dels t ≠ 0

open Classical in
/-- One operation. -/
noncomputable def step (s : St) : Op → Out
  | .foreignExport d => .ok { s with desc := Function.update s.desc s.nt d, nt := s.nt + 1,
                                     caps := Function.update s.caps s.nc (some ⟨s.nt, true⟩), nc := s.nc + 1 }
  | .fromNew c => fromNew s c
  | .fromInto c n => if n < s.nn then fromInto s c n else .raised s
  | .toDlpack n dtype ctx => if n < s.nn then toDlpack s n dtype ctx else .raised s
  | .dropCapsule c => match s.caps c with
    | none => .ok s
    | some cap => let s1 := { s with caps := Function.update s.caps c none }
      .ok (if cap.fresh then del s1 cap.tensor else s1)
  | .consume c => match s.caps c with
    | none => .raised s
    | some cap => if cap.fresh then .ok { s with caps := Function.update s.caps c (some { cap with fresh := false }), foreign := Function.update s.foreign cap.tensor true }
      else .raised s
  | .release t => if s.foreign t then .ok (del { s with foreign := Function.update s.foreign t false } t) else .ok s
  | .newNd size => .ok (newNd s size).1
  | .cast n d => if n < s.nn then .ok (cast s n d .plain).1 else .raised s
  | .get n d => if n < s.nn then .ok (get s n d) else .raised s
  | .clear n => .ok (clear s n)
  | .collect a => if unreferenced s a then
      match s.arrs a with
      | none => .ok s
      | some .plain => .ok { s with arrs := Function.update s.arrs a none }
      | some (.dl (some t)) => .ok (del { s with arrs := Function.update s.arrs a none } t)
      | some (.dl none) => .crash
    else .ok s

/-- A history; an exception does not end it, a crash does. -/
noncomputable def run (s : St) : List Op → Option St
  | [] => some s
  | o :: os => match step s o with
    | .ok s' => run s' os
    | .raised s' => run s' os
    | .crash => none

/-! ## Specification -/

/-- Who may call the deleter of a tensor. -/
inductive Owner
  | cap (c : Nat) | arr (a : Nat) | foreign
  deriving DecidableEq

/-- `o` is responsible for tensor `t`. -/
def Owns (s : St) (t : Nat) : Owner → Prop
  | .cap c => s.caps c = some ⟨t, true⟩
  | .arr a => s.arrs a = some (.dl (some t))
  | .foreign => s.foreign t = true

/-- What must hold at every moment. -/
structure Safe (s : St) : Prop where
  /-- no deleter is called twice -/
  once : ∀ t, s.dels t ≤ 1
  /-- one owner at most -/
  unique : ∀ t o o', Owns s t o → Owns s t o' → o = o'
  /-- what somebody owns has not been deleted -/
  alive : ∀ t o, Owns s t o → s.dels t = 0
  /-- the arrays of an NdArray exist, and a borrowed one has a tensor that has not been deleted -/
  slots : ∀ n d a, (s.nds n).slots d = some a → s.arrs a = some .plain ∨ ∃ t, s.arrs a = some (.dl (some t)) ∧ s.dels t = 0
  /-- the memory behind a tensor made by nnabla exists until its deleter is called -/
  memory : ∀ t a, s.holds t = some a → s.dels t = 0 → s.arrs a = some .plain

/-! ## Invariant -/

structure Inv (s : St) : Prop where
  once : ∀ t, s.dels t ≤ 1
  unique : ∀ t o o', Owns s t o → Owns s t o' → o = o'
  alive : ∀ t o, Owns s t o → s.dels t = 0 ∧ t < s.nt
  slot : ∀ n d a, (s.nds n).slots d = some a → s.arrs a ≠ none
  borrowed : ∀ a, s.arrs a ≠ some (.dl none)
  memory : ∀ t a, s.holds t = some a → s.dels t = 0 → s.arrs a = some .plain
  ft : ∀ t, s.nt ≤ t → s.dels t = 0 ∧ s.holds t = none
  fa : ∀ a, s.na ≤ a → s.arrs a = none

theorem Inv.safe {s : St} (h : Inv s) : Safe s where
  once := h.once
  unique := h.unique
  alive t o ho := (h.alive t o ho).1
  slots n d a hs := by
    have h1 := h.slot n d a hs
    have h2 := h.borrowed a
    rcases hk : s.arrs a with _ | _ | _ | t
    · exact absurd hk h1
    · exact .inl rfl
    · exact absurd hk h2
    · exact .inr ⟨t, rfl, (h.alive t (.arr a) hk).1⟩
  memory := h.memory

theorem inv_init : Inv init := by
  have ho : ∀ t o, ¬ Owns init t o := by rintro t (c | a | -) <;> simp [init, Owns]
  refine ⟨by simp [init], fun t o o' h _ => absurd h (ho t o), fun t o h => absurd h (ho t o), by simp [init, noSlots], by simp [init], by simp [init], by simp [init], by simp [init]⟩

/-- Changing the arrays of NdArrays only. -/
theorem Inv.nds {s s' : St} (h : Inv s) (e : s' = { s with nds := s'.nds }) (hs : ∀ n d a, (s'.nds n).slots d = some a → ∃ n d, (s.nds n).slots d = some a) : Inv s' := by
  rw [e]
  exact ⟨h.once, h.unique, h.alive, fun n d a hh => by obtain ⟨n, d, hh⟩ := hs n d a hh; exact h.slot n d a hh, h.borrowed, h.memory, h.ft, h.fa⟩

theorem upd_some {α : Type} {f : Nat → Option α} {i j : Nat} {x : Option α} {y : α} (h : Function.update f i x j = some y) :
    (j = i ∧ x = some y) ∨ (j ≠ i ∧ f j = some y) := by
  by_cases c : j = i
  · subst c; rw [Function.update_self] at h; exact .inl ⟨rfl, h⟩
  · rw [Function.update_of_ne c] at h; exact .inr ⟨c, h⟩

/-- A new array, in the slots of one NdArray. -/
theorem Inv.newArr {s : St} (h : Inv s) (n : Nat) (nd : Nd) (hn : ∀ d a, nd.slots d = some a → a = s.na ∨ (s.nds n).slots d = some a)
    (k : Arr) (hk : k ≠ .dl none) (ho : ∀ t, k = .dl (some t) → (∀ o, ¬ Owns s t o) ∧ s.dels t = 0 ∧ t < s.nt) :
    Inv { s with nds := Function.update s.nds n nd, arrs := Function.update s.arrs s.na (some k), na := s.na + 1 } := by
  have own : ∀ t o, Owns { s with nds := Function.update s.nds n nd, arrs := Function.update s.arrs s.na (some k), na := s.na + 1 } t o →
      Owns s t o ∨ (o = .arr s.na ∧ k = .dl (some t)) := by
    intro t o ho
    rcases o with c | a | -
    · exact .inl ho
    · rcases upd_some (show Function.update s.arrs s.na (some k) a = _ from ho) with ⟨rfl, hh⟩ | ⟨-, hh⟩
      · exact .inr ⟨rfl, by simpa using hh⟩
      · exact .inl hh
    · exact .inl ho
  have plain : ∀ a, s.arrs a = some .plain → Function.update s.arrs s.na (some k) a = some .plain := by
    intro a ha
    rw [Function.update_of_ne]
    · exact ha
    · rintro rfl
      rw [h.fa _ (Nat.le_refl _)] at ha
      simp at ha
  refine ⟨h.once, ?_, ?_, ?_, ?_, fun t a h1 h2 => plain a (h.memory t a h1 h2), h.ft, ?_⟩
  · intro t o o' h1 h2
    rcases own t o h1 with p | ⟨rfl, p⟩ <;> rcases own t o' h2 with q | ⟨rfl, q⟩
    · exact h.unique t o o' p q
    · exact absurd p ((ho t q).1 o)
    · exact absurd q ((ho t p).1 o')
    · rfl
  · intro t o h1
    rcases own t o h1 with p | ⟨rfl, p⟩
    · exact h.alive t o p
    · exact (ho t p).2
  · intro n' d a hs
    have hs : (Function.update s.nds n nd n').slots d = some a := hs
    show Function.update s.arrs s.na (some k) a ≠ none
    by_cases ha : a = s.na
    · subst ha; rw [Function.update_self]; simp
    · rw [Function.update_of_ne ha]
      by_cases hn' : n' = n
      · subst hn'
        rw [Function.update_self] at hs
        rcases hn d a hs with rfl | hs
        · exact absurd rfl ha
        · exact h.slot _ _ _ hs
      · rw [Function.update_of_ne hn'] at hs
        exact h.slot _ _ _ hs
  · intro a ha
    rcases upd_some (show Function.update s.arrs s.na (some k) a = _ from ha) with ⟨-, hh⟩ | ⟨-, hh⟩
    · exact hk (by simpa using hh)
    · exact h.borrowed a hh
  · intro a ha
    have ha : s.na + 1 ≤ a := ha
    show Function.update s.arrs s.na (some k) a = none
    rw [Function.update_of_ne (by omega)]
    exact h.fa a (by omega)

/-- The deleter is called by the owner, who is gone afterwards. -/
theorem Inv.del {s s' : St} (h : Inv s) (t : Nat) (o : Owner) (ho : Owns s t o)
    (e1 : s'.dels = Function.update s.dels t (s.dels t + 1)) (e2 : s'.holds = s.holds) (e3 : s'.nt = s.nt) (e4 : s'.na = s.na) (e5 : s'.nds = s.nds)
    (hown : ∀ t' o', Owns s' t' o' → Owns s t' o' ∧ ¬ (t' = t ∧ o' = o))
    (harr : ∀ a, s'.arrs a = s.arrs a ∨ (s'.arrs a = none ∧ (∀ n d, (s.nds n).slots d ≠ some a) ∧ s.arrs a ≠ some .plain)) : Inv s' := by
  obtain ⟨h0, hlt⟩ := h.alive t o ho
  have hd : ∀ t', s'.dels t' = if t' = t then 1 else s.dels t' := by
    intro t'
    rw [e1]
    by_cases c : t' = t
    · subst c; simp [h0]
    · rw [Function.update_of_ne c, if_neg c]
  have hne : ∀ t' o', Owns s' t' o' → t' ≠ t := by
    rintro t' o' h1 rfl
    obtain ⟨h2, h3⟩ := hown _ _ h1
    exact h3 ⟨rfl, h.unique _ _ _ h2 ho⟩
  refine ⟨?_, ?_, ?_, ?_, ?_, ?_, ?_, ?_⟩
  · intro t'; rw [hd]; split
    · exact Nat.le_refl _
    · exact h.once t'
  · intro t' a b h1 h2; exact h.unique t' a b (hown _ _ h1).1 (hown _ _ h2).1
  · intro t' o' h1
    rw [hd, if_neg (hne _ _ h1), e3]
    exact h.alive t' o' (hown _ _ h1).1
  · intro n d a hs
    rw [e5] at hs
    rcases harr a with e | ⟨-, e, -⟩
    · rw [e]; exact h.slot n d a hs
    · exact absurd hs (e n d)
  · intro a ha
    rcases harr a with e | ⟨e, -⟩
    · rw [e] at ha; exact h.borrowed a ha
    · rw [e] at ha; simp at ha
  · intro t' a h1 h2
    rw [e2] at h1
    rw [hd] at h2
    have : t' ≠ t := by rintro rfl; simp at h2
    rw [if_neg this] at h2
    have hp := h.memory t' a h1 h2
    rcases harr a with e | ⟨-, -, e⟩
    · rw [e]; exact hp
    · exact absurd hp e
  · intro t' ht
    rw [e3] at ht
    rw [hd, if_neg (by omega), e2]
    exact h.ft t' ht
  · intro a ha
    rw [e4] at ha
    rcases harr a with e | ⟨e, -⟩
    · rw [e]; exact h.fa a ha
    · exact e

theorem cast_inv {s : St} (h : Inv s) (n d : Nat) : Inv (cast s n d .plain).1 := by
  unfold cast
  rcases hs : (s.nds n).slots d with _ | a
  · simp only []
    apply h.newArr n _ ?_ .plain (by simp) (by simp)
    intro d' a ha
    rcases upd_some (show Function.update noSlots d (some s.na) d' = some a from ha) with ⟨-, hh⟩ | ⟨-, hh⟩
    · left; simpa using hh.symm
    · simp [noSlots] at hh
  · simp only []
    apply h.nds rfl
    intro n' d' b hb
    have hb : (Function.update s.nds n { s.nds n with slots := Function.update noSlots d (some a), head := some d } n').slots d' = some b := hb
    by_cases c : n' = n
    · subst c
      rw [Function.update_self] at hb
      rcases upd_some (show Function.update noSlots d (some a) d' = some b from hb) with ⟨-, hh⟩ | ⟨-, hh⟩
      · exact ⟨n', d, by rw [hs]; exact hh⟩
      · simp [noSlots] at hh
    · rw [Function.update_of_ne c] at hb
      exact ⟨n', d', hb⟩

theorem get_inv {s : St} (h : Inv s) (n d : Nat) : Inv (get s n d) := by
  unfold get
  rcases hs : (s.nds n).slots d with _ | a
  · simp only []
    apply h.newArr n _ ?_ .plain (by simp) (by simp)
    intro d' a ha
    rcases upd_some (show Function.update (s.nds n).slots d (some s.na) d' = some a from ha) with ⟨-, hh⟩ | ⟨-, hh⟩
    · left; simpa using hh.symm
    · right; exact hh
  · exact h

theorem slots_update {s : St} {n : Nat} {nd : Nd} (hnd : ∀ d, nd.slots d = none) :
    ∀ n' d a, (Function.update s.nds n nd n').slots d = some a → ∃ n d, (s.nds n).slots d = some a := by
  intro n' d a hs
  by_cases c : n' = n
  · subst c; rw [Function.update_self, hnd] at hs; simp at hs
  · rw [Function.update_of_ne c] at hs; exact ⟨n', d, hs⟩

theorem clear_inv {s : St} (h : Inv s) (n : Nat) : Inv (clear s n) := h.nds rfl (slots_update fun _ => rfl)

theorem newNd_inv {s : St} (h : Inv s) (k : Nat) : Inv (newNd s k).1 := by
  have h1 : Inv { s with nds := Function.update s.nds s.nn ⟨noSlots, none, k⟩ } := h.nds rfl (slots_update fun _ => rfl)
  exact ⟨h1.once, h1.unique, h1.alive, h1.slot, h1.borrowed, h1.memory, h1.ft, h1.fa⟩

/-- A tensor with a new capsule. -/
theorem Inv.newTensor {s s' : St} (h : Inv s) (hold : Option Nat) (hh : ∀ a, hold = some a → s.arrs a = some .plain)
    (e1 : s'.dels = s.dels) (e2 : s'.holds = Function.update s.holds s.nt hold) (e3 : s'.nt = s.nt + 1) (e4 : s'.na = s.na) (e5 : s'.nds = s.nds)
    (e6 : s'.arrs = s.arrs) (e7 : s'.foreign = s.foreign) (e8 : s'.caps = Function.update s.caps s.nc (some ⟨s.nt, true⟩)) : Inv s' := by
  have own : ∀ t o, Owns s' t o → Owns s t o ∨ (o = .cap s.nc ∧ t = s.nt) := by
    intro t o ho
    rcases o with c | a | -
    · have ho : s'.caps c = _ := ho
      rw [e8] at ho
      rcases upd_some ho with ⟨rfl, hx⟩ | ⟨-, hx⟩
      · right; exact ⟨rfl, by simpa using hx.symm⟩
      · exact .inl hx
    · left; have ho : s'.arrs a = _ := ho; rw [e6] at ho; exact ho
    · left; have ho : s'.foreign t = true := ho; rw [e7] at ho; exact ho
  refine ⟨by rw [e1]; exact h.once, ?_, ?_, by rw [e5, e6]; exact h.slot, by rw [e6]; exact h.borrowed, ?_, ?_, by rw [e6, e4]; exact h.fa⟩
  · intro t o o' h1 h2
    rcases own t o h1 with p | ⟨rfl, p⟩ <;> rcases own t o' h2 with q | ⟨rfl, q⟩
    · exact h.unique t o o' p q
    · exact absurd (h.alive t o p).2 (by omega)
    · exact absurd (h.alive t o' q).2 (by omega)
    · rfl
  · intro t o h1
    rw [e1, e3]
    rcases own t o h1 with p | ⟨rfl, rfl⟩
    · have := h.alive t o p; exact ⟨this.1, by omega⟩
    · exact ⟨(h.ft _ (Nat.le_refl _)).1, by omega⟩
  · intro t a h1 h2
    rw [e2] at h1
    rw [e1] at h2
    rw [e6]
    rcases upd_some h1 with ⟨-, hx⟩ | ⟨-, hx⟩
    · exact hh a hx
    · exact h.memory t a hx h2
  · intro t ht
    rw [e3] at ht
    rw [e1, e2, Function.update_of_ne (by omega)]
    exact h.ft t (by omega)

theorem export_inv {s : St} (h : Inv s) (n d a : Nat) : ∀ s', (export_ s n d a = .ok s' ∨ export_ s n d a = .raised s') → Inv s' := by
  intro s' hs
  unfold export_ at hs
  rcases hk : s.arrs a with _ | _ | t
  · rw [hk] at hs; simp at hs
  · rw [hk] at hs
    simp only [Out.ok.injEq, reduceCtorEq, or_false] at hs
    subst hs
    exact h.newTensor (some a) (by rintro b hb; simp only [Option.some.injEq] at hb; subst hb; exact hk) rfl rfl rfl rfl rfl rfl rfl rfl
  · rw [hk] at hs
    simp only [Out.raised.injEq, reduceCtorEq, false_or] at hs
    subst hs
    exact h

theorem fromInto_inv {s : St} (h : Inv s) (c n : Nat) : ∀ s', (fromInto s c n = .ok s' ∨ fromInto s c n = .raised s') → Inv s' := by
  intro s' hs
  unfold fromInto at hs
  rcases hc : s.caps c with _ | cap
  · rw [hc] at hs; simp at hs; subst hs; exact h
  rw [hc] at hs
  simp only [] at hs
  by_cases hf : cap.fresh = false
  · rw [if_pos hf] at hs; simp at hs; subst hs; exact h
  rw [if_neg hf] at hs
  by_cases hco : (s.desc cap.tensor).contig = false
  · rw [if_pos hco] at hs; simp at hs; subst hs; exact h
  rw [if_neg hco] at hs
  set s1 := if (s.nds n).size = (s.desc cap.tensor).size then s
        else { s with nds := Function.update s.nds n ⟨noSlots, none, (s.desc cap.tensor).size⟩ } with hs1
  have h1 : Inv s1 := by
    rw [hs1]
    split
    · exact h
    · exact h.nds rfl (slots_update fun _ => rfl)
  have hc1 : s1.caps = s.caps := by rw [hs1]; split <;> rfl
  by_cases hty : (s.desc cap.tensor).typed = false
  · rw [if_pos hty] at hs; simp at hs; subst hs; exact h1
  rw [if_neg hty] at hs
  have hcap : cap = ⟨cap.tensor, true⟩ := by
    rcases cap with ⟨t, f⟩; simp at hf; subst hf; rfl
  have hown : Owns s1 cap.tensor (.cap c) := by
    show s1.caps c = _
    rw [hc1, hc, ← hcap]
  set t := cap.tensor with ht
  -- the invariant without the capsule
  have hother : ∀ o, Owns { s1 with caps := Function.update s1.caps c (some { cap with fresh := false }) } t o → False := by
    intro o ho
    have : Owns s1 t o ∧ o ≠ .cap c := by
      rcases o with c' | a | -
      · rcases upd_some (show Function.update s1.caps c (some { cap with fresh := false }) c' = _ from ho) with ⟨-, hx⟩ | ⟨hx, hy⟩
        · simp at hx
        · exact ⟨hy, by simpa using hx⟩
      · exact ⟨ho, by simp⟩
      · exact ⟨ho, by simp⟩
    exact this.2 (h1.unique _ _ _ this.1 hown)
  have h2 : Inv { s1 with caps := Function.update s1.caps c (some { cap with fresh := false }) } := by
    have own : ∀ t o, Owns { s1 with caps := Function.update s1.caps c (some { cap with fresh := false }) } t o → Owns s1 t o := by
      intro t' o ho
      rcases o with c' | a | -
      · rcases upd_some (show Function.update s1.caps c (some { cap with fresh := false }) c' = _ from ho) with ⟨-, hx⟩ | ⟨hx, hy⟩
        · simp at hx
        · exact hy
      · exact ho
      · exact ho
    exact ⟨h1.once, fun t o o' a b => h1.unique t o o' (own _ _ a) (own _ _ b), fun t o a => h1.alive t o (own _ _ a), h1.slot, h1.borrowed, h1.memory, h1.ft, h1.fa⟩
  obtain ⟨hd0, hdlt⟩ := h1.alive _ _ hown
  unfold cast at hs
  rcases hsl : (s1.nds n).slots (s.desc t).dtype with _ | a
  · rw [hsl] at hs
    simp only [Function.update_self, Out.ok.injEq, reduceCtorEq, or_false] at hs
    subst hs
    have h3 := h2.newArr n { s1.nds n with slots := Function.update noSlots (s.desc t).dtype (some s1.na), head := some (s.desc t).dtype } (by
      intro d' a ha
      rcases upd_some (show Function.update noSlots (s.desc t).dtype (some s1.na) d' = some a from ha) with ⟨-, hh⟩ | ⟨-, hh⟩
      · left; simpa using hh.symm
      · simp [noSlots] at hh) (.dl (some t)) (by simp) (by
      intro t' ht'
      simp only [Arr.dl.injEq, Option.some.injEq] at ht'
      subst ht'
      exact ⟨fun o ho => hother o ho, hd0, hdlt⟩)
    simpa using h3
  · rw [hsl] at hs
    simp only [] at hs
    rcases hk : s1.arrs a with _ | _ | t0
    · rw [hk] at hs; simp at hs
    · rw [hk] at hs; simp at hs
    · rw [hk] at hs
      simp only [Out.ok.injEq, reduceCtorEq, or_false] at hs
      subst hs
      have own : ∀ t' o, Owns { s1 with nds := Function.update s1.nds n { s1.nds n with slots := Function.update noSlots (s.desc t).dtype (some a), head := some (s.desc t).dtype }, arrs := Function.update s1.arrs a (some (.dl (some t))), caps := Function.update s1.caps c (some { cap with fresh := false }) } t' o →
          (Owns { s1 with caps := Function.update s1.caps c (some { cap with fresh := false }) } t' o ∧ o ≠ .arr a) ∨ (o = .arr a ∧ t' = t) := by
        intro t' o ho
        rcases o with c' | b | -
        · exact .inl ⟨ho, by simp⟩
        · rcases upd_some (show Function.update s1.arrs a (some (.dl (some t))) b = _ from ho) with ⟨rfl, hx⟩ | ⟨hx, hy⟩
          · right; simp at hx; exact ⟨rfl, hx.symm⟩
          · exact .inl ⟨hy, by simpa using hx⟩
        · exact .inl ⟨ho, by simp⟩
      refine ⟨h1.once, ?_, ?_, ?_, ?_, ?_, h1.ft, ?_⟩
      · intro t' o o' p q
        rcases own t' o p with ⟨p, -⟩ | ⟨rfl, hp⟩ <;> rcases own t' o' q with ⟨q, -⟩ | ⟨rfl, hq⟩
        · exact h2.unique _ _ _ p q
        · rw [hq] at p; exact absurd p (fun p => hother _ p)
        · rw [hp] at q; exact absurd q (fun q => hother _ q)
        · rfl
      · intro t' o p
        rcases own t' o p with ⟨p, -⟩ | ⟨rfl, rfl⟩
        · exact h2.alive _ _ p
        · exact ⟨hd0, hdlt⟩
      · intro n' d b hb
        show Function.update s1.arrs a (some (.dl (some t))) b ≠ none
        by_cases hab : b = a
        · subst hab; rw [Function.update_self]; simp
        · rw [Function.update_of_ne hab]
          have hb : (Function.update s1.nds n { s1.nds n with slots := Function.update noSlots (s.desc t).dtype (some a), head := some (s.desc t).dtype } n').slots d = some b := hb
          by_cases hn : n' = n
          · subst hn
            rw [Function.update_self] at hb
            rcases upd_some (show Function.update noSlots (s.desc t).dtype (some a) d = some b from hb) with ⟨-, hx⟩ | ⟨-, hx⟩
            · exact absurd (by simpa using hx.symm) hab
            · simp [noSlots] at hx
          · rw [Function.update_of_ne hn] at hb
            exact h1.slot _ _ _ hb
      · intro b hb
        rcases upd_some (show Function.update s1.arrs a (some (.dl (some t))) b = _ from hb) with ⟨-, hx⟩ | ⟨-, hx⟩
        · simp at hx
        · exact h1.borrowed b hx
      · intro t' b p q
        have hp := h1.memory t' b p q
        show Function.update s1.arrs a (some (.dl (some t))) b = _
        rw [Function.update_of_ne]
        · exact hp
        · rintro rfl; rw [hk] at hp; simp at hp
      · intro b hb
        show Function.update s1.arrs a (some (.dl (some t))) b = none
        rw [Function.update_of_ne]
        · exact h1.fa b hb
        · rintro rfl; rw [h1.fa _ hb] at hk; simp at hk

theorem toDlpack_inv {s : St} (h : Inv s) (n : Nat) (dt : Option Nat) (ctx : Bool) :
    ∀ s', (toDlpack s n dt ctx = .ok s' ∨ toDlpack s n dt ctx = .raised s') → Inv s' := by
  intro s' hs
  unfold toDlpack at hs
  by_cases c : ctx = true ∧ dt.isSome
  · rw [if_pos c] at hs
    rcases hh : (s.nds n).head with _ | d
    · rw [hh] at hs; simp at hs
    rw [hh] at hs
    simp only [] at hs
    rcases hsl : (s.nds n).slots d with _ | a
    · rw [hsl] at hs; simp at hs
    rw [hsl] at hs
    exact export_inv h n d a s' hs
  · rw [if_neg c] at hs
    exact export_inv (cast_inv h n _) n _ _ s' hs

theorem step_inv {s : St} (h : Inv s) (o : Op) : ∀ s', (step s o = .ok s' ∨ step s o = .raised s') → Inv s' := by
  intro s' hs
  cases o with
  | foreignExport d =>
    simp only [step, Out.ok.injEq, reduceCtorEq, or_false] at hs
    subst hs
    refine h.newTensor none (by simp) rfl ?_ rfl rfl rfl rfl rfl rfl
    funext t
    by_cases c : t = s.nt
    · subst c; simp [(h.ft _ (Nat.le_refl _)).2]
    · rw [Function.update_of_ne c]
  | fromNew c =>
    simp only [step, fromNew] at hs
    exact fromInto_inv (newNd_inv h 1) c _ s' hs
  | fromInto c n =>
    simp only [step] at hs
    by_cases hn : n < s.nn
    · rw [if_pos hn] at hs; exact fromInto_inv h c n s' hs
    · rw [if_neg hn] at hs; simp at hs; subst hs; exact h
  | toDlpack n dt ctx =>
    simp only [step] at hs
    by_cases hn : n < s.nn
    · rw [if_pos hn] at hs; exact toDlpack_inv h n dt ctx s' hs
    · rw [if_neg hn] at hs; simp at hs; subst hs; exact h
  | dropCapsule c =>
    simp only [step] at hs
    rcases hc : s.caps c with _ | cap
    · rw [hc] at hs; simp at hs; subst hs; exact h
    rw [hc] at hs
    simp only [Out.ok.injEq, reduceCtorEq, or_false] at hs
    have own : ∀ t o, Owns { s with caps := Function.update s.caps c none } t o → Owns s t o ∧ o ≠ .cap c := by
      intro t o ho
      rcases o with c' | a | -
      · rcases upd_some (show Function.update s.caps c none c' = _ from ho) with ⟨-, hx⟩ | ⟨hx, hy⟩
        · simp at hx
        · exact ⟨hy, by simpa using hx⟩
      · exact ⟨ho, by simp⟩
      · exact ⟨ho, by simp⟩
    by_cases hf : cap.fresh = true
    · rw [if_pos hf] at hs
      have hcap : cap = ⟨cap.tensor, true⟩ := by
        rcases cap with ⟨t, f⟩; simp at hf; subst hf; rfl
      subst hs
      exact h.del cap.tensor (.cap c) (by show s.caps c = _; rw [hc, ← hcap]) rfl rfl rfl rfl rfl (fun t' o' ho => ⟨(own t' o' ho).1, fun e => (own t' o' ho).2 e.2⟩) (fun a => .inl rfl)
    · rw [if_neg hf] at hs
      subst hs
      exact ⟨h.once, fun t o o' a b => h.unique t o o' (own _ _ a).1 (own _ _ b).1, fun t o a => h.alive t o (own _ _ a).1, h.slot, h.borrowed, h.memory, h.ft, h.fa⟩
  | consume c =>
    simp only [step] at hs
    rcases hc : s.caps c with _ | cap
    · rw [hc] at hs; simp at hs; subst hs; exact h
    rw [hc] at hs
    simp only [] at hs
    by_cases hf : cap.fresh = true
    · rw [if_pos hf] at hs
      simp only [Out.ok.injEq, reduceCtorEq, or_false] at hs
      have hcap : cap = ⟨cap.tensor, true⟩ := by
        rcases cap with ⟨t, f⟩; simp at hf; subst hf; rfl
      have hown : Owns s cap.tensor (.cap c) := by show s.caps c = _; rw [hc, ← hcap]
      subst hs
      have own : ∀ t o, Owns { s with caps := Function.update s.caps c (some { cap with fresh := false }), foreign := Function.update s.foreign cap.tensor true } t o →
          (Owns s t o ∧ o ≠ .cap c) ∨ (o = .foreign ∧ t = cap.tensor) := by
        intro t o ho
        rcases o with c' | a | -
        · rcases upd_some (show Function.update s.caps c (some { cap with fresh := false }) c' = _ from ho) with ⟨-, hx⟩ | ⟨hx, hy⟩
          · simp at hx
          · exact .inl ⟨hy, by simpa using hx⟩
        · exact .inl ⟨ho, by simp⟩
        · by_cases ht : t = cap.tensor
          · exact .inr ⟨rfl, ht⟩
          · have ho : Function.update s.foreign cap.tensor true t = true := ho
            rw [Function.update_of_ne ht] at ho
            exact .inl ⟨ho, by simp⟩
      refine ⟨h.once, ?_, ?_, h.slot, h.borrowed, h.memory, h.ft, h.fa⟩
      · intro t o o' p q
        rcases own t o p with ⟨p, p'⟩ | ⟨rfl, hp⟩ <;> rcases own t o' q with ⟨q, q'⟩ | ⟨rfl, hq⟩
        · exact h.unique _ _ _ p q
        · rw [hq] at p; exact absurd (h.unique _ _ _ p hown) p'
        · rw [hp] at q; exact absurd (h.unique _ _ _ q hown) q'
        · rfl
      · intro t o p
        rcases own t o p with ⟨p, -⟩ | ⟨-, e⟩
        · exact h.alive _ _ p
        · rw [e]; exact h.alive _ _ hown
    · rw [if_neg hf] at hs
      simp at hs; subst hs; exact h
  | release t =>
    simp only [step] at hs
    by_cases hf : s.foreign t = true
    · rw [if_pos hf] at hs
      simp only [Out.ok.injEq, reduceCtorEq, or_false] at hs
      subst hs
      refine h.del t .foreign hf rfl rfl rfl rfl rfl ?_ (fun a => .inl rfl)
      intro t' o ho
      have hne : o = .foreign → t' = t → False := by
        rintro rfl rfl
        have ho : Function.update s.foreign t' false t' = true := ho
        simp at ho
      rcases o with c' | a | -
      · exact ⟨ho, by simp⟩
      · exact ⟨ho, by simp⟩
      · have htt : t' ≠ t := fun e => hne rfl e
        have ho : Function.update s.foreign t false t' = true := ho
        rw [Function.update_of_ne htt] at ho
        exact ⟨ho, fun e => htt e.1⟩
    · rw [if_neg hf] at hs
      simp at hs; subst hs; exact h
  | newNd k =>
    simp only [step, Out.ok.injEq, reduceCtorEq, or_false] at hs
    subst hs; exact newNd_inv h k
  | cast n d =>
    simp only [step] at hs
    by_cases hn : n < s.nn
    · rw [if_pos hn] at hs; simp at hs; subst hs; exact cast_inv h n d
    · rw [if_neg hn] at hs; simp at hs; subst hs; exact h
  | get n d =>
    simp only [step] at hs
    by_cases hn : n < s.nn
    · rw [if_pos hn] at hs; simp at hs; subst hs; exact get_inv h n d
    · rw [if_neg hn] at hs; simp at hs; subst hs; exact h
  | clear n =>
    simp only [step, Out.ok.injEq, reduceCtorEq, or_false] at hs
    subst hs; exact clear_inv h n
  | collect a =>
    simp only [step] at hs
    by_cases hu : unreferenced s a
    · rw [if_pos hu] at hs
      rcases hk : s.arrs a with _ | _ | _ | t
      · rw [hk] at hs; simp at hs; subst hs; exact h
      · rw [hk] at hs
        simp only [Out.ok.injEq, reduceCtorEq, or_false] at hs
        subst hs
        have own : ∀ t o, Owns { s with arrs := Function.update s.arrs a none } t o → Owns s t o := by
          intro t o ho
          rcases o with c' | b | -
          · exact ho
          · rcases upd_some (show Function.update s.arrs a none b = _ from ho) with ⟨-, hx⟩ | ⟨-, hy⟩
            · simp at hx
            · exact hy
          · exact ho
        refine ⟨h.once, fun t o o' p q => h.unique t o o' (own _ _ p) (own _ _ q), fun t o p => h.alive t o (own _ _ p), ?_, ?_, ?_, h.ft, ?_⟩
        · intro n d b hb
          show Function.update s.arrs a none b ≠ none
          rw [Function.update_of_ne (by rintro rfl; exact hu.1 n d hb)]
          exact h.slot n d b hb
        · intro b hb
          rcases upd_some (show Function.update s.arrs a none b = _ from hb) with ⟨-, hx⟩ | ⟨-, hy⟩
          · simp at hx
          · exact h.borrowed b hy
        · intro t b p q
          show Function.update s.arrs a none b = _
          rw [Function.update_of_ne (by rintro rfl; exact hu.2 t p q)]
          exact h.memory t b p q
        · intro b hb
          show Function.update s.arrs a none b = none
          by_cases e : b = a
          · subst e; simp
          · rw [Function.update_of_ne e]; exact h.fa b hb
      · exact absurd hk (h.borrowed a)
      · rw [hk] at hs
        simp only [Out.ok.injEq, reduceCtorEq, or_false] at hs
        subst hs
        refine h.del t (.arr a) hk rfl rfl rfl rfl rfl ?_ ?_
        · intro t' o ho
          rcases o with c' | b | -
          · exact ⟨ho, by simp⟩
          · rcases upd_some (show Function.update s.arrs a none b = _ from ho) with ⟨-, hx⟩ | ⟨hx, hy⟩
            · simp at hx
            · exact ⟨hy, fun e => hx (by simpa using e.2)⟩
          · exact ⟨ho, by simp⟩
        · intro b
          by_cases e : b = a
          · subst e
            exact .inr ⟨by show Function.update s.arrs b none b = none; simp, hu.1 , by rw [hk]; simp⟩
          · left
            show Function.update s.arrs a none b = s.arrs b
            rw [Function.update_of_ne e]
    · rw [if_neg hu] at hs
      simp at hs; subst hs; exact h

theorem run_inv {s : St} (h : Inv s) (os : List Op) : ∀ s', run s os = some s' → Inv s' := by
  induction os generalizing s with
  | nil => intro s' hs; simp [run] at hs; subst hs; exact h
  | cons o os ih =>
    intro s' hs
    simp only [run] at hs
    rcases ho : step s o with s1 | s1 | -
    · rw [ho] at hs; exact ih (step_inv h o s1 (.inl ho)) s' hs
    · rw [ho] at hs; exact ih (step_inv h o s1 (.inr ho)) s' hs
    · rw [ho] at hs; simp at hs

/-- **C155 (safety).** In every history that does not crash: no deleter is called twice, a tensor that a capsule, an NdArray's array or
another framework owns has exactly that owner and has not been deleted, and the memory of a tensor exported by nnabla exists until
its deleter is called. -/
theorem C155_safe (os : List Op) (s : St) (h : run init os = some s) : Safe s := (run_inv inv_init os s h).safe

end Verif.Dlpack
