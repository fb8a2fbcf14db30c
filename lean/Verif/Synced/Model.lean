/-
The synchronised array: lazily evaluated zero/fill, one array per (device, dtype), and narrowed
(sub-)arrays sharing the memory of their parent.
Models /repo/src/nbla/synced_array.cpp and the parts of /repo/include/nbla/synced_array.hpp,
/repo/src/nbla/nd_array.cpp (narrow) it serves.

One *family* is modelled: a root array (id 0) and all arrays narrowed from it, directly or not.
Ids are given in order of creation.

Simplifications:
* `create_key(dtype, ctx)` is an abstract `BaseKey` (filtered context + dtype); the key of a child is
  the base key of the root with the (offset, size) pairs appended, as in `create_key(parent, off, size)`.
* an array (`Arr`) is a block of memory, an element offset and a dtype; the content of a new block is
  arbitrary (`env.junk`). Copies convert element by element (`env.conv dtype`); memset/zero writes
  `env.zero`. Events (asynchronous copies) and callbacks are left out.
* user code that obtained an array from `cast` modifies it at once (`Op.cast` carries the modification);
  pointers kept and written after other operations are outside the model, as the API forbids them.
-/
namespace Verif.Synced

/-- Filtered context and dtype, the base of a key (synced_array.cpp:53-57). -/
structure BaseKey where
  ctx : Nat
  dt : Nat
deriving DecidableEq, Repr

/-- `map<string, ...>` keys: base key and, for children, the (offset, size) pairs (synced_array.cpp:53-62). -/
abbrev Key := BaseKey × List (Nat × Nat)

/-- Array objects: memory, element offset, dtype (array.hpp:43-112). -/
structure Arr where
  blk : Nat
  off : Nat
  dt : Nat
deriving DecidableEq, Repr

/-- What the model does not fix: element conversion, zero, content of fresh memory. -/
structure Env (V : Type) where
  conv : Nat → V → V
  zero : V
  junk : Nat → Nat → V

/-- SyncedArray's fields (synced_array.hpp:34-66); `head = none` is the empty key. -/
structure Node (V : Type) where
  parent : Option Nat
  off : Nat
  size : Nat
  head : Option Key
  arrs : List (Key × Arr × Bool)
  lazyZero : Bool
  lazyFill : Bool
  fillVal : V
  zeroing : Bool
  modCount : Nat
  clearCalled : Bool
  children : List Nat

/-- The family: nodes `0 .. count-1`, memory, next free block. `alive` is the object's life time. -/
structure St (V : Type) where
  node : Nat → Node V
  count : Nat
  alive : Nat → Bool
  mem : Nat → Nat → V
  nextBlk : Nat

variable {V : Type}

/-- Modify one node. -/
def upd (s : St V) (n : Nat) (f : Node V → Node V) : St V :=
  { s with node := fun m => if m = n then f (s.node m) else s.node m }

/-- `array_.find(key)`. -/
def find (k : Key) : List (Key × Arr × Bool) → Option (Arr × Bool)
  | [] => none
  | (k', a) :: r => if k' = k then some a else find k r

/-- `array_[key] = a`. -/
def insert (k : Key) (a : Arr × Bool) (l : List (Key × Arr × Bool)) : List (Key × Arr × Bool) :=
  l.filter (fun e => e.1 ≠ k) ++ [(k, a)]

/-- SyncedArray(size) (synced_array.cpp:65-68). -/
def newRoot (env : Env V) (size : Nat) : Node V :=
  { parent := none, off := 0, size := size, head := none, arrs := [], lazyZero := true,
    lazyFill := false, fillVal := env.zero, zeroing := false, modCount := 0, clearCalled := false,
    children := [] }

/-- A family with only its root. -/
def init (env : Env V) (size : Nat) : St V :=
  { node := fun _ => newRoot env size, count := 1, alive := fun n => n == 0, mem := env.junk, nextBlk := 0 }

/-- has_head_array (synced_array.hpp:148). -/
def hasHead (d : Node V) : Bool := d.head.isSome && !d.arrs.isEmpty

/-- is_child (synced_array.hpp:213). -/
def isChild (d : Node V) : Bool := d.parent.isSome

/-- has_family (synced_array.hpp:221-223). -/
def hasFamily (d : Node V) : Bool := d.parent.isSome || !d.children.isEmpty

/-- Lazy evaluation pending. -/
def lazy (d : Node V) : Bool := d.lazyZero || d.lazyFill

/-- clear_flags (synced_array.cpp:520-523). -/
def clearFlags (d : Node V) : Node V := { d with lazyZero := false, lazyFill := false }

/-- clear_all_array (synced_array.cpp:494-499). -/
def clearAllArray (d : Node V) : Node V :=
  { clearFlags d with arrs := [], modCount := 0, clearCalled := true }

/-- `head = array_[head_.key]; array_.clear(); array_[head_.key] = head` (synced_array.cpp:177-179,
260-262, 508-510). -/
def keepHead (d : Node V) : Node V :=
  { d with arrs := d.arrs.filter (fun e => some e.1 = d.head) }

/-- get_root (synced_array.cpp:413-418); the root has id 0. -/
def root : Nat := 0

/-- The proper ancestors of `n`, nearest first: `for (p = parent_; p; p = p->parent_)`. Parents are
created before their children, so `fuel = n` is enough. -/
def ancestors (s : St V) : Nat → Nat → List Nat
  | 0, _ => []
  | fuel + 1, n =>
    match (s.node n).parent with
    | none => []
    | some p => p :: ancestors s fuel p

/-- Depth-first, parents first, application of `act` to the proper descendants of `n`: the recursion
pattern of clear_flags_descendants, propagate_zeroing_flag_descendants, traverse_zero_fill (below
itself). Children are created after their parents, so `fuel = count` is enough. -/
def dfs (act : St V → Nat → St V) (ch : Nat → List Nat) : Nat → Nat → St V → St V
  | 0, _, s => s
  | fuel + 1, n, s => (ch n).foldl (fun s c => dfs act ch fuel c (act s c)) s

/-- Apply a node update to all proper descendants of `n`. -/
def onDesc (f : Node V → Node V) (n : Nat) (s : St V) : St V :=
  dfs (fun s c => upd s c f) (fun m => (s.node m).children) s.count n s

/-- Create an array at `key` in node `n` with the given memory. -/
def setArr (s : St V) (n : Nat) (k : Key) (a : Arr) (atHead : Bool) : St V :=
  upd s n (fun d => { d with arrs := insert k (a, atHead) d.arrs })

/-- create_array_from_parent (synced_array.cpp:109-119): key `parent key : offset : size`, memory of
the parent's head array, element offset `parent_->offset() + offset_`. (A parent without head array is
a null dereference in C++; the model then does nothing.) -/
def createFromParent (s : St V) (n : Nat) : St V :=
  match (s.node n).parent with
  | none => s
  | some p =>
    match (s.node p).head with
    | none => s
    | some hk =>
      match find hk (s.node p).arrs with
      | none => s
      | some (pa, _) =>
        let key : Key := (hk.1, hk.2 ++ [((s.node n).off, (s.node n).size)])
        setArr (upd s n (fun d => { d with head := some key })) n key
          { blk := pa.blk, off := (s.node p).off + (s.node n).off, dt := pa.dt } false

/-- create_array_descendants (synced_array.cpp:121-130). -/
def createDesc (ch : Nat → List Nat) : Nat → Nat → St V → St V
  | 0, _, s => s
  | fuel + 1, n, s => (ch n).foldl (fun s c =>
      if hasHead (s.node c) then s else createDesc ch fuel c (createFromParent s c)) s

/-- clear_all_array_descendants (synced_array.cpp:501-518). The `return` inside the loop ends it: the
Boolean records that it was taken in the current call. -/
def clearDesc (keep : Bool) (ch : Nat → List Nat) : Nat → Nat → St V → St V
  | 0, _, s => s
  | fuel + 1, n, s => ((ch n).foldl (fun (sb : St V × Bool) c =>
      if sb.2 then sb
      else if hasHead (sb.1.node c) then
        (clearDesc keep ch fuel c (upd sb.1 c (if keep then keepHead else clearAllArray)), false)
      else (sb.1, true)) (s, false)).1

/-- Call one of the recursive functions with the current children lists. -/
def createDescendants (n : Nat) (s : St V) : St V :=
  createDesc (fun m => (s.node m).children) s.count n s
def clearDescendants (keep : Bool) (n : Nat) (s : St V) : St V :=
  clearDesc keep (fun m => (s.node m).children) s.count n s

/-- Write `f` to the elements `[a.off, a.off + size)` of the memory of `a`. -/
def writeArr (s : St V) (a : Arr) (size : Nat) (f : Nat → V) : St V :=
  { s with mem := fun b i =>
      if b = a.blk ∧ a.off ≤ i ∧ i < a.off + size then f (i - a.off) else s.mem b i }

/-- Read array `a`. -/
def readArr (s : St V) (a : Arr) (i : Nat) : V := s.mem a.blk (a.off + i)

/-- The element value a lazy zero/fill stores into an array of dtype `dt` (Array::zero, Array::fill). -/
def lazyVal (env : Env V) (d : Node V) (dt : Nat) : V :=
  if d.lazyZero then env.zero else env.conv dt d.fillVal

/-- Body of traverse_zero_fill for one node (synced_array.cpp:424-430). -/
def evalLazy (env : Env V) (s : St V) (n : Nat) : St V :=
  if hasHead (s.node n) then
    let s' :=
      if lazy (s.node n) then
        match (s.node n).head with
        | none => s
        | some hk =>
          match find hk (s.node n).arrs with
          | none => s
          | some (a, _) => writeArr s a (s.node n).size (fun _ => lazyVal env (s.node n) a.dt)
      else s
    upd s' n clearFlags
  else s

/-- traverse_zero_fill (synced_array.cpp:420-437). -/
def traverse (env : Env V) (n : Nat) (s : St V) : St V :=
  dfs (evalLazy env) (fun m => (s.node m).children) s.count n (evalLazy env s n)

/-- The proper descendants of `n`, depth first. -/
def descList (ch : Nat → List Nat) : Nat → Nat → List Nat
  | 0, _ => []
  | fuel + 1, n => (ch n).flatMap (fun c => c :: descList ch fuel c)

/-- check_zeroing_filling_descendants (synced_array.cpp:439-451). -/
def checkDesc (s : St V) (n : Nat) : Bool :=
  (descList (fun m => (s.node m).children) s.count n).any (fun c => lazy (s.node c))

/-- check_zeroing_filling (synced_array.cpp:453-469). -/
def checkZF (s : St V) (n : Nat) : Bool :=
  lazy (s.node n) || checkDesc s n || (ancestors s n n).any (fun p => lazy (s.node p))

/-- The topmost ancestor with a lazy flag, or the array itself (synced_array.cpp:362-367). -/
def zeroFillRoot (s : St V) (n : Nat) : Nat :=
  (ancestors s n n).foldl (fun r p => if lazy (s.node p) then p else r) n

/-- `desc.key` (synced_array.cpp:340-344). -/
def syncKey (s : St V) (n : Nat) (k : BaseKey) : Key :=
  match (s.node n).parent with
  | none => (k, [])
  | some p =>
    if (s.node root).head = some (k, []) then
      match (s.node p).head with
      | some hk => (hk.1, hk.2 ++ [((s.node n).off, (s.node n).size)])
      | none => (k, [])
    else (k, [])

/-- sync, after the root has been synced if needed: allocate (synced_array.cpp:346-359). -/
def syncAlloc (s : St V) (n : Nat) (k : BaseKey) (dk : Key) : St V :=
  match find dk (s.node n).arrs with
  | some _ => s
  | none =>
    let s1 := upd s n (fun d => if d.arrs.isEmpty then { d with head := some dk } else d)
    let s2 := setArr s1 n dk { blk := s.nextBlk, off := 0, dt := k.dt } false
    let s3 := { s2 with nextBlk := s.nextBlk + 1 }
    if !isChild (s3.node n) && hasFamily (s3.node n) then createDescendants n s3 else s3

/-- sync: evaluate pending zero/fill of the family (synced_array.cpp:361-371). -/
def syncLazy (env : Env V) (s : St V) (n : Nat) : St V :=
  if hasFamily (s.node n) && checkZF s n then traverse env (zeroFillRoot s n) s else s

/-- sync: bring the array at `dk` up to date (synced_array.cpp:377-409). -/
def syncCopy (env : Env V) (s : St V) (n : Nat) (dk : Key) : St V :=
  match find dk (s.node n).arrs with
  | none => s
  | some (a, atHead) =>
    if atHead then s
    else if !hasFamily (s.node n) && (s.node n).lazyZero then
      upd (writeArr s a (s.node n).size (fun _ => env.zero)) n (fun d => { d with lazyZero := false })
    else if !hasFamily (s.node n) && (s.node n).lazyFill then
      upd (writeArr s a (s.node n).size (fun _ => env.conv a.dt (s.node n).fillVal)) n
        (fun d => { d with lazyFill := false })
    else if 1 < (s.node n).arrs.length then
      match (s.node n).head with
      | none => s
      | some hk =>
        match find hk (s.node n).arrs with
        | none => s
        | some (h, _) => writeArr s a (s.node n).size (fun i => env.conv a.dt (readArr s h i))
    else s

/-- sync on an array that is the root or has a head array (synced_array.cpp:340-411). -/
def syncBody (env : Env V) (s : St V) (n : Nat) (k : BaseKey) (wo : Bool) : Key × St V :=
  let dk := syncKey s n k
  let s1 := syncLazy env (syncAlloc s n k dk) n
  (dk, if wo then s1 else syncCopy env s1 n dk)

/-- sync (synced_array.cpp:326-411): a child without array first syncs the root. -/
def sync (env : Env V) (s : St V) (n : Nat) (k : BaseKey) (wo : Bool) : Key × St V :=
  if isChild (s.node n) && !hasHead (s.node n) then
    syncBody env (syncBody env s root k wo).2 n k wo
  else syncBody env s n k wo

/-- get_sp (synced_array.cpp:213-233): the returned array and the state. -/
def get (env : Env V) (s : St V) (n : Nat) (k : BaseKey) : Option Arr × St V :=
  let s0 := upd s n (fun d => { d with clearCalled := false })
  let (dk, s1) := sync env s0 n k false
  match find dk (s1.node n).arrs with
  | none => (none, s1)
  | some (a, _) => (some a, setArr s1 n dk a true)

/-- propagate_zeroing_flag (synced_array.cpp:536-545). -/
def propagateZeroing (n : Nat) (flag : Bool) (s : St V) : St V :=
  let s1 := upd (onDesc (fun d => { d with zeroing := flag }) n s) n (fun d => { d with zeroing := flag })
  (ancestors s n n).foldl (fun s p => upd s p (fun d => { d with zeroing := flag })) s1

/-- Step 2 of cast_sp for families (synced_array.cpp:167-182). -/
def castFamily (prev : Option Key) (n : Nat) (s : St V) : St V :=
  if hasFamily (s.node n) then
    if (s.node n).head ≠ prev ∧ !isChild (s.node n) then
      createDescendants n (clearDescendants false n s)
    else
      clearDescendants true root (upd s root keepHead)
  else s

/-- cast_sp (synced_array.cpp:139-206), without the user's modification. `none` when it raises. -/
def cast (env : Env V) (s : St V) (n : Nat) (k : BaseKey) (wo : Bool) : Option (Option Arr × St V) :=
  if isChild (s.node n) ∧ ¬ ((s.node root).head = some (k, []) ∨ ¬ hasHead (s.node root)) then none
  else
    let prev := (s.node n).head
    let (dk, s1) := sync env s n k wo
    let s2 := upd s1 n (fun d => { d with head := some dk })
    let s3 := castFamily prev n s2
    match find dk (s3.node n).arrs with
    | none => some (none, s3)
    | some (a, _) =>
      let s4 := upd s3 n (fun d => { clearAllArray d with
        arrs := [(dk, a, true)], modCount := 1, clearCalled := false })
      some (some a, propagateZeroing n false s4)

/-- The common part of zero() and fill() (synced_array.cpp:247-267, 283-300). `clear()` on the root is
`clear_all_array` (plus a callback). -/
def resetFor (n : Nat) (s : St V) : St V :=
  let s1 :=
    if !isChild (s.node n) then clearDescendants false n (upd s n clearAllArray)
    else
      let s' := clearDescendants true n s
      if hasHead (s'.node n) then (n :: ancestors s' n n).foldl (fun s p => upd s p keepHead) s' else s'
  onDesc clearFlags n (upd s1 n clearFlags)

/-- zero (synced_array.cpp:246-279). -/
def zero (n : Nat) (s : St V) : St V :=
  let s1 := upd (resetFor n s) n (fun d => { d with lazyZero := true, zeroing := true })
  let s2 := onDesc (fun d => { d with zeroing := true }) n s1
  upd s2 n (fun d => { d with modCount := d.modCount + 1, clearCalled := false })

/-- fill (synced_array.cpp:281-307). -/
def fill (n : Nat) (x : V) (s : St V) : St V :=
  let s1 := propagateZeroing n false (resetFor n s)
  upd s1 n (fun d => { d with lazyFill := true, fillVal := x, modCount := d.modCount + 1,
                               clearCalled := false })

/-- clear (synced_array.cpp:478-491); raises on a child. -/
def clear (n : Nat) (s : St V) : Option (St V) :=
  if isChild (s.node n) then none else some (upd s n clearAllArray)

/-- NdArray::narrow's range check (nd_array.cpp:127-141), the child constructor (synced_array.cpp:70-100:
overlap check against the living children, array from the parent if that has one) and narrow
(132-137). Positions and lengths in elements. -/
def narrow (env : Env V) (p off size : Nat) (s : St V) : Option (St V) :=
  if (s.node p).size < off + size then none
  else if (s.node p).children.any (fun c =>
      -- not (c_end < begin || end < c_begin), with end = begin + size - 1 (signed)
      !(decide ((s.node c).off + (s.node c).size < off + 1) || decide (off + size < (s.node c).off + 1)))
    then none
  else
    let d : Node V :=
      { parent := some p, off := off, size := size, head := none, arrs := [], lazyZero := false,
        lazyFill := false, fillVal := env.zero, zeroing := false, modCount := 0, clearCalled := false,
        children := [] }
    let s1 : St V := { s with
      node := fun m => if m = s.count then d else s.node m
      alive := fun m => if m = s.count then true else s.alive m
      count := s.count + 1 }
    let s2 := if hasHead (s.node p) then createFromParent s1 s.count else s1
    some (upd s2 p (fun d => { d with children := d.children ++ [s.count] }))

/-- ~SyncedArray (synced_array.cpp:102-107, remove_child 547-559). Children hold their parent, so only
an array without living children is destroyed; the root's end is not modelled. -/
def drop (n : Nat) (s : St V) : Option (St V) :=
  match (s.node n).parent with
  | none => none
  | some p =>
    if (s.node n).children ≠ [] then none
    else some { upd s p (fun d => { d with children := d.children.filter (· ≠ n) }) with
                 alive := fun m => if m = n then false else s.alive m }

/-- What `dst.copy_from(src)` copies (synced_array.cpp:471-475): the head array of `src`, without
`sync`; `none` when it raises (empty key, or `array_.at` fails). -/
def copySource (s : St V) (n : Nat) : Option Arr :=
  match (s.node n).head with
  | none => none
  | some hk => (find hk (s.node n).arrs).map (·.1)

/-- What a user can do with a family. -/
inductive Op (V : Type)
  | narrow (p off size : Nat)
  | drop (n : Nat)
  | zero (n : Nat)
  | fill (n : Nat) (x : V)
  /-- `get(dtype, ctx)` and read all elements -/
  | get (n : Nat) (k : BaseKey)
  /-- `cast(dtype, ctx, write_only=false)` and replace the elements by `f` of the old ones (of the old
  elements `f` sees those inside the array) -/
  | modify (n : Nat) (k : BaseKey) (f : (Nat → V) → Nat → V)
  /-- `cast(dtype, ctx, write_only=true)` and write all elements -/
  | write (n : Nat) (k : BaseKey) (w : Nat → V)
  | clear (n : Nat)

/-- What the user sees: the elements read, if any. -/
abbrev Out (V : Type) := Option (Nat → V)

/-- One API call on a living array; `none` = raises (the state is then unchanged). -/
def step (env : Env V) (s : St V) : Op V → Option (St V × Out V)
  | .narrow p off size =>
    if s.alive p then (narrow env p off size s).map (fun s' => (s', none)) else none
  | .drop n => if s.alive n then (drop n s).map (fun s' => (s', none)) else none
  | .zero n => if s.alive n then some (zero n s, none) else none
  | .fill n x => if s.alive n then some (fill n x s, none) else none
  | .get n k =>
    if s.alive n then
      match get env s n k with
      | (some a, s') => some (s', some (readArr s' a))
      | (none, _) => none
    else none
  | .modify n k f =>
    if s.alive n then
      match cast env s n k false with
      | some (some a, s') =>
        let old := readArr s' a
        let seen := fun i => if i < (s'.node n).size then old i else env.zero
        some (writeArr s' a (s'.node n).size (fun i => env.conv k.dt (f seen i)), some old)
      | _ => none
    else none
  | .write n k w =>
    if s.alive n then
      match cast env s n k true with
      | some (some a, s') =>
        some (writeArr s' a (s'.node n).size (fun i => env.conv k.dt (w i)), none)
      | _ => none
    else none
  | .clear n => if s.alive n then (clear n s).map (fun s' => (s', none)) else none

/-- A history: the outputs of all calls in order (`none` for a call that raised) and the final state. -/
def run (env : Env V) : St V → List (Op V) → List (Option (Out V)) × St V
  | s, [] => ([], s)
  | s, op :: ops =>
    match step env s op with
    | some (s', o) => let r := run env s' ops; (some o :: r.1, r.2)
    | none => let r := run env s ops; (none :: r.1, r.2)

end Verif.Synced
