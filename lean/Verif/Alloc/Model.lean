/-
The caching memory allocator: memory obtained from the device in chunks, split into blocks, freed
blocks merged with free neighbours and kept in two pools.
Models /repo/src/nbla/memory/memory.cpp, allocator.cpp, caching_allocator_with_buckets.cpp, cpu_memory.cpp
and /repo/include/nbla/memory/naive_allocator.hpp.

Simplifications: sizes are natural numbers (no overflow of size_t), the used-bytes and counter maps are
integers; callbacks and printing are left out. All calls are atomic (`Allocator::alloc`/`free` hold a
mutex; `free_unused_caches` does not, concurrent calls of it are outside the model). A `Memory` object is
an id, never reused; `addr` is its (arbitrary) address, used to order equal sizes in the pools.
-/
namespace Verif.Alloc

/-- Memory's fields (memory.hpp:74-101). `ptr_` is a chunk of device memory and an offset into it; `null`
is `ptr_ == nullptr`. -/
structure Mem where
  dev : Nat
  chunk : Nat
  off : Nat
  bytes : Nat
  locked : Bool
  null : Bool
  next : Option Nat
  prev : Option Nat
deriving DecidableEq, Repr

/-- The allocator, the device and the user's handles (`AllocatorMemory` objects).
`cache true` is small_cache_map_, `cache false` large_cache_map_; keys are (bytes, Memory*). -/
structure St where
  mem : Nat → Mem
  count : Nat
  cache : Bool → Nat → List (Nat × Nat)
  cnt : Bool → Nat → Int
  used : Nat → Int
  /-- devices with an entry in device_memory_used_in_bytes_ -/
  known : List Nat
  /-- device memory: number, size, device and fate of the chunks obtained -/
  chunks : Nat
  chunkSize : Nat → Nat
  chunkDev : Nat → Nat
  returned : Nat → Bool
  /-- handles with the number of bytes the user asked for -/
  live : List (Nat × Nat)

def init : St :=
  { mem := fun _ => ⟨0, 0, 0, 0, false, true, none, none⟩, count := 0, cache := fun _ _ => [], cnt := fun _ _ => 0,
    used := fun _ => 0, known := [], chunks := 0, chunkSize := fun _ => 0, chunkDev := fun _ => 0, returned := fun _ => false, live := [] }

/-- round_small_, round_large_, small_alloc_ (caching_allocator_with_buckets.hpp:84-86). -/
def roundSmall : Nat := 512
def roundLarge : Nat := 131072
def smallAlloc : Nat := 1048576

/-- round_size (caching_allocator_with_buckets.cpp:107-116). -/
def roundSize (bytes : Nat) : Nat :=
  if bytes < roundSmall then roundSmall
  else if bytes < smallAlloc then ((bytes + roundSmall - 1) / roundSmall) * roundSmall
  else ((bytes + roundLarge - 1) / roundLarge) * roundLarge

def updM (s : St) (i : Nat) (f : Mem → Mem) : St :=
  { s with mem := fun j => if j = i then f (s.mem j) else s.mem j }

/-- associate_consecutive (memory.cpp:53-60). -/
def assoc (s : St) (l r : Option Nat) : St :=
  let s1 := match l with
    | some l => updM s l (fun m => { m with next := r })
    | none => s
  match r with
  | some r => updM s1 r (fun m => { m with prev := l })
  | none => s1

/-- divide (memory.cpp:62-78) with CpuMemory::divide_impl (cpu_memory.cpp:55-65): the new object is
`s.count`. -/
def divide (s : St) (m start : Nat) : St :=
  let d := s.mem m
  let n := s.count
  let s1 : St := { s with
    mem := fun j => if j = n then ⟨d.dev, d.chunk, d.off + start, d.bytes - start, false, false, none, none⟩ else s.mem j
    count := n + 1 }
  let s2 := updM s1 m (fun d => { d with bytes := start })
  assoc (assoc s2 (some n) d.next) (some m) (some n)

/-- try_merge (memory.cpp:80-102) with CpuMemory::merge_prev_impl (cpu_memory.cpp:73-79). -/
def tryMerge (s : St) (m : Nat) (o : Option Nat) : St :=
  match o with
  | none => s
  | some f =>
    if (s.mem f).locked then s
    else
      let s1 :=
        if (s.mem m).next = some f then assoc s (some m) (s.mem f).next
        else if (s.mem m).prev = some f then
          assoc (updM s m (fun d => { d with off := (s.mem f).off, chunk := (s.mem f).chunk })) (s.mem f).prev (some m)
        else s
      updM (updM s1 m (fun d => { d with bytes := d.bytes + (s.mem f).bytes })) f (fun d => { d with null := true })

/-- bytes_active (memory.cpp:42-51). -/
def bytesActive (d : Mem) : Nat := if d.null || d.next.isSome || d.prev.isSome then 0 else d.bytes

/-- `m.lower_bound({bytes, nullptr})`: the smallest key with at least `bytes` bytes, keys ordered by
(bytes, address). -/
def lowerBound (addr : Nat → Nat) (bytes : Nat) : List (Nat × Nat) → Option (Nat × Nat)
  | [] => none
  | k :: r =>
    let best := lowerBound addr bytes r
    if k.1 < bytes then best
    else
      match best with
      | none => some k
      | some b => if k.1 < b.1 ∨ (k.1 = b.1 ∧ addr k.2 ≤ addr b.2) then some k else some b

/-- `m.erase(key)`, `m[key] = ...`. -/
def erase (k : Nat × Nat) (l : List (Nat × Nat)) : List (Nat × Nat) := l.filter (· ≠ k)
def setCache (s : St) (small : Bool) (d : Nat) (l : List (Nat × Nat)) : St :=
  { s with cache := fun b e => if b = small ∧ e = d then l else s.cache b e }

/-- The destructor of CpuMemory frees the device memory `ptr_` points to (cpu_memory.cpp:38-47). -/
def giveBack (s : St) (i : Nat) : St :=
  { s with returned := fun c => if c = (s.mem i).chunk then true else s.returned c }

/-- free_unused_device_caches_in_map (caching_allocator_with_buckets.cpp:84-102): freed bytes and state. -/
def freeUnusedMap (s : St) (small : Bool) (d : Nat) : Nat × St :=
  (s.cache small d).foldl (fun (r : Nat × St) k =>
    let f := bytesActive (r.2.mem k.2)
    if f ≠ 0 then (r.1 + f, giveBack (setCache r.2 small d (erase k (r.2.cache small d))) k.2) else r) (0, s)

/-- free_unused_device_caches (allocator.cpp:53-60, caching_allocator_with_buckets.cpp:224-233). -/
def freeUnused (s : St) (d : Nat) : St :=
  let r1 := freeUnusedMap s true d
  let r2 := freeUnusedMap r1.2 false d
  { r2.2 with used := fun e => if e = d then r2.2.used e - ((r1.1 + r2.1 : Nat) : Int) else r2.2.used e,
              known := if d ∈ r2.2.known then r2.2.known else r2.2.known ++ [d] }

/-- free_unused_caches (allocator.cpp:46-52). -/
def freeUnusedAll (s : St) : St := s.known.foldl freeUnused s

/-- make_memory and alloc_retry (caching_allocator_with_buckets.cpp:188-191, allocator.cpp:70-94): `ok1`,
`ok2` say whether the device serves the first and the second attempt. Returns the new object, or `none`
when both fail (the unused caches are gone then). -/
def newMemory (s : St) (bytes d : Nat) (ok1 ok2 : Bool) : Option Nat × St :=
  let s1 := if ok1 then s else freeUnused s d
  if ok1 || ok2 then
    let b := max bytes 1
    (some s1.count, { s1 with
      mem := fun j => if j = s1.count then ⟨d, s1.chunks, 0, b, false, false, none, none⟩ else s1.mem j
      count := s1.count + 1
      chunks := s1.chunks + 1
      chunkSize := fun c => if c = s1.chunks then b else s1.chunkSize c
      chunkDev := fun c => if c = s1.chunks then d else s1.chunkDev c
      used := fun e => if e = d then s1.used e + b else s1.used e
      known := if d ∈ s1.known then s1.known else s1.known ++ [d] })
  else (none, s1)

/-- Find a block in the pool or obtain a new one (caching_allocator_with_buckets.cpp:149-168). -/
def obtain (addr : Nat → Nat) (s : St) (bytes d : Nat) (small ok1 ok2 : Bool) : Option Nat × St :=
  match lowerBound addr bytes (s.cache small d) with
  | some k => (some k.2, setCache s small d (erase k (s.cache small d)))
  | none => newMemory s (if small then smallAlloc else bytes) d ok1 ok2

/-- Split an obtained block that is too large (170-176). -/
def split (s : St) (m bytes d : Nat) (small : Bool) : St :=
  if (s.mem m).bytes - bytes ≥ (if small then roundSmall else smallAlloc + 1) then
    let s1 := divide s m bytes
    setCache s1 small d (erase ((s1.mem s.count).bytes, s.count) (s1.cache small d) ++ [((s1.mem s.count).bytes, s.count)])
  else s

/-- alloc (allocator.cpp:23-35, alloc_impl caching_allocator_with_buckets.cpp:136-185, AllocatorMemory's
constructor allocator.cpp:96-100): the handle, `none` when it raises. -/
def alloc (addr : Nat → Nat) (s : St) (req d : Nat) (ok1 ok2 : Bool) : Option Nat × St :=
  let bytes := roundSize (max req 1)
  let small := decide (bytes ≤ smallAlloc)
  match obtain addr s bytes d small ok1 ok2 with
  | (none, s1) => (none, s1)
  | (some m, s1) =>
    let s2 := split s1 m bytes d small
    let isSmall := decide ((s2.mem m).bytes ≤ smallAlloc)
    let s3 : St := { s2 with
      cnt := fun b e => if b = isSmall ∧ e = d then s2.cnt b e + 1 else s2.cnt b e
      known := if d ∈ s2.known then s2.known else s2.known ++ [d]
      live := s2.live ++ [(m, req)] }
    (some m, updM s3 m (fun x => { x with locked := true }))

/-- try_erase_cache (caching_allocator_with_buckets.cpp:58-70). -/
def tryErase (s : St) (o : Option Nat) (l : List (Nat × Nat)) : List (Nat × Nat) :=
  match o with
  | none => l
  | some m => if (s.mem m).null then erase ((s.mem m).bytes, m) l else l

/-- free (allocator.cpp:36-45, free_impl caching_allocator_with_buckets.cpp:193-222), called by the end of
the handle's life. -/
def free (s : St) (m : Nat) : St :=
  let s0 := updM s m (fun x => { x with locked := false })
  let d := (s0.mem m).dev
  let small := decide ((s0.mem m).bytes ≤ smallAlloc)
  let n := (s0.mem m).next
  let s1 := tryMerge s0 m n
  let p := (s1.mem m).prev
  let s2 := tryMerge s1 m p
  let l := tryErase s2 p (tryErase s2 n (s2.cache small d))
  let key := ((s2.mem m).bytes, m)
  let s3 := setCache s2 small d (erase key l ++ [key])
  { s3 with
    cnt := fun b e => if b = small ∧ e = d then s3.cnt b e - 1 else s3.cnt b e
    live := s3.live.filter (fun h => h.1 ≠ m) }

/-- get_total_cache_bytes, get_max_cache_bytes (caching_allocator_with_buckets.cpp:266-296). -/
def totalCacheBytes (s : St) (d : Nat) : Nat :=
  ((s.cache true d ++ s.cache false d).map (fun k => (s.mem k.2).bytes)).sum
def maxCacheBytes (s : St) (d : Nat) : Nat :=
  ((s.cache true d ++ s.cache false d).map (fun k => (s.mem k.2).bytes)).foldl max 0

/-- What a program can do. -/
inductive Op
  | alloc (req dev : Nat) (ok1 ok2 : Bool)
  /-- the end of the life of a handle -/
  | free (h : Nat)
  | freeUnused (dev : Nat)
  | freeUnusedAll

/-- One call; freeing something that is not a living handle does not exist in the API. -/
def step (addr : Nat → Nat) (s : St) : Op → St
  | .alloc req d ok1 ok2 => (alloc addr s req d ok1 ok2).2
  | .free h => if h ∈ s.live.map (·.1) then free s h else s
  | .freeUnused d => freeUnused s d
  | .freeUnusedAll => freeUnusedAll s

def run (addr : Nat → Nat) (s : St) (ops : List Op) : St := ops.foldl (step addr) s

/-! ### allocation without caching -/

/-- NaiveAllocator (naive_allocator.hpp:33-60): live handles (bytes, device) and the used-bytes counter. -/
structure Naive where
  live : List (Nat × Nat)
  used : Nat → Int

inductive NaiveOp
  | alloc (req dev : Nat)
  | free (i : Nat)
  | freeUnusedAll

/-- alloc obtains new memory of the requested size and counts it; free_impl and
free_unused_device_caches_impl do nothing. -/
def naiveStep (s : Naive) : NaiveOp → Naive
  | .alloc req d => { live := s.live ++ [(max req 1, d)], used := fun e => if e = d then s.used e + (max req 1 : Nat) else s.used e }
  | .free i => { s with live := s.live.eraseIdx i }
  | .freeUnusedAll => s

end Verif.Alloc
