/-!
# Model of the virtual-memory caching allocator

`/repo/src/nbla/memory/virtual_caching_allocator.cpp`, `/repo/src/nbla/memory/allocator.cpp`.

Memory objects are owned linearly (client, mapped cache, waiting list), so they are kept by value with an identity. What is not modelled: addresses,
overflow of size_t, threads (every entry point holds one mutex), the callbacks, and the printing.  What the device does (whether the computation on a memory
has finished, whether an address range can be grown in place, how many physical allocations succeed) is given by arguments that range over everything.
-/
namespace Verif.VAlloc

/-- A physical memory (include/nbla/memory/memory.hpp:36-63): an identity, its device, its bytes. -/
structure Chunk where
  id : Nat
  dev : Nat
  bytes : Nat
deriving DecidableEq, Repr

/-- The identity of a memory object (physical or virtual): its device and a number. -/
abbrev Key := Nat × Nat

def Chunk.key (c : Chunk) : Key := (c.dev, c.id)

/-- A virtual memory (memory.hpp:68-200): identity, device_id_, bytes_, requested_bytes_, p_memories_. -/
structure VM where
  id : Nat
  dev : Nat
  bytes : Nat
  req : Nat
  chunks : List Chunk
deriving DecidableEq, Repr

def VM.key (v : VM) : Key := (v.dev, v.id)

/-- An entry of a mapped cache or of the waiting list: bytes at insertion (the multimap's key), time point, memory (virtual_caching_allocator.hpp:96-100). -/
structure Ent where
  size : Nat
  time : Nat
  vm : VM
deriving DecidableEq, Repr

/-- What the allocator holds for one device (virtual_caching_allocator.hpp:107-117): mapped_ptr_cache_, physical_memory_cache_, memory_counter_,
fragmentation_bytes_; and `live`, the memories clients hold together with what they asked for. -/
structure Dev where
  live : List (Nat × VM)
  mapped : List Ent
  pcache : List Chunk
  counter : Int
  frag : Int
deriving Repr

/-- The allocator. `known` are the keys of device_memory_used_in_bytes_; `locked` is get_device_memory_state() == Locked; `unbound` lists the memories
unbind() was called on. -/
structure St where
  chunkSize : Nat
  dev : Nat → Dev
  waiting : List Ent
  locked : Key → Bool
  clock : Nat
  nextMem : Nat
  nextChunk : Nat
  unbound : List Key
  known : List Nat

def emptyDev : Dev := ⟨[], [], [], 0, 0⟩

/-- A fresh allocator (virtual_caching_allocator.hpp:105,156). -/
def init : St := ⟨20 * 2 ^ 20, fun _ => emptyDev, [], fun _ => false, 0, 0, 0, [], []⟩

def setDev (s : St) (d : Nat) (f : Dev → Dev) : St := { s with dev := fun e => if e = d then f (s.dev d) else s.dev e }

/-- priority_queue push with std::greater on (time, pointer) (virtual_caching_allocator.hpp:98-100): kept sorted; the identity stands for the address. -/
def pushWait (e : Ent) : List Ent → List Ent
  | [] => [e]
  | x :: xs => if e.time < x.time ∨ (e.time = x.time ∧ e.vm.id < x.vm.id) then e :: x :: xs else x :: pushWait e xs

/-- multimap::emplace: after the entries with the same key (virtual_caching_allocator.cpp:53-54). -/
def insMapped (e : Ent) : List Ent → List Ent
  | [] => [e]
  | x :: xs => if e.size < x.size then e :: x :: xs else x :: insMapped e xs

/-- The loop of sync_waiting_list over the queue (virtual_caching_allocator.cpp:62-75): (the queue left, the memories to unbind). -/
def syncList (locked : Key → Bool) : List Ent → List Ent × List VM
  | [] => ([], [])
  | e :: es => if locked e.vm.key then (e :: es, []) else ((syncList locked es).1, e.vm :: (syncList locked es).2)

/-- What one unbind does to the counters of its device (virtual_caching_allocator.cpp:69-71). -/
def dropCount (f : Nat → Dev) (v : VM) : Nat → Dev := fun e =>
  if e = v.dev then { f e with counter := (f e).counter - 1, frag := (f e).frag - ((v.bytes : Int) - v.req) } else f e

/-- VirtualCachingAllocatorBase::sync_waiting_list (virtual_caching_allocator.cpp:57-77). -/
def sync (s : St) : St :=
  { s with waiting := (syncList s.locked s.waiting).1, dev := (syncList s.locked s.waiting).2.foldl dropCount s.dev,
           unbound := (syncList s.locked s.waiting).2.map VM.key ++ s.unbound }

/-- alloc_physical_memory (virtual_caching_allocator.cpp:79-87). `budget` physical allocations succeed; the next one throws.
(created, bytes now held, next identity, completed?). -/
def allocPhys (sz target dev : Nat) : Nat → Nat → Nat → List Chunk × Nat × Nat × Bool
  | 0, have_, next => ([], have_, next, !decide (target > have_))
  | b + 1, have_, next =>
    if target > have_ then
      let r := allocPhys sz target dev b (have_ + sz) (next + 1)
      (⟨next, dev, sz⟩ :: r.1, r.2)
    else ([], have_, next, true)

/-- The loop that moves physical memories while more bytes are needed: from the physical cache (virtual_caching_allocator.cpp:159-165,212-218), or from an unmapped
memory (L130-139). (moved, left, bytes now held). -/
def takeUntil (target : Nat) : List Chunk → Nat → List Chunk × List Chunk × Nat
  | [], have_ => ([], [], have_)
  | c :: cs, have_ =>
    if target > have_ then
      let r := takeUntil target cs (have_ + c.bytes)
      (c :: r.1, r.2.1, r.2.2)
    else ([], c :: cs, have_)

/-- transfer_memory_from_cache (virtual_caching_allocator.cpp:118-140), repeated from the largest cached memory down while more bytes are needed
(L233-238): (entries left in reverse order, entries unmapped, chunks moved, chunks for the physical cache, bytes now held). -/
def transferDown (target : Nat) : List Ent → Nat → List Ent × List Ent × List Chunk × List Chunk × Nat
  | [], have_ => ([], [], [], [], have_)
  | e :: es, have_ =>
    if target > have_ then
      let t := takeUntil target e.vm.chunks have_
      let r := transferDown target es t.2.2
      (r.1, e :: r.2.1, t.1 ++ r.2.2.1, t.2.1 ++ r.2.2.2.1, r.2.2.2.2)
    else (e :: es, [], [], [], have_)

def pushAll (es : List Ent) (w : List Ent) : List Ent := es.foldl (fun w e => pushWait e w) w

/-- free_unused_device_caches_impl (virtual_caching_allocator.cpp:305-330), without the returned count. -/
def freeDev (s : St) (d : Nat) : St :=
  let s1 : St := { setDev s d (fun x => { x with mapped := [] }) with waiting := pushAll (s.dev d).mapped s.waiting }
  setDev (sync s1) d (fun x => { x with pcache := [] })

/-- Allocator::free_unused_caches (allocator.cpp:46-52). -/
def freeAll (s : St) : St := s.known.foldl freeDev s

/-- Rounding the request up to whole chunks (virtual_caching_allocator.cpp:148-150). -/
def roundUp (sz n : Nat) : Nat := (n + sz - 1) / sz * sz

/-- Handing a memory to the client. `n` is the request. -/
def give (s : St) (d n : Nat) (v : VM) (fragUp : Int) (countUp : Int) : St :=
  setDev s d (fun x => { x with live := (n, v) :: x.live, counter := x.counter + countUp, frag := x.frag + fragUp })

/-- alloc_impl, case 1: nothing mapped in the cache (virtual_caching_allocator.cpp:154-186), with alloc_physical_memory_with_retry (L89-116). -/
def alloc1 (s : St) (n d b1 b2 : Nat) : St × Option VM :=
  let t := takeUntil (roundUp s.chunkSize n) (s.dev d).pcache 0
  let s1 := setDev s d (fun x => { x with pcache := t.2.1 })
  let a := allocPhys s.chunkSize n d b1 t.2.2 s.nextChunk
  let finish (s2 : St) (chunks : List Chunk) (total next : Nat) : St × Option VM :=
    let v : VM := ⟨s2.nextMem, d, total, n, chunks⟩
    (give { s2 with nextMem := s2.nextMem + 1, nextChunk := next } d n v ((v.bytes : Int) - n) 1, some v)
  if a.2.2.2 then finish s1 (t.1 ++ a.1) a.2.1 a.2.2.1
  else
    let s2 := freeAll s1
    let a2 := allocPhys s2.chunkSize n d b2 a.2.1 a.2.2.1
    if a2.2.2.2 then finish s2 (t.1 ++ a.1 ++ a2.1) a2.2.1 a2.2.2.1
    else ({ s2 with nextChunk := a2.2.2.1 }, none)

/-- alloc_impl, case 2: exactly this size is cached (virtual_caching_allocator.cpp:188-195). -/
def alloc2 (s : St) (n d : Nat) (lo hi : List Ent) (e : Ent) : St × Option VM :=
  (give (setDev s d (fun x => { x with mapped := lo ++ hi })) d n e.vm 0 0, some e.vm)

/-- What case 3 collects: mapped memories left and unmapped, physical memories to add and to put in the cache, bytes now held, next identity, completed? -/
structure Ext where
  mapped : List Ent
  unmapped : List Ent
  add : List Chunk
  back : List Chunk
  bytes : Nat
  next : Nat
  done : Bool

/-- alloc_impl, case 3, from "When physical memories are additionally needed" to "create new physical memory" (virtual_caching_allocator.cpp:220-243). `taken`
came from the physical cache and `have_` is held now; `b` physical allocations succeed. -/
def extend (sz alloc d b next : Nat) (rest : List Ent) (taken : List Chunk) (have_ : Nat) : Ext :=
  if alloc > have_ then
    match rest.dropWhile (fun x => decide (x.size < alloc - have_)) with
    | x :: hi =>
      let u := takeUntil alloc x.vm.chunks have_
      ⟨rest.takeWhile (fun x => decide (x.size < alloc - have_)) ++ hi, [x], taken ++ u.1, u.2.1, u.2.2, next, true⟩
    | [] =>
      let u := transferDown alloc rest.reverse have_
      let a := allocPhys sz alloc d b u.2.2.2.2 next
      ⟨u.1.reverse, u.2.1, taken ++ u.2.2.1 ++ a.1, u.2.2.2.1, a.2.1, a.2.2.1, a.2.2.2⟩
  else ⟨rest, [], taken, [], have_, next, true⟩

/-- alloc_impl, case 3: grow the largest smaller memory `e` (virtual_caching_allocator.cpp:197-281). `rest` is the mapped cache without it. `grows`: what
Memory::grow returns; on success bytes_ becomes the total (the contract of grow_impl, memory.hpp:336-346). `b`: physical allocations that succeed. -/
def alloc3 (s : St) (n d : Nat) (grows : Bool) (b : Nat) (rest : List Ent) (e : Ent) : St × Option VM :=
  let alloc := roundUp s.chunkSize n
  let t := takeUntil alloc (s.dev d).pcache e.vm.bytes
  let r := extend s.chunkSize alloc d b s.nextChunk rest t.1 t.2.2
  let s1 : St := { setDev s d (fun x => { x with mapped := r.mapped, pcache := t.2.1 ++ r.back }) with
                   waiting := pushAll r.unmapped s.waiting, nextChunk := r.next }
  if r.done then
    if grows then
      let v : VM := { e.vm with bytes := r.bytes, chunks := e.vm.chunks ++ r.add }
      (give s1 d n v ((alloc : Int) - n - ((e.vm.bytes : Int) - e.vm.req)) 0, some v)
    else
      let v : VM := ⟨s1.nextMem, d, r.bytes, r.bytes, e.vm.chunks ++ r.add⟩
      (give { s1 with waiting := pushWait e s1.waiting, nextMem := s1.nextMem + 1 } d n v ((alloc : Int) - n) 1, some v)
  else (s1, none)

/-- alloc_impl, case 4: unmap the smallest larger memory `e` (virtual_caching_allocator.cpp:283-302). -/
def alloc4 (s : St) (n d : Nat) (rest : List Ent) (e : Ent) : St × Option VM :=
  let alloc := roundUp s.chunkSize n
  let u := takeUntil alloc e.vm.chunks 0
  let v : VM := ⟨s.nextMem, d, alloc, n, u.1⟩
  let s1 : St := { setDev s d (fun x => { x with mapped := rest, pcache := x.pcache ++ u.2.1 }) with
                   waiting := pushWait e s.waiting, nextMem := s.nextMem + 1 }
  (give s1 d n v ((alloc : Int) - n) 1, some v)

/-- alloc_impl (virtual_caching_allocator.cpp:142-303). -/
def allocImpl (s0 : St) (n d : Nat) (grows : Bool) (b1 b2 : Nat) : St × Option VM :=
  let s := sync s0
  let alloc := roundUp s.chunkSize n
  let m := (s.dev d).mapped
  let lo := m.takeWhile (fun x => decide (x.size < alloc))
  let hi := m.dropWhile (fun x => decide (x.size < alloc))
  match m with
  | [] => alloc1 s n d b1 b2
  | _ :: _ =>
    match hi with
    | e :: hi' =>
      if e.size = alloc then alloc2 s n d lo hi' e
      else
        match lo.getLast? with
        | some l => alloc3 s n d grows b1 (lo.dropLast ++ hi) l
        | none => alloc4 s n d hi' e
    | [] =>
      match lo.getLast? with
      | some l => alloc3 s n d grows b1 (lo.dropLast ++ hi) l
      | none => (s, none)

/-- Allocator::alloc (allocator.cpp:23-35). -/
def alloc (s : St) (n d : Nat) (grows : Bool) (b1 b2 : Nat) : St × Option VM :=
  let r := allocImpl s (max n 1) d grows b1 b2
  match r.2 with
  | some v => ({ r.1 with known := if d ∈ r.1.known then r.1.known else d :: r.1.known }, some v)
  | none => (r.1, none)

/-- Allocator::free with free_impl (allocator.cpp:36-45, virtual_caching_allocator.cpp:45-55). `busy`: the device still uses the memory. -/
def free (s : St) (d id : Nat) (busy : Bool) : St :=
  match (s.dev d).live.find? (fun p => p.2.id == id) with
  | none => s
  | some p =>
    { setDev s d (fun x => { x with live := x.live.erase p, mapped := insMapped ⟨p.2.bytes, s.clock, p.2⟩ x.mapped }) with
      clock := s.clock + 1, locked := fun k => if k = p.2.key then busy else s.locked k }

/-- What can happen to the allocator. -/
inductive Op where
  /-- Allocator::alloc, with what the device answers. -/
  | alloc (n d : Nat) (grows : Bool) (b1 b2 : Nat)
  /-- A client drops its memory. -/
  | free (d id : Nat) (busy : Bool)
  /-- The device has finished with a memory. -/
  | done (k : Key)
  /-- Allocator::free_unused_device_caches. -/
  | freeDev (d : Nat)
  /-- Allocator::free_unused_caches. -/
  | freeAll
  /-- set_chunk_size (virtual_caching_allocator.cpp:37-39). -/
  | setChunk (sz : Nat)

def step (s : St) : Op → St
  | .alloc n d g b1 b2 => (alloc s n d g b1 b2).1
  | .free d id busy => free s d id busy
  | .done k => { s with locked := fun k' => if k' = k then false else s.locked k' }
  | .freeDev d => freeDev s d
  | .freeAll => freeAll s
  | .setChunk sz => { s with chunkSize := sz }

def run (s : St) (ops : List Op) : St := ops.foldl step s

/-- get_total_cache_bytes_impl, as get_max_available_bytes returns it (virtual_caching_allocator.cpp:342-357,364-367). -/
def maxAvailable (s : St) (d : Nat) : Nat :=
  (if (s.dev d).pcache.isEmpty then (s.dev d).pcache.length * s.chunkSize else 0) + (((s.dev d).mapped.map Ent.size).foldl (· + ·) 0)

/-- get_used_memory_counts and get_fragmentation_bytes (virtual_caching_allocator.cpp:359-362,369-372). -/
def usedCount (s : St) (d : Nat) : Int := (s.dev d).counter

def fragmentation (s : St) (d : Nat) : Int := (s.dev d).frag

end Verif.VAlloc
