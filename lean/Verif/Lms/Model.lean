/-
Model of the swap-in/swap-out scheduler (`nnabla.lms.SwapInOutScheduler`):
src/nbla/lms/swap_in_out_scheduler.cpp, include/nbla/lms/swap_in_out_scheduler.hpp.

Simplifications, common to the whole file:
* `S` is the finite set of recorded SyncedArrays (`said`), `D` the enum `dtypes`.
* `unordered_map<said, unordered_map<dtypes, ArrayState>>` is a total function: a missing entry
  is created with count 0 and CLEARED, which no loop over the entries reacts to.
* A loop over the entries of one SyncedArray is written as one simultaneous update and one sum
  over all dtypes; its iterations touch different entries and only add or subtract bytes.
* `RecType *` is the index of the record in `order`.  `RecType::size` is the size of the
  SyncedArray, which is constant, so it is the function `size` of `said`.
* `size_t` subtraction wraps (`wsub`); sums are assumed to stay below 2^64.
-/
import Mathlib.Algebra.BigOperators.Group.Finset.Basic
import Mathlib.Data.Fintype.BigOperators
import Mathlib.Data.Fintype.Basic

namespace Verif.Lms

/-- swap_in_out_scheduler.hpp:102 `RecTag`. -/
inductive RecTag | get | cast | clear
deriving DecidableEq, Repr

/-- swap_in_out_scheduler.hpp:105-123 `RecType`.  `dev` is `context_checker(ctx, device_ctx)`,
`noTransfer` is `no_data_transfer` (cpp:356-358: `write_only_cast || first_creation`). -/
structure Rec (S D : Type) where
  tag : RecTag
  said : S
  dtype : D
  dev : Bool
  noTransfer : Bool
  temp : Bool
deriving DecidableEq, Repr

/-- hpp:232-238 `ScheduleTag`. -/
inductive STag | swapInGet | swapInCast | swapOut | wait | preclear
deriving DecidableEq, Repr

/-- hpp:240-251 `ScheduleType`; the pointer is an index in `order`. -/
structure Sched where
  tag : STag
  r : Nat
deriving DecidableEq, Repr

/-- hpp:253-260 `ArrayStateTag`. -/
inductive ATag | cleared | in_ | out | unprefetched | outWaited | outCleared
deriving DecidableEq, Repr

/-- hpp:262-266 `ArrayState`. -/
structure AState where
  count : Int
  state : ATag
  outR : Option Nat
deriving DecidableEq, Repr

/-- hpp:263-265: default member initialisers. -/
def AState.init : AState := ⟨0, .cleared, none⟩

/-- Everything `schedule()` reads: the recorded order, the ends of the function blocks, the head
dtype of every array before the iteration (cpp:145-155), and the constructor arguments. -/
structure Cfg (S D : Type) where
  order : List (Rec S D)
  fe : List Nat
  size : S → Nat
  szd : D → Nat
  maxBytes : Nat
  maxPre : Nat
  castPrefetch : Bool
  heads : S → Bool × D

variable {S D : Type} [DecidableEq S] [DecidableEq D] [Fintype D]

/-- `r->size * sizeof_dtype(dtype)`. -/
def Cfg.bytes (c : Cfg S D) (s : S) (d : D) : Nat := c.size s * c.szd d

/-- `func_block_ends[fid]`. -/
def Cfg.fend (c : Cfg S D) (fid : Nat) : Nat := c.fe.getD fid 0

/-- cpp:715 etc. `fid == 0 ? 0 : func_block_ends[fid - 1]`. -/
def Cfg.fbegin (c : Cfg S D) (fid : Nat) : Nat := if fid = 0 then 0 else c.fend (fid - 1)

/-- Indices of the records of function block `fid`. -/
def Cfg.block (c : Cfg S D) (fid : Nat) : List Nat :=
  List.range' (c.fbegin fid) (c.fend fid - c.fbegin fid)

/-- `size_t` subtraction. -/
def wsub (a b : Nat) : Nat := if b ≤ a then a - b else a + 2 ^ 64 - b

/-- hpp:271-279 `ScheduleParams`, together with the schedules (hpp:282-283) and `head_type`. -/
structure P (S D : Type) where
  head : Nat
  tail : Nat
  fid : Nat
  pre : Nat
  sin : Nat
  sout : Nat
  st : S → D → AState
  beg : Nat → List Sched
  en : List (List Sched)
  ht : S → Bool × D

/-- Assignment to one entry of `sa_states`. -/
def setSt (st : S → D → AState) (s : S) (d : D) (a : AState) : S → D → AState :=
  fun s' d' => if s' = s ∧ d' = d then a else st s' d'

/-- Simultaneous update of all entries of `sa_states[s]`. -/
def mapSt (st : S → D → AState) (s : S) (f : D → AState → AState) : S → D → AState :=
  fun s' d' => if s' = s then f d' (st s' d') else st s' d'

/-- Sum of the bytes of the entries of `sa_states[s]` in one of the states `t`. -/
def bytesIn (c : Cfg S D) (st : S → D → AState) (s : S) (t : List ATag) : Nat :=
  ∑ d : D, if (st s d).state ∈ t then c.bytes s d else 0

/-- cpp:360-367 `accumulate_counts`. -/
def acc (st : S → D → AState) (s : S) : Int := ∑ d : D, (st s d).count

/-- `beginning_schedules[fid].push_back`. -/
def P.pushBeg (p : P S D) (x : Sched) : P S D :=
  { p with beg := fun f => if f = p.fid then p.beg f ++ [x] else p.beg f }

/-- `end_schedules[fid].push_back`. -/
def P.pushEnd (p : P S D) (x : Sched) : P S D :=
  { p with en := p.en.modify p.fid (· ++ [x]) }

/-- cpp:804-832 `schedule_wait_for_swap_out_impl`. -/
def waitImpl (c : Cfg S D) (p : P S D) : P S D :=
  match c.order[p.tail]? with
  | none => { p with tail := p.tail + 1 }
  | some r =>
    let a := p.st r.said r.dtype
    if (a.state = .out ∨ a.state = .outCleared) ∧ a.outR = some p.tail then
      let b := bytesIn c p.st r.said [.out]
      let st1 := mapSt p.st r.said fun _ e =>
        if e.state = .out then { e with state := .outWaited }
        else if e.state = .outCleared then { e with state := .cleared } else e
      let st2 := setSt st1 r.said r.dtype { st1 r.said r.dtype with outR := none }
      { p.pushBeg ⟨.wait, p.tail⟩ with sout := wsub p.sout b, st := st2, tail := p.tail + 1 }
    else { p with tail := p.tail + 1 }

/-- The loop of cpp:571-587 `free_memory_to_prefetch`.  The fuel is the distance from `tail` to
`func_block_ends[fid - 1]`, where the loop stops (`tail` never passes it, see `Inv`); the result
`no_memory` is ignored by both callers (cpp:648, cpp:697). -/
def freeLoop (c : Cfg S D) (b : Nat) : Nat → P S D → P S D
  | 0, p => p
  | n + 1, p => if p.sin + p.sout + b > c.maxBytes then freeLoop c b n (waitImpl c p) else p

/-- cpp:571-587 `free_memory_to_prefetch`. -/
def freeMem (c : Cfg S D) (p : P S D) (b : Nat) : P S D :=
  freeLoop c b (c.fbegin p.fid - p.tail) p

/-- The predicate of cpp:545-546. -/
def isSwapOutOf (c : Cfg S D) (s : S) (x : Sched) : Bool :=
  x.tag == .swapOut && ((c.order[x.r]?).map (·.said) == some s)

/-- `erase` of the last element satisfying `p`. -/
def eraseLast {α : Type} (p : α → Bool) (l : List α) : List α := (l.reverse.eraseP p).reverse

/-- cpp:540-552: search the last swap out of the array from the back and erase it. -/
def cancelL {α : Type} (p : α → Bool) : List (List α) → Option (List (List α))
  | [] => none
  | l :: ls =>
    match cancelL p ls with
    | some ls' => some (l :: ls')
    | none => if l.any p then some (eraseLast p l :: ls) else none

/-- cpp:538-569 `cancel_swap_out`. -/
def cancelSwapOut (c : Cfg S D) (r : Rec S D) (p : P S D) : P S D :=
  let b := bytesIn c p.st r.said [.out, .outCleared]
  let bo := bytesIn c p.st r.said [.out]
  { p with
    en := (cancelL (isSwapOutOf c r.said) p.en).getD p.en
    sout := wsub p.sout bo
    sin := p.sin + b
    pre := p.pre + b
    st := mapSt p.st r.said fun _ e =>
      if e.state = .out ∨ e.state = .outCleared then { e with state := .in_ } else e }

/-- cpp:157-184 `collect_info_about_dtype_conversion`: more than one dtype among the records and
the initial head of the array. -/
def typeConverted (c : Cfg S D) (s : S) : Bool :=
  let used := fun d : D => c.order.any (fun r => r.said = s ∧ r.dtype = d) ||
    ((c.order.any fun r => r.said = s) && ((c.heads s).1 && decide ((c.heads s).2 = d)))
  decide (1 < (Finset.univ.filter fun d => used d = true).card)

/-- cpp:620-668: the branch of `schedule_swap_in` that prefetches by get or cast; `none` is the
`break` of cpp:644. -/
def prefetch (c : Cfg S D) (i : Nat) (r : Rec S D) (p : P S D) : Option (P S D) :=
  let b := c.bytes r.said r.dtype
  let h := p.ht r.said
  let extra := if h.1 ∧ h.2 ≠ r.dtype then c.bytes r.said h.2 else 0
  if c.maxBytes < p.sin + b + extra then none
  else
    let p := freeMem c p (b + extra)
    let p :=
      if c.castPrefetch ∧ (typeConverted c r.said = false ∨ (r.tag = .cast ∧ acc p.st r.said = 0)) then
        { p.pushBeg ⟨.swapInCast, i⟩ with
          ht := fun s => if s = r.said then (true, r.dtype) else p.ht s }
      else
        { p.pushBeg ⟨.swapInGet, i⟩ with
          ht := fun s => if s = r.said ∧ (p.ht s).1 = false then (false, r.dtype) else p.ht s }
    some { p with
      sin := p.sin + b
      pre := p.pre + b
      st := setSt p.st r.said r.dtype { p.st r.said r.dtype with state := .in_ } }

/-- cpp:605-705: the body for the first occurrence of an array in the queue; `none` is `break`. -/
def swapInFirst (c : Cfg S D) (i : Nat) (r : Rec S D) (p : P S D) : Option (P S D) :=
  let b := c.bytes r.said r.dtype
  let a := p.st r.said r.dtype
  if c.maxPre < p.pre + b ∨ c.maxBytes < p.sin + b then none
  else if r.dev then
    if a.state = .out ∨ a.state = .outCleared then some (cancelSwapOut c r p)
    else if r.noTransfer then
      some { p with
        pre := p.pre + b
        st := setSt p.st r.said r.dtype { a with state := .unprefetched } }
    else prefetch c i r p
  else
    if a.state = .out ∨ a.state = .outCleared then
      let bo := bytesIn c p.st r.said [.out]
      some { p with
        sout := wsub p.sout bo
        sin := p.sin + bo
        pre := p.pre + bo
        st := mapSt p.st r.said fun _ e =>
          if e.state = .out then { e with state := .in_ }
          else if e.state = .outCleared then { e with state := .cleared } else e }
    else
      let p := freeMem c p b
      some { p with
        sin := p.sin + b
        pre := p.pre + b
        st := setSt p.st r.said r.dtype { p.st r.said r.dtype with state := .in_ } }

/-- cpp:707-709: `count++; head++`. -/
def enqueue (r : Rec S D) (p : P S D) : P S D :=
  let a := p.st r.said r.dtype
  { p with head := p.head + 1, st := setSt p.st r.said r.dtype { a with count := a.count + 1 } }

/-- cpp:589-711 `schedule_swap_in`; the list is `order` from `head` on. -/
def swapIn (c : Cfg S D) (stop : Nat → Nat) : List (Rec S D) → P S D → P S D
  | [], p => p
  | r :: rest, p =>
    if r.tag = .clear then swapIn c stop rest { p with head := p.head + 1 }
    else if stop p.head > p.fid then p
    else if (p.st r.said r.dtype).count = 0 then
      match swapInFirst c p.head r p with
      | none => p
      | some p' => swapIn c stop rest (enqueue r p')
    else swapIn c stop rest (enqueue r p)

/-- What one attempt at scheduling yields. -/
inductive Res (α : Type)
  | ok (a : α)
  | resched (stop : Nat → Nat)
  | outOfMemory
  | notPrefetched
  | stateError
  | unclassified

/-- cpp:369-405 `backtrack_with_prefetch_cancel`: `bh` is `back_head` before the decrement. `none`
is the error "A function is out of memory.". -/
def backtrack (c : Cfg S D) (fid need : Nat) :
    Nat → (S → D → AState) → (Nat → Nat) → Nat → Option (Nat → Nat)
  | 0, _, stop, av => if av < need then none else some stop
  | bh + 1, st, stop, av =>
    if c.fend fid ≤ bh + 1 then
      match c.order[bh]? with
      | none => backtrack c fid need bh st stop av
      | some r =>
        if r.tag = .clear then backtrack c fid need bh st stop av
        else
          let one := acc st r.said = 1
          let av := if one then av + bytesIn c st r.said [.in_] else av
          let stop := if one then (fun i => if i = bh then fid + 1 else stop i) else stop
          if need ≤ av then some stop
          else
            let a := st r.said r.dtype
            backtrack c fid need bh (setSt st r.said r.dtype { a with count := a.count - 1 }) stop av
    else if av < need then none else some stop

/-- cpp:410-434: the distinct unprefetched arrays of the block and their bytes. -/
def unprefetchedKeys (c : Cfg S D) (p : P S D) : List (S × D) :=
  ((c.block p.fid).filterMap fun i => match c.order[i]? with
    | none => none
    | some r => if r.tag = .clear then none
      else if (p.st r.said r.dtype).state = .unprefetched then some (r.said, r.dtype) else none).dedup

/-- The waiting loop of cpp:436-448; fuel as in `freeLoop`.  `inr` carries the state in which
the loop gave up (`tail == func_block_ends[fid - 1]`). -/
def reserveLoop (c : Cfg S D) (need : Nat) : Nat → P S D → P S D ⊕ P S D
  | 0, p => if wsub (wsub c.maxBytes p.sin) p.sout < need then .inr p else .inl p
  | n + 1, p => if wsub (wsub c.maxBytes p.sin) p.sout < need then reserveLoop c need n (waitImpl c p) else .inl p

/-- cpp:454-466, one record: an unprefetched array is now in. -/
def toInStep (c : Cfg S D) (p : P S D) (i : Nat) : P S D :=
  match c.order[i]? with
  | none => p
  | some r => if r.tag = .clear then p
    else
      let a := p.st r.said r.dtype
      if a.state = .unprefetched then { p with st := setSt p.st r.said r.dtype { a with state := .in_ } }
      else p

/-- cpp:454-466: the unprefetched arrays of the block are now in. -/
def unprefetchedToIn (c : Cfg S D) (p : P S D) : P S D := (c.block p.fid).foldl (toInStep c) p

/-- cpp:407-469 `reserve_unprefetched_memory`. -/
def reserve (c : Cfg S D) (stop : Nat → Nat) (p : P S D) : Res (P S D) :=
  let need := ((unprefetchedKeys c p).map fun k => c.bytes k.1 k.2).sum
  match reserveLoop c need (c.fbegin p.fid - p.tail) p with
  | .inr q =>
    match backtrack c q.fid need q.head q.st stop (wsub (wsub c.maxBytes q.sin) q.sout) with
    | none => .outOfMemory
    | some stop' => .resched stop'
  | .inl q => .ok (unprefetchedToIn c { q with sin := q.sin + need })

/-- cpp:246-265: head array types after the function block. -/
def headTypes (c : Cfg S D) (fid : Nat) (ht : S → Bool × D) : S → Bool × D :=
  (c.block fid).foldl (fun ht i => match c.order[i]? with
    | none => ht
    | some r => fun s =>
      if s = r.said then
        if r.tag = .clear then (false, (ht s).2)
        else if (ht s).1 then (if r.tag = .cast then (true, r.dtype) else ht s)
        else (true, r.dtype)
      else ht s) ht

/-- cpp:735-744 and cpp:754-763: all entries of the array to CLEARED. -/
def clearAll (c : Cfg S D) (r : Rec S D) (p : P S D) : P S D :=
  let b := bytesIn c p.st r.said [.in_]
  { p with
    sin := wsub p.sin b
    pre := wsub p.pre b
    st := mapSt p.st r.said fun _ e => { e with state := .cleared } }

/-- cpp:752, 766: `head_type[said].first = false`. -/
def dropHead (r : Rec S D) (p : P S D) : P S D :=
  { p with ht := fun s => if s = r.said then (false, (p.ht s).2) else p.ht s }

/-- cpp:767-788: swap out. -/
def pushOut (c : Cfg S D) (i : Nat) (r : Rec S D) (p : P S D) : P S D :=
  let b := bytesIn c p.st r.said [.in_]
  let h := (p.ht r.said).2
  let bo := if (p.st r.said h).state = .in_ then c.bytes r.said h else 0
  { p.pushEnd ⟨.swapOut, i⟩ with
    sin := wsub p.sin b
    pre := wsub p.pre b
    sout := p.sout + bo
    st := mapSt p.st r.said fun d e =>
      if e.state = .in_ then
        { e with state := (if d = h then .out else .outCleared), outR := some i }
      else e }

/-- `clear_info`: for every function the records after which the array is cleared, and whether the
scheduler has to do it. -/
abbrev ClearInfo := Nat → List (Nat × Bool)

/-- cpp:724-788: an array leaves the queue. -/
def release (c : Cfg S D) (ci : ClearInfo) (i : Nat) (r : Rec S D) (p : P S D) : P S D :=
  match (ci p.fid).find? (fun x => x.1 == i) with
  | some (_, true) => dropHead r ((clearAll c r p).pushEnd ⟨.preclear, i⟩)
  | some (_, false) => clearAll c r p
  | none => if r.temp then dropHead r (clearAll c r p) else pushOut c i r p

/-- cpp:791-792: `count--`. -/
def dequeue (r : Rec S D) (p : P S D) : P S D :=
  let a := p.st r.said r.dtype
  { p with st := setSt p.st r.said r.dtype { a with count := a.count - 1 } }

/-- One iteration of cpp:717-793. -/
def swapOutStep (c : Cfg S D) (ci : ClearInfo) (p : P S D) (i : Nat) : P S D :=
  match c.order[i]? with
  | none => p
  | some r => if r.tag = .clear then p
    else dequeue r (if acc p.st r.said = 1 then release c ci i r p else p)

/-- cpp:713-794 `schedule_swap_out`. -/
def swapOut (c : Cfg S D) (ci : ClearInfo) (p : P S D) : P S D :=
  (c.block p.fid).foldl (swapOutStep c ci) p

/-- cpp:796-802 `schedule_wait_for_all_swap_out`. -/
def waitAll (c : Cfg S D) : Nat → P S D → P S D
  | 0, p => p
  | n + 1, p => waitAll c n (waitImpl c p)

/-- cpp:492-536 `calc_mem_usage_before_forward`; the list is `order` from `head` on, `n` the number
of records left in block 0.  `none` is the error of cpp:525. -/
def calcMem (c : Cfg S D) : Nat → P S D → Option (P S D)
  | 0, p => some p
  | n + 1, p =>
    match c.order[p.head]? with
    | none => calcMem c n { p with head := p.head + 1 }
    | some r =>
      if r.tag = .clear then calcMem c n { p with head := p.head + 1 }
      else
        let ht := fun s => if s = r.said then
            (if (p.ht s).1 then (if r.tag = .cast then (true, r.dtype) else p.ht s) else (true, r.dtype))
          else p.ht s
        let a := p.st r.said r.dtype
        if a.count = 0 then
          if a.state ≠ .cleared then none
          else
            let b := c.bytes r.said r.dtype
            calcMem c n (enqueue r { p with
              ht := ht, sin := p.sin + b, pre := p.pre + b
              st := setSt p.st r.said r.dtype { a with state := .in_ } })
        else calcMem c n (enqueue r { p with ht := ht })

/-- State of the loop of cpp:844-869: `clear_trace`, `clear_last` and `clear_info`. -/
structure PC (S : Type) where
  trace : S → Option Nat
  last : S → Option Bool
  info : ClearInfo

/-- cpp:846-866: one record of block `fid`, from the back. -/
def preclearStep (c : Cfg S D) (fid : Nat) (q : PC S) (i : Nat) : PC S :=
  match c.order[i]? with
  | none => q
  | some r =>
    if r.tag = .clear then
      { q with
        trace := fun s => if s = r.said then some fid else q.trace s
        last := fun s => if s = r.said ∧ q.last s = none then some true else q.last s }
    else
      let last := fun s => if s = r.said ∧ q.last s = none then some false else q.last s
      match q.trace r.said with
      | none => { q with last := last }
      | some f =>
        { trace := fun s => if s = r.said then none else q.trace s
          last := last
          info :=
            if fid < f then fun k => if k = fid then q.info k ++ [(i, true)] else q.info k
            else if last r.said = some true then
              fun k => if k = fid then q.info k ++ [(i, false)] else q.info k
            else q.info }

/-- cpp:834-872 `schedule_preclear`, for function blocks `n`, `n - 1`, ..., 2.  The loop over a
block runs from the back; its `size_t` index would wrap if a block from 2 on began at record 0,
which is excluded (see `Cfg.WF`). -/
def preclearFrom (c : Cfg S D) : Nat → PC S → PC S
  | 0, q => q
  | n + 1, q =>
    if n + 1 ≤ 1 then q
    else preclearFrom c n { (c.block (n + 1)).reverse.foldl (preclearStep c (n + 1)) q with last := fun _ => none }

/-- cpp:834-872 `schedule_preclear`. -/
def clearInfo (c : Cfg S D) : ClearInfo :=
  (preclearFrom c (c.fe.length - 1) ⟨fun _ => none, fun _ => none, fun _ => []⟩).info

/-- cpp:236-274: one function. -/
def step (c : Cfg S D) (ci : ClearInfo) (stop : Nat → Nat) (p : P S D) (fid : Nat) : Res (P S D) :=
  let p := { p with fid := fid }
  let p := swapIn c stop (c.order.drop p.head) p
  match reserve c stop p with
  | .ok p =>
    if p.head < c.fend fid then .notPrefetched
    else
      let p := { p with ht := headTypes c fid p.ht }
      let p := if fid = 1 then { swapOut c ci { p with fid := 0 } with fid := 1 } else p
      .ok (swapOut c ci p)
  | e => e

/-- cpp:235-278: the loop over the functions. -/
def steps (c : Cfg S D) (ci : ClearInfo) (stop : Nat → Nat) : List Nat → P S D → Res (P S D)
  | [], p => .ok p
  | f :: fs, p => match step c ci stop p f with
    | .ok p => steps c ci stop fs p
    | e => e

/-- cpp:216-229: the state before the first function. -/
def P.start (c : Cfg S D) : P S D :=
  ⟨0, 0, 0, 0, 0, 0, fun _ _ => AState.init, fun _ => [], List.replicate c.fe.length [], c.heads⟩

/-- cpp:301-325: the checks at the end of `schedule()` (compiled in: `SWAPINOUTSCHEDULER_DEBUG`). -/
def endOk [Fintype S] (c : Cfg S D) (p : P S D) : Bool :=
  decide (∀ s d, (p.st s d).state = .cleared ∨ (p.st s d).state = .outWaited) &&
  (p.pre == 0 && p.sin == 0 && p.sout == 0 && p.head == c.order.length && p.tail == c.order.length)

/-- cpp:214-327: one attempt. -/
def attempt [Fintype S] (c : Cfg S D) (stop : Nat → Nat) : Res (P S D) :=
  match calcMem c (c.fend 0) (P.start c) with
  | none => .stateError
  | some p =>
    match steps c (clearInfo c) stop (List.range' 1 (c.fe.length - 1)) p with
    | .ok p =>
      let p := waitAll c (c.order.length - p.tail) { p with fid := c.fe.length }
      if endOk c p then .ok p else .unclassified
    | e => e

/-- cpp:208-327: the do-while loop of `schedule()`; `none` means the fuel ran out. -/
def scheduleLoop [Fintype S] (c : Cfg S D) : Nat → (Nat → Nat) → Option (Res (P S D))
  | 0, _ => none
  | n + 1, stop => match attempt c stop with
    | .resched stop' => scheduleLoop c n stop'
    | r => some r

/-- cpp:207: `prefetch_stopper` starts with 1 everywhere. -/
def stop0 : Nat → Nat := fun _ => 1

end Verif.Lms
