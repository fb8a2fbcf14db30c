import Mathlib.Data.List.Perm.Basic
import Mathlib.Data.List.Basic
/-
Dataset caches on disk: CreateCache (/repo/python/src/nnabla/utils/create_cache.py), CacheDataSource and its prefetching reader
(/repo/python/src/nnabla/utils/data_source_implements.py). Simplifications: a cache file name is the pair (first position, last
position) that the code formats with {:08d}_{:08d}; the .npy format only; files do not change while they are read; the
communicator (multi-process retries) is not modelled; a row of the csv file is an opaque value of type R, and `_process_row`
(with the conversion to arrays, numpy.save and numpy.load) is a total function from rows to data.
-/
namespace Verif.Cache

/-- Name of a cache file: the two numbers in it. -/
abbrev Name := Nat × Nat

section
variable {R D : Type}

/-- The loop of `CreateCache.create` that cuts the csv rows into tasks (create_cache.py:163-171): `pos` is `_position`, `cur` is
`csv_row`, `todo` the rows not visited yet, already in the order `self._order`. -/
def chunks (cacheSize : Int) : (pos : Nat) → (todo cur : List R) → List (Nat × List R)
  | pos, [], cur => if cur.length ≠ 0 then [(pos - 1, cur)] else []
  | pos, r :: todo, cur =>
    let cur := cur ++ [r]
    if (cur.length : Int) = cacheSize then (pos, cur) :: chunks cacheSize (pos + 1) todo []
    else chunks cacheSize (pos + 1) todo cur

/-- The directory: what every file holds. -/
abbrev Dir (D : Type) := Name → Option (List D)

/-- `_save_cache` (create_cache.py:39-98): the file it writes ... -/
def fileOf (process : R → D) (task : Nat × List R) : Name × List D :=
  ((task.1 + 1 - task.2.length, task.1), task.2.map process)

/-- ... and the write itself. -/
def saveCache (process : R → D) (dir : Dir D) (task : Nat × List R) : Dir D :=
  fun n => if n = (fileOf process task).1 then some (fileOf process task).2 else dir n

/-- A cache directory: the files, cache_index.csv and order.csv. -/
structure Disk (D : Type) where
  dir : Dir D
  index : List (Name × Nat)
  orderCsv : List (Nat × Nat)

/-- `CreateCache.create` (create_cache.py:150-219). `rows` is the csv file, `order` is `self._order`; the thread pool writes the
files in the order `schedule` of the tasks; `pool.map` returns the index rows in the order of the tasks whatever the schedule. -/
def create (process : R → D) (cacheSize : Int) (rows : List R) (order : List Nat)
    (schedule : List (Nat × List R) → List (Nat × List R)) (old : Dir D) : Disk D :=
  let tasks := chunks cacheSize 0 (order.filterMap fun i => rows[i]?) []
  { dir := (schedule tasks).foldl (saveCache process) old
    index := tasks.map fun t => ((fileOf process t).1, t.2.length)
    orderCsv := (List.range rows.length).zip order }

/-- `self._order` of CreateCache (create_cache.py:133-138): a permutation drawn from the generator, or the file order. -/
def createOrder (shuffle : Bool) (permutation : List Nat) (n : Nat) : List Nat :=
  if shuffle then permutation else List.range n

end

/-! ### CacheDataSource -/

/-- Attributes of CacheDataSource (data_source_implements.py:339-374) that change: order, loaded file, number of draws. -/
structure Src (D : Type) where
  order : List (Name × Nat)
  current : Option (Name × List D)
  drawn : Nat

section
variable {D : Type}

/-- The shuffled loop of reset (data_source_implements.py:387-391); draw number k of `self._rng.permutation(list(range(n)))` is
`rng k n`. -/
def shuffled (rng : Nat → Nat → List Nat) (files : List (Name × Nat)) : (drawn : Nat) → (todo : List Nat) → List (Name × Nat)
  | _, [] => []
  | k, i :: todo =>
    (match files[i]? with
     | none => []
     | some (n, len) => (rng k len).map fun j => (n, j)) ++ shuffled rng files (k + 1) todo

/-- CacheDataSource.reset (data_source_implements.py:381-402). -/
def Src.reset (shuffle : Bool) (rng : Nat → Nat → List Nat) (files : List (Name × Nat)) (s : Src D) : Src D :=
  if shuffle then
    let fileOrder := rng s.drawn files.length
    { order := shuffled rng files (s.drawn + 1) fileOrder, current := none, drawn := s.drawn + 1 + fileOrder.length }
  else
    { order := files.flatMap fun f => (List.range f.2).map fun j => (f.1, j), current := none, drawn := s.drawn }

/-- CacheDataSource.__init__ (data_source_implements.py:339-374): the files are those of cache_index.csv. -/
def Src.init (shuffle : Bool) (rng : Nat → Nat → List Nat) (disk : Disk D) : Src D :=
  Src.reset shuffle rng disk.index ⟨[], none, 0⟩

/-- The file in memory, or a newly read one (data_source_implements.py:259-268). -/
def Src.loaded (read : Name → Option (List D)) (n : Name) (s : Src D) : Option (Name × List D) :=
  match s.current with
  | some (m, d) => if m = n then some (m, d) else (read n).map fun d => (n, d)
  | none => (read n).map fun d => (n, d)

/-- CacheDataSource._get_data (data_source_implements.py:244-279) without communicator; `read` is what
`open_and_prefetch_cache` returns for a file. A position outside of the order or of the file raises: `none`. -/
def Src.get (read : Name → Option (List D)) (post : D → D) (p : Nat) (s : Src D) : Option D × Src D :=
  match s.order[p]? with
  | none => (none, s)
  | some (n, j) =>
    match s.loaded read n with
    | none => (none, s)
    | some (m, d) => (d[j]?.map post, { s with current := some (m, d) })

/-- The calls on a data source. -/
inductive Op
  | get (p : Nat)
  | reset

/-- One call; the outcome of `get` is what `outs` records. -/
def Src.step (shuffle : Bool) (rng : Nat → Nat → List Nat) (files : List (Name × Nat)) (read : Name → Option (List D))
    (post : D → D) (s : Src D) : Op → Src D
  | .get p => (s.get read post p).2
  | .reset => s.reset shuffle rng files

end

/-! ### The prefetching reader -/

section
variable {F D : Type}

/-- CachePrefetcher (data_source_implements.py:90-172): `file_name`, the queue, the file the thread is reading (between `get` and
`task_done`), `_current_data` (both None and {} are `none`). -/
structure Pf (F D : Type) where
  slot : Option F
  queue : List F
  working : Option F
  cur : Option D

/-- Where the caller of `open_and_prefetch_cache` (data_source_implements.py:183-208) is. -/
inductive PC (F D : Type) where
  | idle
  | hit (fn : F) (pre : List F) (i : Nat)                                         -- :187-188, prefetcher i
  | readHit (fn : F) (pre : List F) (i : Nat)                                     -- :189, in q.join
  | direct (fn : F) (pre : List F)                                                -- :193
  | waste (res : D) (fn : F) (pre : List F) (names : List (Option F)) (i : Nat)    -- :195-197
  | request (res : D) (fn : F) (todo : List F) (names : List (Option F))          -- :199-206
  | crashed

structure Sys (F D : Type) where
  pfs : List (Pf F D)
  pc : PC F D
  log : List (F × D)            -- the results returned: (file asked for, data)

/-- What can happen next: the data source calls `open_and_prefetch_cache(fn, pre)`, the caller moves, or thread k moves. -/
inductive Act (F : Type) where
  | call (fn : F) (pre : List F)
  | main
  | worker (k : Nat)

/-- CacheReaderWithPrefetch.__init__ (data_source_implements.py:176-181). -/
def Sys.init (numThreads : Nat) : Sys F D := ⟨List.replicate numThreads ⟨none, [], none, none⟩, .idle, []⟩

/-- CachePrefetcher._worker (data_source_implements.py:135-145): takes a name and clears `_current_data`, or finishes reading. -/
def Pf.worker (content : F → D) (p : Pf F D) : Pf F D :=
  match p.working, p.queue with
  | some fn, _ => { p with cur := some (content fn), working := none }
  | none, fn :: q => { p with queue := q, working := some fn, cur := none }
  | none, [] => p

/-- CachePrefetcher.request (data_source_implements.py:147-149). -/
def Pf.request (fn : F) (p : Pf F D) : Pf F D := { p with slot := some fn, queue := p.queue ++ [fn] }

/-- CachePrefetcher.read (data_source_implements.py:160-165) after `q.join()` has returned. -/
def Pf.read (p : Pf F D) : Option D × Pf F D := (p.cur, { p with slot := none, cur := none })

/-- `q.join()` returns when every item has been fetched and done. -/
def Pf.joined (p : Pf F D) : Bool := p.queue.isEmpty && p.working.isNone

variable [DecidableEq F]

/-- One step of the caller. A blocked step leaves the state unchanged. -/
def mainStep (content : F → D) (s : Sys F D) : Sys F D :=
  match s.pc with
  | .idle => s
  | .crashed => s
  | .hit fn pre i =>
    match s.pfs[i]? with
    | some p =>
      if p.slot = some fn then
        { s with pfs := s.pfs.set i { p with slot := none }, pc := .readHit fn pre i }
      else { s with pc := .hit fn pre (i + 1) }
    | none =>
      -- `cf` is the last prefetcher of the loop; without any it is unbound
      if s.pfs.length = 0 then { s with pc := .crashed } else { s with pc := .direct fn pre }
  | .readHit fn pre i =>
    match s.pfs[i]? with
    | none => { s with pc := .crashed }
    | some p =>
      if p.joined then
        match p.read with
        | (some d, p) => { s with pfs := s.pfs.set i p, pc := .waste d fn pre ((s.pfs.set i p).map (·.slot)) 0 }
        | (none, p) => { s with pfs := s.pfs.set i p, pc := .direct fn pre }
      else s
  | .direct fn pre => { s with pc := .waste (content fn) fn pre (s.pfs.map (·.slot)) 0 }
  | .waste res fn pre names i =>
    match names[i]? with
    | none => { s with pc := .request res fn pre names }
    | some none => { s with pc := .waste res fn pre names (i + 1) }
    | some (some g) =>
      if g ∈ pre then { s with pc := .waste res fn pre names (i + 1) }
      else
        match s.pfs[i]? with
        | none => { s with pc := .crashed }
        | some p =>
          if p.joined then { s with pfs := s.pfs.set i p.read.2, pc := .waste res fn pre names (i + 1) }
          else s
  | .request res fn [] _ => { s with pc := .idle, log := s.log ++ [(fn, res)] }
  | .request res fn (g :: todo) names =>
    if some g ∈ names then { s with pc := .request res fn todo names }
    else
      match names.findIdx? (· == none) with
      | none => { s with pc := .request res fn todo names }
      | some k =>
        match s.pfs[k]? with
        | none => { s with pc := .crashed }
        | some p => { s with pfs := s.pfs.set k (p.request g), pc := .request res fn todo (names.set k (some g)) }

/-- One step of the system. -/
def step (content : F → D) (s : Sys F D) : Act F → Sys F D
  | .call fn pre => match s.pc with
    | .idle => { s with pc := .hit fn pre 0 }
    | _ => s
  | .main => mainStep content s
  | .worker k => { s with pfs := s.pfs.modify k (Pf.worker content) }

/-- A run. -/
def run (content : F → D) (s : Sys F D) (acts : List (Act F)) : Sys F D := acts.foldl (step content) s

end

end Verif.Cache
