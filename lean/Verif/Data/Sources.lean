import Verif.Data.Simple
/-
Models of the wrapping data sources: DataSourceWithMemoryCache, DataSourceWithFileCache,
ConcatDataSource, SlicedDataSource, CsvDataSource
(/repo/python/src/nnabla/utils/data_source.py, data_source_implements.py).

A wrapped source is seen through `_get_data(position)` and `reset()`.  Simplification: `_get_data`
of the wrapped source is taken to be a function of its state that does not change the state (true of
Simple, Csv, Concat and File-cache sources up to their internal read buffers).
-/
namespace Verif.Data

/-- A positionally readable source. -/
structure PSource (S D : Type) where
  get : Nat → S → Option D
  reset : S → S

/-- SimpleDataSource seen positionally (data_source_implements.py:44-45, :74-75). -/
def simplePSource {D : Type} (c : SimpleCfg D) : PSource Simple D where
  get p s := s.getOfGen c p s.gen
  reset s := { s with pos := 0 }

/-! ### DataSourceWithMemoryCache (data_source.py:514-597) -/

/-- Object state.  `rng` draws are taken from a stream of permutations. -/
structure Mem (S D : Type) where
  s : S                 -- the wrapped source
  onMemory : Bool
  order : List Nat
  cache : List D
  pos : Nat
  gen : Int
  drawn : Nat

structure MemCfg where
  n : Nat
  shuffle : Bool
  perm : Nat → List Nat

section
variable {S D : Type}

/-- `__init__` (:546-571); whether the data fits in memory is a parameter. -/
def Mem.init (m : MemCfg) (onMemory : Bool) (s : S) : Mem S D :=
  ⟨s, onMemory, List.range m.n, [], 0, -1, 0⟩

/-- `_get_data(position)` (:531-543); `none` is a failure (None or IndexError). -/
def Mem.getData (u : PSource S D) (p : Nat) (t : Mem S D) : Option D × Mem S D :=
  if t.onMemory then
    match t.order[p]? with
    | none => (none, t)
    | some o =>
      if o < t.cache.length then (t.cache[o]?, { t with pos := p })
      else match u.get p t.s with
        | none => (none, { t with pos := p })
        | some d => (some d, { t with cache := t.cache ++ [d], pos := p })
  else (u.get p t.s, { t with pos := p })

/-- `reset()` (:579-597). `_generation` of the wrapped source (:595) is not tracked: only its own. -/
def Mem.reset (m : MemCfg) (u : PSource S D) (t : Mem S D) : Mem S D :=
  if t.onMemory then
    let g := t.gen + 1
    let t1 : Mem S D :=
      if m.shuffle ∧ g > 0 then { t with order := m.perm t.drawn, drawn := t.drawn + 1, gen := g }
      else { t with order := List.range m.n, gen := g }
    if t1.pos = 0 then { t1 with gen := -1, pos := 0 }
    else { t1 with s := u.reset t1.s, pos := 0 }
  else { t with s := u.reset t.s, pos := 0 }

/-- As a source: `next` is `DataSource.next` (:127-130); `apply_order` is the inherited no-op (:167-172). -/
def memSource (m : MemCfg) (u : PSource S D) : Source (Mem S D) D where
  pos t := t.pos
  next t :=
    let r := Mem.getData u t.pos t
    (r.1, { r.2 with pos := r.2.pos + 1 })
  reset t := Mem.reset m u t
  applyOrder t := t

/-! ### CsvDataSource / any source drawing one permutation per reset
(data_source_implements.py:474-505) -/

structure Csv where
  order : List Nat
  pos : Nat
  drawn : Nat

/-- `_get_data` (:470-471) and `reset` (:498-505), rows given by `load`. -/
def csvSource (c : SimpleCfg D) : Source Csv D where
  pos s := s.pos
  next s := ((s.order[s.pos]?).map c.load, { s with pos := s.pos + 1 })
  reset s := if c.shuffle then ⟨c.perm s.drawn, 0, s.drawn + 1⟩ else { s with pos := 0 }
  applyOrder s := s

/-- `__init__` (:473-496) calls `reset` at the end. -/
def Csv.init (c : SimpleCfg D) : Csv := (csvSource c).reset ⟨List.range c.n, 0, 0⟩

/-! ### DataSourceWithFileCache (data_source.py:178-511) -/

/-- Object state.  `files` are the contents of the cache files in order of creation. -/
structure FileCache (D : Type) where
  files : List (List D)
  fileOrder : List Nat
  dataOrders : List (List Nat)
  startPos : List Nat          -- `_cache_file_start_positions`
  filePos : List Nat           -- `_cache_file_positions`
  order : List Nat             -- `_order`
  pos : Nat
  drawn : Nat

/-- Fixed data: wrapped data `f`, its size, `cache_size`, shuffle, and the generator: draw number
`k` applied to a list returns a shuffled copy. -/
structure FileCfg (D : Type) where
  f : Nat → D
  n : Nat
  cs : Nat
  shuffle : Bool
  rng : Nat → List Nat → List Nat

/-- `_save_cache_to_file` (:202-295) on the buffered positions: sorts them and stores the data.  The
thread pool that fetches them and the retry loop only affect the order of arrival, which is undone
by `cache_data[index] = data` and `sorted` (:233-252); the buffer is filled in increasing order. -/
def FileCache.save (c : FileCfg D) (buf : List Nat) (t : FileCache D) : FileCache D :=
  { t with
    files := t.files ++ [buf.map c.f]
    fileOrder := t.fileOrder ++ [t.fileOrder.length]
    dataOrders := t.dataOrders ++ [List.range buf.length] }

/-- The loop of `_create_cache` (:335-355) with `_store_data_to_cache_buffer` (:297-302):
`p` next position, `left` iterations left, `buf` = `_cache_positions`, `total` = `_total_cached_size`. -/
def FileCache.createLoop (c : FileCfg D) : Nat → Nat → List Nat → Nat → FileCache D → List Nat × FileCache D
  | 0, _, buf, _, t => (buf, t)
  | left + 1, p, buf, total, t =>
    let buf := buf ++ [p]
    if p = total then
      let total := total + 1
      if buf.length ≥ c.cs ∨ total ≥ c.n then
        createLoop c left (p + 1) [] total (FileCache.save c buf t)
      else createLoop c left (p + 1) buf total t
    else createLoop c left (p + 1) buf total t

/-- `_create_cache` (:330-372): the loop, a last save, and the truncation to
`ceil(n / cache_size)` files. -/
def FileCache.create (c : FileCfg D) (t : FileCache D) : FileCache D :=
  let r := FileCache.createLoop c c.n 0 [] 0 t
  let t := if r.1.length > 0 then FileCache.save c r.1 r.2 else r.2
  let num := (c.n + c.cs - 1) / c.cs
  let t := { t with fileOrder := t.fileOrder.take num, dataOrders := t.dataOrders.take num }
  if c.n % c.cs ≠ 0 then
    { t with dataOrders := t.dataOrders.modify (num - 1) (fun l => l.take (c.n % c.cs)) }
  else t

/-- The double loop of `_create_cache_file_position_table` (:408-421), outer loop over the file
order; accumulators `starts`, `order`, `fpos` (the lists are built by appending: `count` is their
length and `_order`/`_cache_file_positions` have exactly that many entries at the end). -/
def FileCache.tableLoop (cs : Nat) (dataOrders : List (List Nat)) :
    List Nat → Nat → List Nat → List Nat → List Nat → List Nat × List Nat × List Nat
  | [], _, starts, order, fpos => (starts, order, fpos)
  | fi :: rest, pos, starts, order, fpos =>
    let l := dataOrders[fi]?.getD []
    tableLoop cs dataOrders rest (pos + l.length) (starts.set fi pos)
      (order ++ l.map (fun j => j + fi * cs)) (fpos ++ l.map (fun _ => fi))

/-- `_create_cache_file_position_table` (:404-421). -/
def FileCache.table (c : FileCfg D) (t : FileCache D) : FileCache D :=
  let r := FileCache.tableLoop c.cs t.dataOrders t.fileOrder 0 (List.range t.fileOrder.length) [] []
  { t with startPos := r.1, order := r.2.1, filePos := r.2.2 }

/-- `__init__` (:423-477). -/
def FileCache.init (c : FileCfg D) : FileCache D :=
  FileCache.table c (FileCache.create c ⟨[], [], [], [], [], List.range c.n, 0, 0⟩)

/-- The loop of `reset` over the files (:500-502). -/
def FileCache.permuteAll (rng : Nat → List Nat → List Nat) : Nat → List (List Nat) → List (List Nat)
  | _, [] => []
  | k, l :: r => rng k l :: permuteAll rng (k + 1) r

/-- `reset` (:495-511); resetting the wrapped source (:509) does not affect the cached data. -/
def FileCache.reset (c : FileCfg D) (t : FileCache D) : FileCache D :=
  let t := if c.shuffle then
      { t with fileOrder := c.rng t.drawn t.fileOrder
               dataOrders := FileCache.permuteAll c.rng (t.drawn + 1) t.dataOrders
               drawn := t.drawn + 1 + t.dataOrders.length }
    else t
  { FileCache.table c t with pos := 0 }

/-- `_get_data_from_cache_file` (:304-325); the currently loaded file is re-read when another one is
needed, so it is not part of the state. -/
def FileCache.get (t : FileCache D) (p : Nat) : Option D :=
  match t.filePos[p]? with
  | none => none
  | some fi =>
    match (t.dataOrders[fi]?.getD [])[p - t.startPos[fi]?.getD 0]? with
    | none => none
    | some j => (t.files[fi]?.getD [])[j]?

def fileSource (c : FileCfg D) : Source (FileCache D) D where
  pos t := t.pos
  next t := (t.get t.pos, { t with pos := t.pos + 1 })
  reset t := FileCache.reset c t
  applyOrder t := t

/-- The file cache seen positionally (`data_iterator(.., with_file_cache=True, with_memory_cache=True)`
wraps it into a memory cache, data_iterator.py:453-463). -/
def filePSource (c : FileCfg D) : PSource (FileCache D) D where
  get p t := t.get p
  reset t := FileCache.reset c t

/-! ### ConcatDataSource (data_source_implements.py:507-541) -/

/-- One source of the list: its object identity, size and `_get_data`. -/
structure Part (D : Type) where
  id : Nat
  size : Nat
  get : Nat → Option D

/-- `list.index(s)`: sources are compared by identity. -/
def partIndex (l : List (Part D)) (x : Part D) : Nat := l.findIdx (fun y => y.id == x.id)

/-- `_sw_points` (:517-520). -/
def swPoints (l : List (Part D)) : List Nat :=
  l.map fun x => ((l.take (partIndex l x + 1)).map (·.size)).sum

/-- The search loop of `_get_data` (:526-532): `prev` is `_sw_points[i-1]` (0 for i = 0). -/
def concatFind (idx : Nat) : Nat → List Nat → List (Part D) → Option D
  | _, [], _ => none
  | _, _, [] => none
  | prev, b :: bs, x :: xs => if idx < b then x.get (idx - prev) else concatFind idx b bs xs

structure Concat where
  indexes : List Nat
  pos : Nat
  drawn : Nat

/-- `_get_data`, `reset` (:526-541); `size` is the last switching point (:522). -/
def concatSource (shuffle : Bool) (perm : Nat → List Nat) (l : List (Part D)) : Source Concat D where
  pos s := s.pos
  next s := ((s.indexes[s.pos]?).bind fun i => concatFind i 0 (swPoints l) l, { s with pos := s.pos + 1 })
  reset s := if shuffle then ⟨perm s.drawn, 0, s.drawn + 1⟩
    else ⟨List.range ((swPoints l).getLastD 0), 0, s.drawn⟩
  applyOrder s := s

/-! ### Several SlicedDataSource over one shared SimpleDataSource (data_source.py:600-641) -/

structure Slice where
  start : Nat
  pos : Nat
  gen : Nat
  deriving DecidableEq, Repr

/-- The shared source and the slices made of it. -/
structure Sliced where
  base : Simple
  slices : List Slice
  deriving DecidableEq, Repr

/-- What the (independent) iterators of the slices do to their sources, in any interleaving. -/
inductive SOp where
  | next (r : Nat)
  | reset (r : Nat)
  | applyOrder (r : Nat)
  deriving DecidableEq, Repr

/-- One operation of slice `r`; the value read, if any (`some none` is a failing read). -/
def Sliced.step (c : SimpleCfg D) (o : SOp) (t : Sliced) : Option (Option D) × Sliced :=
  match o with
  | .next r => match t.slices[r]? with
    | none => (none, t)
    | some x => (some (t.base.getOfGen c (x.start + x.pos) x.gen),
        { t with slices := t.slices.set r { x with pos := x.pos + 1 } })
  | .reset r => match t.slices[r]? with
    | none => (none, t)
    | some x => (none, { base := { t.base with pos := x.start },
                         slices := t.slices.set r { x with pos := 0 } })
  | .applyOrder r => match t.slices[r]? with
    | none => (none, t)
    | some x => (none, { base := Simple.generateOrder c (x.gen + 1) t.base,
                         slices := t.slices.set r { x with gen := x.gen + 1 } })

def Sliced.run (c : SimpleCfg D) : List SOp → Sliced → Sliced
  | [], t => t
  | o :: r, t => Sliced.run c r (Sliced.step c o t).2

/-- A slice over a memory cache: `_get_data_of_generation` of the cache ignores the generation
(data_source.py:64-65) and `_generate_order` is a no-op (:67-75). -/
def slicedMemSource (m : MemCfg) (u : PSource S D) (start : Nat) : Source (Mem S D × Nat) D where
  pos t := t.2
  next t :=
    let r := Mem.getData u (start + t.2) t.1
    (r.1, (r.2, t.2 + 1))
  reset t := ({ Mem.reset m u t.1 with pos := start }, 0)
  applyOrder t := t

end
end Verif.Data
