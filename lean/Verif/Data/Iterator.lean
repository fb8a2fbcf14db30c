/-
Model of `DataIterator` (/repo/python/src/nnabla/utils/data_iterator.py) over an abstract data source.
A sample (tuple of arrays) is a value of type `D`; stacking the samples of a batch into one array
per variable (data_iterator.py:208-213) is not modelled, a batch is the list of its samples.
-/
namespace Verif.Data

/-- What `DataIterator` uses of a `DataSource` (/repo/python/src/nnabla/utils/data_source.py:48-172):
`position`, `next()` (`None` = fetching failed), `reset()`, `apply_order()`. -/
structure Source (S D : Type) where
  pos : S → Nat
  next : S → Option D × S
  reset : S → S
  applyOrder : S → S

section
variable {S D : Type}

/-- Constructor arguments of a DataIterator (data_iterator.py:66-106). -/
structure Cfg where
  size : Nat
  batch : Nat
  stop : Bool   -- stop_exhausted
  deriving DecidableEq, Repr

/-- The loop `for b in range(self._batch_size)` of `_next` and what follows it
(data_iterator.py:198-213): `b` iterations left, state, samples so far, `n_reset`. -/
def batchLoop (src : Source S D) (c : Cfg) : Nat → S → List D → Nat → Option (List D × Nat) × S
  | 0, s, acc, nReset =>
    (some (acc, nReset), if nReset ≠ 0 then src.applyOrder s else s)
  | b + 1, s, acc, nReset =>
    match src.next s with
    | (none, s) => (none, s)
    | (some d, s) =>
      if src.pos s ≥ c.size ∧ c.stop = false then
        batchLoop src c b (src.reset s) (acc ++ [d]) (nReset + 1)
      else batchLoop src c b s (acc ++ [d]) nReset

/-- `_next` (data_iterator.py:189-213): the item it puts into the queue (`none` is `(None, 0)`). -/
def fetch (src : Source S D) (c : Cfg) (s : S) : Option (List D × Nat) × S :=
  if src.pos s + c.batch > c.size ∧ c.stop = true then (none, s)
  else batchLoop src c c.batch s [] 0

/-- Epoch callbacks, in the order they run (data_iterator.py:367-373). -/
inductive Event where
  | epochEnd (e : Nat)
  | epochBegin (e : Nat)
  deriving DecidableEq, Repr

/-- What a call to `next()` does for the caller. -/
inductive Out (D : Type) where
  | batch (l : List D)
  | noneData           -- returns None (the source failed)
  | stopIteration      -- raises
  deriving DecidableEq, Repr

/-- Iterator object: data source state, `_current_epoch`, callback log. -/
structure It (S : Type) where
  s : S
  epoch : Nat
  log : List Event
  deriving DecidableEq, Repr

/-- `for _ in range(n_reset)` (data_iterator.py:246-250). -/
def runCallbacks : Nat → Nat → List Event → Nat × List Event
  | 0, e, log => (e, log)
  | n + 1, e, log => runCallbacks n (e + 1) (log ++ [.epochEnd e, .epochBegin (e + 1)])

/-- `__init__` (data_iterator.py:97-98): the source is reset once, epoch 0. -/
def initIt (src : Source S D) (s : S) : It S := ⟨src.reset s, 0, []⟩

/-- `next()` with `use_thread=False` (data_iterator.py:215-251). -/
def nextPlain (src : Source S D) (c : Cfg) (it : It S) : Out D × It S :=
  match fetch src c it.s with
  | (none, s) =>
    if c.stop = true ∧ src.pos s + c.batch ≥ c.size then (.stopIteration, { it with s := s })
    else (.noneData, { it with s := s })
  | (some (data, nReset), s) =>
    let r := runCallbacks nReset it.epoch it.log
    (.batch data, ⟨s, r.1, r.2⟩)

/-- `k` successive calls of a `next` function: the outputs and the final iterator. -/
def iter {St O : Type} (nxt : St → O × St) : Nat → St → List O × St
  | 0, it => ([], it)
  | k + 1, it =>
    let r := nxt it
    let rest := iter nxt k r.2
    (r.1 :: rest.1, rest.2)

/-- State after `k` calls. -/
def after {St O : Type} (nxt : St → O × St) (k : Nat) (it : St) : St := (iter nxt k it).2

/-- Output of call number `k` (from 0). -/
def nth {St O : Type} (nxt : St → O × St) (k : Nat) (it : St) : O := (nxt (after nxt k it)).1

/-! ### The threaded iterator (`use_thread=True`, the default) -/

/-- Progress of the worker thread running `_next`: not started yet, in the loop, finished. -/
inductive Thread (D : Type) where
  | idle                                             -- no thread running (joined or finished)
  | start                                            -- started, first check not done yet
  | loop (b : Nat) (acc : List D) (nReset : Nat)     -- inside the batch loop, `b` iterations left
  deriving DecidableEq, Repr

/-- Where the consumer is inside `next()`. -/
inductive PC (D : Type) where
  | get                                              -- data_iterator.py:229 (blocking)
  | join (item : Option (List D × Nat))              -- :232
  | retryGet                                         -- :240 (blocking)
  | retryJoin (item : Option (List D × Nat))         -- :242
  deriving DecidableEq, Repr

/-- Whole state of the concurrent system: data source, queue, worker, consumer, epoch counter,
callback log and the outputs delivered so far. -/
structure TState (S D : Type) where
  s : S
  queue : List (Option (List D × Nat))
  thread : Thread D
  pc : PC D
  epoch : Nat
  log : List Event
  outs : List (Out D)

/-- `__init__` starts the first worker thread (data_iterator.py:101-103). -/
def tInit (src : Source S D) (s : S) : TState S D :=
  ⟨src.reset s, [], .start, .get, 0, [], []⟩

/-- One atomic step of the worker (one sample at a time). -/
def threadStep (src : Source S D) (c : Cfg) (t : TState S D) : TState S D :=
  match t.thread with
  | .idle => t
  | .start =>
    if src.pos t.s + c.batch > c.size ∧ c.stop = true then
      { t with queue := t.queue ++ [none], thread := .idle }
    else { t with thread := .loop c.batch [] 0 }
  | .loop 0 acc nReset =>
    { t with s := if nReset ≠ 0 then src.applyOrder t.s else t.s,
             queue := t.queue ++ [some (acc, nReset)], thread := .idle }
  | .loop (b + 1) acc nReset =>
    match src.next t.s with
    | (none, s) => { t with s := s, queue := t.queue ++ [none], thread := .idle }
    | (some d, s) =>
      if src.pos s ≥ c.size ∧ c.stop = false then
        { t with s := src.reset s, thread := .loop b (acc ++ [d]) (nReset + 1) }
      else { t with s := s, thread := .loop b (acc ++ [d]) nReset }

/-- Returning from `next()`: a new worker is started, then the callbacks run (data_iterator.py:243-251). -/
def deliver (item : Option (List D × Nat)) (t : TState S D) : TState S D :=
  match item with
  | none => { t with thread := .start, pc := .get, outs := t.outs ++ [.noneData] }
  | some (data, nReset) =>
    let r := runCallbacks nReset t.epoch t.log
    { t with thread := .start, pc := .get, epoch := r.1, log := r.2, outs := t.outs ++ [.batch data] }

/-- One step of the consumer, which calls `next()` for ever (also after StopIteration).  A blocked
step leaves the state unchanged. -/
def mainStep (src : Source S D) (c : Cfg) (t : TState S D) : TState S D :=
  match t.pc with
  | .get => match t.queue with
    | [] => t
    | item :: q => { t with queue := q, pc := .join item }
  | .join item => match t.thread with
    | .idle => match item with
      | none =>
        if c.stop = true ∧ src.pos t.s + c.batch ≥ c.size then
          { t with pc := .get, outs := t.outs ++ [.stopIteration] }
        else { t with pc := .retryGet, thread := .start }
      | some x => deliver (some x) t
    | _ => t
  | .retryGet => match t.queue with
    | [] => t
    | item :: q => { t with queue := q, pc := .retryJoin item }
  | .retryJoin item => match t.thread with
    | .idle => deliver item t
    | _ => t

/-- Runs a schedule: `true` = the consumer moves, `false` = the worker moves. -/
def runSched (src : Source S D) (c : Cfg) : List Bool → TState S D → TState S D
  | [], t => t
  | true :: r, t => runSched src c r (mainStep src c t)
  | false :: r, t => runSched src c r (threadStep src c t)

end

end Verif.Data
