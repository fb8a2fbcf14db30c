/-
Model of /repo/python/src/nnabla/monitor.py: MonitorSeries, MonitorTimeElapsed, MonitorImage's
saving condition.
Simplifications: floats are rationals (no rounding, no `{:g}` formatting); screen logging and the
output file are one list of emitted lines; wall-clock times are a parameter of `TimeMonitor.add`.
-/
namespace Verif.Monitor

/-- `np.mean` of a list (monitor.py:83). -/
def mean (l : List Rat) : Rat := l.sum / (l.length : Rat)

/-- MonitorSeries (:60-71): `flush_at`, `buf` and the lines printed so far, oldest first. -/
structure Series where
  interval : Int
  flushAt : Int
  buf : List Rat
  lines : List (Int × Rat)

/-- MonitorSeries.__init__ (:60-71). -/
def Series.new (interval : Int) : Series := ⟨interval, -1, [], []⟩

/-- MonitorSeries.add (:73-91). -/
def Series.add (m : Series) (index : Int) (value : Rat) : Series :=
  let m := { m with buf := m.buf ++ [value] }
  if index - m.flushAt < m.interval then m
  else { m with lines := m.lines ++ [(index, mean m.buf)], flushAt := index, buf := [] }

/-- A sequence of calls of `add`. -/
def Series.run (m : Series) : List (Int × Rat) → Series
  | [] => m
  | (i, v) :: r => (m.add i v).run r

/-- A line of MonitorTimeElapsed (:157-161): index, elapsed, iterations, total. -/
structure TimeLine where
  index : Int
  elapsed : Rat
  it : Int
  total : Rat

/-- MonitorTimeElapsed (:124-138). -/
structure TimeMonitor where
  interval : Int
  flushAt : Int
  start : Rat
  lap : Rat
  lines : List TimeLine

/-- MonitorTimeElapsed.__init__ (:124-138); `now` is the value of `time.time()`. -/
def TimeMonitor.new (interval : Int) (now : Rat) : TimeMonitor := ⟨interval, -1, now, now, []⟩

/-- MonitorTimeElapsed.add (:140-162). -/
def TimeMonitor.add (m : TimeMonitor) (index : Int) (now : Rat) : TimeMonitor :=
  if index - m.flushAt < m.interval then m
  else
    { m with
      lap := now
      lines := m.lines ++ [⟨index, now - m.lap, index - m.flushAt, now - m.start⟩]
      flushAt := index }

/-- A sequence of calls of `add`. -/
def TimeMonitor.run (m : TimeMonitor) : List (Int × Rat) → TimeMonitor
  | [] => m
  | (i, t) :: r => (m.add i t).run r

/-- Whether MonitorImage.add / MonitorImageTile.add writes an image at `index`
(:233-235, :305-306): `if index and (index + 1) % self.interval: return`. -/
def imageSaved (interval index : Nat) : Bool := !(index != 0 && (index + 1) % interval != 0)

end Verif.Monitor
