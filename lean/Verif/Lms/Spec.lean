/-
Specification: what the device memory holds while an iteration runs under a schedule.
Independent of the planner: it only uses the recorded order, the block ends and the schedules.
-/
import Verif.Lms.Acct

namespace Verif.Lms

variable {S D : Type} [DecidableEq S] [DecidableEq D] [Fintype D] [Fintype S]

/-- What happens during an iteration: the function uses or clears the array of record `i`; the
scheduler executes a command; a function has returned (its temporary buffers are destroyed). -/
inductive Ev
  | use (i : Nat)
  | cmd (x : Sched)
  | done (fid : Nat)
deriving DecidableEq, Repr

/-- Device memory of array `s`: (a device buffer exists, it is being copied to the host).
`run` (cpp:913-947): swap in is a get/cast on the device; swap out is an asynchronous cast to the
host, the device buffer lives until the wait; a wait does nothing unless the head of the array is on
the host; a preclear is a clear.  A use on the host creates no device buffer. -/
def stepDev (c : Cfg S D) (s : S) (x : Bool × Bool) : Ev → Bool × Bool
  | .use i => match c.order[i]? with
    | none => x
    | some r => if r.said = s then (if r.tag = .clear then (false, false) else if r.dev then (true, false) else x) else x
  | .cmd ⟨t, i⟩ => match c.order[i]? with
    | none => x
    | some r => if r.said = s then (match t with
        | .swapInGet => (true, false)
        | .swapInCast => (true, false)
        | .swapOut => (x.1, x.1)
        | .wait => if x.2 then (false, false) else x
        | .preclear => (false, false)) else x
  | .done f => if (c.block f).any (fun i => match c.order[i]? with
      | none => false
      | some r => decide (r.uses s) && r.temp) then (false, false) else x

/-- Device memory of array `s` after the events, starting with an empty device. -/
def devAt (c : Cfg S D) (s : S) (l : List Ev) : Bool × Bool := l.foldl (stepDev c s) (false, false)

/-- Bytes in use on the device after the events. -/
def usage (c : Cfg S D) (dt : S → D) (l : List Ev) : Nat := ∑ s : S, if (devAt c s l).1 then B c dt s else 0

/-- Function block `f`: commands before it, its records, its end, the commands after it
(cpp:878-908 `pre_callback`, cpp:962-972). -/
def seg (c : Cfg S D) (beg : Nat → List Sched) (en : List (List Sched)) (f : Nat) : List Ev :=
  (beg f).map .cmd ++ (c.block f).map .use ++ [.done f] ++ (en.getD f []).map .cmd

/-- The first `n` function blocks. -/
def flat (c : Cfg S D) (beg : Nat → List Sched) (en : List (List Sched)) (n : Nat) : List Ev :=
  (List.range n).flatMap (seg c beg en)

/-- The whole iteration: all blocks and the final "wait for all" (cpp:98-100). -/
def timeline (c : Cfg S D) (beg : Nat → List Sched) (en : List (List Sched)) : List Ev :=
  flat c beg en c.fe.length ++ (beg c.fe.length).map .cmd

end Verif.Lms
