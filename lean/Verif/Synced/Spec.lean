/-
Specification of an array and its narrowed views: one buffer, every array is a window of it.

`val i = some v`: element `i` of the root is promised to be `v`; `none`: nothing is promised (memory that
was cleared and not written since). `key = some k`: the data is held in dtype `k.dt` on device `k.ctx`;
`none`: not yet materialised (after zero/fill of the whole array).
No laziness, no copies, no tree of keys. Import-free apart from the types of operations and outputs.
-/
import Verif.Synced.Model

namespace Verif.Synced

variable {V : Type}

/-- A window: the element range `[start, start+len)` of the root, the window it was narrowed from and
the offset given to `narrow`. -/
structure Win where
  start : Nat
  len : Nat
  parent : Option Nat
  off : Nat
  alive : Bool

structure Abs (V : Type) where
  key : Option BaseKey
  val : Nat → Option V
  win : List Win

def absInit (env : Env V) (size : Nat) : Abs V :=
  { key := none, val := fun _ => some env.zero, win := [⟨0, size, none, 0, true⟩] }

/-- Window `n`, if it is alive. -/
def window (a : Abs V) (n : Nat) : Option Win :=
  match a.win[n]? with
  | some w => if w.alive then some w else none
  | none => none

def inWin (w : Win) (i : Nat) : Bool := decide (w.start ≤ i) && decide (i < w.start + w.len)

/-- Hold the data in `k` from now on. -/
def holdIn (env : Env V) (a : Abs V) (k : BaseKey) : Abs V :=
  if a.key = some k then a else { a with key := some k, val := fun i => (a.val i).map (env.conv k.dt) }

/-- Overwrite a window. -/
def put (a : Abs V) (w : Win) (f : Nat → Option V) : Abs V :=
  { a with val := fun i => if inWin w i then f (i - w.start) else a.val i }

/-- `x` as it is stored now. -/
def stored (env : Env V) (a : Abs V) (x : V) : V :=
  match a.key with
  | none => x
  | some k => env.conv k.dt x

/-- zero / fill: overwrite the window; a whole array is no longer held anywhere afterwards. -/
def absFill (a : Abs V) (n : Nat) (w : Win) (x stx : V) : Abs V :=
  if n = 0 then { a with key := none, val := fun _ => some x } else put a w (fun _ => some stx)

/-- Two windows on the same parent overlap (element ranges given relative to the parent). An empty range
counts as overlapping when it lies strictly inside the other one (the code's check). -/
def overlap (w : Win) (off len : Nat) : Bool := decide (off < w.off + w.len) && decide (w.off < off + len)

/-- All elements of the window as a function, when all are promised. -/
def seenOf (env : Env V) (a : Abs V) (w : Win) : Option (Nat → V) :=
  if (List.range w.len).all (fun i => (a.val (w.start + i)).isSome) then
    some (fun i => if i < w.len then (a.val (w.start + i)).getD env.zero else env.zero)
  else none

/-- What an output is promised to be: element `i` of what is read. -/
abbrev AOut (V : Type) := Option (Nat → Option V)

/-- One API call on the specification; `none` = raises. -/
def absStep (env : Env V) (a : Abs V) : Op V → Option (Abs V × AOut V)
  | .narrow p off len =>
    match window a p with
    | none => none
    | some w =>
      if w.len < off + len then none
      else if a.win.any (fun c => c.alive && decide (c.parent = some p) && overlap c off len) then none
      else some ({ a with win := a.win ++ [⟨w.start + off, len, some p, off, true⟩] }, none)
  | .drop n =>
    match window a n with
    | none => none
    | some w =>
      if w.parent = none ∨ a.win.any (fun c => c.alive && decide (c.parent = some n)) then none
      else some ({ a with win := a.win.set n { w with alive := false } }, none)
  | .zero n =>
    match window a n with
    | none => none
    | some w => some (absFill a n w env.zero env.zero, none)
  | .fill n x =>
    match window a n with
    | none => none
    | some w => some (absFill a n w x (stored env a x), none)
  | .get n k =>
    match window a n with
    | none => none
    | some w =>
      -- a read materialises a lazily filled array in the dtype it is read in
      let a' := if a.key = none then holdIn env a k else a
      some (a', some (fun i => ((holdIn env a' k).val (w.start + i))))
  | .modify n k f =>
    match window a n with
    | none => none
    | some w =>
      if n ≠ 0 ∧ a.key ≠ none ∧ a.key ≠ some k then none
      else
        let a' := holdIn env a k
        some (put a' w (fun i => (seenOf env a' w).map (fun old => env.conv k.dt (f old i))),
              some (fun i => a'.val (w.start + i)))
  | .write n k g =>
    match window a n with
    | none => none
    | some w =>
      if n ≠ 0 ∧ a.key ≠ none ∧ a.key ≠ some k then none
      else some (put (holdIn env a k) w (fun i => some (env.conv k.dt (g i))), none)
  | .clear n =>
    match window a n with
    | none => none
    | some _ => if n ≠ 0 then none else some ({ a with key := none, val := fun _ => none }, none)

def absRun (env : Env V) : Abs V → List (Op V) → List (Option (AOut V)) × Abs V
  | a, [] => ([], a)
  | a, op :: ops =>
    match absStep env a op with
    | some (a', o) => let r := absRun env a' ops; (some o :: r.1, r.2)
    | none => let r := absRun env a ops; (none :: r.1, r.2)

/-- The length of the array an operation addresses (for comparing outputs). -/
def lenOf (a : Abs V) : Op V → Nat
  | .get n _ | .modify n _ _ | .write n _ _ | .zero n | .fill n _ | .clear n | .drop n | .narrow n _ _ =>
    match a.win[n]? with
    | some w => w.len
    | none => 0

/-- The values seen are the promised ones. -/
def outOk (len : Nat) : Option (Out V) → Option (AOut V) → Prop
  | none, none => True
  | some none, some none => True
  | some (some m), some (some p) => ∀ i < len, ∀ v, p i = some v → m i = v
  | _, _ => False

/-- The implementation agrees with the specification on the whole history: the same calls raise, and
every element seen by the user has the promised value. -/
def Agrees (env : Env V) : St V → Abs V → List (Op V) → Prop
  | _, _, [] => True
  | s, a, op :: ops =>
    outOk (lenOf a op) ((step env s op).map (·.2)) ((absStep env a op).map (·.2)) ∧
    Agrees env (match step env s op with | some (s', _) => s' | none => s)
      (match absStep env a op with | some (a', _) => a' | none => a) ops

/-- The restrictions under which the implementation keeps its promise:
* `clear` only while no narrowed array is alive;
* an array is destroyed only when no zero/fill called on it is pending: since then it, or an array whose
  element range contains it, has been accessed (`pend`);
* an array may be narrowed only if the window it was narrowed from starts at element 0 of the root (so:
  the root, its windows, windows of those windows that start at 0, ...). -/
def opOk (a : Abs V) (pend : Nat → Bool) : Op V → Prop
  | .clear _ => ∀ (c : Nat) (w : Win), a.win[c]? = some w → w.alive = true → w.parent = none
  | .drop n => pend n = false
  | .narrow p _ _ => ∀ w, a.win[p]? = some w → w.start = w.off
  | _ => True

/-- The element range of `m` is contained in that of `n`. -/
def within (a : Abs V) (m n : Nat) : Bool :=
  match a.win[m]?, a.win[n]? with
  | some wm, some wn => decide (wn.start ≤ wm.start) && decide (wm.start + wm.len ≤ wn.start + wn.len)
  | _, _ => false

/-- Which arrays have a zero/fill pending after a call. -/
def pendStep (env : Env V) (a : Abs V) (pend : Nat → Bool) (op : Op V) : Nat → Bool :=
  match absStep env a op with
  | none => pend
  | some _ =>
    match op with
    | .zero n | .fill n _ => fun m => if m = n then true else pend m
    | .get n _ | .modify n _ _ | .write n _ _ => fun m => if within a m n then false else pend m
    | _ => pend

/-- The state of the specification after a call (unchanged when it raises). -/
def absNext (env : Env V) (a : Abs V) (op : Op V) : Abs V :=
  match absStep env a op with | some (a', _) => a' | none => a

/-- A history that keeps to the restrictions. -/
def HistOk (env : Env V) : Abs V → (Nat → Bool) → List (Op V) → Prop
  | _, _, [] => True
  | a, pend, op :: ops => opOk a pend op ∧ HistOk env (absNext env a op) (pendStep env a pend op) ops

end Verif.Synced

/-! ### flags -/
namespace Verif.Synced

variable {V : Type}

/-- `m` is `n` or was narrowed from it, directly or not (fuel: parents are older than their children). -/
def narrowedFrom (a : Abs V) (n : Nat) : Nat → Nat → Bool
  | 0, m => decide (m = n)
  | fuel + 1, m => decide (m = n) ||
    match a.win[m]? with
    | some w =>
      match w.parent with
      | some p => narrowedFrom a n fuel p
      | none => false
    | none => false

/-- `m` is `n` or part of it. -/
def partOf (a : Abs V) (m n : Nat) : Bool := narrowedFrom a n m m

/-- What `zeroing` should say: zero() sets it for the array and its parts; fill() and writing reset it for
the array, its parts and all arrays it is part of; nothing else changes it. -/
def zeroStep (env : Env V) (a : Abs V) (z : Nat → Bool) (op : Op V) : Nat → Bool :=
  match absStep env a op with
  | none => z
  | some _ =>
    match op with
    | .zero n => fun m => if partOf a m n then true else z m
    | .fill n _ | .modify n _ _ | .write n _ _ => fun m => if partOf a m n || partOf a n m then false else z m
    | .narrow _ _ _ => fun m => if m = a.win.length then false else z m
    | _ => z

def zeroRun (env : Env V) : Abs V → (Nat → Bool) → List (Op V) → Nat → Bool
  | _, z, [] => z
  | a, z, op :: ops => zeroRun env (absNext env a op) (zeroStep env a z op) ops

/-- Operations on an array that is never narrowed. -/
def plain : Op V → Bool
  | .zero n | .fill n _ | .get n _ | .modify n _ _ | .write n _ _ | .clear n => n == 0
  | .narrow _ _ _ | .drop _ => false

/-- The last zero/fill/write of a plain array was `zero`. -/
def lastIsZero : List (Op V) → Bool → Bool
  | [], z => z
  | .zero _ :: ops, _ => lastIsZero ops true
  | .fill _ _ :: ops, _ => lastIsZero ops false
  | .modify _ _ _ :: ops, _ => lastIsZero ops false
  | .write _ _ _ :: ops, _ => lastIsZero ops false
  | _ :: ops, z => lastIsZero ops z

/-- The last operation of a plain array was `clear`. -/
def lastIsClear (ops : List (Op V)) : Bool :=
  match ops.getLast? with
  | some (.clear _) => true
  | _ => false

/-- How many of zero/fill/write were called since the last `clear` (the documented modification count). -/
def modsSinceClear (ops : List (Op V)) : Nat :=
  ops.foldl (fun c op => match op with
    | .clear _ => 0
    | .zero _ | .fill _ _ | .modify _ _ _ | .write _ _ _ => c + 1
    | _ => c) 0

end Verif.Synced
