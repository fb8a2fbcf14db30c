import Verif.SaveBuffer.Model
/-
What "live" means, and execution of a network with private and with shared storage.
-/
namespace Verif.SaveBuffer

/-- Function `f` of the network reads or writes variable `v`. -/
def Uses (n : Net) (f v : Nat) : Prop := ∃ fn, n.fns[f]? = some fn ∧ (v ∈ fn.ins ∨ v ∈ fn.outs)

/-- Some function uses `v`. -/
def Used (n : Net) (v : Nat) : Prop := ∃ f, Uses n f v

/-- The content of `v` matters around function `f`: it may already have been written (an earlier or
this function uses it, or it is a network input), and it may still be needed (this or a later function
uses it, or it is a network output). -/
def LiveAt (n : Net) (v f : Nat) : Prop :=
  Used n v ∧ ((∃ g, g ≤ f ∧ Uses n g v) ∨ v ∈ n.inputs) ∧ ((∃ g, f ≤ g ∧ Uses n g v) ∨ v ∈ n.outputs)

/-- References are valid. -/
def WF (n : Net) : Prop := ∀ f v, Uses n f v → v < n.vars.length

/-- Storing a list of results in a list of places, in order. -/
def storeAll {P V : Type} [DecidableEq P] : List P → List V → (P → V) → (P → V)
  | p :: ps, x :: xs, m => storeAll ps xs (fun q => if q = p then x else m q)
  | _, _, m => m

/-- Executes the functions in order; `place` says where each variable lives, `sem f` is what the
function with index `f` computes. -/
def exec {P V : Type} [DecidableEq P] (place : Nat → P) (sem : Nat → List V → List V) :
    Nat → List Fn → (P → V) → (P → V)
  | _, [], m => m
  | f, fn :: fns, m =>
    exec place sem (f + 1) fns
      (storeAll (fn.outs.map place) (sem f (fn.ins.map fun v => m (place v))) m)

/-- Where a variable lives in the exported network: its own storage for parameters and generator
variables, an actual buffer for the other variables of type Buffer. -/
inductive Loc
  | own (v : Nat)
  | buf (ab : Nat)
deriving DecidableEq

def locOf (n : Net) (m : Nat → Option Nat) (v : Nat) : Loc :=
  if n.inBuf v then .buf (placedIn m v) else .own v

/-- Every value read is defined: a variable held in a buffer and read by a function is a network input or
was written by an earlier function. -/
def ReadsDefined (n : Net) : Prop :=
  ∀ (f : Nat) (fn : Fn) (v : Nat), n.fns[f]? = some fn → v ∈ fn.ins → n.inBuf v = true →
    v ∈ n.inputs ∨ ∃ (g : Nat) (gn : Fn), g < f ∧ n.fns[g]? = some gn ∧ v ∈ gn.outs

/-- Every function computes a value for each of its outputs. -/
def Computes {V : Type} (n : Net) (sem : Nat → List V → List V) : Prop :=
  ∀ (f : Nat) (fn : Fn) xs, n.fns[f]? = some fn → (sem f xs).length = fn.outs.length

end Verif.SaveBuffer
