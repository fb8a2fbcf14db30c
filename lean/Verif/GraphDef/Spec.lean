import Verif.GraphDef.Model

/-!
# What a saved network means, independently of the order in which it is traversed
-/

namespace Verif.GraphDef

/-- A network as the library saves it: names are unique, every name used is declared, function
outputs are ordinary variables, each of them is produced by one function only, and every function
has an output. -/
structure WF (p : Proto) : Prop where
  varNodup : (p.variables.map PVar.name).Nodup
  fnNodup : (p.functions.map PFn.name).Nodup
  inDecl : ∀ f ∈ p.functions, ∀ v ∈ f.inputs, v ∈ p.variables.map PVar.name
  outDecl : ∀ f ∈ p.functions, ∀ v ∈ f.outputs, (⟨v, false⟩ : PVar) ∈ p.variables
  outNodup : (p.functions.flatMap PFn.outputs).Nodup
  outNonempty : ∀ f ∈ p.functions, f.outputs ≠ []

/-- `v` is produced by `f`. -/
def Produces (p : Proto) (f : PFn) (v : String) : Prop := f ∈ p.functions ∧ v ∈ f.outputs

/-- No function needs, directly or not, its own output: the functions can be ranked so that every
consumer ranks above the producer. -/
def Acyclic (p : Proto) : Prop :=
  ∃ rank : PFn → Nat, ∀ f g v, Produces p f v → g ∈ p.functions → v ∈ g.inputs → rank f < rank g

/-- The values `val` obey the network: every function's outputs are what it computes from its
inputs, and the variables which no function produces have the given values. -/
def IsSolution {V : Type} (sem : String → List V → List V) (p : Proto) (given val : String → V) :
    Prop :=
  (∀ f ∈ p.functions, f.outputs.map val = sem f.name (f.inputs.map val)) ∧
  (∀ v, (∀ f, ¬ Produces p f v) → val v = given v)

/-- Every function yields as many values as it has outputs. -/
def ArityOK {V : Type} (sem : String → List V → List V) (p : Proto) : Prop :=
  ∀ f ∈ p.functions, ∀ xs, (sem f.name xs).length = f.outputs.length

end Verif.GraphDef
