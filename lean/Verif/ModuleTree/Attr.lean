import Verif.ModuleTree.Spec
/-
Attribute access and the `training` flag of `nn.Module`
(/repo/python/src/nnabla/core/module.py).
-/
namespace Verif.ModuleTree
open Verif.Params

/-- A Python value: a Module object (its identity) or anything else. -/
inductive AVal where
  | module (i : Nat)
  | other (x : Nat)
  deriving DecidableEq

/-- Insertion-ordered dictionary with string keys. -/
def aget {α : Type} : List (Str × α) → Str → Option α
  | [], _ => none
  | (k', a) :: t, k => if k' = k then some a else aget t k

def aset {α : Type} : List (Str × α) → Str → α → List (Str × α)
  | [], k, a => [(k, a)]
  | (k', a') :: t, k, a => if k' = k then (k', a) :: t else (k', a') :: aset t k a

/-- A module object: its `__dict__` (without the private entries) and its `submodules`. -/
structure MObj where
  dict : List (Str × Nat)
  subs : List (Str × Nat)

/-- `Module.__setattr__` (module.py:381-391) for a name that is not in `_recursive_attrs`.
Simplification: the `_name` and `_parent` entries of an attached module are left out. -/
def setattr (o : MObj) (name : Str) : AVal → MObj
  | .module i => { o with subs := aset o.subs name i }
  | .other x => { o with dict := aset o.dict name x }

/-- Reading `m.name` for a name that is no class attribute: the instance `__dict__` first, then
`Module.__getattr__` (module.py:393-397); `none` is AttributeError. -/
def getattr (o : MObj) (name : Str) : Option AVal :=
  match aget o.dict name with
  | some x => some (.other x)
  | none => (aget o.subs name).map .module

/-- The `training` entries of the `__dict__`s. -/
abbrev THeap := Nat → Option Bool

mutual
/-- `m.training = b` (module.py:381-391, `_recursive_attrs`). -/
def setTraining (b : Bool) : MTree → THeap → THeap
  | .node i subs, T => setTrainingSubs b subs (fun j => if j = i then some b else T j)
/-- `for module in self.submodules.values(): setattr(module, name, value)` (module.py:389-391). -/
def setTrainingSubs (b : Bool) : List (Str × MTree) → THeap → THeap
  | [], T => T
  | (_, m) :: rest, T => setTrainingSubs b rest (setTraining b m T)
end

/-- Reading `m.training` (module.py:204-207): default True. -/
def getTraining (T : THeap) (i : Nat) : Bool := (T i).getD true

/-! ### lemmas -/

theorem aget_aset_self {α : Type} (l : List (Str × α)) (k : Str) (a : α) : aget (aset l k a) k = some a := by
  induction l with
  | nil => simp [aget, aset]
  | cons e l ih =>
    obtain ⟨k', a'⟩ := e
    by_cases h : k' = k
    · simp [aset, aget, h]
    · simp [aset, aget, h, ih]

theorem aget_aset_ne {α : Type} (l : List (Str × α)) {k k' : Str} (a : α) (h : k' ≠ k) :
    aget (aset l k a) k' = aget l k' := by
  induction l with
  | nil => simp [aget, aset, Ne.symm h]
  | cons e l ih =>
    obtain ⟨k'', a'⟩ := e
    by_cases h1 : k'' = k
    · subst h1; simp [aset, aget, Ne.symm h]
    · by_cases h2 : k'' = k'
      · subst h2; simp [aset, aget, h1]
      · simp [aset, aget, h1, h2, ih]

theorem reach_child {i : Nat} {subs : List (Str × MTree)} {ms : List Str} {m : MTree}
    (h : Reach (.node i subs) ms m) : m = .node i subs ∨ ∃ e ∈ subs, ∃ ms', Reach e.2 ms' m := by
  cases h with
  | here => exact Or.inl rfl
  | step hm hr => exact Or.inr ⟨_, hm, _, hr⟩

mutual
theorem setTraining_spec (b : Bool) : ∀ (t : MTree) (T : THeap) (j : Nat),
    (T j = some b → setTraining b t T j = some b) ∧
    ((∃ ms m, Reach t ms m ∧ m.id = j) → setTraining b t T j = some b) ∧
    ((∀ ms m, Reach t ms m → m.id ≠ j) → setTraining b t T j = T j)
  | .node i subs, T, j => by
    obtain ⟨h1, h2, h3⟩ := setTrainingSubs_spec b subs (fun j => if j = i then some b else T j) j
    rw [setTraining]
    refine ⟨fun h => h1 (by simp only [h]; split <;> rfl), ?_, ?_⟩
    · rintro ⟨ms, m, hr, rfl⟩
      rcases reach_child hr with rfl | ⟨e, he, ms', hr'⟩
      · exact h1 (by simp [MTree.id])
      · exact h2 ⟨e, he, ms', m, hr', rfl⟩
    · intro h
      rw [h3]
      · have hne : j ≠ i := fun e => h [] _ (.here _) e.symm
        simp [hne]
      · rintro ⟨n, c⟩ he ms m hr
        exact h (n :: ms) m (.step he hr)
theorem setTrainingSubs_spec (b : Bool) : ∀ (subs : List (Str × MTree)) (T : THeap) (j : Nat),
    (T j = some b → setTrainingSubs b subs T j = some b) ∧
    ((∃ e ∈ subs, ∃ ms m, Reach e.2 ms m ∧ m.id = j) → setTrainingSubs b subs T j = some b) ∧
    ((∀ e ∈ subs, ∀ ms m, Reach e.2 ms m → m.id ≠ j) → setTrainingSubs b subs T j = T j)
  | [], T, j => by simp [setTrainingSubs]
  | (n, m) :: rest, T, j => by
    obtain ⟨a1, a2, a3⟩ := setTraining_spec b m T j
    obtain ⟨h1, h2, h3⟩ := setTrainingSubs_spec b rest (setTraining b m T) j
    rw [setTrainingSubs]
    refine ⟨fun h => h1 (a1 h), ?_, ?_⟩
    · rintro ⟨e, he, hx⟩
      rcases List.mem_cons.mp he with rfl | he
      · exact h1 (a2 hx)
      · exact h2 ⟨e, he, hx⟩
    · intro h
      rw [h3 (fun e he => h e (by simp [he])), a3 (h (n, m) (by simp))]
end

end Verif.ModuleTree
