import Verif.Context.Model
/-
C06: context scopes obey stack discipline.
-/
namespace Verif.Context
variable {C : Type}

/-! Specification by an explicit stack: the meaning of a program given the list of enclosing
`context_scope`s (innermost first), the default context and the auto-forward mode. -/

/-- What `get_current_context()` should return. -/
def top (stack : List C) (dflt : C) : C := stack.headD dflt

structure SpecOut (C : Type) where
  ok : Bool
  dflt : C
  auto : Bool
  log : List (C × Bool)

/-- Meaning of a program inside the scopes `stack`: scopes are lexical, the stack is an argument and
cannot be corrupted; `set_default_context` is an error unless the stack is empty. -/
def spec : Prog C → List C → C → Bool → SpecOut C
  | .skip, _, d, a => ⟨true, d, a, []⟩
  | .raise, _, d, a => ⟨false, d, a, []⟩
  | .seq p q, st, d, a =>
    let r := spec p st d a
    if r.ok then
      let r2 := spec q st r.dflt r.auto
      { r2 with log := r.log ++ r2.log }
    else r
  | .tryExcept p q, st, d, a =>
    let r := spec p st d a
    if r.ok then r
    else
      let r2 := spec q st r.dflt r.auto
      { r2 with log := r.log ++ r2.log }
  | .observe, st, d, a => ⟨true, d, a, [(top st d, a)]⟩
  | .setDefault c, st, d, a => if st = [] then ⟨true, c, a, []⟩ else ⟨false, d, a, []⟩
  | .setAuto b, _, d, _ => ⟨true, d, b, []⟩
  | .scope c body, st, d, a => spec body (c :: st) d a
  | .autoScope b body, st, d, a => { spec body st d b with auto := a }

theorem spec_dflt_nonempty (p : Prog C) (st : List C) (d : C) (a : Bool) (h : st ≠ []) :
    (spec p st d a).dflt = d := by
  induction p generalizing st d a with
  | skip => rfl
  | raise => rfl
  | seq p q ihp ihq =>
    simp only [spec]
    split
    · simp [ihq st _ _ h, ihp st d a h]
    · exact ihp st d a h
  | tryExcept p q ihp ihq =>
    simp only [spec]
    split
    · exact ihp st d a h
    · simp [ihq st _ _ h, ihp st d a h]
  | observe => rfl
  | setDefault c => simp [spec, h]
  | setAuto b => rfl
  | scope c body ih => exact ih _ d a (by simp)
  | autoScope b body ih => exact ih st d b h

/-- C06: for every program, started inside any stack of open scopes, the implementation does exactly
what the stack specification says: same normal/exceptional outcome, same values seen by every
`get_current_context()`/`get_auto_forward()`; afterwards the level is what it was and the current
context is again the innermost open scope's (or the default, which only a `set_default_context`
outside all scopes can have changed). -/
theorem C06_stack_discipline (p : Prog C) (stack : List C) (dflt : C) (auto : Bool) (log : List (C × Bool)) :
    run p ⟨top stack dflt, stack.length, auto, log⟩ =
      ((spec p stack dflt auto).ok,
        ⟨top stack (spec p stack dflt auto).dflt, stack.length, (spec p stack dflt auto).auto,
          log ++ (spec p stack dflt auto).log⟩) := by
  induction p generalizing stack dflt auto log with
  | skip => simp [run, spec]
  | raise => simp [run, spec]
  | seq p q ihp ihq =>
    simp only [run, spec]
    rw [ihp]
    cases h : (spec p stack dflt auto).ok
    · simp [h]
    · simp [ihq, List.append_assoc]
  | tryExcept p q ihp ihq =>
    simp only [run, spec]
    rw [ihp]
    cases h : (spec p stack dflt auto).ok
    · simp [ihq, List.append_assoc]
    · simp [h]
  | observe => simp [run, spec]
  | setDefault c =>
    cases stack with
    | nil => simp [run, spec, top]
    | cons x xs =>
      have : ¬ ((xs.length : Int) + 1 = 0) := by omega
      simp [run, spec, top, this]
  | setAuto b => simp [run, spec]
  | scope c body ih =>
    simp only [run, spec]
    have hi := ih (c :: stack) dflt auto log
    have e : (⟨c, (stack.length : Int) + 1, auto, log⟩ : State C)
        = ⟨top (c :: stack) dflt, ((c :: stack).length : Int), auto, log⟩ := by simp [top]
    rw [e, hi, spec_dflt_nonempty body (c :: stack) dflt auto (by simp)]
    simp
  | autoScope b body ih =>
    simp only [run, spec]
    rw [ih]

/-- Consequence: after any block, whether or not it raised, context and level are as before it, and
the auto-forward mode after `with auto_forward` is the one before. -/
theorem C06_restored (c : C) (body : Prog C) (stack : List C) (dflt : C) (auto : Bool) (log : List (C × Bool)) :
    (run (.scope c body) ⟨top stack dflt, stack.length, auto, log⟩).2.cur = top stack dflt ∧
    (run (.scope c body) ⟨top stack dflt, stack.length, auto, log⟩).2.level = stack.length ∧
    ∀ b, (run (.autoScope b body) ⟨top stack dflt, stack.length, auto, log⟩).2.auto = auto := by
  refine ⟨rfl, ?_, fun _ => rfl⟩
  rw [C06_stack_discipline]

/-- A raising body, a handled failing set_default_context inside a scope, and a successful one outside. -/
example : (run (.seq (.tryExcept (.scope 1 (.seq (.setDefault 9) .observe)) .observe)
      (.seq (.setDefault 2) (.seq (.scope 3 (.scope 4 .observe)) .observe)))
    (⟨0, 0, false, []⟩ : State Nat)) = (true, ⟨2, 0, false, [(0, false), (4, false), (2, false)]⟩) := by
  simp [run]

end Verif.Context
