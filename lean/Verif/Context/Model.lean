/-
Model of /repo/python/src/nnabla/context.py (context_scope, set_default_context,
get_current_context) and of /repo/python/src/nnabla/auto_forward.pyx (auto_forward,
set_auto_forward, get_auto_forward).
-/
namespace Verif.Context

/-- Module globals: `current_ctx`, `context_level` (context.py:24-25), the auto-forward flag of the
C++ singleton (auto_forward.pyx:17-20), plus a log of what the program observed. -/
structure State (C : Type) where
  cur : C
  level : Int
  auto : Bool
  log : List (C × Bool)

/-- User programs. -/
inductive Prog (C : Type) where
  | skip
  | raise
  | seq (p q : Prog C)
  | tryExcept (p q : Prog C)
  | observe                              -- get_current_context(), get_auto_forward()
  | setDefault (c : C)                   -- set_default_context(c)
  | setAuto (b : Bool)                   -- set_auto_forward(b)
  | scope (c : C) (body : Prog C)        -- with context_scope(c): body
  | autoScope (b : Bool) (body : Prog C) -- with auto_forward(b): body

/-- Execution; the Bool is true when the program ended normally, false when an exception escapes. -/
def run {C : Type} : Prog C → State C → Bool × State C
  | .skip, s => (true, s)
  | .raise, s => (false, s)
  | .seq p q, s => match run p s with
    | (true, s) => run q s
    | (false, s) => (false, s)
  | .tryExcept p q, s => match run p s with
    | (true, s) => (true, s)
    | (false, s) => run q s
  | .observe, s => (true, { s with log := s.log ++ [(s.cur, s.auto)] })
  -- context.py:68-71
  | .setDefault c, s => if s.level = 0 then (true, { s with cur := c }) else (false, s)
  -- auto_forward.pyx:56-
  | .setAuto b, s => (true, { s with auto := b })
  -- context.py:45-56: level and context are changed, restored in `finally`
  | .scope c body, s =>
    let prev := s.cur
    let r := run body { s with level := s.level + 1, cur := c }
    (r.1, { r.2 with level := r.2.level - 1, cur := prev })
  -- auto_forward.pyx:32-37
  | .autoScope b body, s =>
    let prev := s.auto
    let r := run body { s with auto := b }
    (r.1, { r.2 with auto := prev })

end Verif.Context
