/-!
# Graph scopes

Models `with nn.graph_def.graph() as g:` (graph_def.py:1585-1658): which graph builder records a
function.

Simplifications: builders are numbers; the commit of a dirty network when a block is left is not
modelled (it belongs to the builder which is being left).
-/

namespace Verif.GraphDef.Scopes

/-- A piece of user code. -/
inductive Prog
  | done
  /-- record function `k`, then go on -/
  | op (k : Nat) (rest : Prog)
  /-- `with graph(): body`, then go on -/
  | scope (body rest : Prog)
  /-- raise an exception -/
  | raise

/-- The globals `proto_graph_builder`, `previous_graph_builder` (graph_def.py:1585-1586), the next
fresh builder, and which builder recorded which function. -/
structure St where
  cur : Nat
  prev : Option Nat
  fresh : Nat
  log : List (Nat × Nat)

/-- graph_def.py:1651-1653: entering `graph()`. -/
def enter (s : St) : St := { s with prev := some s.cur, cur := s.fresh, fresh := s.fresh + 1 }

/-- graph_def.py:1657: `proto_graph_builder = previous_graph_builder`. -/
def leave (s : St) : St := { s with cur := s.prev.getD s.cur }

/-- Run user code; the flag says that an exception came out. A `@contextmanager` without
`try`/`finally` (graph_def.py:1588-1657) does nothing when the block raises. -/
def exec : Prog → St → St × Bool
  | .done, s => (s, false)
  | .op k rest, s => exec rest { s with log := s.log ++ [(s.cur, k)] }
  | .scope body rest, s =>
    match exec body (enter s) with
    | (s', true) => (s', true)
    | (s', false) => exec rest (leave s')
  | .raise, s => (s, true)

/-- a fresh interpreter: the default builder is `0` -/
def init : St := ⟨0, none, 1, []⟩

/-! ## Specification -/

/-- no `with graph()` inside, no exception -/
def Prog.plain : Prog → Bool
  | .done => true
  | .op _ r => r.plain
  | .scope _ _ => false
  | .raise => false

/-- no `with graph()` within a `with graph()`, no exception inside one -/
def Prog.flat : Prog → Bool
  | .done => true
  | .op _ r => r.flat
  | .scope b r => b.plain && r.flat
  | .raise => true

/-- Lexical scoping: what is recorded where, when the code starts in builder `c` and the next fresh
builder is `n`; stops at an exception. -/
def lexical (c : Nat) : Nat → Prog → List (Nat × Nat)
  | _, .done => []
  | n, .op k r => (c, k) :: lexical c n r
  | n, .scope b r => lexical n (n + 1) b ++ lexical c (n + 1) r
  | _, .raise => []

/-! ## C118 -/

theorem exec_plain (b : Prog) : ∀ s, b.plain = true →
    exec b s = ({ s with log := s.log ++ lexical s.cur s.fresh b }, false) := by
  induction b with
  | done => intro s _; simp [exec, lexical]
  | op k r ih =>
    intro s h
    rw [exec, ih _ (by simpa [Prog.plain] using h)]
    simp [lexical]
  | scope b r _ _ => intro s h; simp [Prog.plain] at h
  | raise => intro s h; simp [Prog.plain] at h

theorem lexical_plain (b : Prog) (hb : b.plain = true) : ∀ c n m, lexical c n b = lexical c m b := by
  induction b with
  | done => intro c n m; rfl
  | op k r ih => intro c n m; simp only [lexical]; rw [ih (by simpa [Prog.plain] using hb)]
  | scope b r _ _ => simp [Prog.plain] at hb
  | raise => intro c n m; rfl

/-- **C118 (partial).** As long as `graph()` blocks are not nested and no exception leaves one of
them, every function is recorded in the graph of the block that contains it - in a new graph for
every block, and in the surrounding graph before, between and after the blocks - and afterwards the
surrounding graph is current again, ready for the next function.  Missing from the full claim:
nested blocks and exceptions. -/
theorem c118_flat_scopes_partial (p : Prog) : ∀ s, p.flat = true →
    (exec p s).1.log = s.log ++ lexical s.cur s.fresh p ∧ (exec p s).1.cur = s.cur := by
  induction p with
  | done => intro s _; simp [exec, lexical]
  | op k r ih =>
    intro s h
    have := ih { s with log := s.log ++ [(s.cur, k)] } (by simpa [Prog.flat] using h)
    rw [exec]
    simpa [lexical] using this
  | raise => intro s _; simp [exec, lexical]
  | scope b r _ ihr =>
    intro s h
    rw [Prog.flat, Bool.and_eq_true] at h
    rw [exec, exec_plain b _ h.1]
    have := ihr (leave { enter s with
      log := (enter s).log ++ lexical (enter s).cur (enter s).fresh b }) h.2
    simp only [enter, leave, Option.getD_some] at this ⊢
    rw [this.1]
    refine ⟨?_, this.2⟩
    simp [lexical]

/-- two blocks, with functions recorded before, inside, between and after -/
example : (Prog.op 1 (.scope (.op 2 .done) (.op 3 (.scope (.op 4 .done) (.op 5 .done))))).flat = true ∧
    (exec (Prog.op 1 (.scope (.op 2 .done) (.op 3 (.scope (.op 4 .done) (.op 5 .done))))) init).1.log =
      [(0, 1), (1, 2), (0, 3), (2, 4), (0, 5)] := by decide

/-- The full claim is false: after two nested blocks, functions are recorded in the graph of the outer
block, which has already been left. -/
theorem c118_nested_refuted :
    (exec (.scope (.scope .done .done) (.op 7 .done)) init).1.log = [(1, 7)] ∧
    lexical 0 1 (.scope (.scope .done .done) (.op 7 .done)) = [(0, 7)] := by decide

/-- ... and after an exception inside a block (caught by the user), functions are recorded in the
graph of the abandoned block. -/
theorem c118_exception_refuted :
    let s := (exec (.scope .raise .done) init).1
    (exec (.op 7 .done) s).1.log = [(1, 7)] := by decide

end Verif.GraphDef.Scopes
