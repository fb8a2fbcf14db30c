/-
C27: an array (and its narrowed parts) reads back the last write.
C28: zeroing.
C49: modification_count and clear_called.
-/
import Verif.Synced.Flags

namespace Verif.Synced

variable {V : Type}

/-! ### examples: fixed point numbers with one decimal; dtype 0 keeps them, dtype 1 truncates -/

namespace Ex

def env : Env Int := ⟨fun d v => if d = 1 then v / 10 * 10 else v, 0, fun b i => 77 + b + i⟩

theorem envOk : EnvOk env := by
  constructor
  · intro d v; unfold env; simp only; split
    · omega
    · rfl
  · intro d; unfold env; simp only; split
    · decide
    · rfl

/-- float on device 0, int on device 0, float on device 1. -/
def f0 : BaseKey := ⟨0, 0⟩
def i0 : BaseKey := ⟨0, 1⟩
def f1 : BaseKey := ⟨1, 0⟩

/-- What the user sees of `len` elements, call by call; `[]` for calls that return nothing or raise. -/
def seen (len : Nat) (l : List (Option (Out Int))) : List (List Int) :=
  l.map (fun o => match o with
    | some (some f) => (List.range len).map f
    | _ => [])

def raised (l : List (Option (Out Int))) : List Bool := l.map (·.isNone)

end Ex

/-! ### C27 -/

/-- Every history of calls on an array and the arrays narrowed from it, through all devices and dtypes:
the same calls raise as in the specification (one buffer, all arrays are windows of it, nothing lazy),
and every element read has the value promised there, provided the history keeps to `opOk`.
Missing: histories outside `opOk` - there the implementation breaks the promise, see the refutations. -/
theorem C27_reads_last_write_partial (env : Env V) (he : EnvOk env) (size : Nat) (ops : List (Op V))
    (h : HistOk env (absInit env size) (fun _ => false) ops) :
    Agrees env (init env size) (absInit env size) ops :=
  agrees_of_inv he ops (inv_init env size) h

/-- Arrays that are never narrowed: no restriction. -/
theorem C27_plain_array (env : Env V) (he : EnvOk env) (size : Nat) (ops : List (Op V))
    (h : ∀ op ∈ ops, plain op = true) : Agrees env (init env size) (absInit env size) ops :=
  C27_reads_last_write_partial env he size ops (histOk_plain env ops _ _ size rfl h)

theorem absRun_append (env : Env V) (o1 o2 : List (Op V)) : ∀ a,
    (absRun env a (o1 ++ o2)).2 = (absRun env (absRun env a o1).2 o2).2 := by
  induction o1 with
  | nil => intro a; rfl
  | cons op o1 ih =>
    intro a
    simp only [List.cons_append, absRun]
    cases absStep env a op with
    | none => exact ih a
    | some r => exact ih r.1

theorem absRun_plain_win (env : Env V) (size : Nat) (ops : List (Op V)) : ∀ a : Abs V,
    a.win = [⟨0, size, none, 0, true⟩] → (∀ op ∈ ops, plain op = true) →
    (absRun env a ops).2.win = [⟨0, size, none, 0, true⟩] := by
  induction ops with
  | nil => intro a h _; exact h
  | cons op ops ih =>
    intro a ha h
    have h0 := h op (by simp)
    have hs : ∀ a' o, absStep env a op = some (a', o) → a'.win = [⟨0, size, none, 0, true⟩] := by
      intro a' o hx
      cases op with
      | narrow p o z => simp [plain] at h0
      | drop n => simp [plain] at h0
      | zero n =>
        simp only [absStep] at hx
        split at hx
        · cases hx
        · simp at hx; rw [← hx.1]; unfold absFill put; split <;> exact ha
      | fill n x =>
        simp only [absStep] at hx
        split at hx
        · cases hx
        · simp at hx; rw [← hx.1]; unfold absFill put; split <;> exact ha
      | get n k =>
        simp only [absStep] at hx
        split at hx
        · cases hx
        · simp at hx; rw [← hx.1]; split
          · rw [holdIn_win]; exact ha
          · exact ha
      | modify n k f =>
        simp only [absStep] at hx
        split at hx
        · cases hx
        · split at hx
          · cases hx
          · simp at hx; rw [← hx.1]; show (holdIn env a k).win = _; rw [holdIn_win]; exact ha
      | write n k f =>
        simp only [absStep] at hx
        split at hx
        · cases hx
        · split at hx
          · cases hx
          · simp at hx; rw [← hx.1]; show (holdIn env a k).win = _; rw [holdIn_win]; exact ha
      | clear n =>
        simp only [absStep] at hx
        split at hx
        · cases hx
        · split at hx
          · cases hx
          · simp at hx; rw [← hx.1]; exact ha
    simp only [absRun]
    cases hx : absStep env a op with
    | none => exact ih a ha (fun o ho => h o (by simp [ho]))
    | some r => exact ih r.1 (hs _ _ hx) (fun o ho => h o (by simp [ho]))

theorem absRun_gets (env : Env V) (size : Nat) (k : BaseKey) (gets : List BaseKey) : ∀ a : Abs V,
    a.win = [⟨0, size, none, 0, true⟩] → a.key = some k →
    (absRun env a (gets.map (fun g => .get 0 g))).2 = a := by
  induction gets with
  | nil => intro a _ _; rfl
  | cons g gets ih =>
    intro a hw hk
    simp only [List.map_cons, absRun]
    have : absStep env a (.get 0 g) = some (a, some (fun i => ((holdIn env a g).val (0 + i)))) := by
      simp [absStep, window, hw, hk]
    rw [this]
    exact ih a hw hk

/-- Written out: whatever happened to a plain array before, once all its elements have been written
through dtype/device `k`, every later read through `k` sees what was written, and every read through
another device or dtype sees its conversion, however many reads of whatever kind happened in between. -/
theorem C27_read_after_write (env : Env V) (he : EnvOk env) (size : Nat) (ops : List (Op V))
    (h : ∀ op ∈ ops, plain op = true) (k : BaseKey) (w : Nat → V) (gets : List BaseKey) (k' : BaseKey) :
    ∃ s' m, step env (run env (init env size) (ops ++ .write 0 k w :: gets.map (fun g => .get 0 g))).2 (.get 0 k') =
        some (s', some m) ∧
      ∀ i < size, m i = if k' = k then env.conv k.dt (w i) else env.conv k'.dt (env.conv k.dt (w i)) := by
  have hp : ∀ op ∈ ops ++ (.write 0 k w :: gets.map (fun g => Op.get (V := V) 0 g)), plain op = true := by
    intro op ho
    rcases List.mem_append.1 ho with ho | ho
    · exact h op ho
    · rcases List.mem_cons.1 ho with ho | ho
      · subst ho; rfl
      · obtain ⟨g, _, rfl⟩ := List.mem_map.1 ho; rfl
  obtain ⟨pend', I⟩ := inv_run he (ops ++ (.write 0 k w :: gets.map (fun g => Op.get (V := V) 0 g))) (inv_init env size)
    (histOk_plain env _ _ _ size rfl hp)
  have hw := absRun_plain_win env size ops (absInit env size) rfl h
  rw [absRun_append] at I
  generalize (absRun env (absInit env size) ops).2 = a1 at hw I
  have hs : absStep env a1 (.write 0 k w) =
      some (put (holdIn env a1 k) ⟨0, size, none, 0, true⟩ (fun i => some (env.conv k.dt (w i))), none) := by
    simp [absStep, window, hw]
  have e : (absRun env a1 (.write 0 k w :: gets.map (fun g => Op.get (V := V) 0 g))).2 =
      put (holdIn env a1 k) ⟨0, size, none, 0, true⟩ (fun i => some (env.conv k.dt (w i))) := by
    simp only [absRun, hs]
    exact absRun_gets env size k gets _ (by show (holdIn env a1 k).win = _; rw [holdIn_win]; exact hw)
      (by show (holdIn env a1 k).key = _; rw [holdIn_key])
  rw [e] at I
  have ew : (put (holdIn env a1 k) ⟨0, size, none, 0, true⟩ (fun i => some (env.conv k.dt (w i)))).win =
      [⟨0, size, none, 0, true⟩] := by show (holdIn env a1 k).win = _; rw [holdIn_win]; exact hw
  have ek : (put (holdIn env a1 k) ⟨0, size, none, 0, true⟩ (fun i => some (env.conv k.dt (w i)))).key = some k :=
    holdIn_key env a1 k
  have ev : ∀ i < size, (put (holdIn env a1 k) ⟨0, size, none, 0, true⟩ (fun i => some (env.conv k.dt (w i)))).val i =
      some (env.conv k.dt (w i)) := by
    intro i hi; simp [put, inWin, hi]
  generalize put (holdIn env a1 k) ⟨0, size, none, 0, true⟩ (fun i => some (env.conv k.dt (w i))) = a2 at I ew ek ev
  have S := (step_ok he I (.get 0 k') trivial).out
  have hg : absStep env a2 (.get 0 k') = some (a2, some (fun i => ((holdIn env a2 k').val (0 + i)))) := by
    simp [absStep, window, ew, ek]
  rw [hg] at S
  generalize (run env (init env size) (ops ++ .write 0 k w :: gets.map (fun g => .get 0 g))).2 = s at S ⊢
  cases hx : step env s (.get 0 k') with
  | none => rw [hx] at S; exact S.elim
  | some r =>
    obtain ⟨s', o⟩ := r
    rw [hx] at S
    cases o with
    | none => exact S.elim
    | some m =>
      refine ⟨s', m, rfl, ?_⟩
      intro i hi
      have hl : lenOf a2 (.get 0 k') = size := by simp [lenOf, ew]
      rw [hl] at S
      have := S i hi
      simp only [Nat.zero_add] at this
      by_cases hk : k' = k
      · subst hk
        rw [if_pos rfl]
        refine this _ ?_
        unfold holdIn; rw [if_pos ek]; exact ev i hi
      · rw [if_neg hk]
        refine this _ ?_
        unfold holdIn
        rw [if_neg (by rw [ek]; intro hx; exact hk (by cases hx; rfl))]
        simp only; rw [ev i hi]; rfl

/-- fill followed by reads: a lazy fill cannot be told from an eager one. -/
theorem C27_read_after_fill (env : Env V) (he : EnvOk env) (size : Nat) (ops : List (Op V))
    (h : ∀ op ∈ ops, plain op = true) (x : V) (k : BaseKey) :
    ∃ s' m, step env (run env (init env size) (ops ++ [.fill 0 x])).2 (.get 0 k) = some (s', some m) ∧
      ∀ i < size, m i = env.conv k.dt x := by
  have hp : ∀ op ∈ ops ++ [.fill 0 x], plain op = true := by
    intro op ho
    rcases List.mem_append.1 ho with ho | ho
    · exact h op ho
    · rw [List.mem_singleton] at ho; subst ho; rfl
  obtain ⟨pend', I⟩ := inv_run he (ops ++ [.fill 0 x]) (inv_init env size) (histOk_plain env _ _ _ size rfl hp)
  have hw := absRun_plain_win env size ops (absInit env size) rfl h
  rw [absRun_append] at I
  generalize (absRun env (absInit env size) ops).2 = a1 at hw I
  have e : (absRun env a1 [.fill 0 x]).2 = { a1 with key := none, val := fun _ => some x } := by
    simp [absRun, absStep, window, hw, absFill]
  rw [e] at I
  have S := (step_ok he I (.get 0 k) trivial).out
  have hg : absStep env { a1 with key := none, val := fun _ => some x } (.get 0 k) =
      some ({ a1 with key := some k, val := fun _ => some (env.conv k.dt x) }, some (fun _ => some (env.conv k.dt x))) := by
    simp [absStep, window, hw, holdIn]
  rw [hg] at S
  generalize (run env (init env size) (ops ++ [.fill 0 x])).2 = s at S ⊢
  cases hx : step env s (.get 0 k) with
  | none => rw [hx] at S; exact S.elim
  | some r =>
    obtain ⟨s', o⟩ := r
    rw [hx] at S
    cases o with
    | none => exact S.elim
    | some m =>
      refine ⟨s', m, rfl, ?_⟩
      intro i hi
      have hl : lenOf { a1 with key := none, val := fun _ => some x } (.get 0 k) = size := by simp [lenOf, hw]
      rw [hl] at S
      exact S i hi _ rfl

/-- A history on a family keeping to the restrictions, and what it sees: a fresh array, two halves
(`1`, `2`), a part of the second half (`3`), writes and lazy fills at all levels. -/
def exHist : List (Op Int) :=
  [.narrow 0 0 2, .narrow 0 2 4, .write 1 Ex.f0 (fun i => 15 + i), .fill 2 25, .narrow 2 1 2, .get 0 Ex.i0, .zero 3,
   .get 2 Ex.f0, .drop 3, .modify 0 Ex.f1 (fun old i => old i + 1), .get 1 Ex.f0, .narrow 0 1 2]

example : HistOk Ex.env (absInit Ex.env 6) (fun _ => false) exHist := by
  simp only [exHist, HistOk, opOk, and_true, true_and]
  refine ⟨?_, ?_, ?_, ?_, ?_⟩
  · intro w hw; cases hw; rfl
  · intro w hw; cases hw; rfl
  · intro w hw; cases hw; rfl
  · decide
  · intro w hw; cases hw; rfl


example : Ex.seen 2 (run Ex.env (init Ex.env 6) exHist).1 =
    [[], [], [], [], [], [10, 10], [], [25, 0], [], [15, 16], [16, 17], []] := by decide

example : (Ex.raised (run Ex.env (init Ex.env 6) exHist).1) =
    [false, false, false, false, false, false, false, false, false, false, false, true] := by decide

/-! #### the restrictions are needed -/

/-- The promise without restrictions. -/
def ReadsLastWrite (env : Env V) : Prop :=
  ∀ size (ops : List (Op V)), Agrees env (init env size) (absInit env size) ops

/-- `clear()` on an array with a living narrowed array: the narrowed array keeps the old memory, the array
itself gets new memory; a write through one is then invisible through the other. -/
theorem C27_refuted_clear_with_child : ∃ ops : List (Op Int), ops = [.narrow 0 0 1, .write 0 Ex.f0 (fun _ => 1),
    .clear 0, .write 0 Ex.f0 (fun _ => 2), .get 1 Ex.f0] ∧
    ¬ Agrees Ex.env (init Ex.env 2) (absInit Ex.env 2) ops := by
  refine ⟨_, rfl, ?_⟩
  intro h
  have h5 := h.2.2.2.2.1
  exact absurd (h5 0 (by decide) 2 (by decide)) (by decide)

/-- narrow of narrow of narrow: the offset of the grandparent is lost (`create_array_from_parent` adds only
the parent's own offset). -/
theorem C27_refuted_deep_narrow : ∃ ops : List (Op Int), ops = [.narrow 0 1 3, .narrow 1 1 2, .narrow 2 1 1,
    .write 0 Ex.f0 (fun i => 10 * i), .get 3 Ex.f0] ∧
    ¬ Agrees Ex.env (init Ex.env 4) (absInit Ex.env 4) ops := by
  refine ⟨_, rfl, ?_⟩
  intro h
  have h5 := h.2.2.2.2.1
  exact absurd (h5 0 (by decide) 30 (by decide)) (by decide)

/-- Destroying a narrowed array with a pending `fill`: the fill is lost. -/
theorem C27_refuted_drop_pending : ∃ ops : List (Op Int), ops = [.write 0 Ex.f0 (fun _ => 1), .narrow 0 0 1, .fill 1 5,
    .drop 1, .get 0 Ex.f0] ∧
    ¬ Agrees Ex.env (init Ex.env 2) (absInit Ex.env 2) ops := by
  refine ⟨_, rfl, ?_⟩
  intro h
  have h5 := h.2.2.2.2.1
  exact absurd (h5 0 (by decide) 5 (by decide)) (by decide)

/-- So the promise does not hold unrestrictedly. -/
theorem C27_refuted : ¬ ReadsLastWrite Ex.env := by
  intro h
  obtain ⟨ops, _, ho⟩ := C27_refuted_drop_pending
  exact ho (h 2 ops)

/-- A read is not free of effects (also in the specification): after `fill(3.5)`, reading once as an
integer makes later float reads see 3.0. -/
theorem C27_read_has_effect :
    Ex.seen 1 (run Ex.env (init Ex.env 1) [.fill 0 35, .get 0 Ex.f0]).1 = [[], [35]] ∧
    Ex.seen 1 (run Ex.env (init Ex.env 1) [.fill 0 35, .get 0 Ex.i0, .get 0 Ex.f0]).1 = [[], [30], [30]] := by decide

/-- `copy_from` (which takes the head array of the source without evaluating anything): it raises on a
lazily filled source that was never accessed, and ignores a fill pending on a narrowed part. -/
theorem C27_copy_source_lazy :
    copySource (run Ex.env (init Ex.env 1) [.fill 0 35]).2 0 = none ∧
    ∃ a, copySource (run Ex.env (init Ex.env 1) [.write 0 Ex.f0 (fun _ => 1), .narrow 0 0 1, .fill 1 5]).2 0 = some a ∧
      readArr (run Ex.env (init Ex.env 1) [.write 0 Ex.f0 (fun _ => 1), .narrow 0 0 1, .fill 1 5]).2 a 0 = 1 ∧
      Ex.seen 1 (run Ex.env (init Ex.env 1) [.write 0 Ex.f0 (fun _ => 1), .narrow 0 0 1, .fill 1 5, .get 0 Ex.f0]).1 =
        [[], [], [], [5]] := by
  refine ⟨by decide, ⟨⟨0, 0, 0⟩, by decide, by decide, by decide⟩⟩

example : Agrees Ex.env (init Ex.env 3) (absInit Ex.env 3)
    [.fill 0 35, .get 0 Ex.i0, .write 0 Ex.f1 (fun i => i), .clear 0] :=
  C27_plain_array Ex.env Ex.envOk 3 _ (by decide)

/-! ### C28 -/

/-- An array reporting `zeroing` reads as zero wherever anything is promised, whatever was done before to
it and to the arrays it shares memory with. -/
theorem C28_zeroing_sound (env : Env V) (he : EnvOk env) (size : Nat) (ops : List (Op V))
    (h : HistOk env (absInit env size) (fun _ => false) ops) (n : Nat) (w : Win)
    (hw : window (absRun env (absInit env size) ops).2 n = some w)
    (hz : ((run env (init env size) ops).2.node n).zeroing = true) :
    ∀ i < w.len, ∀ v, (absRun env (absInit env size) ops).2.val (w.start + i) = some v → v = env.zero := by
  obtain ⟨pend', I⟩ := inv_run he ops (inv_init env size) h
  have ha : (run env (init env size) ops).2.alive n = true := by
    cases hx : (run env (init env size) ops).2.alive n with
    | true => rfl
    | false => rw [(I.link.window I.tree n).1 hx] at hw; cases hw
  obtain ⟨w', e1, e2, e3, e4, _⟩ := (I.link.window I.tree n).2 ha
  rw [e1] at hw; cases hw
  intro i hi v hv
  refine I.zeroing n ha hz (w.start + i) v ⟨by rw [e3]; omega, ?_⟩ hv
  rw [← e3, ← e4]; omega

/-- `zeroing` is exactly what `zeroRun` says: set by zero() on the array or one it is part of; reset by
fill() or writing to the array, a part of it or one it is part of; unchanged by everything else. -/
theorem C28_zeroing_exact_partial (env : Env V) (he : EnvOk env) (size : Nat) (ops : List (Op V))
    (h : HistOk env (absInit env size) (fun _ => false) ops) (n : Nat) (w : Win)
    (hw : window (absRun env (absInit env size) ops).2 n = some w) :
    ((run env (init env size) ops).2.node n).zeroing = zeroRun env (absInit env size) (fun _ => false) ops n := by
  obtain ⟨pend', I⟩ := inv_run he ops (inv_init env size) h
  have ha : (run env (init env size) ops).2.alive n = true := by
    cases hx : (run env (init env size) ops).2.alive n with
    | true => rfl
    | false => rw [(I.link.window I.tree n).1 hx] at hw; cases hw
  exact zeroing_run he ops (fun _ => false) (inv_init env size) h (fun _ _ => rfl) n ha

theorem zeroRun_plain (env : Env V) (size : Nat) (ops : List (Op V)) : ∀ (a : Abs V) (z : Nat → Bool),
    a.win = [⟨0, size, none, 0, true⟩] → (∀ op ∈ ops, plain op = true) →
    zeroRun env a z ops 0 = lastIsZero ops (z 0) := by
  induction ops with
  | nil => intro a z _ _; rfl
  | cons op ops ih =>
    intro a z ha h
    have h0 := h op (by simp)
    have hw : (absNext env a op).win = [⟨0, size, none, 0, true⟩] := by
      have := absRun_plain_win env size [op] a ha (fun o ho => by rw [List.mem_singleton] at ho; subst ho; exact h0)
      simp only [absRun] at this
      unfold absNext
      cases hx : absStep env a op with
      | none => rw [hx] at this; exact this
      | some r => rw [hx] at this; exact this
    simp only [zeroRun]
    rw [ih _ _ hw (fun o ho => h o (by simp [ho]))]
    have p00 : partOf a 0 0 = true := by simp [partOf, narrowedFrom]
    cases op with
    | narrow p o z => simp [plain] at h0
    | drop n => simp [plain] at h0
    | zero n =>
      simp [plain] at h0; subst h0
      simp [zeroStep, absStep, window, ha, lastIsZero, p00]
    | fill n x =>
      simp [plain] at h0; subst h0
      simp [zeroStep, absStep, window, ha, lastIsZero, p00]
    | get n k =>
      simp [plain] at h0; subst h0
      simp [zeroStep, absStep, window, ha, lastIsZero]
    | modify n k f =>
      simp [plain] at h0; subst h0
      simp [zeroStep, absStep, window, ha, lastIsZero, p00]
    | write n k f =>
      simp [plain] at h0; subst h0
      simp [zeroStep, absStep, window, ha, lastIsZero, p00]
    | clear n =>
      simp [plain] at h0; subst h0
      simp [zeroStep, absStep, window, ha, lastIsZero]

/-- For an array that is never narrowed: `zeroing` is True exactly if the last zero/fill/write was zero(). -/
theorem C28_plain_array (env : Env V) (he : EnvOk env) (size : Nat) (ops : List (Op V))
    (h : ∀ op ∈ ops, plain op = true) :
    ((run env (init env size) ops).2.node 0).zeroing = lastIsZero ops false := by
  have hw := absRun_plain_win env size ops (absInit env size) rfl h
  rw [C28_zeroing_exact_partial env he size ops (histOk_plain env ops _ _ size rfl h) 0 ⟨0, size, none, 0, true⟩
    (by simp [window, hw])]
  exact zeroRun_plain env size ops _ _ rfl h

/-- `zero(); clear()`: the content is gone, `zeroing` still says True. -/
theorem C28_zeroing_survives_clear :
    ((run Ex.env (init Ex.env 2) [.zero 0, .clear 0]).2.node 0).zeroing = true ∧
    Ex.seen 2 (run Ex.env (init Ex.env 2) [.zero 0, .clear 0, .get 0 Ex.f0]).1 = [[], [], [77, 78]] := by decide

/-- A fresh array reads as zeros, but `zeroing` is False. -/
theorem C28_fresh_not_zeroing :
    ((init Ex.env 2).node 0).zeroing = false ∧
    Ex.seen 2 (run Ex.env (init Ex.env 2) [.get 0 Ex.f0]).1 = [[0, 0]] := by decide

example : HistOk Ex.env (absInit Ex.env 4) (fun _ => false) [.narrow 0 0 2, .narrow 0 2 2, .zero 0, .write 1 Ex.f0 (fun _ => 1)] ∧
    ((run Ex.env (init Ex.env 4) [.narrow 0 0 2, .narrow 0 2 2, .zero 0, .write 1 Ex.f0 (fun _ => 1)]).2.node 2).zeroing = true ∧
    ((run Ex.env (init Ex.env 4) [.narrow 0 0 2, .narrow 0 2 2, .zero 0, .write 1 Ex.f0 (fun _ => 1)]).2.node 0).zeroing = false := by
  refine ⟨?_, by decide, by decide⟩
  simp only [HistOk, opOk, and_true, true_and]
  refine ⟨?_, ?_⟩
  · intro w hw; cases hw; rfl
  · intro w hw; cases hw; rfl

/-! ### C49 -/

theorem lone_of_inv {env : Env V} {s : St V} {a : Abs V} {pend size} (I : Inv env s a pend)
    (hw : a.win = [⟨0, size, none, 0, true⟩]) : Lone s := by
  have hc : s.count = 1 := by rw [← I.link.len, hw]; rfl
  refine ⟨I.tree.root.2.1, ?_⟩
  rw [List.eq_nil_iff_forall_not_mem]
  intro c hcm
  have ha := ((I.tree.kids 0 c I.tree.root.1).1 hcm)
  have h1 := lt_count I.tree ha.1
  have h0 : c = 0 := by omega
  subst h0
  have h2 := ha.2
  rw [I.tree.root.2.1] at h2; cases h2

/-- What the two properties report about a plain array. -/
def countStep (c : Nat × Bool) : Op V → Nat × Bool
  | .clear _ => (0, true)
  | .get _ _ => (c.1, false)
  | _ => (1, false)

theorem counts_run (env : Env V) (he : EnvOk env) (size : Nat) (ops : List (Op V)) : ∀ (s : St V) (a : Abs V) pend,
    Inv env s a pend → a.win = [⟨0, size, none, 0, true⟩] → (∀ op ∈ ops, plain op = true) →
    counts (run env s ops).2 0 = ops.foldl countStep (counts s 0) := by
  induction ops with
  | nil => intro s a pend _ _ _; rfl
  | cons op ops ih =>
    intro s a pend I hw h
    have h0 := h op (by simp)
    have S := step_ok he I op (histOk_plain env [op] a pend size hw
      (fun o ho => by rw [List.mem_singleton] at ho; subst ho; exact h0)).1
    have hw' : (absNext env a op).win = [⟨0, size, none, 0, true⟩] := by
      have := absRun_plain_win env size [op] a hw (fun o ho => by rw [List.mem_singleton] at ho; subst ho; exact h0)
      simp only [absRun] at this
      unfold absNext
      cases hx : absStep env a op with
      | none => rw [hx] at this; exact this
      | some r => rw [hx] at this; exact this
    have L := lone_of_inv I hw
    have e1 : (run env s (op :: ops)).2 = (run env (match step env s op with | some (s', _) => s' | none => s) ops).2 := by
      simp only [run]
      cases hs : step env s op with
      | none => rfl
      | some r => rfl
    rw [e1, List.foldl_cons]
    refine Eq.trans (ih _ _ _ S.inv hw' (fun o ho => h o (by simp [ho]))) ?_
    congr 1
    have so := S.out
    have ha0 : s.alive 0 = true := I.tree.root.1
    cases op with
    | narrow p o z => simp [plain] at h0
    | drop n => simp [plain] at h0
    | zero n =>
      simp [plain] at h0; subst h0
      simp only [step, ha0, if_true]; exact counts_zero L
    | fill n x =>
      simp [plain] at h0; subst h0
      simp only [step, ha0, if_true]; exact counts_fill L x
    | clear n =>
      simp [plain] at h0; subst h0
      simp only [step, ha0, if_true, clear, L.family.2, Bool.false_eq_true, if_false, Option.map_some]
      unfold counts; rw [upd_self]; rfl
    | get n k =>
      simp [plain] at h0; subst h0
      simp only [absStep, window, hw] at so
      simp only [step, ha0, if_true] at so ⊢
      cases hg : Synced.get env s 0 k with
      | mk o s' =>
        rw [hg] at so
        cases o with
        | none => exact so.elim
        | some a1 => exact counts_get L hg
    | modify n k f =>
      simp [plain] at h0; subst h0
      simp only [absStep, window, hw, ne_eq, not_true, false_and, if_false] at so
      simp only [step, ha0, if_true] at so ⊢
      cases hg : cast env s 0 k false with
      | none => rw [hg] at so; exact so.elim
      | some r =>
        obtain ⟨o, s'⟩ := r
        rw [hg] at so
        cases o with
        | none => exact so.elim
        | some a1 => show counts s' 0 = _; exact counts_cast hg
    | write n k f =>
      simp [plain] at h0; subst h0
      simp only [absStep, window, hw, ne_eq, not_true, false_and, if_false] at so
      simp only [step, ha0, if_true] at so ⊢
      cases hg : cast env s 0 k true with
      | none => rw [hg] at so; exact so.elim
      | some r =>
        obtain ⟨o, s'⟩ := r
        rw [hg] at so
        cases o with
        | none => exact so.elim
        | some a1 => show counts s' 0 = _; exact counts_cast hg

/-- `clear_called` is True exactly if the last call on the array was clear(). -/
theorem C49_clear_called (env : Env V) (he : EnvOk env) (size : Nat) (ops : List (Op V))
    (h : ∀ op ∈ ops, plain op = true) :
    ((run env (init env size) ops).2.node 0).clearCalled = lastIsClear ops := by
  have c := counts_run env he size ops (init env size) _ _ (inv_init env size) rfl h
  have : ((run env (init env size) ops).2.node 0).clearCalled = (counts (run env (init env size) ops).2 0).2 := rfl
  rw [this, c]
  clear this c
  rcases List.eq_nil_or_concat ops with rfl | ⟨l, op, rfl⟩
  · rfl
  · rw [List.concat_eq_append, List.foldl_append]
    unfold lastIsClear
    rw [List.getLast?_append]
    cases op <;> simp [countStep]

/-- `modification_count` of a plain array: positive exactly if it was modified (zero, fill, write) since the
last clear, but never more than 1. Missing: the documented number of modifications. -/
theorem C49_modification_count_partial (env : Env V) (he : EnvOk env) (size : Nat) (ops : List (Op V))
    (h : ∀ op ∈ ops, plain op = true) :
    ((run env (init env size) ops).2.node 0).modCount = min 1 (modsSinceClear ops) := by
  have c := counts_run env he size ops (init env size) _ _ (inv_init env size) rfl h
  have : ((run env (init env size) ops).2.node 0).modCount = (counts (run env (init env size) ops).2 0).1 := rfl
  rw [this, c]
  clear this c
  unfold modsSinceClear
  have : ∀ (ops : List (Op V)) (c : Nat × Bool) (m : Nat), (∀ op ∈ ops, plain op = true) → c.1 = min 1 m →
      (ops.foldl countStep c).1 = min 1 (ops.foldl (fun c op => match op with
        | .clear _ => 0
        | .zero _ | .fill _ _ | .modify _ _ _ | .write _ _ _ => c + 1
        | _ => c) m) := by
    intro ops
    induction ops with
    | nil => intro c m _ hc; exact hc
    | cons op ops ih =>
      intro c m h hc
      simp only [List.foldl_cons]
      refine ih _ _ (fun o ho => h o (by simp [ho])) ?_
      have h0 := h op (by simp)
      cases op with
      | narrow p o z => simp [plain] at h0
      | drop n => simp [plain] at h0
      | get n k => exact hc
      | clear n => rfl
      | _ => simp only [countStep]; omega
  exact this ops _ 0 h rfl

/-- Two fills count as one modification. -/
theorem C49_modification_count_refuted :
    ((run Ex.env (init Ex.env 2) [.fill 0 1, .fill 0 2]).2.node 0).modCount = 1 ∧
    modsSinceClear [Op.fill (V := Int) 0 1, .fill 0 2] = 2 := by decide

/-- A read after clear() resets `clear_called` although nothing was modified. -/
theorem C49_read_resets_clear_called :
    ((run Ex.env (init Ex.env 2) [.clear 0]).2.node 0).clearCalled = true ∧
    ((run Ex.env (init Ex.env 2) [.clear 0, .get 0 Ex.f0]).2.node 0).clearCalled = false := by decide

/-- A narrowed array whose parent is zeroed reports `clear_called` although it was not cleared. -/
theorem C49_child_clear_called :
    ((run Ex.env (init Ex.env 2) [.narrow 0 0 1, .write 0 Ex.f0 (fun _ => 1), .zero 0]).2.node 1).clearCalled = true := by
  decide

end Verif.Synced
