import Mathlib.Logic.Function.Iterate
import Mathlib.Data.List.Nodup
/-
SpectralNorm (/repo/src/nbla/function/generic/spectral_norm.cpp): the two transpositions and the life of the vector u.
Properties C228 and C229.
-/
namespace Verif.Spectral

/-! ## The transpositions -/

/-- dims_transpose before the reshape (spectral_norm.cpp:76-82), for dim ≠ 0. -/
def pre (dim nd : Nat) : List Nat := dim :: (List.range nd).filter (· ≠ dim)

/-- dims_transpose at the end (spectral_norm.cpp:128-134), for dim ≠ 0. -/
def post (dim nd : Nat) : List Nat := (List.range' 1 dim) ++ 0 :: List.range' (dim + 1) (nd - (dim + 1))

/-- What Transpose accepts (/repo/src/nbla/function/generic/transpose.cpp:28-47). -/
def Accepted (axes : List Nat) (nd : Nat) : Prop := axes.length = nd ∧ axes.Nodup ∧ ∀ a ∈ axes, a < nd

theorem filter_ne_range (dim nd : Nat) (h : dim < nd) :
    (List.range nd).filter (· ≠ dim) = List.range dim ++ List.range' (dim + 1) (nd - (dim + 1)) := by
  have hsplit : List.range nd = List.range dim ++ dim :: List.range' (dim + 1) (nd - (dim + 1)) := by
    rw [List.range_eq_range', List.range_eq_range', show nd = dim + (1 + (nd - (dim + 1))) by omega]
    rw [← List.range'_append_1, Nat.zero_add, ← List.range'_append_1]
    simp; omega
  rw [hsplit, List.filter_append, List.filter_cons_of_neg (by simp)]
  congr 1
  · rw [List.filter_eq_self]
    intro a ha
    have := List.mem_range.1 ha
    simp; omega
  · rw [List.filter_eq_self]
    intro a ha
    have := List.mem_range'_1.1 ha
    simp; omega

theorem pre_eq (dim nd : Nat) (h : dim < nd) : pre dim nd = dim :: (List.range dim ++ List.range' (dim + 1) (nd - (dim + 1))) := by
  rw [pre, filter_ne_range dim nd h]

/-- C228. For every axis dim of an array of nd dimensions, both transpositions are accepted, the first brings axis dim to the front, and the second
undoes the first: axis i of the result is axis i of w. -/
theorem C228_transpositions_inverse (dim nd : Nat) (h : dim < nd) :
    Accepted (pre dim nd) nd ∧ Accepted (post dim nd) nd ∧ (pre dim nd)[0]? = some dim ∧
      ∀ i < nd, ∃ k, (post dim nd)[i]? = some k ∧ (pre dim nd)[k]? = some i := by
  refine ⟨⟨?_, ?_, ?_⟩, ⟨?_, ?_, ?_⟩, rfl, ?_⟩
  · rw [pre_eq dim nd h]; simp; omega
  · rw [pre]
    refine List.nodup_cons.2 ⟨by simp, List.nodup_range.filter _⟩
  · intro a ha
    rw [pre, List.mem_cons, List.mem_filter, List.mem_range] at ha
    rcases ha with rfl | ⟨ha, _⟩
    · exact h
    · exact ha
  · simp [post]; omega
  · rw [post]
    refine List.nodup_append.2 ⟨List.nodup_range', List.nodup_cons.2 ⟨by simp, List.nodup_range'⟩, ?_⟩
    intro a ha b hb
    have h1 := List.mem_range'_1.1 ha
    rcases List.mem_cons.1 hb with rfl | hb
    · omega
    · have h2 := List.mem_range'_1.1 hb
      omega
  · intro a ha
    rw [post, List.mem_append, List.mem_cons, List.mem_range'_1, List.mem_range'_1] at ha
    omega
  · intro i hi
    rw [pre_eq dim nd h, post]
    rcases Nat.lt_trichotomy i dim with hlt | rfl | hgt
    · refine ⟨i + 1, ?_, ?_⟩
      · rw [List.getElem?_append_left (by simpa using hlt), List.getElem?_range' hlt]
        simp [Nat.add_comm]
      · rw [List.getElem?_cons_succ, List.getElem?_append_left (by simpa using hlt), List.getElem?_range hlt]
    · refine ⟨0, ?_, rfl⟩
      rw [List.getElem?_append_right (by simp)]
      simp
    · refine ⟨i, ?_, ?_⟩
      · rw [List.getElem?_append_right (by simp; omega)]
        obtain ⟨d, rfl⟩ : ∃ d, i = dim + 1 + d := ⟨i - (dim + 1), by omega⟩
        simp only [List.length_range']
        rw [show dim + 1 + d - dim = d + 1 by omega, List.getElem?_cons_succ, List.getElem?_range' (by omega)]
        simp
      · obtain ⟨d, rfl⟩ : ∃ d, i = dim + 1 + d := ⟨i - (dim + 1), by omega⟩
        rw [show dim + 1 + d = (dim + d) + 1 by omega, List.getElem?_cons_succ, List.getElem?_append_right (by simp)]
        simp only [List.length_range]
        rw [show dim + d - dim = d by omega, List.getElem?_range' (by omega)]
        simp; omega

example : pre 1 4 = [1, 0, 2, 3] ∧ post 1 4 = [1, 0, 2, 3] ∧ pre 2 4 = [2, 0, 1, 3] ∧ post 2 4 = [1, 2, 0, 3] := by decide +kernel

/-! ## The vector u -/

variable {U : Type}

/-- The vector u (one buffer, possibly of several functions) and u_orig_ of every function (none: memory never written). -/
structure St (U : Type) where
  u : U
  orig : Nat → Option U

/-- Calls of function number i. -/
inductive Op where
  | forward (i : Nat)
  | recompute (i : Nat)
  | backward (i : Nat)
deriving DecidableEq

/-- One call (spectral_norm.cpp:251-320), for outputs that are not marked for recomputation. `step i` are the itr power iterations of function i with its w, `test i` its argument test. Result: the u from
which the iterations start, and the new state; none if memory that was never written is read. The graph writes the new u to the
input in place, unless test (spectral_norm.cpp:110-112), also when it is run again by recompute and backward. -/
def call (step : Nat → U → U) (test : Nat → Bool) (s : St U) : Op → Option (U × St U)
  | .forward i =>
    if test i then some (s.u, s)
    else some (s.u, { u := step i s.u, orig := fun j => if j = i then some s.u else s.orig j })
  | .recompute i | .backward i =>
    match s.orig i with
    | none => none
    | some o => some (o, if test i then s else { s with u := step i o })

/-- A history of calls. -/
def run (step : Nat → U → U) (test : Nat → Bool) : St U → List Op → Option (St U)
  | s, [] => some s
  | s, o :: os =>
    match call step test s o with
    | none => none
    | some (_, s') => run step test s' os

/-- Number of forward calls. -/
def forwards (l : List Op) : Nat := l.countP fun o => match o with | .forward _ => true | _ => false

theorem run_inv (step : Nat → U → U) (test : Nat → Bool) (i : Nat) (ht : test i = false) (l : List Op)
    (hl : ∀ o ∈ l, o = .forward i ∨ o = .recompute i ∨ o = .backward i) :
    ∀ (s : St U) (o : U), s.orig i = some o → s.u = step i o →
      ∃ s', run step test s l = some s' ∧ s'.orig i = some ((step i)^[forwards l] o) ∧ s'.u = (step i)^[forwards l + 1] o := by
  induction l with
  | nil => intro s o h1 h2; exact ⟨s, rfl, by simpa [forwards] using h1, by simpa [forwards] using h2⟩
  | cons op l ih =>
    intro s o h1 h2
    have hl' := fun o ho => hl o (List.mem_cons_of_mem _ ho)
    rcases hl op (by simp) with rfl | rfl | rfl
    · obtain ⟨s', e1, e2, e3⟩ := ih hl' { u := step i s.u, orig := fun j => if j = i then some s.u else s.orig j } s.u (by simp) rfl
      have hc : forwards (.forward i :: l) = forwards l + 1 := by simp [forwards]
      refine ⟨s', ?_, ?_, ?_⟩
      · simp [run, call, ht, e1]
      · rw [hc, e2, h2, Function.iterate_succ_apply]
      · rw [hc, e3, h2, Function.iterate_succ_apply (n := forwards l + 1)]
    · obtain ⟨s', e1, e2, e3⟩ := ih hl' { s with u := step i o } o h1 rfl
      refine ⟨s', ?_, e2, e3⟩
      simp [run, call, ht, h1, e1]
    · obtain ⟨s', e1, e2, e3⟩ := ih hl' { s with u := step i o } o h1 rfl
      refine ⟨s', ?_, e2, e3⟩
      simp [run, call, ht, h1, e1]

/-- C229. A function in training mode that is the only user of its u: in every history that starts with a forward call, u has advanced by exactly one
step for every forward call, whatever recompute and backward calls there were, and a backward (or recompute) call now would start from
the u from which the latest forward call started, and leave u as it is. -/
theorem C229_u_history_partial (step : Nat → U → U) (test : Nat → Bool) (i : Nat) (ht : test i = false) (u0 : U) (orig : Nat → Option U)
    (l : List Op) (hl : ∀ o ∈ l, o = .forward i ∨ o = .recompute i ∨ o = .backward i) :
    ∃ s, run step test ⟨u0, orig⟩ (.forward i :: l) = some s ∧ s.u = (step i)^[forwards l + 1] u0 ∧
      ∀ op, op = .recompute i ∨ op = .backward i →
        ∃ s', call step test s op = some ((step i)^[forwards l] u0, s') ∧ s'.u = s.u := by
  obtain ⟨s, e1, e2, e3⟩ := run_inv step test i ht l hl
    { u := step i u0, orig := fun j => if j = i then some u0 else orig j } u0 (by simp) rfl
  refine ⟨s, by simp [run, call, ht, e1], e3, ?_⟩
  intro op hop
  have e4 : s.u = step i ((step i)^[forwards l] u0) := by rw [e3, Function.iterate_succ_apply']
  rcases hop with rfl | rfl <;> simp [call, e2, ht, e4]

/-- In test mode u never changes, whatever is called (if the call is defined). -/
theorem C229_test_mode (step : Nat → U → U) (test : Nat → Bool) (ht : ∀ i, test i = true) (l : List Op) :
    ∀ (s s' : St U), run step test s l = some s' → s'.u = s.u := by
  induction l with
  | nil => intro s s' h; simp only [run, Option.some.injEq] at h; rw [h]
  | cons op l ih =>
    intro s s' h
    rw [run] at h
    cases hc : call step test s op with
    | none => rw [hc] at h; simp at h
    | some p =>
      rw [hc] at h
      rw [ih _ _ h]
      cases op <;> simp only [call, ht, if_true] at hc
      · simp only [Option.some.injEq] at hc; rw [← hc]
      all_goals
        split at hc
        · simp at hc
        · simp only [Option.some.injEq] at hc; rw [← hc]

example : (run (fun _ (u : Nat) => u + 1) (fun _ => false) ⟨0, fun _ => none⟩
    [.forward 0, .backward 0, .forward 0, .recompute 0, .backward 0]).map (·.u) = some 2 := by decide +kernel

/-- What is false (1): two functions that share u (one weight normalised twice in a graph). The backward calls, in reverse order, set u back to the value
after the first forward call: an update is lost. -/
theorem C229_shared_u_regresses (step : Nat → U → U) (u0 : U) :
    (run step (fun _ => false) ⟨u0, fun _ => none⟩ [.forward 0, .forward 1]).map (·.u) = some (step 1 (step 0 u0)) ∧
      (run step (fun _ => false) ⟨u0, fun _ => none⟩ [.forward 0, .forward 1, .backward 1, .backward 0]).map (·.u) = some (step 0 u0) :=
  ⟨rfl, rfl⟩

/-- What is false (2): in test mode, backward reads memory that was never written. -/
theorem C229_test_backward (step : Nat → U → U) (u0 : U) :
    (run step (fun _ => true) ⟨u0, fun _ => none⟩ [.forward 0, .backward 0]).isNone = true := rfl

end Verif.Spectral
