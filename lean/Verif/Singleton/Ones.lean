import Mathlib.Data.List.Basic
import Mathlib.Data.List.Nodup
import Mathlib.Data.List.Induction
import Mathlib.Logic.Function.Basic
/-
NNabla::ones, NNabla::zeros: models /repo/src/nbla/singleton_manager.cpp:59-110.
Simplifications: an array is its length and the value all of its elements have; dtype and context are left out (the array is the same
in every dtype and context, up to conversion); the map holds the only reference to an array, so replacing it frees the array; each
call runs under its lock (the lock of ones and that of zeros are different although both functions write `ones_`: calls are atomic here).
-/
namespace Verif.Singleton.Ones

abbrev Tid := Nat

/-- An array object: `id` identifies it, all `size` elements equal `val`. -/
structure Arr where
  id : Nat
  size : Nat
  val : Nat
  deriving DecidableEq

/-- The two maps from thread to array (singleton_manager.hpp:106-107) and a counter for fresh identities. -/
structure St where
  ones : Tid → Option Arr := fun _ => none
  zeros : Tid → Option Arr := fun _ => none
  next : Nat := 0

/-- A new array, stored in `ones_[tid]`. -/
def fresh (tid : Tid) (size val : Nat) (s : St) : Arr × St :=
  (⟨s.next, size, val⟩, { s with ones := Function.update s.ones tid (some ⟨s.next, size, val⟩), next := s.next + 1 })

/-- NNabla::ones (singleton_manager.cpp:73-91). -/
def getOnes (tid : Tid) (size : Nat) (s : St) : Arr × St :=
  match s.ones tid with
  | none => fresh tid size 1 s
  | some a => if size > a.size then fresh tid size 1 s else (a, s)

/-- NNabla::zeros (singleton_manager.cpp:93-110): both assignments are to `ones_[tid]`. -/
def getZeros (tid : Tid) (size : Nat) (s : St) : Arr × St :=
  match s.zeros tid with
  | none => fresh tid size 0 s
  | some a => if size > a.size then fresh tid size 0 s else (a, s)

/-- An array still exists if some map holds it. -/
def Alive (s : St) (a : Arr) : Prop := ∃ t, s.ones t = some a ∨ s.zeros t = some a

inductive Call
  | ones (tid : Tid) (size : Nat)
  | zeros (tid : Tid) (size : Nat)

def run : Call → St → Arr × St
  | .ones t n, s => getOnes t n s
  | .zeros t n, s => getZeros t n s

/-- State after a history of calls. -/
def after (l : List Call) : St := l.foldl (fun s c => (run c s).2) {}

theorem after_snoc (l : List Call) (c : Call) : after (l ++ [c]) = (run c (after l)).2 := by
  simp [after, List.foldl_append]

/-- Invariant of histories with calls of `ones` only. -/
structure Inv (s : St) : Prop where
  val : ∀ t a, s.ones t = some a → a.val = 1
  lt : ∀ t a, s.ones t = some a → a.id < s.next
  inj : ∀ t u a b, s.ones t = some a → s.ones u = some b → a.id = b.id → t = u

theorem inv_fresh {s : St} (h : Inv s) (tid : Tid) (n : Nat) : Inv (fresh tid n 1 s).2 := by
  have hv : ∀ t, (fresh tid n 1 s).2.ones t = if t = tid then some ⟨s.next, n, 1⟩ else s.ones t := by
    intro t; simp [fresh, Function.update_apply]
  have hn : (fresh tid n 1 s).2.next = s.next + 1 := rfl
  constructor
  · intro t a ht
    rw [hv] at ht
    by_cases e : t = tid
    · rw [if_pos e] at ht; cases ht; rfl
    · rw [if_neg e] at ht; exact h.val t a ht
  · intro t a ht
    rw [hv] at ht
    rw [hn]
    by_cases e : t = tid
    · rw [if_pos e] at ht; cases ht; exact Nat.lt_succ_self _
    · rw [if_neg e] at ht; exact Nat.lt_succ_of_lt (h.lt t a ht)
  · intro t u a b ht hu e
    rw [hv] at ht hu
    by_cases e1 : t = tid <;> by_cases e2 : u = tid
    · rw [e1, e2]
    · rw [if_pos e1] at ht; rw [if_neg e2] at hu; cases ht
      have := h.lt u b hu
      simp only [] at e; omega
    · rw [if_neg e1] at ht; rw [if_pos e2] at hu; cases hu
      have := h.lt t a ht
      simp only [] at e; omega
    · rw [if_neg e1] at ht; rw [if_neg e2] at hu
      exact h.inj t u a b ht hu e

theorem getOnes_cases (t : Tid) (n : Nat) (s : St) :
    (∃ a, s.ones t = some a ∧ n ≤ a.size ∧ getOnes t n s = (a, s)) ∨
    ((∀ a, s.ones t = some a → a.size < n) ∧ getOnes t n s = fresh t n 1 s) := by
  unfold getOnes
  cases h : s.ones t with
  | none => right; exact ⟨by simp, rfl⟩
  | some a =>
    by_cases hn : n > a.size
    · right
      refine ⟨fun b hb => by cases hb; exact hn, ?_⟩
      simp only []
      rw [if_pos hn]
    · left
      refine ⟨a, rfl, by omega, ?_⟩
      simp only []
      rw [if_neg hn]

theorem inv_after (l : List Call) (h : ∀ c ∈ l, ∃ t n, c = .ones t n) : Inv (after l) := by
  induction l using List.reverseRecOn with
  | nil => exact ⟨by simp [after], by simp [after], by simp [after]⟩
  | append_singleton l c ih =>
    have ih := ih fun c hc => h c (List.mem_append_left _ hc)
    obtain ⟨t, n, rfl⟩ := h c (by simp)
    rw [after_snoc]
    rcases getOnes_cases t n (after l) with ⟨a, h1, h2, h3⟩ | ⟨h1, h3⟩
    · show Inv (getOnes t n (after l)).2
      rw [h3]; exact ih
    · show Inv (getOnes t n (after l)).2
      rw [h3]; exact inv_fresh ih t n

/-- **C174 (partial: no call of zeros).** After any history of calls of `ones` in any threads, `ones(size)` returns a living
array with at least `size` elements, all equal to one; other threads' arrays are different ones and are not touched; the array
stays alive and stays the answer as long as the same thread asks for no more elements than it has. What is missing is the same
for histories with calls of `zeros`, and for `zeros` itself, which is false. -/
theorem C174_ones_partial (l : List Call) (hl : ∀ c ∈ l, ∃ t n, c = .ones t n) (t : Tid) (n : Nat) :
    let a := (getOnes t n (after l)).1
    let s := (getOnes t n (after l)).2
    n ≤ a.size ∧ a.val = 1 ∧ Alive s a ∧
    (∀ u m, u ≠ t → (getOnes u m s).1.id ≠ a.id ∧ Alive (getOnes u m s).2 a) ∧
    ∀ m, m ≤ a.size → getOnes t m s = (a, s) := by
  have hi := inv_after l hl
  intro a s
  have ha : s.ones t = some a ∧ n ≤ a.size ∧ Inv s := by
    rcases getOnes_cases t n (after l) with ⟨b, h1, h2, h3⟩ | ⟨h1, h3⟩
    · simp only [a, s, h3]; exact ⟨h1, h2, hi⟩
    · simp only [a, s, h3]
      exact ⟨by simp [fresh], Nat.le_refl _, inv_fresh hi t n⟩
  obtain ⟨h1, h2, h3⟩ := ha
  refine ⟨h2, h3.val t a h1, ⟨t, Or.inl h1⟩, ?_, ?_⟩
  · intro u m hu
    rcases getOnes_cases u m s with ⟨b, g1, g2, g3⟩ | ⟨g1, g3⟩
    · rw [g3]
      exact ⟨fun e => hu (h3.inj u t b a g1 h1 e), t, Or.inl h1⟩
    · rw [g3]
      constructor
      · have := h3.lt t a h1
        show s.next ≠ a.id
        omega
      · refine ⟨t, Or.inl ?_⟩
        show Function.update s.ones u _ t = some a
        rw [Function.update_of_ne (Ne.symm hu), h1]
  · intro m hm
    rcases getOnes_cases t m s with ⟨b, g1, g2, g3⟩ | ⟨g1, g3⟩
    · rw [h1] at g1; cases g1; exact g3
    · have := g1 a h1
      omega

/-- **C174, refuted part.** `zeros` stores its array where `ones` looks: in every thread, after zeros(n), `ones(m)` with
m <= n returns an array of zeros. And `zeros` never finds its own array: a second call makes a new one and frees the array the
first call returned. -/
theorem C174_zeros_refuted (t : Tid) (n m : Nat) (hm : m ≤ n) :
    let s := (getZeros t n {}).2
    let a := (getZeros t n {}).1
    (getOnes t m s).1.val = 0 ∧ a.val = 0 ∧ Alive s a ∧ ¬ Alive (getZeros t m s).2 a := by
  have e : getZeros t n {} = fresh t n 0 {} := rfl
  intro s a
  have hs : s.ones t = some ⟨0, n, 0⟩ := by simp [s, e, fresh]
  have ha : a = ⟨0, n, 0⟩ := rfl
  have hz : ∀ u, s.zeros u = none := fun _ => rfl
  have hso : ∀ u, u ≠ t → s.ones u = none := by
    intro u hu
    simp [s, e, fresh, Function.update_of_ne hu]
  refine ⟨?_, rfl, ⟨t, Or.inl (hs.trans (by rw [ha]))⟩, ?_⟩
  · unfold getOnes
    rw [hs]
    simp only []
    rw [if_neg (by omega)]
  · have e2 : (getZeros t m s).2 = (fresh t m 0 s).2 := by
      unfold getZeros
      rw [hz]
    rw [e2]
    rintro ⟨u, hu | hu⟩
    · have hu : Function.update s.ones t (some ⟨s.next, m, 0⟩) u = some a := hu
      by_cases hut : u = t
      · rw [hut, Function.update_self] at hu
        have : s.next = 1 := rfl
        rw [this, ha] at hu
        simp at hu
      · rw [Function.update_of_ne hut, hso u hut] at hu; cases hu
    · have hu : s.zeros u = some a := hu
      rw [hz] at hu; cases hu

/-- Non-vacuity. -/
example : (getOnes 1 5 (after [.ones 1 3, .ones 2 9])).1 = ⟨2, 5, 1⟩ ∧ (getOnes 2 5 (after [.ones 1 3, .ones 2 9])).1 = ⟨1, 9, 1⟩ := by decide

end Verif.Singleton.Ones
