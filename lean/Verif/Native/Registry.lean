/-
C148: which implementation of a function a context selects. Model of FunctionDb / FunctionRegistry
(/repo/include/nbla/function_registry.hpp, "reg") and Context::set_backend (/repo/src/nbla/context.cpp, "ctx").
-/
import Verif.Native.ParamDir

namespace Verif.Native

/-- ctx:26-35 set_backend: a backend without a type configuration gets ":float". -/
def setBackend (backend : List Str) : List Str := backend.map fun b => if b.contains ':' then b else b ++ ":float".toList

/-- reg:64-80 FunctionDb::query. -/
def query {F : Type} (items : List (Str × F)) : List Str → Option F
  | [] => none
  | be :: bs => match items.find? (fun it => it.1 == be) with
    | some it => some it.2
    | none => query items bs

/-- reg:85 FunctionDb::add. -/
def addItem {F : Type} (items : List (Str × F)) (backend : Str) (f : F) : List (Str × F) := items ++ [(backend, f)]

/-- The registry after a sequence of registrations (NBLA_REGISTER_FUNCTION_IMPL in the init functions of nnabla and its extensions). -/
def register {F : Type} (regs : List (Str × F)) : List (Str × F) := regs.foldl (fun items r => addItem items r.1 r.2) []

/-- reg:108-110 FunctionRegistry::create with a context whose backends were set by set_backend. -/
def create {F : Type} (regs : List (Str × F)) (backend : List Str) : Option F := query (register regs) (setBackend backend)

/-- The full name of a backend: "cpu" means "cpu:float". -/
def fullName (b : Str) : Str := if ':' ∈ b then b else b ++ ":float".toList

theorem register_eq {F : Type} (regs : List (Str × F)) : register regs = regs := by
  unfold register addItem
  have : ∀ acc : List (Str × F), regs.foldl (fun items r => items ++ [(r.1, r.2)]) acc = acc ++ regs := by
    induction regs with
    | nil => simp
    | cons r regs ih => intro acc; rw [List.foldl_cons, ih]; simp
  simpa using this []

theorem query_spec {F : Type} (items : List (Str × F)) (bs : List Str) :
    (query items bs = none ↔ ∀ b ∈ bs, ∀ it ∈ items, it.1 ≠ b) ∧
    ∀ f, query items bs = some f ↔ ∃ (i : Nat) (b : Str), bs[i]? = some b ∧ (∀ (j : Nat) b', j < i → bs[j]? = some b' → ∀ it ∈ items, it.1 ≠ b') ∧
      ∃ k : Nat, items[k]? = some (b, f) ∧ ∀ (l : Nat) it, l < k → items[l]? = some it → it.1 ≠ b := by
  have first : ∀ (l : List (Str × F)) (b : Str) (f : F), (∃ it, l.find? (fun it => it.1 == b) = some it ∧ it.2 = f) ↔
      ∃ k : Nat, l[k]? = some (b, f) ∧ ∀ (m : Nat) it, m < k → l[m]? = some it → it.1 ≠ b := by
    intro l b f
    induction l with
    | nil => simp
    | cons e l ih =>
      by_cases c : e.1 = b
      · rw [List.find?_cons_of_pos (by simpa using c)]
        constructor
        · rintro ⟨it, h, rfl⟩
          cases h
          exact ⟨0, by simp [← c], by omega⟩
        · rintro ⟨k, h1, h2⟩
          refine ⟨e, rfl, ?_⟩
          cases k with
          | zero => simp only [List.getElem?_cons_zero, Option.some.injEq] at h1; rw [h1]
          | succ k => exact absurd c (h2 0 e (by omega) rfl)
      · rw [List.find?_cons_of_neg (by simpa using c), ih]
        constructor
        · rintro ⟨k, h1, h2⟩
          refine ⟨k + 1, by simpa using h1, fun m it hm hit => ?_⟩
          cases m with
          | zero => simp only [List.getElem?_cons_zero, Option.some.injEq] at hit; rw [← hit]; exact c
          | succ m => exact h2 m it (by omega) (by simpa using hit)
        · rintro ⟨k, h1, h2⟩
          cases k with
          | zero =>
            simp only [List.getElem?_cons_zero, Option.some.injEq] at h1
            rw [h1] at c; exact absurd rfl c
          | succ k => exact ⟨k, by simpa using h1, fun m it hm hit => h2 (m + 1) it (by omega) (by simpa using hit)⟩
  have none_iff : ∀ b, items.find? (fun it => it.1 == b) = none ↔ ∀ it ∈ items, it.1 ≠ b := by
    intro b; rw [List.find?_eq_none]; simp
  induction bs with
  | nil => simp [query]
  | cons b bs ih =>
    rw [query]
    cases e : items.find? (fun it => it.1 == b) with
    | none =>
      have hb := (none_iff b).1 e
      dsimp only
      refine ⟨?_, fun f => ?_⟩
      · rw [ih.1]
        constructor
        · intro h b' hb'
          rcases List.mem_cons.1 hb' with rfl | hb'
          · exact hb
          · exact h b' hb'
        · intro h b' hb'; exact h b' (by simp [hb'])
      · rw [ih.2]
        constructor
        · rintro ⟨i, b1, h1, h2, h3⟩
          refine ⟨i + 1, b1, by simpa using h1, fun j b' hj hb' => ?_, h3⟩
          cases j with
          | zero => simp only [List.getElem?_cons_zero, Option.some.injEq] at hb'; rw [← hb']; exact hb
          | succ j => exact h2 j b' (by omega) (by simpa using hb')
        · rintro ⟨i, b1, h1, h2, k, h3, h4⟩
          cases i with
          | zero =>
            simp only [List.getElem?_cons_zero, Option.some.injEq] at h1
            subst h1
            exact absurd rfl (hb _ (List.mem_of_getElem? h3))
          | succ i => exact ⟨i, b1, by simpa using h1, fun j b' hj hb' => h2 (j + 1) b' (by omega) (by simpa using hb'), k, h3, h4⟩
    | some it =>
      dsimp only
      refine ⟨⟨fun h => by simp at h, fun h => ?_⟩, fun f => ?_⟩
      · exact absurd ((none_iff b).2 (h b (by simp))) (by rw [e]; simp)
      · have hf := first items b f
        rw [e] at hf
        constructor
        · intro h
          obtain ⟨k, hk⟩ := hf.1 ⟨it, rfl, by simpa using h⟩
          exact ⟨0, b, rfl, by omega, k, hk⟩
        · rintro ⟨i, b1, h1, h2, hk⟩
          cases i with
          | zero =>
            simp only [List.getElem?_cons_zero, Option.some.injEq] at h1
            subst h1
            obtain ⟨it', h3, h4⟩ := hf.2 hk
            cases h3
            rw [h4]
          | succ i => exact absurd ((none_iff b).2 (h2 0 b (by omega) rfl)) (by rw [e]; simp)

/-- **C148.** For every sequence of registrations and every context: creating a function takes the earliest backend of the context's
list for which an implementation is registered, and of its implementations the one registered first; it fails exactly if no backend
of the list has one. -/
theorem C148_selection {F : Type} (regs : List (Str × F)) (backend : List Str) :
    (create regs backend = none ↔ ∀ b ∈ backend, ∀ r ∈ regs, r.1 ≠ fullName b) ∧
    ∀ f, create regs backend = some f ↔
      ∃ (i : Nat) (b : Str), backend[i]? = some b ∧ (∀ (j : Nat) b', j < i → backend[j]? = some b' → ∀ r ∈ regs, r.1 ≠ fullName b') ∧
        ∃ k : Nat, regs[k]? = some (fullName b, f) ∧ ∀ (l : Nat) r, l < k → regs[l]? = some r → r.1 ≠ fullName b := by
  unfold create
  rw [register_eq]
  have e : setBackend backend = backend.map fullName := by
    unfold setBackend fullName
    refine List.map_congr_left fun b _ => ?_
    simp [List.contains_iff_mem]
  rw [e]
  obtain ⟨h1, h2⟩ := query_spec regs (backend.map fullName)
  refine ⟨by rw [h1]; simp, fun f => ?_⟩
  rw [h2]
  constructor
  · rintro ⟨i, b, hb, hj, hk⟩
    rw [List.getElem?_map, Option.map_eq_some_iff] at hb
    obtain ⟨b0, hb0, rfl⟩ := hb
    exact ⟨i, b0, hb0, fun j b' hji hb' => hj j _ hji (by rw [List.getElem?_map, hb']; rfl), hk⟩
  · rintro ⟨i, b, hb, hj, hk⟩
    refine ⟨i, _, by rw [List.getElem?_map, hb]; rfl, fun j b' hji hb' => ?_, hk⟩
    rw [List.getElem?_map, Option.map_eq_some_iff] at hb'
    obtain ⟨b0, hb0, rfl⟩ := hb'
    exact hj j b0 hji hb0

/-- Registering more implementations (an extension loaded later) never changes a choice for a backend that already has one: later
registrations only matter where the earlier backends had none. -/
theorem C148_extension {F : Type} (regs more : List (Str × F)) (b : Str) (rest : List Str) (f : F)
    (h : create regs (b :: rest) = some f) (hb : ∃ r ∈ regs, r.1 = fullName b) : create (regs ++ more) (b :: rest) = some f := by
  rw [(C148_selection regs _).2] at h
  rw [(C148_selection (regs ++ more) _).2]
  obtain ⟨i, b1, h1, h2, k, h3, h4⟩ := h
  obtain ⟨r, hr, hrb⟩ := hb
  cases i with
  | succ i => exact absurd hrb (h2 0 b (by omega) rfl r hr)
  | zero =>
    have hk : k < regs.length := (List.getElem?_eq_some_iff.1 h3).1
    refine ⟨0, b1, h1, by omega, k, by rw [List.getElem?_append_left hk]; exact h3, fun l r' hl hr' => ?_⟩
    rw [List.getElem?_append_left (by omega)] at hr'
    exact h4 l r' hl hr'

example : create [("cpu:float".toList, 0), ("cuda:float".toList, 1), ("cudnn:float".toList, 2)] ["cudnn:half".toList, "cuda".toList, "cpu".toList] = some 1 := by decide

end Verif.Native
