import Mathlib.Data.Real.Basic
import Mathlib.Algebra.Order.Archimedean.Basic
import Mathlib.Tactic.Linarith
import Mathlib.Tactic.FieldSimp
import Mathlib.Tactic.NormNum
import Mathlib.Tactic.Ring
import Verif.Act.Doubled
/-
Functions that create arrays from scalars: model /repo/src/nbla/function/generic/{arange,linspace,eye_like}.cpp.
Elements are real numbers unless a theorem says otherwise; Size_t and int are unbounded.
-/
namespace Verif.NAry
open Verif.ND Verif.Fn Verif.Act

/-! ### Arange: model -/

/-- The counting loops of Arange::setup_impl (arange.cpp:31-41): `go v` is the loop condition, `add` the addition of the
scalar type; `Loop go add step v n` says that the loop started with `value = v` ends and has counted `n`. -/
inductive Loop {F : Type} (go : F → Prop) (add : F → F → F) (step : F) : F → Nat → Prop
  | done {v} : ¬ go v → Loop go add step v 0
  | next {v n} : go v → Loop go add step (add v step) n → Loop go add step v (n + 1)

/-- Arange::setup_impl (arange.cpp:27-42): `ArangeSetup … n` holds when setup succeeds with an output of shape (n,). -/
def ArangeSetup {F : Type} [Zero F] [LT F] (add : F → F → F) (start stop step : F) (n : Nat) : Prop :=
  step ≠ 0 ∧ ((step < 0 ∧ Loop (fun v => stop < v) add step start n) ∨ (¬ step < 0 ∧ Loop (fun v => v < stop) add step start n))

/-- Arange::forward_impl (arange.cpp:44-56): `value` runs along. -/
def arangeForward {F : Type} (add : F → F → F) (start step : F) (n : Nat) (y : Mem F) : Mem F × F :=
  (List.range n).foldl (fun mv i => (put mv.1 i mv.2, add mv.2 step)) (y, start)

/-! ### Linspace: model -/

/-- Linspace::setup_impl (linspace.cpp:25-35): the length of the output and step_. -/
noncomputable def linspaceSetup (start stop : ℝ) (num : Int) : Except String (Nat × ℝ) :=
  if 0 ≤ num then .ok (num.toNat, if num > 1 then (stop - start) / ((num - 1 : Int) : ℝ) else 0)
  else .error "num argument must not be negative"

/-- Linspace::forward_impl (linspace.cpp:37-44). -/
noncomputable def linspaceForward (start step : ℝ) (num : Nat) (y : Mem ℝ) : Mem ℝ :=
  (List.range num).foldl (fun m i => put m i (start + step * (i : ℝ))) y

/-! ### EyeLike: model -/

/-- EyeLike::setup_impl (eye_like.cpp:24-29). -/
def eyeSetup (shape : Shape) : Except String Shape :=
  if shape.length = 2 then .ok shape else .error "inputs[0]->ndim() must be 2."

/-- start_row and end_row in EyeLike::forward_impl (eye_like.cpp:39-46). -/
def eyeRows (k r c : Int) : Int × Int :=
  if k ≥ 0 then (0, min r (c - k)) else (|k|, |k| + min (r - |k|) c)

/-- EyeLike::forward_impl (eye_like.cpp:31-51) on an array of shape (r, c): `zero()`, then the loop; the list has the offsets
written by the loop, in order (`i` is start_row + s). -/
def eyeWrites (k : Int) (r c : Nat) : List Int :=
  let rows := eyeRows k r c
  (List.range (rows.2 - rows.1).toNat).map fun (s : Nat) => (rows.1 + (s : Int)) * c + (rows.1 + s) + k

def eyeForward (k : Int) (r c : Nat) (y : Mem ℝ) : Mem ℝ :=
  (eyeWrites k r c).foldl (fun m o => put m o.toNat 1) (fun i => if i < r * c then 0 else y i)

/-! ### Lemmas -/

theorem Loop.unique {F : Type} {go : F → Prop} {add : F → F → F} {step v : F} {n m : Nat}
    (h : Loop go add step v n) (h' : Loop go add step v m) : n = m := by
  induction h generalizing m with
  | done hv => cases h' with
    | done => rfl
    | next hg => exact absurd hg hv
  | next hv _ ih => cases h' with
    | done hg => exact absurd hv hg
    | next _ h2 => rw [ih h2]

theorem Loop.iff {go : ℝ → Prop} {step : ℝ} (v : ℝ) (n : Nat) :
    Loop go (· + ·) step v n ↔ (∀ i : Nat, i < n → go (v + i * step)) ∧ ¬ go (v + n * step) := by
  induction n generalizing v with
  | zero =>
    constructor
    · intro h; cases h with | done hv => exact ⟨fun i hi => absurd hi (Nat.not_lt_zero i), by simpa using hv⟩
    · intro h; exact .done (by simpa using h.2)
  | succ n ih =>
    constructor
    · intro h
      cases h with
      | next hv h2 =>
        obtain ⟨a, b⟩ := (ih (v + step)).mp h2
        refine ⟨?_, ?_⟩
        · intro i hi
          cases i with
          | zero => simpa using hv
          | succ i =>
            have := a i (by omega)
            have e : v + step + (i : ℝ) * step = v + ((i + 1 : Nat) : ℝ) * step := by push_cast; ring
            rwa [e] at this
        · have e : v + step + (n : ℝ) * step = v + ((n + 1 : Nat) : ℝ) * step := by push_cast; ring
          rwa [e] at b
    · rintro ⟨a, b⟩
      refine .next (by simpa using a 0 (by omega)) ((ih (v + step)).mpr ⟨?_, ?_⟩)
      · intro i hi
        have := a (i + 1) (by omega)
        have e : v + step + (i : ℝ) * step = v + ((i + 1 : Nat) : ℝ) * step := by push_cast; ring
        rw [e]; exact this
      · have e : v + step + (n : ℝ) * step = v + ((n + 1 : Nat) : ℝ) * step := by push_cast; ring
        rw [e]; exact b

theorem arange_fold (start step : ℝ) (n : Nat) (y : Mem ℝ) :
    (∀ i, (arangeForward (· + ·) start step n y).1 i = if i < n then start + i * step else y i) ∧
    (arangeForward (· + ·) start step n y).2 = start + n * step := by
  unfold arangeForward
  induction n with
  | zero => simp
  | succ n ih =>
    rw [List.range_succ, List.foldl_append, List.foldl_cons, List.foldl_nil]
    refine ⟨?_, ?_⟩
    · intro i
      show put _ _ _ i = _
      by_cases e : i = n
      · subst e; rw [put_same, ih.2, if_pos (Nat.lt_succ_self _)]
      · rw [put_other _ _ e, ih.1]
        by_cases h : i < n
        · rw [if_pos h, if_pos (Nat.lt_succ_of_lt h)]
        · rw [if_neg h, if_neg (by omega)]
    · show _ + step = _
      rw [ih.2]; push_cast; ring

/-! ### Arange: theorems -/

/-- **C178.** In exact arithmetic F.arange accepts exactly the calls with step ≠ 0, always terminates, and its output is the
list of all numbers start + i·step, i = 0, 1, …, that lie before stop: element i is that number for i < n, all of them are
before stop, and the next one is not. -/
theorem C178_arange (start stop step : ℝ) :
    ((∃ n, ArangeSetup (· + ·) start stop step n) ↔ step ≠ 0) ∧
    (∀ n m, ArangeSetup (· + ·) start stop step n → ArangeSetup (· + ·) start stop step m → n = m) ∧
    ∀ n, ArangeSetup (· + ·) start stop step n →
      (∀ y i, i < n → (arangeForward (· + ·) start step n y).1 i = start + i * step) ∧
      (∀ i : Nat, i < n ↔ if 0 < step then start + i * step < stop else stop < start + i * step) := by
  refine ⟨⟨fun ⟨n, h⟩ => h.1, ?_⟩, ?_, ?_⟩
  · intro h0
    rcases lt_or_gt_of_ne h0 with hs | hs
    · obtain ⟨m, hm⟩ := exists_nat_ge ((start - stop) / -step)
      have hex : ∃ n : Nat, ¬ stop < start + n * step := ⟨m, by
        rw [div_le_iff₀ (by linarith)] at hm; linarith⟩
      classical
      refine ⟨Nat.find hex, h0, Or.inl ⟨hs, (Loop.iff _ _).mpr ⟨?_, Nat.find_spec hex⟩⟩⟩
      intro i hi
      exact not_not.mp (Nat.find_min hex hi)
    · obtain ⟨m, hm⟩ := exists_nat_ge ((stop - start) / step)
      have hex : ∃ n : Nat, ¬ start + n * step < stop := ⟨m, by
        rw [div_le_iff₀ hs] at hm; linarith⟩
      classical
      refine ⟨Nat.find hex, h0, Or.inr ⟨by linarith, (Loop.iff _ _).mpr ⟨?_, Nat.find_spec hex⟩⟩⟩
      intro i hi
      exact not_not.mp (Nat.find_min hex hi)
  · rintro n m ⟨-, h1⟩ ⟨-, h2⟩
    rcases h1 with ⟨a, b⟩ | ⟨a, b⟩ <;> rcases h2 with ⟨c, d⟩ | ⟨c, d⟩
    · exact b.unique d
    · exact absurd a c
    · exact absurd c a
    · exact b.unique d
  · rintro n ⟨h0, h⟩
    refine ⟨fun y i hi => by rw [(arange_fold start step n y).1 i, if_pos hi], ?_⟩
    intro i
    have mono : ∀ a b : Nat, a ≤ b → (a : ℝ) ≤ b := fun a b h => by exact_mod_cast h
    rcases h with ⟨hs, h⟩ | ⟨hs, h⟩
    · rw [if_neg (by linarith)]
      obtain ⟨a, b⟩ := (Loop.iff _ _).mp h
      refine ⟨a i, fun hi => ?_⟩
      by_contra hn
      exact b (lt_of_lt_of_le hi (by nlinarith [mono n i (by omega)]))
    · have hs' : 0 < step := lt_of_le_of_ne (not_lt.mp hs) (Ne.symm h0)
      rw [if_pos hs']
      obtain ⟨a, b⟩ := (Loop.iff _ _).mp h
      refine ⟨a i, fun hi => ?_⟩
      by_contra hn
      exact b (lt_of_le_of_lt (by nlinarith [mono n i (by omega)]) hi)

/-- Non-vacuity: arange(1, 2, 1/3) has three elements. -/
example : ArangeSetup (· + ·) (1 : ℝ) 2 (1 / 3) 3 := by
  refine ⟨by norm_num, Or.inr ⟨by norm_num, (Loop.iff _ _).mpr ⟨?_, by norm_num⟩⟩⟩
  intro i hi
  have : (i : ℝ) ≤ 2 := by exact_mod_cast Nat.le_of_lt_succ hi
  linarith

/-- **C178, refuted for the floats the code uses: the setup need not end.** With any addition for which `v + step = v` at a
reachable value before stop, the loop runs forever, so no output size is ever found. -/
theorem C178_arange_hangs {F : Type} (go : F → Prop) (add : F → F → F) (step v : F) (hv : go v) (hadd : add v step = v) :
    ∀ n, ¬ Loop go add step v n := by
  intro n
  induction n with
  | zero => intro h; cases h with | done h => exact h hv
  | succ n ih => intro h; cases h with | next _ h => rw [hadd] at h; exact ih h

/-- Single-precision rounding (24-bit significand, ties to even) of the integers between -2^25 and 2^25. -/
def roundF32 (z : Int) : Int :=
  if -16777216 ≤ z ∧ z ≤ 16777216 then z
  else if z % 4 = 1 then z - 1 else if z % 4 = 3 then z + 1 else z

/-- Addition of float32 integers in that range. -/
def addF32 (a b : Int) : Int := roundF32 (a + b)

/-- Witness: F.arange(16777210, 16777220, 1) in single precision never returns. -/
theorem C178_arange_f32 (n : Nat) : ¬ ArangeSetup addF32 16777210 16777220 1 n := by
  rintro ⟨-, h⟩
  rcases h with ⟨h, -⟩ | ⟨-, h⟩
  · omega
  · have key : ∀ (v : Int) (m : Nat), v = 16777216 → ¬ Loop (fun v : Int => v < 16777220) addF32 1 v m := by
      intro v m hv
      subst hv
      exact C178_arange_hangs _ _ _ _ (by norm_num) (by decide) m
    have step : ∀ (v : Int) (m : Nat), v < 16777220 → Loop (fun v : Int => v < 16777220) addF32 1 v m →
        ∃ m', Loop (fun v : Int => v < 16777220) addF32 1 (addF32 v 1) m' := by
      intro v m hv h
      cases h with
      | done hh => exact absurd hv hh
      | next _ h => exact ⟨_, h⟩
    obtain ⟨n1, h1⟩ := step _ _ (by norm_num) h
    obtain ⟨n2, h2⟩ := step _ _ (by decide) h1
    obtain ⟨n3, h3⟩ := step _ _ (by decide) h2
    obtain ⟨n4, h4⟩ := step _ _ (by decide) h3
    obtain ⟨n5, h5⟩ := step _ _ (by decide) h4
    obtain ⟨n6, h6⟩ := step _ _ (by decide) h5
    exact key _ _ (by decide) h6

/-! ### Linspace: theorems -/

/-- **C179 (linspace).** Accepted exactly for num ≥ 0; the output has num elements, starts with `start`, ends with `stop`
when num > 1, and neighbours are equally far apart. -/
theorem C179_linspace (start stop : ℝ) (num : Int) :
    ((∃ r, linspaceSetup start stop num = .ok r) ↔ 0 ≤ num) ∧
    ∀ len step, linspaceSetup start stop num = .ok (len, step) → (len : Int) = num ∧ ∀ y,
      (0 < num → linspaceForward start step len y 0 = start) ∧
      (1 < num → linspaceForward start step len y (len - 1) = stop) ∧
      (∀ i, i + 1 < len → linspaceForward start step len y (i + 1) - linspaceForward start step len y i =
        (stop - start) / (num - 1)) ∧
      ∀ i, len ≤ i → linspaceForward start step len y i = y i := by
  have hf : ∀ (step : ℝ) (len : Nat) (y : Mem ℝ) (i : Nat),
      linspaceForward start step len y i = if i < len then start + step * i else y i := fun step len y i =>
    foldPut_eq (fun i _ => start + step * (i : ℝ)) len y i
  refine ⟨?_, ?_⟩
  · unfold linspaceSetup
    by_cases h : 0 ≤ num
    · rw [if_pos h]; simp [h]
    · rw [if_neg h]; simp [h]
  · intro len step hset
    unfold linspaceSetup at hset
    by_cases h : 0 ≤ num
    · rw [if_pos h] at hset
      simp only [Except.ok.injEq, Prod.mk.injEq] at hset
      obtain ⟨hl, hs⟩ := hset
      have hlen : (len : Int) = num := by omega
      refine ⟨hlen, fun y => ⟨?_, ?_, ?_, ?_⟩⟩
      · intro h0; rw [hf, if_pos (by omega)]; simp
      · intro h1
        rw [hf, if_pos (by omega), ← hs, if_pos h1]
        have e : ((len - 1 : Nat) : ℝ) = ((num - 1 : Int) : ℝ) := by
          have : ((len - 1 : Nat) : Int) = num - 1 := by omega
          exact_mod_cast congrArg (Int.cast (R := ℝ)) this
        have hne : ((num - 1 : Int) : ℝ) ≠ 0 := by exact_mod_cast (by omega : num - 1 ≠ 0)
        rw [e, div_mul_cancel₀ _ hne]; ring
      · intro i hi
        rw [hf, hf, if_pos hi, if_pos (by omega), ← hs, if_pos (by omega)]
        push_cast; ring
      · intro i hi; rw [hf, if_neg (by omega)]
    · rw [if_neg h] at hset; simp at hset

example : linspaceSetup 1 3 5 = .ok (5, 1 / 2) := by
  unfold linspaceSetup
  norm_num
  rfl

/-! ### EyeLike: theorems -/

/-- **C179 (eye_like).** Accepted exactly for matrices; every write is inside the output, and element (i, j) of the result is
1 when j = i + k and 0 otherwise, for every k, also beyond the size of the matrix. -/
theorem C179_eye_like (k : Int) (shape : Shape) :
    (∀ s, eyeSetup shape = .ok s ↔ s = shape ∧ ∃ r c, shape = [r, c]) ∧
    ∀ r c : Nat, (∀ o ∈ eyeWrites k r c, 0 ≤ o ∧ o < r * c) ∧
      ∀ y, (∀ i j : Nat, i < r → j < c → eyeForward k r c y (i * c + j) = if (j : Int) = i + k then 1 else 0) ∧
        ∀ o, r * c ≤ o → eyeForward k r c y o = y o := by
  refine ⟨?_, ?_⟩
  · intro s
    unfold eyeSetup
    by_cases h : shape.length = 2
    · rw [if_pos h]
      obtain ⟨r, c, rfl⟩ := List.length_eq_two.mp h
      simp [eq_comm]
    · rw [if_neg h]
      constructor
      · intro e; simp at e
      · rintro ⟨-, r, c, rfl⟩; simp at h
  · intro r c
    have mem : ∀ o, o ∈ eyeWrites k r c ↔ ∃ i j : Nat, i < r ∧ j < c ∧ (j : Int) = i + k ∧ o = ((i * c + j : Nat) : Int) := by
      intro o
      unfold eyeWrites eyeRows
      simp only [List.mem_map, List.mem_range]
      by_cases hk : k ≥ 0
      · rw [if_pos hk]
        constructor
        · rintro ⟨s, hs, rfl⟩
          refine ⟨s, (s + k).toNat, ?_, ?_, ?_, ?_⟩
          · simp only at hs; omega
          · simp only at hs; omega
          · omega
          · push_cast; rw [Int.toNat_of_nonneg (by omega)]; ring
        · rintro ⟨i, j, hi, hj, e, rfl⟩
          refine ⟨i, by simp only; omega, ?_⟩
          push_cast; rw [e]; ring
      · rw [if_neg hk]
        have ha : |k| = -k := abs_of_neg (by omega)
        rw [ha]
        constructor
        · rintro ⟨s, hs, rfl⟩
          refine ⟨(-k + s).toNat, s, ?_, ?_, ?_, ?_⟩
          · simp only at hs; omega
          · simp only at hs; omega
          · omega
          · push_cast; rw [Int.toNat_of_nonneg (by omega)]; ring
        · rintro ⟨i, j, hi, hj, e, rfl⟩
          refine ⟨j, by simp only; omega, ?_⟩
          push_cast
          have : (i : Int) = -k + j := by omega
          rw [this]; ring
    have lin : ∀ i j, i < r → j < c → i * c + j < r * c := by
      intro i j hi hj
      calc i * c + j < i * c + c := by omega
        _ = (i + 1) * c := by ring
        _ ≤ r * c := Nat.mul_le_mul_right c hi
    have fold : ∀ (l : List Int) (m : Mem ℝ) (q : Nat),
        l.foldl (fun m o => put m o.toNat 1) m q = if ∃ o ∈ l, o.toNat = q then 1 else m q := by
      intro l
      induction l with
      | nil => intro m q; simp
      | cons a l ih =>
        intro m q
        rw [List.foldl_cons, ih]
        by_cases h : ∃ o ∈ l, o.toNat = q
        · rw [if_pos h, if_pos (by obtain ⟨o, ho, e⟩ := h; exact ⟨o, by simp [ho], e⟩)]
        · rw [if_neg h]
          by_cases e : q = a.toNat
          · subst e; rw [put_same, if_pos ⟨a, by simp, rfl⟩]
          · rw [put_other _ _ e, if_neg]
            rintro ⟨o, ho, e'⟩
            rcases List.mem_cons.mp ho with rfl | ho
            · exact e e'.symm
            · exact h ⟨o, ho, e'⟩
    refine ⟨?_, ?_⟩
    · intro o ho
      obtain ⟨i, j, hi, hj, -, rfl⟩ := (mem o).mp ho
      have := lin i j hi hj
      constructor
      · exact Int.natCast_nonneg _
      · exact_mod_cast this
    · intro y
      refine ⟨?_, ?_⟩
      · intro i j hi hj
        unfold eyeForward
        rw [fold]
        have hl := lin i j hi hj
        by_cases e : (j : Int) = i + k
        · rw [if_pos e, if_pos ⟨_, (mem _).mpr ⟨i, j, hi, hj, e, rfl⟩, Int.toNat_natCast _⟩]
        · rw [if_neg e, if_neg, if_pos hl]
          rintro ⟨o, ho, eo⟩
          obtain ⟨i', j', hi', hj', e', rfl⟩ := (mem o).mp ho
          rw [Int.toNat_natCast] at eo
          have h1 : i' = i := by
            have a1 := congrArg (· / c) eo
            have hc : 0 < c := by omega
            rw [Nat.mul_comm i' c, Nat.mul_comm i c, Nat.mul_add_div hc, Nat.mul_add_div hc,
              Nat.div_eq_of_lt hj', Nat.div_eq_of_lt hj] at a1
            omega
          subst h1
          have h2 : j' = j := by omega
          subst h2
          exact e e'
      · intro o ho
        unfold eyeForward
        rw [fold, if_neg, if_neg (by omega)]
        rintro ⟨o', ho', e⟩
        obtain ⟨i, j, hi, hj, -, rfl⟩ := (mem o').mp ho'
        have := lin i j hi hj
        rw [Int.toNat_natCast] at e
        omega

/-- Non-vacuity: the second subdiagonal of a 4×3 matrix. -/
example : eyeWrites (-2) 4 3 = [6, 10] ∧ eyeSetup [4, 3] = .ok [4, 3] := by decide

end Verif.NAry
