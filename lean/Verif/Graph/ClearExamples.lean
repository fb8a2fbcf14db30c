import Verif.Graph.ClearProps
/-
C26: a case meeting the hypotheses, and what goes wrong with inactive inputs.
-/
namespace Verif.Graph

theorem uses_le_of_live {G : Graph} {v : VarId} : ∀ (F L : List FnId), F.Nodup →
    (∀ f, f ∈ F → ((G.fn f).inputs ≠ [] → f ∈ L)) → uses G F v ≤ uses G L v := by
  intro F
  induction F with
  | nil => intro L _ _; simp [uses]
  | cons a F ih =>
    intro L hn hL
    rw [List.nodup_cons] at hn
    rw [uses_cons]
    by_cases ha : (G.fn a).inputs = []
    · have := ih L hn.2 (fun f hf => hL f (by simp [hf]))
      rw [ha]; simpa using this
    · have haL := hL a (by simp) ha
      obtain ⟨x, y, hxy⟩ := List.append_of_mem haL
      have := ih (x ++ y) hn.2 (by
        intro f hf hne
        have h := hL f (by simp [hf]) hne
        rw [hxy] at h
        simp only [List.mem_append, List.mem_cons] at h ⊢
        rcases h with h | h | h
        · exact Or.inl h
        · rw [h] at hf; exact absurd hf hn.1
        · exact Or.inr h)
      rw [uses_append] at this
      rw [hxy, uses_append, uses_cons]
      omega

/-- `x(0) → f0 → y(1)`; `y → f1 (in-place) → w(2)`; `w → f2 → z(3)`; `(y, z) → f3 → r(4)`. -/
def inpG : Graph where
  parent := fun v => match v with
    | 1 => some 0 | 2 => some 1 | 3 => some 2 | 4 => some 3 | _ => none
  fn := fun f => match f with
    | 0 => { inputs := [(0, true)], outputs := [1] }
    | 1 => { inputs := [(1, true)], outputs := [2], inplace := fun i => if i = 0 then some 0 else none }
    | 2 => { inputs := [(2, true)], outputs := [3] }
    | 3 => { inputs := [(1, true), (3, true)], outputs := [4] }
    | _ => {}
  refCount := fun v => match v with | 0 => 1 | 1 => 2 | 2 => 1 | 3 => 1 | _ => 0

/-- `y` and `w` share array 1; the functions add one (f0, f2), copy (f1), add (f3). -/
def inpCfg : FCfg Int where
  clearBuffer := true
  arr := fun v => if v = 2 then 1 else v
  run := fun f ins => match f, ins with
    | 1, [a] => [a]
    | 3, [a, b] => [a + b]
    | _, [a] => [a + 1]
    | _, _ => []
  junk := fun _ _ => 999

theorem inpG_layered : Layered inpG id := by
  rintro p f ⟨v, hv, hp⟩
  match f, hv with
  | 0, hv => simp [inpG] at hv; subst hv; simp [inpG] at hp
  | 1, hv => simp [inpG] at hv; subst hv; simp [inpG] at hp; subst hp; decide
  | 2, hv => simp [inpG] at hv; subst hv; simp [inpG] at hp; subst hp; decide
  | 3, hv =>
    simp [inpG] at hv
    rcases hv with rfl | rfl <;> simp [inpG] at hp <;> subst hp <;> decide
  | n + 4, hv => simp [inpG] at hv

theorem inpG_outputs : OutputsOk inpG := by
  intro f v hv
  match f, hv with
  | 0, hv => simp [inpG] at hv; subst hv; rfl
  | 1, hv => simp [inpG] at hv; subst hv; rfl
  | 2, hv => simp [inpG] at hv; subst hv; rfl
  | 3, hv => simp [inpG] at hv; subst hv; rfl
  | n + 4, hv => simp [inpG] at hv

theorem inpG_refs : RefsOk inpG := by
  intro F v hn
  refine Nat.le_trans (uses_le_of_live F [0, 1, 2, 3] hn ?_) ?_
  · intro f _ hne
    match f, hne with
    | 0, _ => simp
    | 1, _ => simp
    | 2, _ => simp
    | 3, _ => simp
    | n + 4, hne => exact absurd rfl hne
  · match v with
    | 0 => decide
    | 1 => decide
    | 2 => decide
    | 3 => decide
    | n + 4 =>
      have : uses inpG [0, 1, 2, 3] (n + 4) = 0 := by
        simp [uses, inpG]
      rw [this]; exact Nat.zero_le _

theorem inpG_active : ∀ f u b, (u, b) ∈ (inpG.fn f).inputs → b = true := by
  intro f u b h
  match f, h with
  | 0, h => simp [inpG] at h; exact h.2
  | 1, h => simp [inpG] at h; exact h.2
  | 2, h => simp [inpG] at h; exact h.2
  | 3, h => simp [inpG] at h; rcases h with h | h <;> exact h.2
  | n + 4, h => simp [inpG] at h

theorem inpG_arr : ∀ u v, inpCfg.arr u = inpCfg.arr v → SameData inpG u v := by
  intro u v h
  have hl : InplaceLink inpG 1 2 := ⟨1, 0, 0, rfl, rfl, rfl⟩
  simp only [inpCfg] at h
  by_cases hu : u = 2
  · by_cases hv : v = 2
    · rw [hu, hv]; exact .refl _
    · rw [if_pos hu, if_neg hv] at h
      rw [hu, ← h]; exact .bwd (.refl _) hl
  · by_cases hv : v = 2
    · rw [if_neg hu, if_pos hv] at h
      rw [hv, h]; exact .fwd (.refl _) hl
    · rw [if_neg hu, if_neg hv] at h
      rw [h]; exact .refl _

example := forward_clear_safe_partial inpG inpCfg id inpG_layered inpG_outputs inpG_refs inpG_active inpG_arr
  4 3 rfl 9 (by decide) { ext := { mem := fun _ => 5 } } rfl rfl rfl (fun _ => 5) rfl

/-- only `z` is cleared; the result is `6 + 7`. -/
example : (forward inpG (forwardCall inpG inpCfg) 9 4 { ext := { mem := fun _ => 5 } }).map
    (fun s => (s.order, s.ext.log, s.ext.mem 4, s.ext.mem 3)) =
    some ([0, 1, 2, 3], [(3, 3)], 13, 999) := by decide

/-! ### inactive inputs -/

/-- `x(0) → f0 → y(1)`; `y → f1 (in-place) → w(2)`; `f2 = add_n(y, w)` with `w` masked out, giving
`z(3)`; `(y, z) → f3 → r(4)`: y is used three times. -/
def maskG : Graph where
  parent := fun v => match v with
    | 1 => some 0 | 2 => some 1 | 3 => some 2 | 4 => some 3 | _ => none
  fn := fun f => match f with
    | 0 => { inputs := [(0, true)], outputs := [1] }
    | 1 => { inputs := [(1, true)], outputs := [2], inplace := fun i => if i = 0 then some 0 else none }
    | 2 => { inputs := [(1, true), (2, false)], outputs := [3] }
    | 3 => { inputs := [(1, true), (3, true)], outputs := [4] }
    | _ => {}
  refCount := fun v => match v with | 0 => 1 | 1 => 3 | 2 => 1 | 3 => 1 | _ => 0

def maskCfg (clear : Bool) : FCfg Int where
  clearBuffer := clear
  arr := fun v => if v = 2 then 1 else v
  run := fun f ins => match f, ins with
    | 0, [a] => [a + 1]
    | 1, [a] => [a]
    | 2, [a, _] => [a]
    | 3, [a, b] => [a + b]
    | _, _ => []
  junk := fun _ _ => 999

/-- With an inactive input, C26 is false: after `r.forward()` once (so that `w` has a rank), masking
the input `w` of `add_n` makes `r.forward(clear_buffer=True)` destroy the array that `w` shares with
`y` before `f3` reads `y`: the result is 999 + 6 instead of 12. -/
theorem forward_clear_refuted_inactive :
    (forward maskG (forwardCall maskG (maskCfg false)) 9 4
      { vrank := fun v => if v = 2 then 2 else 0, ext := { mem := fun _ => 5 } }).map
      (fun s => (s.order, s.ext.mem 4)) = some ([0, 2, 3], 12) ∧
    (forward maskG (forwardCall maskG (maskCfg true)) 9 4
      { vrank := fun v => if v = 2 then 2 else 0, ext := { mem := fun _ => 5 } }).map
      (fun s => (s.order, s.ext.mem 4)) = some ([0, 2, 3], 999 + 6) := by decide

end Verif.Graph
