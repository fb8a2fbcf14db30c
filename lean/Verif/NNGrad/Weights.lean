import Verif.NNGrad.Props
import Mathlib.Algebra.BigOperators.Group.Finset.Basic
/-
C70: the adjoint equations have exactly one solution; `grad_outputs`.
-/
namespace Verif.NNGrad
open Verif.Graph
variable {α : Type} [AddCommMonoid α]

theorem contrib_congr_outs {E : Env α} {f : FnId} {v : VarId} {D D' : VarId → α}
    (h : v ∈ E.ins f → ∀ o, o ∈ E.outs f → D o = D' o) :
    contrib E.G E.vjp D v f = contrib E.G E.vjp D' v f := by
  by_cases hv : v ∈ E.ins f
  · unfold contrib
    rw [show (E.G.fn f).outputs.map D = (E.G.fn f).outputs.map D' from List.map_congr_left (h hv)]
  · rw [contrib_not_mem hv, contrib_not_mem hv]

/-- The adjoint equations have a solution: sensitivities exist for every graph without cycles. -/
theorem sens_exists (E : Env α) (N : Nat) (W : Wf E N) (starts : List VarId) (F : Finset FnId)
    (hF : ∀ f, f ∈ F ↔ Up E starts f) : ∃ D, IsSens E starts F D := by
  let step : (VarId → α) → VarId → α := fun D v =>
    ((starts.filter (fun o => o == v)).map E.one).sum + ∑ f ∈ F, contrib E.G E.vjp D v f
  let it : Nat → VarId → α := fun n => Nat.rec (fun _ => 0) (fun _ D => step D) n
  have hit : ∀ n, it (n + 1) = step (it n) := fun n => rfl
  have hst : ∀ k v, N < k + lay E v → it k v = it (k + 1) v := by
    intro k
    induction k with
    | zero =>
      intro v h
      have := lay_le_bound W v
      omega
    | succ k ih =>
      intro v h
      rw [hit (k + 1), hit k]
      simp only [step]
      congr 1
      apply Finset.sum_congr rfl
      intro f _
      apply contrib_congr_outs
      intro hv o ho
      rw [ih o, hit k]
      have := lay_le W hv
      have := lay_out W ho
      omega
  refine ⟨it (N + 1), hF, fun v => ?_⟩
  rw [hst (N + 1) v (by omega), hit (N + 1)]

/-- and only one -/
theorem sens_unique (E : Env α) (N : Nat) (W : Wf E N) (starts : List VarId) (F : Finset FnId)
    (D D' : VarId → α) (h : IsSens E starts F D) (h' : IsSens E starts F D') : D = D' := by
  have : ∀ k v, N < k + lay E v → D v = D' v := by
    intro k
    induction k with
    | zero =>
      intro v h
      have := lay_le_bound W v
      omega
    | succ k ih =>
      intro v hk
      rw [h.2 v, h'.2 v]
      congr 1
      apply Finset.sum_congr rfl
      intro f _
      apply contrib_congr_outs
      intro hv o ho
      apply ih
      have := lay_le W hv
      have := lay_out W ho
      omega
  funext v
  exact this (N + 1) v (by omega)

/-- The weighted sensitivity: `w j` is the gradient given for the output `o j` (pairs `j` of `outs`). -/
def IsSensW (E : Env α) (outs : List (VarId × VarId)) (w : VarId × VarId → α) (F : Finset FnId)
    (D : VarId → α) : Prop :=
  (∀ f, f ∈ F ↔ Up E (outs.map Prod.fst) f) ∧
  ∀ v, D v = (outs.map (fun j => if j.1 = v then w j else 0)).sum + ∑ f ∈ F, contrib E.G E.vjp D v f

/-- `output = o * go` (grad.py L253-266): for every output a multiplication `mul j` of the output with
a variable `go j`, whose backward function gives `w j` (the value of `go j`) for a gradient of ones. -/
structure Mults (E : Env α) (outs : List (VarId × VarId)) (mul : VarId × VarId → FnId)
    (go : VarId × VarId → VarId) (w : VarId × VarId → α) : Prop where
  parent : ∀ j, j ∈ outs → E.G.parent j.2 = some (mul j)
  ins : ∀ j, j ∈ outs → E.ins (mul j) = [j.1, go j]
  outsEq : ∀ j, j ∈ outs → E.outs (mul j) = [j.2]
  vjp : ∀ j, j ∈ outs → (E.vjp (mul j) 0 [E.one j.2]).getD 0 = w j
  /-- the given gradients are no computed variables -/
  goLeaf : ∀ j, j ∈ outs → E.G.parent (go j) = none
  /-- the multiplications are new -/
  newMul : ∀ j, j ∈ outs → ¬ Up E (outs.map Prod.fst) (mul j)
  newOut : ∀ j, j ∈ outs → ∀ f, Up E (outs.map Prod.snd) f → j.2 ∉ E.ins f

open Classical in
/-- C70 with `grad_outputs`: with the given gradients `w`, `nn.grad` returns for every input the sum over
the outputs of `w` times the gradient of the output, provided the given gradients are leaves that are
not among the inputs (refuted otherwise, see `nn_grad_outputs_refuted`). -/
theorem nn_grad_outputs_partial (E : Env α) (N : Nat) (outs : List (VarId × VarId)) (inputs : List VarId)
    (H : GradOk E N outs inputs) (mul : VarId × VarId → FnId) (go : VarId × VarId → VarId)
    (w : VarId × VarId → α) (M : Mults E outs mul go w)
    (hgo : ∀ x, x ∈ inputs → ∀ j, j ∈ outs → x ≠ go j)
    (F : Finset FnId) (D : VarId → α) (hD : IsSensW E outs w F D)
    (fuel : Nat) (hfN : N + 1 ≤ fuel) (hfF : F.card + outs.length < fuel) :
    ∃ res, grad E fuel outs inputs = some res ∧ res.length = inputs.length ∧
      ∀ (i : Nat) x, inputs[i]? = some x → ∃ r, res[i]? = some r ∧ r.getD 0 = D x := by
  have hms : (outs.map mul).Nodup := by
    rw [List.nodup_iff_pairwise_ne, List.pairwise_map]
    have := List.pairwise_map.mp H.distinct
    apply List.Pairwise.imp_of_mem _ this
    intro a b ha hb h h'
    rw [M.parent a ha, M.parent b hb, h'] at h
    exact h rfl
  have hUp : ∀ f, Up E (outs.map Prod.snd) f ↔ f ∈ outs.map mul ∨ f ∈ F := by
    intro f
    rw [hD.1 f]
    constructor
    · intro h
      induction h with
      | root ho hp =>
        left
        rw [List.mem_map] at ho
        obtain ⟨j, hj, rfl⟩ := ho
        rw [M.parent j hj] at hp
        exact List.mem_map.mpr ⟨j, hj, Option.some.inj hp⟩
      | step _ hv hp ih =>
        right
        rcases ih with ih | ih
        · rw [List.mem_map] at ih
          obtain ⟨j, hj, rfl⟩ := ih
          rw [M.ins j hj] at hv
          rcases List.mem_cons.mp hv with rfl | hv
          · exact .root (List.mem_map.mpr ⟨j, hj, rfl⟩) hp
          · simp only [List.mem_singleton] at hv
            subst hv
            rw [M.goLeaf j hj] at hp
            cases hp
        · exact .step ih hv hp
    · rintro (h | h)
      · rw [List.mem_map] at h
        obtain ⟨j, hj, rfl⟩ := h
        exact .root (List.mem_map.mpr ⟨j, hj, rfl⟩) (M.parent j hj)
      · induction h with
        | root ho hp =>
          rw [List.mem_map] at ho
          obtain ⟨j, hj, rfl⟩ := ho
          refine .step (.root (List.mem_map.mpr ⟨j, hj, rfl⟩) (M.parent j hj)) ?_ hp
          rw [M.ins j hj]; simp
        | step _ hv hp ih => exact .step ih hv hp
  let F' : Finset FnId := (outs.map mul).toFinset ∪ F
  have hF' : ∀ f, f ∈ F' ↔ Up E (outs.map Prod.snd) f := by
    intro f
    rw [hUp, Finset.mem_union, List.mem_toFinset]
  have hdisj : Disjoint (outs.map mul).toFinset F := by
    rw [Finset.disjoint_left]
    intro f hf hfF
    rw [List.mem_toFinset, List.mem_map] at hf
    obtain ⟨j, hj, rfl⟩ := hf
    exact M.newMul j hj ((hD.1 _).mp hfF)
  obtain ⟨D', hD'⟩ := sens_exists E N H.wf (outs.map Prod.snd) F' hF'
  have hnds : (outs.map Prod.snd).Nodup := by
    rw [List.nodup_iff_pairwise_ne]
    exact H.distinct.imp (fun h h' => h (by rw [h']))
  have hone : ∀ j, j ∈ outs → D' j.2 = E.one j.2 := by
    intro j hj
    rw [hD'.2 j.2, List.filter_beq, List.count_eq_one_of_mem hnds (List.mem_map.mpr ⟨j, hj, rfl⟩)]
    rw [Finset.sum_eq_zero]
    · simp
    · intro f hf
      exact contrib_not_mem (M.newOut j hj f ((hF' f).mp hf))
  have hcm : ∀ v j, j ∈ outs → v ≠ go j →
      contrib E.G E.vjp D' v (mul j) = if j.1 = v then w j else 0 := by
    intro v j hj hvg
    unfold contrib
    have h1 : (E.G.fn (mul j)).inputs.map Prod.fst = [j.1, go j] := M.ins j hj
    have h2 : (E.G.fn (mul j)).outputs = [j.2] := M.outsEq j hj
    rw [h1, h2]
    simp only [List.zipIdx_cons, List.zipIdx_nil, List.map_cons, List.map_nil, List.sum_cons,
      List.sum_nil, add_zero, if_neg (Ne.symm hvg), hone j hj, M.vjp j hj]
  have heq : ∀ k v, N < k + lay E v → v ∉ outs.map Prod.snd → (∀ j, j ∈ outs → v ≠ go j) →
      D' v = D v := by
    intro k
    induction k with
    | zero =>
      intro v h
      have := lay_le_bound H.wf v
      omega
    | succ k ih =>
      intro v hk hvs hvg
      rw [hD'.2 v, hD.2 v, seed_zero hvs, zero_add, Finset.sum_union hdisj]
      congr 1
      · rw [List.sum_toFinset _ hms, List.map_map]
        congr 1
        apply List.map_congr_left
        intro j hj
        exact hcm v j hj (hvg j hj)
      · apply Finset.sum_congr rfl
        intro f hf
        apply contrib_congr_outs
        intro hv o ho
        have hop := (H.wf.out_parent f o).mp ho
        apply ih
        · have := lay_le H.wf hv
          have := lay_out H.wf ho
          omega
        · intro hos
          rw [List.mem_map] at hos
          obtain ⟨j, hj, rfl⟩ := hos
          rw [M.parent j hj] at hop
          have := M.newMul j hj
          rw [Option.some.inj hop] at this
          exact this ((hD.1 f).mp hf)
        · rintro j hj rfl
          rw [M.goLeaf j hj] at hop
          cases hop
  have hcard : F'.card < fuel := by
    have h1 := Finset.card_union_le (outs.map mul).toFinset F
    have h2 := List.toFinset_card_le (outs.map mul)
    rw [List.length_map] at h2
    have : F'.card ≤ (outs.map mul).toFinset.card + F.card := h1
    omega
  obtain ⟨res, hr, hl, hres⟩ := nn_grad_sum_partial E N outs inputs H F' D' hD' fuel hfN hcard
  refine ⟨res, hr, hl, ?_⟩
  intro i x hx
  obtain ⟨r, h1, h2⟩ := hres i x hx
  have hxi := List.mem_of_getElem? hx
  exact ⟨r, h1, by rw [h2, heq (N + 1) x (by omega) (H.notStart x hxi) (hgo x hxi)]⟩

end Verif.NNGrad
