import Verif.Elem.ReduceProps
import Verif.Elem.Vjp
import Mathlib.Analysis.InnerProductSpace.NormPow
/-
The chain rule for gradient kernels: lemmas about `IsVJP` used for functions whose kernels call the kernels of other functions.
-/
namespace Verif.NormFn
open Verif.Fn Verif.ND Verif.Elem

/-- The buffer with a single 1. -/
def basis (j : Nat) : Mem ℝ := fun i => if i = j then 1 else 0

theorem dot_basis (n j : Nat) (h : j < n) (y : Mem ℝ) : dot n (basis j) y = y j := by
  unfold dot basis
  rw [Finset.sum_eq_single j]
  · simp
  · intro b _ hb; simp [hb]
  · intro hj; exact absurd (Finset.mem_range.mpr h) hj

/-- `F` looks only at the first m elements. -/
def Local (m n : Nat) (F : Mem ℝ → Mem ℝ) : Prop := ∀ x x', (∀ k, k < m → x k = x' k) → ∀ j, j < n → F x j = F x' j

/-- Every output moves differentiably along a differentiable path, with velocities that the kernel transposes. -/
theorem IsVJP.path {m n : Nat} {F : Mem ℝ → Mem ℝ} {x : Mem ℝ} {B : Mem ℝ → Mem ℝ} (h : IsVJP m n F x B) (c : ℝ → Mem ℝ) (v : Mem ℝ)
    (hc : ∀ k, k < m → c 0 k = x k ∧ HasDerivAt (fun t => c t k) (v k) 0) :
    ∃ w : Mem ℝ, (∀ j, j < n → HasDerivAt (fun t => F (c t) j) (w j) 0) ∧ ∀ dy, dot n w dy = dot m v (B dy) := by
  have h1 : ∀ j, j < n → HasDerivAt (fun t => F (c t) j) (dot m v (B (basis j))) 0 := by
    intro j hj
    have := h c v hc (basis j)
    simpa only [dot_basis n j hj] using this
  refine ⟨fun j => dot m v (B (basis j)), h1, ?_⟩
  intro dy
  have e1 := hasDerivAt_dot n dy (fun t => F (c t)) _ h1
  have e2 := h c v hc dy
  rw [← e1.unique e2]
  unfold dot
  exact Finset.sum_congr rfl fun i _ => mul_comm _ _

theorem IsVJP.comp {m n k : Nat} {F G : Mem ℝ → Mem ℝ} {x : Mem ℝ} {B C : Mem ℝ → Mem ℝ} (hF : IsVJP m n F x B) (hl : Local m n F)
    (hG : IsVJP n k G (F x) C) : IsVJP m k (fun x => G (F x)) x (fun dy => B (C dy)) := by
  intro c v hc dy
  obtain ⟨w, hw, hd⟩ := IsVJP.path hF c v hc
  have := hG (fun t => F (c t)) w (fun j hj => ⟨hl _ _ (fun i hi => (hc i hi).1) j hj, hw j hj⟩) dy
  rw [hd] at this
  exact this

theorem IsVJP.congr {m n : Nat} {F G : Mem ℝ → Mem ℝ} {x : Mem ℝ} {B C : Mem ℝ → Mem ℝ} (hF : IsVJP m n F x B)
    (h : ∀ x j, j < n → G x j = F x j) (hB : ∀ dy i, i < m → C dy i = B dy i) : IsVJP m n G x C := by
  intro c v hc dy
  have := hF c v hc dy
  have e1 : (fun t => dot n dy (G (c t))) = fun t => dot n dy (F (c t)) := by
    funext t; exact dot_congr fun i hi => by rw [h _ i hi]
  have e2 : dot m v (C dy) = dot m v (B dy) := dot_congr fun i hi => by rw [hB _ i hi]
  rw [e1, e2]; exact this

/-- A function of x and of another function of x. -/
theorem IsVJP2.diag {m p n : Nat} {G : Mem ℝ → Mem ℝ → Mem ℝ} {N : Mem ℝ → Mem ℝ} {x : Mem ℝ} {B0 B1 BN : Mem ℝ → Mem ℝ}
    (hG : IsVJP2 m p n G x (N x) B0 B1) (hN : IsVJP m p N x BN) (hl : Local m p N) :
    IsVJP m n (fun x => G x (N x)) x (fun dy i => B0 dy i + BN (B1 dy) i) := by
  intro c v hc dy
  obtain ⟨w, hw, hd⟩ := IsVJP.path hN c v hc
  have := hG c (fun t => N (c t)) v w hc (fun j hj => ⟨hl _ _ (fun i hi => (hc i hi).1) j hj, hw j hj⟩) dy
  rw [hd] at this
  have e : dot m v (fun i => B0 dy i + BN (B1 dy) i) = dot m v (B0 dy) + dot m v (BN (B1 dy)) := by
    unfold dot; rw [← Finset.sum_add_distrib]; exact Finset.sum_congr rfl fun i _ => by ring
  rw [e]; exact this

/-- The first argument computed by another function. -/
theorem IsVJP2.left {m q p n : Nat} {G : Mem ℝ → Mem ℝ → Mem ℝ} {N : Mem ℝ → Mem ℝ} {x w : Mem ℝ} {B0 B1 BN : Mem ℝ → Mem ℝ}
    (hG : IsVJP2 q p n G (N x) w B0 B1) (hN : IsVJP m q N x BN) (hl : Local m q N) :
    IsVJP2 m p n (fun x w => G (N x) w) x w (fun dy => BN (B0 dy)) B1 := by
  intro c0 c1 v0 v1 h0 h1 dy
  obtain ⟨u, hu, hd⟩ := IsVJP.path hN c0 v0 h0
  have := hG (fun t => N (c0 t)) c1 u v1 (fun j hj => ⟨hl _ _ (fun i hi => (h0 i hi).1) j hj, hu j hj⟩) h1 dy
  rw [hd] at this
  exact this

theorem Local.comp {m n k : Nat} {F G : Mem ℝ → Mem ℝ} (hF : Local m n F) (hG : Local n k G) : Local m k (fun x => G (F x)) :=
  fun x x' h => hG _ _ (hF x x' h)

theorem local_unary (f : ℝ → ℝ) (n : Nat) (y0 : Mem ℝ) : Local n n (fun x => unaryForward f n x y0) := by
  intro x x' h j hj
  simp only [unaryForward_eq, if_pos hj, h j hj]

/-- Setting up an already set up sum changes nothing. -/
theorem reduceSetup_ready (keep : Bool) (red : List Nat) (s : Shape) (hs : red.Pairwise (· < ·)) (hhi : ∀ a ∈ red, a < s.length) :
    reduceSetup (readyObj keep red s) s = .ok (readyObj keep red s, outShape keep red s) := by
  have hnn : ∀ a ∈ (red.map fun a : Nat => (a : Int)), 0 ≤ a := by
    intro a ha
    obtain ⟨b, _, rfl⟩ := List.mem_map.mp ha
    omega
  obtain ⟨red', h1, h2, h3, h4⟩ := refine_sorted (red.map fun a : Nat => (a : Int)) s.length (by
      intro a ha
      obtain ⟨b, hb, rfl⟩ := List.mem_map.mp ha
      have := hhi b hb
      omega) (by
      apply List.Nodup.map
      · intro a b h
        have h' : (a : Int) = (b : Int) := h
        omega
      · exact hs.imp fun h => by omega) (Or.inl hnn)
  have e : red' = red := by
    have hperm : red'.Perm red := by
      rw [List.perm_ext_iff_of_nodup (h1.imp fun h => by omega) (hs.imp fun h => by omega)]
      intro a
      rw [h3]
      constructor
      · rintro ⟨ha | ha, hlt⟩
        · obtain ⟨b, hb, e⟩ := List.mem_map.mp ha
          have : b = a := by exact_mod_cast e
          subst this; exact hb
        · have := hnn _ ha; omega
      · intro ha
        exact ⟨Or.inl (List.mem_map.mpr ⟨a, ha, rfl⟩), hhi a ha⟩
    exact hperm.eq_of_pairwise (fun a b _ _ h1 h2 => by omega) h1 hs
  subst e
  have h5 := h4 _ (List.Perm.refl _) (by
    rw [List.pairwise_map]
    exact hs.imp fun h => by omega)
  rw [reduceSetup_eq (readyObj keep red' s) red' s hs hhi h5]
  by_cases h : keptAxes s.length red' ++ red' ≠ List.range s.length
  · simp [readyObj, h]
  · simp [readyObj, h]

/-- What is needed of Sum, packaged: its forward is a local function whose elements are the sums over the fibres, and its backward
is the vector-Jacobian product of it. -/
theorem sum_facts (keep : Bool) (red : List Nat) (s : Shape) (hs : red.Pairwise (· < ·)) (hhi : ∀ a ∈ red, a < s.length) (hpos : 0 < prod s)
    (buf y0 : Mem ℝ) :
    ∃ F : Mem ℝ → Mem ℝ, (∀ x, reduceForward sumRow (readyObj keep red s) s x buf y0 = .ok (F x)) ∧
      Local (prod s) (prod (outShape keep red s)) F ∧
      (∀ x i, InBounds s i → F x (ravel (outShape keep red s) (outIndex keep red s.length i)) =
        ((fiber red s i).map fun i' => x (ravel s i')).sum) ∧
      ∀ x gbuf dx, ∃ B : Bool → Mem ℝ → Mem ℝ,
        (∀ a dy, reduceBackward (fun outer R _ accum dy dx => rowBackward (sumGrad dy) outer R accum dx) (readyObj keep red s) s x buf gbuf a dy dx = .ok (B a dy)) ∧
        IsVJP (prod s) (prod (outShape keep red s)) F x (B false) ∧ ∀ dy k, k < prod s → B true dy k = dx k + B false dy k := by
  have hF := fun x => reduceForward_eq sumRow keep red s hs hhi hpos x buf y0
  refine ⟨_, hF, ?_, ?_, ?_⟩
  · intro x x' h j hj
    rw [(ravel_keep s red keep []).2] at hj
    have hR := (outer_eq s red hs hhi hpos).1
    obtain ⟨i, hi, e, _⟩ := fiber_cols red s hs hhi x buf j 0 hj hR
    have key : ∀ x, rowForward (sumRow (prod (pick red s))) (prod (outShape false red s)) (prod (pick red s)) (matrixOf red s x buf) y0 j =
        ((fiber red s i).map fun i' => x (ravel s i')).sum := by
      intro x
      obtain ⟨r, hr, hv⟩ := (C85_values keep red s hs hhi x buf y0 i hi).1
      rw [hF] at hr
      injection hr with hr
      rw [(ravel_keep s red keep i).1, e] at hv
      rw [hr]; exact hv
    simp only [key]
    congr 1
    apply List.map_congr_left
    intro i' hi'
    simp only [fiber, List.mem_filter, mem_indices] at hi'
    exact h _ (ravel_lt hi'.1)
  · intro x i hi
    obtain ⟨r, hr, hv⟩ := (C85_values keep red s hs hhi x buf y0 i hi).1
    rw [hF] at hr
    injection hr with hr
    rw [hr]; exact hv
  · intro x gbuf dx
    obtain ⟨F, B, h1, h2, h3, h4⟩ := (C85_sum_mean_backward keep red s hs hhi hpos x buf gbuf y0 dx).1
    refine ⟨B, h2, ?_, h4⟩
    have e : F = fun x => rowForward (sumRow (prod (pick red s))) (prod (outShape false red s)) (prod (pick red s)) (matrixOf red s x buf) y0 := by
      funext x
      have := h1 x
      rw [hF] at this
      injection this with this
      exact this.symm
    rw [e] at h3; exact h3

/-- Every element of a reduced array belongs to a fibre. -/
theorem exists_fiber (keep : Bool) (red : List Nat) (s : Shape) (hs : red.Pairwise (· < ·)) (hhi : ∀ a ∈ red, a < s.length) (hpos : 0 < prod s)
    (o : Nat) (ho : o < prod (outShape keep red s)) : ∃ i, InBounds s i ∧ ravel (outShape keep red s) (outIndex keep red s.length i) = o := by
  rw [(ravel_keep s red keep []).2] at ho
  obtain ⟨i, hi, e, _⟩ := fiber_cols red s hs hhi (fun _ => 0) (fun _ => 0) o 0 ho (outer_eq s red hs hhi hpos).1
  exact ⟨i, hi, by rw [(ravel_keep s red keep i).1]; exact e⟩

end Verif.NormFn
