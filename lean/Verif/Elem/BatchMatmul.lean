import Verif.Elem.Affine
import Verif.Fn.Props
/-
BatchMatmul: models /repo/src/nbla/function/generic/batch_matmul.cpp over the real numbers.
-/
namespace Verif.Elem
open Verif.Fn Verif.ND

/-! ### Model -/

/-- The loop over the leading axes of BatchMatmul::setup_impl (batch_matmul.cpp:57-86): shape_o, broadcast_a, broadcast_b. -/
def bmmBatch : Shape → Shape → Except String (Shape × Bool × Bool)
  | a :: as, b :: bs =>
    if a = b ∨ a = 1 ∨ b = 1 then
      match bmmBatch as bs with
      | .error e => .error e
      | .ok (o, fa, fb) =>
        if a ≠ 1 ∧ b = 1 then .ok (a :: o, fa, true)
        else if a = 1 ∧ b ≠ 1 then .ok (b :: o, true, fb)
        else .ok (a :: o, fa, fb)
    else .error "The following condition must hold"
  | _, _ => .ok ([], false, false)

/-- The members set by setup. -/
structure Bmm where
  ta : Bool
  tb : Bool
  ra : Nat
  ca : Nat
  rb : Nat
  cb : Nat
  /-- Leading extents of the output. -/
  batch : Shape
  /-- f_broadcast_a_, f_broadcast_b_ are set. -/
  fa : Bool
  fb : Bool
deriving DecidableEq, Repr

/-- Rows and columns of a matrix after an optional transposition. -/
def opRow (tr : Bool) (r c : Nat) : Nat := if tr then c else r
def opCol (tr : Bool) (r c : Nat) : Nat := if tr then r else c

/-- row_y_, col_y_ and the reduction size. -/
def Bmm.ry (f : Bmm) : Nat := opRow f.ta f.ra f.ca
def Bmm.cy (f : Bmm) : Nat := opCol f.tb f.rb f.cb
def Bmm.red (f : Bmm) : Nat := opCol f.ta f.ra f.ca

/-- BatchMatmul::setup_impl (batch_matmul.cpp:27-101). -/
def bmmSetup (ta tb : Bool) (sa sb : Shape) : Except String (Bmm × Shape) :=
  if sa.length < 3 then .error "Input must be >=3 dimensions. (Given at input 0)"
  else if sb.length < 3 then .error "Input must be >=3 dimensions. (Given at input 1)"
  else
    let ra := sa.getD (sa.length - 2) 0
    let ca := sa.getD (sa.length - 1) 0
    let rb := sb.getD (sb.length - 2) 0
    let cb := sb.getD (sb.length - 1) 0
    if sa.getD (sa.length - (if ta then 2 else 1)) 0 ≠ sb.getD (sb.length - (if tb then 1 else 2)) 0 then .error "Reduction sizes mismatch"
    else if sa.length ≠ sb.length then .error "ndim of inputs[0] must be ndim of inputs[1]."
    else match bmmBatch (sa.take (sa.length - 2)) (sb.take (sb.length - 2)) with
      | .error e => .error e
      | .ok (o, fa, fb) => .ok (⟨ta, tb, ra, ca, rb, cb, o, fa, fb⟩, o ++ [if ta then ca else ra, if tb then rb else cb])

/-- The product loop of forward_impl (batch_matmul.cpp:122-127). -/
noncomputable def bmmProd (f : Bmm) (a b y : Mem ℝ) : Mem ℝ :=
  (List.range (prod f.batch)).foldl (fun m s => matMul false f.ry f.cy f.red (at_ (s * (f.ry * f.cy)) f.cy)
    (atT f.ta (s * (f.ra * f.ca)) f.ca) (atT f.tb (s * (f.rb * f.cb)) f.cb) a b m) y

/-- The product loop for the first input (batch_matmul.cpp:163-175). -/
noncomputable def bmmProdA (f : Bmm) (acc : Bool) (b dy da : Mem ℝ) : Mem ℝ :=
  (List.range (prod f.batch)).foldl (fun m s => matMul acc f.ry f.red f.cy (atT f.ta (s * (f.ra * f.ca)) f.ca)
    (at_ (s * (f.ry * f.cy)) f.cy) (atT (!f.tb) (s * (f.rb * f.cb)) f.cb) dy b m) da

/-- The product loop for the second input (batch_matmul.cpp:195-207). -/
noncomputable def bmmProdB (f : Bmm) (acc : Bool) (a dy db : Mem ℝ) : Mem ℝ :=
  (List.range (prod f.batch)).foldl (fun m s => matMul acc f.red f.cy f.ry (atT f.tb (s * (f.rb * f.cb)) f.cb)
    (atT (!f.ta) (s * (f.ra * f.ca)) f.ca) (at_ (s * (f.ry * f.cy)) f.cy) a dy m) db

/-- An input after f_broadcast (batch_matmul.cpp:112-121); the target shape has the leading extents of the output and the
last two of the input. `buf` is the temporary's initial content. -/
def bmmBroadcast (fl : Bool) (sh target : Shape) (x buf : Mem ℝ) : Except String (Mem ℝ) :=
  if fl then bcForward sh target x buf else .ok x

/-- BatchMatmul::forward_impl (batch_matmul.cpp:103-128). -/
noncomputable def bmmForward (f : Bmm) (sa sb : Shape) (bufa bufb : Mem ℝ) (a b y : Mem ℝ) : Except String (Mem ℝ) :=
  match bmmBroadcast f.fa sa (f.batch ++ [f.ra, f.ca]) a bufa with
  | .error e => .error e
  | .ok a' =>
    match bmmBroadcast f.fb sb (f.batch ++ [f.rb, f.cb]) b bufb with
    | .error e => .error e
    | .ok b' => .ok (bmmProd f a' b' y)

/-- BatchMatmul::backward_impl for the first input (batch_matmul.cpp:146-180): into the temporary's gradient, then through
the backward of Broadcast, when the input was broadcast; else into the input's gradient. -/
noncomputable def bmmBackwardA (f : Bmm) (sa sb : Shape) (bufg bufb : Mem ℝ) (b : Mem ℝ) (accum : Bool) (dy da : Mem ℝ) : Except String (Mem ℝ) :=
  match bmmBroadcast f.fb sb (f.batch ++ [f.rb, f.cb]) b bufb with
  | .error e => .error e
  | .ok b' =>
    if f.fa then bcBackward sa (f.batch ++ [f.ra, f.ca]) accum (bmmProdA f (accum && !f.fa) b' dy bufg) da
    else .ok (bmmProdA f (accum && !f.fa) b' dy da)

/-- BatchMatmul::backward_impl for the second input (batch_matmul.cpp:181-212). -/
noncomputable def bmmBackwardB (f : Bmm) (sa sb : Shape) (bufg bufa : Mem ℝ) (a : Mem ℝ) (accum : Bool) (dy db : Mem ℝ) : Except String (Mem ℝ) :=
  match bmmBroadcast f.fa sa (f.batch ++ [f.ra, f.ca]) a bufa with
  | .error e => .error e
  | .ok a' =>
    if f.fb then bcBackward sb (f.batch ++ [f.rb, f.cb]) accum (bmmProdB f (accum && !f.fb) a' dy bufg) db
    else .ok (bmmProdB f (accum && !f.fb) a' dy db)

/-! ### Loops over matrices -/

/-- A loop of matrix assignments to pairwise disjoint places. -/
theorem batch_spec (N P Q : Nat) (pc : Nat → Nat → Nat → Nat) (g : Nat → Nat → Nat → ℝ → ℝ) (m : Mem ℝ)
    (hinj : ∀ s i j s' i' j', s < N → i < P → j < Q → s' < N → i' < P → j' < Q → pc s i j = pc s' i' j' → s = s' ∧ i = i' ∧ j = j') :
    (∀ s i j, s < N → i < P → j < Q → (List.range N).foldl (fun m s => forMat P Q (pc s) (g s) m) m (pc s i j) = g s i j (m (pc s i j))) ∧
    ∀ k, (∀ s i j, s < N → i < P → j < Q → pc s i j ≠ k) → (List.range N).foldl (fun m s => forMat P Q (pc s) (g s) m) m k = m k := by
  induction N with
  | zero => exact ⟨fun s _ _ hs => absurd hs (by omega), fun _ _ => rfl⟩
  | succ N ih =>
    obtain ⟨h1, h2⟩ := ih (fun s i j s' i' j' hs hi hj hs' => hinj s i j s' i' j' (by omega) hi hj (by omega))
    have inner := forMat_spec P Q (pc N) (g N) ((List.range N).foldl (fun m s => forMat P Q (pc s) (g s) m) m)
      (fun i j i' j' hi hj hi' hj' e => (hinj N i j N i' j' (by omega) hi hj (by omega) hi' hj' e).2)
    rw [List.range_succ, List.foldl_append]
    simp only [List.foldl_cons, List.foldl_nil]
    refine ⟨?_, ?_⟩
    · intro s i j hs hi hj
      by_cases e : s = N
      · subst e
        rw [inner.1 i j hi hj, h2]
        intro s' i' j' hs' hi' hj' he
        have := (hinj s' i' j' s i j (by omega) hi' hj' hs hi hj he).1
        omega
      · rw [inner.2, h1 s i j (by omega) hi hj]
        intro i' j' hi' hj' he
        exact e (hinj N i' j' s i j (by omega) hi' hj' hs hi hj he).1.symm
    · intro k hk
      rw [inner.2 k fun i j hi hj => hk N i j (by omega) hi hj, h2 k fun s i j hs hi hj => hk s i j (by omega) hi hj]

theorem atT_inj (tr : Bool) (A B : Nat) {s i j s' i' j' : Nat} (hi : i < opRow tr A B) (hj : j < opCol tr A B)
    (hi' : i' < opRow tr A B) (hj' : j' < opCol tr A B) (h : atT tr (s * (A * B)) B i j = atT tr (s' * (A * B)) B i' j') :
    s = s' ∧ i = i' ∧ j = j' := by
  have key : ∀ {i j i' j'}, i < A → j < B → i' < A → j' < B → at_ (s * (A * B)) B i j = at_ (s' * (A * B)) B i' j' → s = s' ∧ i = i' ∧ j = j' := by
    intro i j i' j' hi hj hi' hj' h
    have e : at_ 0 (A * B) s (i * B + j) = at_ 0 (A * B) s' (i' * B + j') := by unfold at_ at h ⊢; omega
    obtain ⟨e1, e2⟩ := at_inj (row_lt hi hj) (row_lt hi' hj') e
    obtain ⟨e3, e4⟩ := at_inj (p := 0) hj hj' (by unfold at_; omega : at_ 0 B i j = at_ 0 B i' j')
    exact ⟨e1, e3, e4⟩
  cases tr
  · exact key hi hj hi' hj' h
  · obtain ⟨e1, e2, e3⟩ := key hj hi hj' hi' h
    exact ⟨e1, e3, e2⟩

theorem atT_lt (tr : Bool) (N A B : Nat) {s i j : Nat} (hs : s < N) (hi : i < opRow tr A B) (hj : j < opCol tr A B) :
    atT tr (s * (A * B)) B i j < N * (A * B) := by
  cases tr
  · exact row_lt (Q := A * B) hs (row_lt hi hj)
  · exact row_lt (Q := A * B) hs (row_lt hj hi)

theorem sum_atT (tr : Bool) (N A B : Nat) (f : Nat → ℝ) : ∑ k ∈ Finset.range (N * (A * B)), f k =
    ∑ s ∈ Finset.range N, ∑ i ∈ Finset.range (opRow tr A B), ∑ j ∈ Finset.range (opCol tr A B), f (atT tr (s * (A * B)) B i j) := by
  rw [sum_range_mul]
  refine Finset.sum_congr rfl fun s _ => ?_
  rw [sum_range_mul]
  cases tr
  · rfl
  · exact Finset.sum_comm

theorem atT_cover (tr : Bool) (N A B k : Nat) (hk : k < N * (A * B)) :
    ∃ s i j, s < N ∧ i < opRow tr A B ∧ j < opCol tr A B ∧ k = atT tr (s * (A * B)) B i j := by
  have hpos : 0 < A * B := Nat.pos_of_ne_zero (by intro h; rw [h] at hk; simp at hk)
  have hB : 0 < B := Nat.pos_of_mul_pos_left hpos
  have h1 : k / (A * B) < N := Nat.div_lt_of_lt_mul (by rwa [Nat.mul_comm])
  have h2 : k % (A * B) < A * B := Nat.mod_lt _ hpos
  have h3 : k % (A * B) / B < A := Nat.div_lt_of_lt_mul (by rw [Nat.mul_comm B A]; exact h2)
  have h4 : k % (A * B) % B < B := Nat.mod_lt _ hB
  have e : k = k / (A * B) * (A * B) + (k % (A * B) / B * B + k % (A * B) % B) := by
    rw [Nat.mul_comm (k % (A * B) / B), Nat.div_add_mod, Nat.mul_comm, Nat.div_add_mod]
  cases tr
  · exact ⟨_, _, _, h1, h3, h4, e⟩
  · exact ⟨_, _, _, h1, h4, h3, e⟩

/-! ### The products -/

theorem bmmProd_spec (f : Bmm) (a b y : Mem ℝ) (s i j : Nat) (hs : s < prod f.batch) (hi : i < f.ry) (hj : j < f.cy) :
    bmmProd f a b y (at_ (s * (f.ry * f.cy)) f.cy i j) =
      ∑ k ∈ Finset.range f.red, a (atT f.ta (s * (f.ra * f.ca)) f.ca i k) * b (atT f.tb (s * (f.rb * f.cb)) f.cb k j) := by
  have h := (batch_spec (prod f.batch) f.ry f.cy (fun s => at_ (s * (f.ry * f.cy)) f.cy)
    (fun s i j old => (if false then old else 0) + ∑ k ∈ Finset.range f.red, a (atT f.ta (s * (f.ra * f.ca)) f.ca i k) * b (atT f.tb (s * (f.rb * f.cb)) f.cb k j)) y
    (fun s i j s' i' j' _ hi hj _ hi' hj' e => atT_inj false f.ry f.cy hi hj hi' hj' e)).1 s i j hs hi hj
  refine h.trans ?_
  simp

theorem bmmProdA_spec (f : Bmm) (acc : Bool) (b dy da : Mem ℝ) :
    (∀ s i k, s < prod f.batch → i < f.ry → k < f.red → bmmProdA f acc b dy da (atT f.ta (s * (f.ra * f.ca)) f.ca i k) =
      (if acc then da (atT f.ta (s * (f.ra * f.ca)) f.ca i k) else 0) +
      ∑ j ∈ Finset.range f.cy, dy (at_ (s * (f.ry * f.cy)) f.cy i j) * b (atT (!f.tb) (s * (f.rb * f.cb)) f.cb j k)) ∧
    ∀ k, prod f.batch * (f.ra * f.ca) ≤ k → bmmProdA f acc b dy da k = da k := by
  have h := batch_spec (prod f.batch) f.ry f.red (fun s => atT f.ta (s * (f.ra * f.ca)) f.ca)
    (fun s i k old => (if acc then old else 0) + ∑ j ∈ Finset.range f.cy, dy (at_ (s * (f.ry * f.cy)) f.cy i j) * b (atT (!f.tb) (s * (f.rb * f.cb)) f.cb j k)) da
    (fun s i j s' i' j' _ hi hj _ hi' hj' e => atT_inj f.ta f.ra f.ca hi hj hi' hj' e)
  refine ⟨h.1, fun k hk => h.2 k fun s i j hs hi hj e => ?_⟩
  have := atT_lt f.ta (prod f.batch) f.ra f.ca hs hi hj
  omega

theorem bmmProdB_spec (f : Bmm) (hred : f.red = opRow f.tb f.rb f.cb) (acc : Bool) (a dy db : Mem ℝ) :
    (∀ s k j, s < prod f.batch → k < f.red → j < f.cy → bmmProdB f acc a dy db (atT f.tb (s * (f.rb * f.cb)) f.cb k j) =
      (if acc then db (atT f.tb (s * (f.rb * f.cb)) f.cb k j) else 0) +
      ∑ i ∈ Finset.range f.ry, a (atT (!f.ta) (s * (f.ra * f.ca)) f.ca k i) * dy (at_ (s * (f.ry * f.cy)) f.cy i j)) ∧
    ∀ k, prod f.batch * (f.rb * f.cb) ≤ k → bmmProdB f acc a dy db k = db k := by
  have h := batch_spec (prod f.batch) f.red f.cy (fun s => atT f.tb (s * (f.rb * f.cb)) f.cb)
    (fun s k j old => (if acc then old else 0) + ∑ i ∈ Finset.range f.ry, a (atT (!f.ta) (s * (f.ra * f.ca)) f.ca k i) * dy (at_ (s * (f.ry * f.cy)) f.cy i j)) db
    (fun s i j s' i' j' _ hi hj _ hi' hj' e => atT_inj f.tb f.rb f.cb (hred ▸ hi) hj (hred ▸ hi') hj' e)
  refine ⟨h.1, fun k hk => h.2 k fun s i j hs hi hj e => ?_⟩
  have := atT_lt f.tb (prod f.batch) f.rb f.cb hs (hred ▸ hi) hj
  omega

theorem atT_not (tr : Bool) (p c i j : Nat) : atT (!tr) p c i j = atT tr p c j i := by cases tr <;> rfl

/-- The index set: sample, row, contracted index, column. -/
def bmmIdx (f : Bmm) : Finset (Nat × Nat × Nat × Nat) :=
  Finset.range (prod f.batch) ×ˢ Finset.range f.ry ×ˢ Finset.range f.red ×ˢ Finset.range f.cy

def bmmO (f : Bmm) (t : Nat × Nat × Nat × Nat) : Nat := at_ (t.1 * (f.ry * f.cy)) f.cy t.2.1 t.2.2.2
def bmmA (f : Bmm) (t : Nat × Nat × Nat × Nat) : Nat := atT f.ta (t.1 * (f.ra * f.ca)) f.ca t.2.1 t.2.2.1
def bmmB (f : Bmm) (t : Nat × Nat × Nat × Nat) : Nat := atT f.tb (t.1 * (f.rb * f.cb)) f.cb t.2.2.1 t.2.2.2

theorem bmm_tri (f : Bmm) (dy a b : Mem ℝ) : tri (bmmIdx f) (bmmO f) (bmmA f) (bmmB f) dy a b =
    ∑ s ∈ Finset.range (prod f.batch), ∑ i ∈ Finset.range f.ry, ∑ k ∈ Finset.range f.red, ∑ j ∈ Finset.range f.cy,
      dy (at_ (s * (f.ry * f.cy)) f.cy i j) * (a (atT f.ta (s * (f.ra * f.ca)) f.ca i k) * b (atT f.tb (s * (f.rb * f.cb)) f.cb k j)) := by
  rw [tri, bmmIdx, Finset.sum_product]
  refine Finset.sum_congr rfl fun s _ => ?_
  rw [Finset.sum_product]
  refine Finset.sum_congr rfl fun i _ => ?_
  rw [Finset.sum_product]
  rfl

theorem bmm_dotF (f : Bmm) (dy a b y : Mem ℝ) : dot (prod f.batch * (f.ry * f.cy)) dy (bmmProd f a b y) =
    tri (bmmIdx f) (bmmO f) (bmmA f) (bmmB f) dy a b := by
  rw [dot, sum_atT false, bmm_tri]
  refine Finset.sum_congr rfl fun s hs => Finset.sum_congr rfl fun i hi => ?_
  rw [Finset.sum_comm]
  refine Finset.sum_congr rfl fun j hj => ?_
  have := bmmProd_spec f a b y s i j (Finset.mem_range.mp hs) (Finset.mem_range.mp hi) (Finset.mem_range.mp hj)
  rw [show atT false (s * (f.ry * f.cy)) f.cy i j = at_ (s * (f.ry * f.cy)) f.cy i j from rfl, this, Finset.mul_sum]

theorem bmm_dotA (f : Bmm) (dy v b da : Mem ℝ) : dot (prod f.batch * (f.ra * f.ca)) v (bmmProdA f false b dy da) =
    tri (bmmIdx f) (bmmO f) (bmmA f) (bmmB f) dy v b := by
  rw [dot, sum_atT f.ta, bmm_tri]
  refine Finset.sum_congr rfl fun s hs => Finset.sum_congr rfl fun i hi => Finset.sum_congr rfl fun k hk => ?_
  rw [(bmmProdA_spec f false b dy da).1 s i k (Finset.mem_range.mp hs) (Finset.mem_range.mp hi) (Finset.mem_range.mp hk)]
  simp only [Bool.false_eq_true, if_false, zero_add, Finset.mul_sum]
  refine Finset.sum_congr rfl fun j _ => ?_
  rw [atT_not]; ring

theorem bmm_dotB (f : Bmm) (hred : f.red = opRow f.tb f.rb f.cb) (dy a v db : Mem ℝ) :
    dot (prod f.batch * (f.rb * f.cb)) v (bmmProdB f false a dy db) = tri (bmmIdx f) (bmmO f) (bmmA f) (bmmB f) dy a v := by
  rw [dot, sum_atT f.tb, bmm_tri]
  refine Finset.sum_congr rfl fun s hs => ?_
  rw [Finset.sum_comm (s := Finset.range f.ry), ← hred]
  refine Finset.sum_congr rfl fun k hk => ?_
  rw [Finset.sum_comm (s := Finset.range f.ry)]
  refine Finset.sum_congr rfl fun j hj => ?_
  rw [(bmmProdB_spec f hred false a dy db).1 s k j (Finset.mem_range.mp hs) (Finset.mem_range.mp hk) (Finset.mem_range.mp hj)]
  simp only [Bool.false_eq_true, if_false, zero_add, Finset.mul_sum]
  refine Finset.sum_congr rfl fun i _ => ?_
  rw [atT_not]; ring

end Verif.Elem
