import Verif.Elem.BatchMatmul
/-
C87, batch_matmul: shapes, result, gradients.
-/
namespace Verif.Elem
open Verif.Fn Verif.ND

/-! ### Specification -/

/-- O is the broadcast of the leading extents A and B: one of the two on every axis, and both can be stretched to it. -/
def BatchShape (A B O : Shape) : Prop :=
  A.length = B.length ∧ O.length = A.length ∧ CanBroadcast A O ∧ CanBroadcast B O ∧
    ∀ (d : Nat) x, O[d]? = some x → A[d]? = some x ∨ B[d]? = some x

/-- Element (i, k) of the matrix at leading index `l` of an array of shape L ++ [r, c], or of its transpose. -/
def matElem (tr : Bool) (L : Shape) (r c : Nat) (x : Mem ℝ) (l : List Nat) (i k : Nat) : ℝ :=
  if tr then x (ravel (L ++ [r, c]) (l ++ [k, i])) else x (ravel (L ++ [r, c]) (l ++ [i, k]))

/-! ### Setup -/

theorem canBroadcast_cons {a t : Nat} {A O : Shape} (hl : A.length = O.length) : CanBroadcast (a :: A) (t :: O) ↔ (a = t ∨ a = 1) ∧ CanBroadcast A O := by
  unfold CanBroadcast
  simp only [List.length_cons]
  have e : O.length + 1 - (A.length + 1) = 0 := by omega
  have e' : O.length - A.length = 0 := by omega
  rw [e, e']
  simp only [Nat.zero_add]
  constructor
  · rintro ⟨_, h⟩
    exact ⟨h 0 a t rfl rfl, by omega, fun d e t' h1 h2 => h (d + 1) e t' (by simpa using h1) (by simpa using h2)⟩
  · rintro ⟨h0, _, h⟩
    refine ⟨by omega, ?_⟩
    intro d e t' h1 h2
    cases d with
    | zero => simp at h1 h2; subst h1; subst h2; exact h0
    | succ d => exact h d e t' (by simpa using h1) (by simpa using h2)

theorem canBroadcast_nil : CanBroadcast [] [] := ⟨le_refl _, fun a e t h => by simp at h⟩

theorem bmmBatch_ok (A B : Shape) (hl : A.length = B.length) (O : Shape) (fa fb : Bool) (h : bmmBatch A B = .ok (O, fa, fb)) :
    BatchShape A B O ∧ (fa = false → A = O) ∧ (fb = false → B = O) := by
  induction A generalizing B O fa fb with
  | nil =>
    cases B with
    | nil =>
      simp only [bmmBatch, Except.ok.injEq, Prod.mk.injEq] at h
      obtain ⟨rfl, rfl, rfl⟩ := h
      exact ⟨⟨rfl, rfl, canBroadcast_nil, canBroadcast_nil, fun d x hx => by simp at hx⟩, fun _ => rfl, fun _ => rfl⟩
    | cons _ _ => cases hl
  | cons a A ih =>
    cases B with
    | nil => cases hl
    | cons b B =>
      have hl' : A.length = B.length := by simpa using hl
      simp only [bmmBatch] at h
      by_cases hc : a = b ∨ a = 1 ∨ b = 1
      swap
      · rw [if_neg hc] at h; cases h
      rw [if_pos hc] at h
      cases hr : bmmBatch A B with
      | error e => rw [hr] at h; cases h
      | ok p =>
        obtain ⟨o, ga, gb⟩ := p
        obtain ⟨⟨_, i2, i3, i4, i5⟩, i6, i7⟩ := ih B hl' o ga gb hr
        rw [hr] at h
        simp only at h
        have fin : ∀ t : Nat, (t = a ∨ t = b) → (a = t ∨ a = 1) → (b = t ∨ b = 1) → BatchShape (a :: A) (b :: B) (t :: o) := by
          intro t ht h1 h2
          refine ⟨by simp [hl'], by simp [i2], (canBroadcast_cons i2.symm).mpr ⟨h1, i3⟩, (canBroadcast_cons (hl' ▸ i2.symm)).mpr ⟨h2, i4⟩, ?_⟩
          intro d x hx
          cases d with
          | zero => simp at hx ⊢; rcases ht with rfl | rfl <;> simp [hx]
          | succ d => simpa using i5 d x (by simpa using hx)
        by_cases c1 : a ≠ 1 ∧ b = 1
        · rw [if_pos c1] at h
          simp only [Except.ok.injEq, Prod.mk.injEq] at h
          obtain ⟨rfl, rfl, rfl⟩ := h
          exact ⟨fin a (Or.inl rfl) (Or.inl rfl) (Or.inr c1.2), (fun e => by rw [i6 e]), fun e => by cases e⟩
        rw [if_neg c1] at h
        by_cases c2 : a = 1 ∧ b ≠ 1
        · rw [if_pos c2] at h
          simp only [Except.ok.injEq, Prod.mk.injEq] at h
          obtain ⟨rfl, rfl, rfl⟩ := h
          exact ⟨fin b (Or.inr rfl) (Or.inr c2.1) (Or.inl rfl), (fun e => by cases e), fun e => by rw [i7 e]⟩
        rw [if_neg c2] at h
        simp only [Except.ok.injEq, Prod.mk.injEq] at h
        obtain ⟨rfl, rfl, rfl⟩ := h
        have hab : a = b := by omega
        subst hab
        exact ⟨fin a (Or.inl rfl) (Or.inl rfl) (Or.inl rfl), fun e => by rw [i6 e], fun e => by rw [i7 e]⟩

theorem bmmBatch_total (A B O : Shape) (h : BatchShape A B O) : ∃ fa fb, bmmBatch A B = .ok (O, fa, fb) := by
  obtain ⟨h1, h2, h3, h4, h5⟩ := h
  induction A generalizing B O with
  | nil =>
    cases B with
    | nil => cases O with
      | nil => exact ⟨_, _, rfl⟩
      | cons _ _ => cases h2
    | cons _ _ => cases h1
  | cons a A ih =>
    cases B with
    | nil => cases h1
    | cons b B =>
      cases O with
      | nil => cases h2
      | cons t O =>
        have l1 : A.length = B.length := by simpa using h1
        have l2 : O.length = A.length := by simpa using h2
        obtain ⟨k1, k2⟩ := (canBroadcast_cons l2.symm).mp h3
        obtain ⟨k3, k4⟩ := (canBroadcast_cons (l1 ▸ l2.symm)).mp h4
        obtain ⟨fa, fb, hr⟩ := ih B O l1 l2 k2 k4 fun d x hx => by simpa using h5 (d + 1) x (by simpa using hx)
        have k5 : a = t ∨ b = t := by simpa using h5 0 t rfl
        simp only [bmmBatch, hr]
        have hc : a = b ∨ a = 1 ∨ b = 1 := by omega
        rw [if_pos hc]
        by_cases c1 : a ≠ 1 ∧ b = 1
        · rw [if_pos c1]; exact ⟨fa, true, by rw [show a = t by omega]⟩
        rw [if_neg c1]
        by_cases c2 : a = 1 ∧ b ≠ 1
        · rw [if_pos c2]; exact ⟨true, fb, by rw [show b = t by omega]⟩
        rw [if_neg c2]
        exact ⟨fa, fb, by rw [show a = t by omega]⟩

theorem exists_last2 (s : Shape) (h : 3 ≤ s.length) : ∃ A r c, s = A ++ [r, c] ∧ A ≠ [] := by
  refine ⟨s.take (s.length - 2), s[s.length - 2], s[s.length - 1], ?_, ?_⟩
  · apply List.ext_getElem
    · simp; omega
    · intro i h1 h2
      by_cases hi : i < s.length - 2
      · rw [List.getElem_append_left (by simp; omega)]; simp
      · rw [List.getElem_append_right (by simp; omega)]
        simp only [List.length_take]
        have : i = s.length - 2 ∨ i = s.length - 1 := by omega
        rcases this with rfl | rfl
        · simp
        · have e : s.length - 1 - min (s.length - 2) s.length = 1 := by omega
          simp only [e]; rfl
  · intro e
    have := congrArg List.length e
    simp at this; omega

theorem getD_last2 (A : Shape) (r c : Nat) : (A ++ [r, c]).getD ((A ++ [r, c]).length - 2) 0 = r ∧ (A ++ [r, c]).getD ((A ++ [r, c]).length - 1) 0 = c ∧
    (A ++ [r, c]).take ((A ++ [r, c]).length - 2) = A := by
  have e : (A ++ [r, c]).length - 2 = A.length := by simp
  have e' : (A ++ [r, c]).length - 1 = A.length + 1 := by simp
  refine ⟨?_, ?_, ?_⟩
  · rw [e]; simp
  · rw [e']; simp
  · rw [e]; simp

/-- **C87.** batch_matmul accepts exactly arrays A ++ [ra, ca], B ++ [rb, cb] with equally many (at least one) leading axes that
broadcast against each other and matching contracted extents after the requested transpositions; the result has shape
O ++ [rows of the left operand, columns of the right operand]. -/
theorem C87_bmm_setup (ta tb : Bool) (sa sb out : Shape) :
    (∃ f, bmmSetup ta tb sa sb = .ok (f, out)) ↔ ∃ A B O ra ca rb cb, sa = A ++ [ra, ca] ∧ sb = B ++ [rb, cb] ∧ A ≠ [] ∧ BatchShape A B O ∧
      (if ta then ra else ca) = (if tb then cb else rb) ∧ out = O ++ [if ta then ca else ra, if tb then rb else cb] := by
  constructor
  · rintro ⟨f, h⟩
    unfold bmmSetup at h
    by_cases ha : sa.length < 3
    · rw [if_pos ha] at h; cases h
    rw [if_neg ha] at h
    by_cases hb : sb.length < 3
    · rw [if_pos hb] at h; cases h
    rw [if_neg hb] at h
    obtain ⟨A, ra, ca, rfl, hA⟩ := exists_last2 sa (by omega)
    obtain ⟨B, rb, cb, rfl, hB⟩ := exists_last2 sb (by omega)
    obtain ⟨g1, g2, g3⟩ := getD_last2 A ra ca
    obtain ⟨g4, g5, g6⟩ := getD_last2 B rb cb
    simp only [g1, g2, g3, g4, g5, g6] at h
    by_cases hr : (A ++ [ra, ca]).getD ((A ++ [ra, ca]).length - (if ta then 2 else 1)) 0 = (B ++ [rb, cb]).getD ((B ++ [rb, cb]).length - (if tb then 1 else 2)) 0
    swap
    · rw [if_pos hr] at h; cases h
    rw [if_neg (not_not.mpr hr)] at h
    by_cases hl : (A ++ [ra, ca]).length = (B ++ [rb, cb]).length
    swap
    · rw [if_pos hl] at h; cases h
    rw [if_neg (not_not.mpr hl)] at h
    have hl' : A.length = B.length := by simpa using hl
    cases hm : bmmBatch A B with
    | error e => rw [hm] at h; cases h
    | ok p =>
      obtain ⟨o, fa, fb⟩ := p
      rw [hm] at h
      simp only [Except.ok.injEq, Prod.mk.injEq] at h
      refine ⟨A, B, o, ra, ca, rb, cb, rfl, rfl, hA, (bmmBatch_ok A B hl' o fa fb hm).1, ?_, h.2.symm⟩
      cases ta <;> cases tb <;> simp only [if_true, if_false, Bool.false_eq_true, g1, g2, g4, g5] at hr ⊢ <;> exact hr
  · rintro ⟨A, B, O, ra, ca, rb, cb, rfl, rfl, hA, hO, hr, rfl⟩
    obtain ⟨fa, fb, hm⟩ := bmmBatch_total A B O hO
    obtain ⟨g1, g2, g3⟩ := getD_last2 A ra ca
    obtain ⟨g4, g5, g6⟩ := getD_last2 B rb cb
    have hAl : 0 < A.length := List.length_pos_of_ne_nil hA
    have hl : A.length = B.length := hO.1
    refine ⟨⟨ta, tb, ra, ca, rb, cb, O, fa, fb⟩, ?_⟩
    unfold bmmSetup
    rw [if_neg (by simp; omega), if_neg (by simp; omega)]
    simp only [g1, g2, g3, g4, g5, g6]
    rw [if_neg, if_neg (by simp [hl]), hm]
    rw [not_not]
    cases ta <;> cases tb <;> simp only [if_true, if_false, Bool.false_eq_true, g1, g2, g4, g5] at hr ⊢ <;> exact hr

/-- What setup leaves in the members. -/
theorem bmmSetup_members (ta tb : Bool) (A B : Shape) (ra ca rb cb : Nat) (f : Bmm) (out : Shape)
    (h : bmmSetup ta tb (A ++ [ra, ca]) (B ++ [rb, cb]) = .ok (f, out)) :
    f.ta = ta ∧ f.tb = tb ∧ f.ra = ra ∧ f.ca = ca ∧ f.rb = rb ∧ f.cb = cb ∧ BatchShape A B f.batch ∧ out = f.batch ++ [f.ry, f.cy] ∧
      f.red = opRow f.tb f.rb f.cb ∧ (f.fa = false → A = f.batch) ∧ (f.fb = false → B = f.batch) := by
  unfold bmmSetup at h
  split at h
  · cases h
  split at h
  · cases h
  obtain ⟨g1, g2, g3⟩ := getD_last2 A ra ca
  obtain ⟨g4, g5, g6⟩ := getD_last2 B rb cb
  simp only [g1, g2, g3, g4, g5, g6] at h
  by_cases hr : (A ++ [ra, ca]).getD ((A ++ [ra, ca]).length - (if ta then 2 else 1)) 0 = (B ++ [rb, cb]).getD ((B ++ [rb, cb]).length - (if tb then 1 else 2)) 0
  swap
  · rw [if_pos hr] at h; cases h
  rw [if_neg (not_not.mpr hr)] at h
  by_cases hl : (A ++ [ra, ca]).length = (B ++ [rb, cb]).length
  swap
  · rw [if_pos hl] at h; cases h
  rw [if_neg (not_not.mpr hl)] at h
  have hl' : A.length = B.length := by simpa using hl
  cases hm : bmmBatch A B with
  | error e => rw [hm] at h; cases h
  | ok p =>
    obtain ⟨o, fa, fb⟩ := p
    rw [hm] at h
    simp only [Except.ok.injEq, Prod.mk.injEq] at h
    obtain ⟨rfl, rfl⟩ := h
    obtain ⟨k1, k2, k3⟩ := bmmBatch_ok A B hl' o fa fb hm
    refine ⟨rfl, rfl, rfl, rfl, rfl, rfl, k1, rfl, ?_, k2, k3⟩
    simp only [Bmm.red, opCol, opRow]
    cases ta <;> cases tb <;> simp only [if_true, if_false, Bool.false_eq_true, g1, g2, g4, g5] at hr ⊢ <;> exact hr

/-! ### Broadcasting the operands -/

theorem canBroadcast_append (A O : Shape) (hl : A.length = O.length) (h : CanBroadcast A O) (T : Shape) : CanBroadcast (A ++ T) (O ++ T) := by
  refine ⟨by simp [hl], ?_⟩
  have e : (O ++ T).length - (A ++ T).length = 0 := by simp [hl]
  rw [e]
  intro a x t h1 h2
  rw [Nat.zero_add] at h2
  have h' := h.2 a
  rw [show O.length - A.length = 0 by omega, Nat.zero_add] at h'
  by_cases ha : a < A.length
  · rw [List.getElem?_append_left ha] at h1
    rw [List.getElem?_append_left (by omega)] at h2
    exact h' x t h1 h2
  · rw [List.getElem?_append_right (by omega)] at h1 h2
    rw [hl] at h1
    left
    rw [h1] at h2
    exact Option.some.inj h2

theorem bcIndex_self (A : Shape) (o : List Nat) (h : InBounds A o) : bcIndex A A o = o := by
  rw [bcIndex, Nat.sub_self, List.drop_zero]
  induction A generalizing o with
  | nil => cases o with
    | nil => rfl
    | cons _ _ => cases h
  | cons d A ih => cases o with
    | nil => cases h
    | cons x o =>
      simp only [List.zip_cons_cons, List.map_cons, ih o h.2]
      have := h.1
      split <;> simp <;> omega

theorem exists_index (s : Shape) (k : Nat) (h : k < prod s) : ∃ j, InBounds s j ∧ ravel s j = k := by
  have : k ∈ (indices s).map (ravel s) := by rw [indices_ravel]; exact List.mem_range.mpr h
  obtain ⟨j, hj, e⟩ := List.mem_map.mp this
  exact ⟨j, (mem_indices _ _).mp hj, e⟩

/-- An operand seen through the (possible) broadcast: forward gathers, backward is its transpose and accumulates. -/
theorem bmm_view (A O : Shape) (r c : Nat) (hl : O.length = A.length) (hA : CanBroadcast A O) (fl : Bool) (hfl : fl = false → A = O) :
    ∃ (fw : Mem ℝ → Mem ℝ → Mem ℝ) (bw : Bool → Mem ℝ → Mem ℝ → Mem ℝ) (ga : Nat → Nat),
      (∀ x buf, bmmBroadcast fl (A ++ [r, c]) (O ++ [r, c]) x buf = .ok (fw x buf)) ∧
      (fl = true → ∀ acc dy dx, bcBackward (A ++ [r, c]) (O ++ [r, c]) acc dy dx = .ok (bw acc dy dx)) ∧
      (∀ x buf k, k < prod (O ++ [r, c]) → fw x buf k = x (ga k)) ∧
      (∀ k, k < prod (O ++ [r, c]) → ga k < prod (A ++ [r, c])) ∧
      (∀ o i k, InBounds O o → i < r → k < c → InBounds A (bcIndex A O o) ∧
        ga (ravel (O ++ [r, c]) (o ++ [i, k])) = ravel (A ++ [r, c]) (bcIndex A O o ++ [i, k])) ∧
      (fl = true → (∀ dy dx v, dot (prod (A ++ [r, c])) v (bw false dy dx) = dot (prod (O ++ [r, c])) (fun k => v (ga k)) dy) ∧
        ∀ dy dx dx' k, bw true dy dx k = dx k + bw false dy dx' k) := by
  have hB := canBroadcast_append A O hl.symm hA [r, c]
  have hidx : ∀ o i k, InBounds O o → i < r → k < c → bcIndex (A ++ [r, c]) (O ++ [r, c]) (o ++ [i, k]) = bcIndex A O o ++ [i, k] := by
    intro o i k ho hi hk
    have e1 : (O ++ [r, c]).length - (A ++ [r, c]).length = 0 := by simp [hl]
    have e2 : O.length - A.length = 0 := by omega
    rw [bcIndex, bcIndex, e1, e2, List.drop_zero, List.drop_zero, List.zip_append (by rw [ho.length, hl]), List.map_append]
    congr 1
    simp only [List.zip_cons_cons, List.zip_nil_right, List.map_cons, List.map_nil]
    have : (if r = 1 then 0 else i) = i := by split <;> omega
    rw [this]
    have : (if c = 1 then 0 else k) = k := by split <;> omega
    rw [this]
  have hbound : ∀ o, InBounds O o → InBounds A (bcIndex A O o) := fun o ho => by
    obtain ⟨st, _, h2⟩ := bc_gathers A O hA
    exact h2.bound o ho
  have hin : ∀ o i k, InBounds O o → i < r → k < c → InBounds (O ++ [r, c]) (o ++ [i, k]) := fun o i k ho hi hk =>
    (inBounds_append _ _ _ _ ho.length).mpr ⟨ho, hi, hk, trivial⟩
  cases fl with
  | false =>
    have := hfl rfl
    subst this
    refine ⟨fun x _ => x, fun _ dy _ => dy, id, fun x buf => rfl, fun h => (by cases h), fun _ _ _ _ => rfl, fun k hk => hk, ?_, fun h => (by cases h)⟩
    intro o i k ho hi hk
    exact ⟨hbound o ho, by rw [bcIndex_self A o ho]; rfl⟩
  | true =>
    obtain ⟨st, h1, h2⟩ := bc_gathers (A ++ [r, c]) (O ++ [r, c]) hB
    refine ⟨fwd (bcPairs st (O ++ [r, c])), fun a dy dx => bwdAdd (bcPairs st (O ++ [r, c])) dy (if a then dx else zeros),
      fun k => ravel (A ++ [r, c]) (bcIndex (A ++ [r, c]) (O ++ [r, c]) (flat2nd k (cStrides (O ++ [r, c])))), ?_, ?_, ?_, ?_, ?_, ?_⟩
    · intro x buf; rw [bmmBroadcast, if_pos rfl, bcForward, h1]
    · intro _ acc dy dx; rw [bcBackward, h1]
    · intro x buf k hk
      obtain ⟨j, hj, rfl⟩ := exists_index _ k hk
      simp only [h2.forward x buf j hj, flat2nd_ravel _ j hj]
    · intro k hk
      obtain ⟨j, hj, rfl⟩ := exists_index _ k hk
      simp only [flat2nd_ravel _ j hj]
      exact ravel_lt (h2.bound j hj)
    · intro o i k ho hi hk
      refine ⟨hbound o ho, ?_⟩
      simp only [flat2nd_ravel _ _ (hin o i k ho hi hk), hidx o i k ho hi hk]
    · intro _
      refine ⟨?_, ?_⟩
      · intro dy dx v
        have := h2.adjoint (R := ℝ) zeros v dy
        simp only [Bool.false_eq_true, if_false]
        rw [show dot (prod (A ++ [r, c])) v (bwdAdd (bcPairs st (O ++ [r, c])) dy zeros) =
          dot (prod (A ++ [r, c])) (bwdAdd (bcPairs st (O ++ [r, c])) dy zeros) v from dot_congr fun i _ => mul_comm _ _, ← this]
        refine dot_congr fun k hk => ?_
        obtain ⟨j, hj, rfl⟩ := exists_index _ k hk
        simp only [h2.forward v zeros j hj, flat2nd_ravel _ j hj]
        exact mul_comm _ _
      · intro dy dx dx' k
        simp only [if_true, Bool.false_eq_true, if_false]
        exact bwdAdd_accum _ dy dx k

/-! ### Result and gradients -/

/-- **C87.** What batch_matmul computes: for every leading index o of the result, the product of the (possibly transposed)
matrices of a and b found there by the broadcasting rule. -/
theorem C87_bmm (ta tb : Bool) (A B : Shape) (ra ca rb cb : Nat) (f : Bmm) (out : Shape)
    (h : bmmSetup ta tb (A ++ [ra, ca]) (B ++ [rb, cb]) = .ok (f, out)) (bufa bufb a b y : Mem ℝ) :
    ∃ O r, bmmForward f (A ++ [ra, ca]) (B ++ [rb, cb]) bufa bufb a b y = .ok r ∧ BatchShape A B O ∧
      out = O ++ [if ta then ca else ra, if tb then rb else cb] ∧
      ∀ o i j, InBounds O o → i < (if ta then ca else ra) → j < (if tb then rb else cb) → InBounds A (bcIndex A O o) ∧ InBounds B (bcIndex B O o) ∧
        r (ravel out (o ++ [i, j])) = ∑ k ∈ Finset.range (if ta then ra else ca),
          matElem ta A ra ca a (bcIndex A O o) i k * matElem tb B rb cb b (bcIndex B O o) k j := by
  obtain ⟨rfl, rfl, rfl, rfl, rfl, rfl, hO, rfl, hred, hfa, hfb⟩ := bmmSetup_members ta tb A B ra ca rb cb f out h
  have ⟨hl1, hl2, hcA, hcB, _⟩ := hO
  obtain ⟨fwA, bwA, ga, a1, a2, a3, a4, a5, a6⟩ := bmm_view A f.batch f.ra f.ca hl2 hcA f.fa hfa
  obtain ⟨fwB, bwB, gb, b1, b2, b3, b4, b5, b6⟩ := bmm_view B f.batch f.rb f.cb (hl2.trans hl1) hcB f.fb hfb
  refine ⟨f.batch, bmmProd f (fwA a bufa) (fwB b bufb) y, ?_, hO, rfl, ?_⟩
  · rw [bmmForward, a1]
    simp only
    rw [b1]
  · intro o i j ho hi hj
    have hs := ravel_lt ho
    have e : ravel (f.batch ++ [f.ry, f.cy]) (o ++ [i, j]) = at_ (ravel f.batch o * (f.ry * f.cy)) f.cy i j := by
      rw [ravel_append _ _ _ _ ho.length]; simp [prod, ravel, at_]
    have offA : ∀ i k, ravel (f.batch ++ [f.ra, f.ca]) (o ++ [i, k]) = at_ (ravel f.batch o * (f.ra * f.ca)) f.ca i k := fun i k => by
      rw [ravel_append _ _ _ _ ho.length]; simp [prod, ravel, at_]
    have offB : ∀ i k, ravel (f.batch ++ [f.rb, f.cb]) (o ++ [i, k]) = at_ (ravel f.batch o * (f.rb * f.cb)) f.cb i k := fun i k => by
      rw [ravel_append _ _ _ _ ho.length]; simp [prod, ravel, at_]
    have inA : ∀ i k, i < f.ra → k < f.ca → ravel (f.batch ++ [f.ra, f.ca]) (o ++ [i, k]) < prod (f.batch ++ [f.ra, f.ca]) := fun i k hi hk =>
      ravel_lt ((inBounds_append _ _ _ _ ho.length).mpr ⟨ho, hi, hk, trivial⟩)
    have inB : ∀ i k, i < f.rb → k < f.cb → ravel (f.batch ++ [f.rb, f.cb]) (o ++ [i, k]) < prod (f.batch ++ [f.rb, f.cb]) := fun i k hi hk =>
      ravel_lt ((inBounds_append _ _ _ _ ho.length).mpr ⟨ho, hi, hk, trivial⟩)
    have vA : ∀ i k, i < f.ra → k < f.ca → fwA a bufa (at_ (ravel f.batch o * (f.ra * f.ca)) f.ca i k) = a (ravel (A ++ [f.ra, f.ca]) (bcIndex A f.batch o ++ [i, k])) := by
      intro i k hi hk
      rw [← offA, a3 _ _ _ (inA i k hi hk), (a5 o i k ho hi hk).2]
    have vB : ∀ i k, i < f.rb → k < f.cb → fwB b bufb (at_ (ravel f.batch o * (f.rb * f.cb)) f.cb i k) = b (ravel (B ++ [f.rb, f.cb]) (bcIndex B f.batch o ++ [i, k])) := by
      intro i k hi hk
      rw [← offB, b3 _ _ _ (inB i k hi hk), (b5 o i k ho hi hk).2]
    have hbA : InBounds A (bcIndex A f.batch o) := by
      obtain ⟨st, _, h2⟩ := bc_gathers A f.batch hcA
      exact h2.bound o ho
    have hbB : InBounds B (bcIndex B f.batch o) := by
      obtain ⟨st, _, h2⟩ := bc_gathers B f.batch hcB
      exact h2.bound o ho
    refine ⟨hbA, hbB, ?_⟩
    have hi' : i < f.ry := hi
    have hj' : j < f.cy := hj
    rw [e, bmmProd_spec f _ _ y _ i j hs hi' hj']
    refine Finset.sum_congr rfl fun k hk => ?_
    have hk : k < f.red := Finset.mem_range.mp hk
    have hk' : k < opRow f.tb f.rb f.cb := hred ▸ hk
    congr 1
    · unfold matElem atT
      cases ht : f.ta
      · simp only [Bool.false_eq_true, if_false]
        refine vA i k ?_ ?_
        · simpa [Bmm.ry, opRow, ht] using hi'
        · simpa [Bmm.red, opCol, ht] using hk
      · simp only [if_true]
        refine vA k i ?_ ?_
        · simpa [Bmm.red, opCol, ht] using hk
        · simpa [Bmm.ry, opRow, ht] using hi'
    · unfold matElem atT
      cases ht : f.tb
      · simp only [Bool.false_eq_true, if_false]
        refine vB k j ?_ ?_
        · simpa [opRow, ht] using hk'
        · simpa [Bmm.cy, opCol, ht] using hj'
      · simp only [if_true]
        refine vB j k ?_ ?_
        · simpa [Bmm.cy, opCol, ht] using hj'
        · simpa [opRow, ht] using hk'

/-- **C87.** Backward of batch_matmul computes the vector-Jacobian product with respect to both inputs, with any transpositions
and any broadcasting, whatever the gradient and temporary buffers held; with accumulation it adds to the old gradient. -/
theorem C87_bmm_grad (ta tb : Bool) (A B : Shape) (ra ca rb cb : Nat) (f : Bmm) (out : Shape)
    (h : bmmSetup ta tb (A ++ [ra, ca]) (B ++ [rb, cb]) = .ok (f, out)) (bufa bufb bufg a b y : Mem ℝ) :
    ∃ (F : Mem ℝ → Mem ℝ → Mem ℝ) (GA GB : Bool → Mem ℝ → Mem ℝ → Mem ℝ),
      (∀ a b, bmmForward f (A ++ [ra, ca]) (B ++ [rb, cb]) bufa bufb a b y = .ok (F a b)) ∧
      (∀ acc dy da, bmmBackwardA f (A ++ [ra, ca]) (B ++ [rb, cb]) bufg bufb b acc dy da = .ok (GA acc dy da)) ∧
      (∀ acc dy db, bmmBackwardB f (A ++ [ra, ca]) (B ++ [rb, cb]) bufg bufa a acc dy db = .ok (GB acc dy db)) ∧
      (∀ da db, IsVJP2 (prod (A ++ [ra, ca])) (prod (B ++ [rb, cb])) (prod out) F a b (fun dy => GA false dy da) (fun dy => GB false dy db)) ∧
      (∀ dy da da' k, k < prod (A ++ [ra, ca]) → GA true dy da k = da k + GA false dy da' k) ∧
      ∀ dy db db' k, k < prod (B ++ [rb, cb]) → GB true dy db k = db k + GB false dy db' k := by
  obtain ⟨rfl, rfl, rfl, rfl, rfl, rfl, hO, rfl, hred, hfa, hfb⟩ := bmmSetup_members ta tb A B ra ca rb cb f out h
  have ⟨hl1, hl2, hcA, hcB, _⟩ := hO
  obtain ⟨fwA, bwA, ga, a1, a2, a3, a4, a5, a6⟩ := bmm_view A f.batch f.ra f.ca hl2 hcA f.fa hfa
  obtain ⟨fwB, bwB, gb, b1, b2, b3, b4, b5, b6⟩ := bmm_view B f.batch f.rb f.cb (hl2.trans hl1) hcB f.fb hfb
  have pA : prod (f.batch ++ [f.ra, f.ca]) = prod f.batch * (f.ra * f.ca) := by rw [prod_append]; simp [prod]
  have pB : prod (f.batch ++ [f.rb, f.cb]) = prod f.batch * (f.rb * f.cb) := by rw [prod_append]; simp [prod]
  have pO : prod (f.batch ++ [f.ry, f.cy]) = prod f.batch * (f.ry * f.cy) := by rw [prod_append]; simp [prod]
  have mem : ∀ t ∈ bmmIdx f, bmmA f t < prod (f.batch ++ [f.ra, f.ca]) ∧ bmmB f t < prod (f.batch ++ [f.rb, f.cb]) := by
    intro t ht
    simp only [bmmIdx, Finset.mem_product, Finset.mem_range] at ht
    rw [pA, pB]
    exact ⟨atT_lt f.ta _ f.ra f.ca ht.1 ht.2.1 ht.2.2.1, atT_lt f.tb _ f.rb f.cb ht.1 (hred ▸ ht.2.2.1) ht.2.2.2⟩
  -- the operands only matter through the gathers
  have triA : ∀ dy a b buf, tri (bmmIdx f) (bmmO f) (bmmA f) (bmmB f) dy (fwA a buf) b =
      tri (bmmIdx f) (bmmO f) (fun t => ga (bmmA f t)) (bmmB f) dy a b := by
    intro dy a b buf
    refine Finset.sum_congr rfl fun t ht => ?_
    rw [a3 _ _ _ (mem t ht).1]
  have triA' : ∀ dy a b, tri (bmmIdx f) (bmmO f) (bmmA f) (bmmB f) dy (fun k => a (ga k)) b =
      tri (bmmIdx f) (bmmO f) (fun t => ga (bmmA f t)) (bmmB f) dy a b := fun _ _ _ => rfl
  have triB : ∀ (ia : Nat × Nat × Nat × Nat → Nat) dy a b buf, tri (bmmIdx f) (bmmO f) ia (bmmB f) dy a (fwB b buf) =
      tri (bmmIdx f) (bmmO f) ia (fun t => gb (bmmB f t)) dy a b := by
    intro ia dy a b buf
    refine Finset.sum_congr rfl fun t ht => ?_
    rw [b3 _ _ _ (mem t ht).2]
  refine ⟨fun a b => bmmProd f (fwA a bufa) (fwB b bufb) y,
    fun acc dy da => if f.fa then bwA acc (bmmProdA f (acc && !f.fa) (fwB b bufb) dy bufg) da else bmmProdA f (acc && !f.fa) (fwB b bufb) dy da,
    fun acc dy db => if f.fb then bwB acc (bmmProdB f (acc && !f.fb) (fwA a bufa) dy bufg) db else bmmProdB f (acc && !f.fb) (fwA a bufa) dy db,
    ?_, ?_, ?_, ?_, ?_, ?_⟩
  · intro a b
    rw [bmmForward, a1]
    simp only
    rw [b1]
  · intro acc dy da
    rw [bmmBackwardA, b1]
    simp only
    cases hf : f.fa
    · simp
    · simp only [if_true]; exact a2 hf _ _ _
  · intro acc dy db
    rw [bmmBackwardB, a1]
    simp only
    cases hf : f.fb
    · simp
    · simp only [if_true]; exact b2 hf _ _ _
  · intro da db
    refine vjp2_of_tri (bmmIdx f) (bmmO f) (fun t => ga (bmmA f t)) (fun t => gb (bmmB f t)) _ _ _
      (fun t ht => a4 _ (mem t ht).1) (fun t ht => b4 _ (mem t ht).2) _ a b _ _ ?_ ?_ ?_
    · intro dy a b
      rw [pO, bmm_dotF, triA, triB]
    · intro dy v
      cases hf : f.fa
      · have := hfa hf
        simp only [Bool.false_eq_true, if_false]
        have hid : ∀ x buf k, k < prod (f.batch ++ [f.ra, f.ca]) → fwA x buf k = x k := by
          intro x buf k _
          have := a1 x buf
          rw [hf, bmmBroadcast, if_neg (by simp)] at this
          injection this with this
          rw [← this]
        rw [this, pA, Bool.false_and, bmm_dotA, triB, ← triB _ dy v b bufb]
        rw [← triB _ dy v b bufb, ← triA dy v _ bufa]
        refine Finset.sum_congr rfl fun t ht => ?_
        rw [hid _ _ _ (mem t ht).1]
      · simp only [if_true]
        rw [(a6 hf).1, pA, Bool.false_and, bmm_dotA, triA', triB]
    · intro dy v
      cases hf : f.fb
      · have := hfb hf
        simp only [Bool.false_eq_true, if_false]
        have hid : ∀ x buf k, k < prod (f.batch ++ [f.rb, f.cb]) → fwB x buf k = x k := by
          intro x buf k _
          have := b1 x buf
          rw [hf, bmmBroadcast, if_neg (by simp)] at this
          injection this with this
          rw [← this]
        rw [this, pB, Bool.false_and, bmm_dotB f hred, triA]
        rw [← triB _ dy a v bufb]
        refine Finset.sum_congr rfl fun t ht => ?_
        rw [hid _ _ _ (mem t ht).2]
      · simp only [if_true]
        rw [(b6 hf).1, pB, Bool.false_and, bmm_dotB f hred, triA]
        rfl
  · intro dy da da' k hk
    cases hf : f.fa
    · have := hfa hf
      simp only [Bool.false_eq_true, if_false, Bool.not_false, Bool.and_true]
      rw [this, pA] at hk
      obtain ⟨s, i, j, hs, hi, hj, rfl⟩ := atT_cover f.ta _ _ _ _ hk
      rw [(bmmProdA_spec f true _ dy da).1 s i j hs hi hj, (bmmProdA_spec f false _ dy da').1 s i j hs hi hj]
      simp
    · simp only [if_true, Bool.not_true, Bool.and_false]
      exact (a6 hf).2 _ da da' k
  · intro dy db db' k hk
    cases hf : f.fb
    · have := hfb hf
      simp only [Bool.false_eq_true, if_false, Bool.not_false, Bool.and_true]
      rw [this, pB] at hk
      obtain ⟨s, i, j, hs, hi, hj, rfl⟩ := atT_cover f.tb _ _ _ _ hk
      have hi' : i < f.red := hred ▸ hi
      rw [(bmmProdB_spec f hred true _ dy db).1 s i j hs hi' hj, (bmmProdB_spec f hred false _ dy db').1 s i j hs hi' hj]
      simp
    · simp only [if_true, Bool.not_true, Bool.and_false]
      exact (b6 hf).2 _ db db' k

example : bmmSetup true false [2, 1, 4, 3] [1, 5, 4, 6] = .ok (⟨true, false, 4, 3, 4, 6, [2, 5], true, true⟩, [2, 5, 3, 6]) := by decide
example : bmmSetup false true [2, 3, 4] [2, 5, 4] = .ok (⟨false, true, 3, 4, 5, 4, [2], false, false⟩, [2, 3, 5]) := by decide
example : bmmSetup false false [2, 3, 4] [3, 4, 5] = .error "The following condition must hold" := by decide

end Verif.Elem
