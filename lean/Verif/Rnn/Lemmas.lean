import Verif.Rnn.Model
import Mathlib.Tactic.Ring
import Mathlib.Tactic.Linarith
/-! # Lemmas about the loops of rnn.hpp -/

namespace Verif.Rnn

variable {α : Type}

/-! ## Counting -/

theorem countP_decr (l : List Int) (c : Int) :
    (decr l).countP (fun x => decide (c < x)) = l.countP (fun x => decide (c + 1 < x)) := by
  unfold decr
  rw [List.countP_map]
  apply List.countP_congr
  intro x _
  simp only [Function.comp_apply, decide_eq_true_eq]
  omega

theorem countLoop_spec (l : List Int) (i : Nat) (out : Mem Nat) (k : Nat) :
    countLoop l i out k =
      if i ≤ k ∧ l.countP (fun x => decide (((k : Int) - i) < x)) ≠ 0
      then l.countP (fun x => decide (((k : Int) - i) < x)) else out k := by
  fun_induction countLoop l i out with
  | case1 l i out h =>
    rw [if_neg]
    rintro ⟨h1, h2⟩
    apply h2
    rw [List.countP_eq_zero] at h ⊢
    intro x hx
    have := h x hx
    simp only [decide_eq_true_eq] at this ⊢
    omega
  | case2 l i out h ih =>
    rw [ih, countP_decr]
    have e : ((k : Int) - ((i + 1 : Nat) : Int) + 1) = (k : Int) - i := by push_cast; ring
    rw [e]
    by_cases hk : k = i
    · subst hk
      rw [if_neg (by omega)]
      simp only [Int.sub_self, le_refl, true_and, upd, if_true]
      rw [if_pos h]
    · have hu : upd out i (l.countP (fun x => decide (0 < x))) k = out k := by simp [upd, hk]
      rw [hu]
      by_cases h1 : i + 1 ≤ k
      · have h2 : i ≤ k := by omega
        simp only [h1, h2, true_and]
      · have h2 : ¬ i ≤ k := by omega
        simp only [h1, h2, false_and, if_false]

/-- Number of entries above `t`. -/
def above (l : List Nat) (t : Nat) : Nat := l.countP (fun x => decide (t < x))

theorem countLoop_nat (l : List Nat) (out : Mem Nat) (k : Nat) :
    countLoop (l.map Int.ofNat) 0 out k = if above l k ≠ 0 then above l k else out k := by
  rw [countLoop_spec]
  have e : (l.map Int.ofNat).countP (fun x => decide (((k : Int) - (0 : Nat)) < x)) = above l k := by
    unfold above
    rw [List.countP_map]
    apply List.countP_congr
    intro x _
    simp
  rw [e]
  simp

theorem above_pos_iff (l : List Nat) (t : Nat) : above l t ≠ 0 ↔ ∃ x ∈ l, t < x := by
  unfold above
  rw [← Nat.pos_iff_ne_zero, List.countP_pos_iff]
  simp

/-- In a decreasing list, the entries above `t` come first. -/
theorem lt_above_iff {l : List Nat} (hs : l.Pairwise (· ≥ ·)) (t b : Nat) :
    b < above l t ↔ t < l.getD b 0 := by
  induction l generalizing b with
  | nil => simp [above]
  | cons a l ih =>
    obtain ⟨h1, h2⟩ := List.pairwise_cons.1 hs
    by_cases ha : t < a
    · have e : above (a :: l) t = above l t + 1 := by
        unfold above; rw [List.countP_cons_of_pos (by simpa using ha)]
      rw [e]
      cases b with
      | zero => simp [ha]
      | succ b => simp only [List.getD_cons_succ]; rw [← ih h2 b]; omega
    · have e : above (a :: l) t = 0 := by
        unfold above
        rw [List.countP_eq_zero]
        intro x hx
        simp only [decide_eq_true_eq]
        rcases List.mem_cons.1 hx with rfl | hx
        · exact ha
        · have := h1 x hx; omega
      rw [e]
      simp only [Nat.not_lt_zero, false_iff]
      intro hc
      cases b with
      | zero => simp at hc; omega
      | succ b =>
        simp only [List.getD_cons_succ] at hc
        rw [← ih h2 b] at hc
        have hne : above l t ≠ 0 := by omega
        obtain ⟨x, hx, hxt⟩ := (above_pos_iff l t).1 hne
        have := h1 x hx; omega

theorem above_le_length (l : List Nat) (t : Nat) : above l t ≤ l.length := List.countP_le_length

/-- Counting the `t < T` below a bound. -/
theorem countP_range_lt (T c : Nat) (h : c ≤ T) :
    (List.range T).countP (fun t => decide (t < c)) = c := by
  induction T generalizing c with
  | zero => simp_all
  | succ T ih =>
    rw [List.range_succ, List.countP_append]
    rcases Nat.lt_or_ge T c with h1 | h1
    · have hc : c = T + 1 := by omega
      subst hc
      have : (List.range T).countP (fun t => decide (t < T + 1)) = T := by
        rw [List.countP_eq_length.2]
        · simp
        · intro x hx; simp at hx ⊢; omega
      rw [this]; simp
    · rw [ih c h1]
      simp; omega

/-! ## Index lists -/

theorem mem_idx {T : Nat} {bs : Nat → Nat} {D : Nat} {e : Nat × Nat × Nat} :
    e ∈ idx T bs D ↔ e.1 < T ∧ e.2.1 < bs e.1 ∧ e.2.2 < D := by
  obtain ⟨t, b, d⟩ := e
  unfold idx
  simp only [List.mem_flatMap, List.mem_range, List.mem_map, Prod.mk.injEq]
  constructor
  · rintro ⟨t', h1, b', h2, d', h3, rfl, rfl, rfl⟩; exact ⟨h1, h2, h3⟩
  · rintro ⟨h1, h2, h3⟩; exact ⟨t, h1, b, h2, d, h3, rfl, rfl, rfl⟩

theorem flatMap_range_succ {β : Type} (T : Nat) (f : Nat → List β) :
    (List.range (T + 1)).flatMap f = (List.range T).flatMap f ++ f T := by
  rw [List.range_succ, List.flatMap_append]; simp

theorem nodup_flatMap_range {β : Type} (T : Nat) (f : Nat → List β) (hf : ∀ t, (f t).Nodup)
    (hd : ∀ t t' x, x ∈ f t → x ∈ f t' → t = t') : ((List.range T).flatMap f).Nodup := by
  induction T with
  | zero => simp
  | succ T ih =>
    rw [flatMap_range_succ]
    refine List.Nodup.append ih (hf T) ?_
    intro x hx hx'
    simp only [List.mem_flatMap, List.mem_range] at hx
    obtain ⟨t, ht, hxt⟩ := hx
    have := hd t T x hxt hx'
    omega

theorem nodup_idx (T : Nat) (bs : Nat → Nat) (D : Nat) : (idx T bs D).Nodup := by
  unfold idx
  apply nodup_flatMap_range
  · intro t
    apply nodup_flatMap_range
    · intro b
      exact (List.nodup_range).map (fun a c h => by simpa using h)
    · intro b b' x h1 h2
      simp only [List.mem_map] at h1 h2
      obtain ⟨d, _, rfl⟩ := h1
      obtain ⟨d', _, h⟩ := h2
      simp only [Prod.mk.injEq] at h
      exact h.2.1.symm
  · intro t t' x h1 h2
    simp only [List.mem_flatMap, List.mem_map] at h1 h2
    obtain ⟨b, _, d, _, rfl⟩ := h1
    obtain ⟨b', _, d', _, h⟩ := h2
    simp only [Prod.mk.injEq] at h
    exact h.1.symm

theorem filter_flatMap {β γ : Type} (l : List β) (f : β → List γ) (p : γ → Bool) :
    (l.flatMap f).filter p = l.flatMap (fun x => (f x).filter p) := by
  induction l with
  | nil => rfl
  | cons a l ih => simp only [List.flatMap_cons, List.filter_append, ih]

theorem flatMap_range_restrict {β : Type} (f : Nat → List β) (n k : Nat) (hk : k ≤ n)
    (h : ∀ b, k ≤ b → f b = []) : (List.range n).flatMap f = (List.range k).flatMap f := by
  induction n with
  | zero => have : k = 0 := by omega
            subst this; rfl
  | succ n ih =>
    rcases Nat.lt_or_ge n k with h1 | h1
    · have : k = n + 1 := by omega
      subst this; rfl
    · rw [flatMap_range_succ, ih h1, h n h1, List.append_nil]

/-- The elements that `unpack` reads are, in order, the elements that `pack` writes. -/
theorem filter_idx (S T : Nat) (bs : Nat → Nat) (B D : Nat) (hT : T ≤ S) (hb : ∀ t, t < T → bs t ≤ B) :
    (idx S (fun _ => B) D).filter (inSeq T bs) = idx T bs D := by
  unfold idx
  rw [filter_flatMap, flatMap_range_restrict _ S T hT]
  · apply List.flatMap_congr
    intro t ht
    have ht' : t < T := List.mem_range.1 ht
    rw [filter_flatMap, flatMap_range_restrict _ B (bs t) (hb t ht')]
    · apply List.flatMap_congr
      intro b hb'
      have hb'' : b < bs t := List.mem_range.1 hb'
      rw [List.filter_eq_self]
      intro x hx
      obtain ⟨d, _, rfl⟩ := List.mem_map.1 hx
      simp [inSeq, ht', hb'']
    · intro b hb'
      rw [List.filter_eq_nil_iff]
      intro x hx
      obtain ⟨d, _, rfl⟩ := List.mem_map.1 hx
      simp [inSeq]; omega
  · intro t ht
    rw [List.filter_eq_nil_iff]
    intro x hx
    simp only [List.mem_flatMap, List.mem_map] at hx
    obtain ⟨b, _, d, _, rfl⟩ := hx
    simp [inSeq]; omega

theorem two_digit {a b a' b' D : Nat} (hb : b < D) (hb' : b' < D) (h : a * D + b = a' * D + b') :
    a = a' ∧ b = b' := by
  have hD : 0 < D := by omega
  have h1 : (a * D + b) / D = a := by
    rw [Nat.mul_comm, Nat.mul_add_div hD, Nat.div_eq_of_lt hb]; simp
  have h2 : (a' * D + b') / D = a' := by
    rw [Nat.mul_comm, Nat.mul_add_div hD, Nat.div_eq_of_lt hb']; simp
  have : a = a' := by rw [← h1, ← h2, h]
  subst this
  exact ⟨rfl, by omega⟩

theorem addr_inj {bf : Bool} {S B D : Nat} {e e' : Nat × Nat × Nat}
    (h1 : e.1 < S) (h2 : e.2.1 < B) (h3 : e.2.2 < D)
    (h1' : e'.1 < S) (h2' : e'.2.1 < B) (h3' : e'.2.2 < D)
    (h : addr bf S B D e = addr bf S B D e') : e = e' := by
  obtain ⟨t, b, d⟩ := e
  obtain ⟨t', b', d'⟩ := e'
  simp only at h1 h2 h3 h1' h2' h3'
  unfold addr at h
  cases bf with
  | true =>
    simp only [if_true] at h
    have h' : (b * S + t) * D + d = (b' * S + t') * D + d' := by
      rw [Nat.add_mul, Nat.add_mul, Nat.mul_assoc, Nat.mul_assoc]; exact h
    obtain ⟨g1, rfl⟩ := two_digit h3 h3' h'
    obtain ⟨rfl, rfl⟩ := two_digit h1 h1' g1
    rfl
  | false =>
    simp only [Bool.false_eq_true, if_false] at h
    have h' : (t * B + b) * D + d = (t' * B + b') * D + d' := by
      rw [Nat.add_mul, Nat.add_mul, Nat.mul_assoc, Nat.mul_assoc]; exact h
    obtain ⟨g1, rfl⟩ := two_digit h3 h3' h'
    obtain ⟨rfl, rfl⟩ := two_digit h2 h2' g1
    rfl

/-! ## Positions -/

theorem length_rows {β : Type} (n D : Nat) (f : Nat → Nat → β) :
    ((List.range n).flatMap (fun b => (List.range D).map (f b))).length = n * D := by
  induction n with
  | zero => simp
  | succ n ih => rw [flatMap_range_succ, List.length_append, ih]; simp [Nat.add_mul]

theorem row_get {β : Type} (n D : Nat) (f : Nat → Nat → β) (b d : Nat) (hb : b < n) (hd : d < D) :
    ((List.range n).flatMap (fun b => (List.range D).map (f b)))[b * D + d]? = some (f b d) := by
  induction n with
  | zero => omega
  | succ n ih =>
    rw [flatMap_range_succ]
    rcases Nat.lt_or_ge b n with h | h
    · have hlt : b * D + d < n * D := by
        have : (b + 1) * D ≤ n * D := Nat.mul_le_mul_right _ h
        rw [Nat.add_mul] at this; omega
      rw [List.getElem?_append_left (by rw [length_rows]; exact hlt)]
      exact ih h
    · have hbn : b = n := by omega
      subst hbn
      rw [List.getElem?_append_right (by rw [length_rows]; omega), length_rows]
      simp [hd]

/-- Number of rows before time step `t`. -/
def rowsBefore (bs : Nat → Nat) (t : Nat) : Nat := ((List.range t).map bs).sum

theorem length_idx (T : Nat) (bs : Nat → Nat) (D : Nat) : (idx T bs D).length = rowsBefore bs T * D := by
  induction T with
  | zero => simp [idx, rowsBefore]
  | succ T ih =>
    unfold idx at ih ⊢
    rw [flatMap_range_succ, List.length_append, ih, length_rows]
    unfold rowsBefore
    rw [List.range_succ, List.map_append, List.sum_append]
    simp [Nat.add_mul]

theorem idx_get (T : Nat) (bs : Nat → Nat) (D : Nat) (t b d : Nat) (ht : t < T) (hb : b < bs t)
    (hd : d < D) : (idx T bs D)[(rowsBefore bs t + b) * D + d]? = some (t, b, d) := by
  induction T with
  | zero => omega
  | succ T ih =>
    have hs : idx (T + 1) bs D = idx T bs D ++
        (List.range (bs T)).flatMap (fun b => (List.range D).map (fun d => (T, b, d))) := by
      unfold idx; rw [flatMap_range_succ]
    rw [hs]
    rcases Nat.lt_or_ge t T with h | h
    · have := ih h
      have hlt := (List.getElem?_eq_some_iff.1 this).1
      rw [List.getElem?_append_left hlt]
      exact this
    · have htT : t = T := by omega
      subst htT
      rw [List.getElem?_append_right (by rw [length_idx, Nat.add_mul]; omega), length_idx,
        show (rowsBefore bs t + b) * D + d - rowsBefore bs t * D = b * D + d by
          rw [Nat.add_mul]; omega]
      exact row_get (bs t) D (fun b d => (t, b, d)) b d hb hd

theorem idxOf_idx (T : Nat) (bs : Nat → Nat) (D : Nat) (t b d : Nat) (ht : t < T) (hb : b < bs t)
    (hd : d < D) : (idx T bs D).idxOf (t, b, d) = (rowsBefore bs t + b) * D + d := by
  obtain ⟨h1, h2⟩ := List.getElem?_eq_some_iff.1 (idx_get T bs D t b d ht hb hd)
  rw [← h2]
  exact (nodup_idx T bs D).idxOf_getElem _ h1

/-! ## The folds -/

theorem packFold_spec [Add α] (accum : Bool) (x : Mem α) (ad : Nat × Nat × Nat → Nat)
    (L : List (Nat × Nat × Nat)) (p : Nat) (y : Mem α) :
    (packFold accum x ad L p y).1 = p + L.length ∧
    (∀ k, (h : k < L.length) → (packFold accum x ad L p y).2 (p + k)
      = if accum then y (p + k) + x (ad L[k]) else x (ad L[k])) ∧
    (∀ a, (a < p ∨ p + L.length ≤ a) → (packFold accum x ad L p y).2 a = y a) := by
  induction L generalizing p y with
  | nil => exact ⟨rfl, fun k h => absurd h (by simp), fun a _ => rfl⟩
  | cons e L ih =>
    have hc : packFold accum x ad (e :: L) p y
        = packFold accum x ad L (p + 1) (upd y p (if accum then y p + x (ad e) else x (ad e))) := rfl
    rw [hc]
    obtain ⟨i1, i2, i3⟩ := ih (p + 1) (upd y p (if accum then y p + x (ad e) else x (ad e)))
    refine ⟨by rw [i1]; simp; omega, ?_, ?_⟩
    · intro k hk
      cases k with
      | zero =>
        have := i3 p (Or.inl (by omega))
        simp only [Nat.add_zero, this]
        simp [upd]
      | succ k =>
        have := i2 k (by simpa using hk)
        rw [show p + (k + 1) = p + 1 + k by omega, this]
        have hu : ∀ v, upd y p v (p + 1 + k) = y (p + 1 + k) := by
          intro v; unfold upd; rw [if_neg (by omega)]
        rw [hu]
        simp
    · intro a ha
      simp only [List.length_cons] at ha
      rw [i3 a (by omega)]
      unfold upd
      rw [if_neg (by omega)]

theorem unpackFold_spec [Add α] [Zero α] (accum : Bool) (y : Mem α) (m : Nat × Nat × Nat → Bool)
    (ad : Nat × Nat × Nat → Nat) (L : List (Nat × Nat × Nat)) (p : Nat) (x : Mem α)
    (hn : L.Nodup) (hinj : ∀ e ∈ L, ∀ e' ∈ L, ad e = ad e' → e = e') :
    (∀ e ∈ L, (unpackFold accum y m ad L p x).2 (ad e)
      = if m e then (if accum then x (ad e) + y (p + (L.filter m).idxOf e) else y (p + (L.filter m).idxOf e))
        else (if accum then x (ad e) else 0)) ∧
    (∀ a, (∀ e ∈ L, a ≠ ad e) → (unpackFold accum y m ad L p x).2 a = x a) := by
  induction L generalizing p x with
  | nil => exact ⟨by simp, fun a _ => rfl⟩
  | cons e L ih =>
    obtain ⟨hn1, hn2⟩ := List.nodup_cons.1 hn
    have hinj' : ∀ e ∈ L, ∀ e' ∈ L, ad e = ad e' → e = e' :=
      fun a ha b hb => hinj a (by simp [ha]) b (by simp [hb])
    have hne : ∀ e' ∈ L, ad e ≠ ad e' := by
      intro e' he' h
      exact hn1 ((hinj e (by simp) e' (by simp [he']) h) ▸ he')
    by_cases hm : m e = true
    · have hc : unpackFold accum y m ad (e :: L) p x
          = unpackFold accum y m ad L (p + 1)
              (upd x (ad e) (if accum then x (ad e) + y p else y p)) := by
        unfold unpackFold; rw [List.foldl_cons, if_pos hm]
      rw [hc]
      obtain ⟨i1, i2⟩ := ih (p + 1) (upd x (ad e) (if accum then x (ad e) + y p else y p)) hn2 hinj'
      have hf : (e :: L).filter m = e :: L.filter m := List.filter_cons_of_pos hm
      rw [hf]
      refine ⟨?_, ?_⟩
      · intro e' he'
        rcases List.mem_cons.1 he' with rfl | he'
        · rw [i2 (ad e') hne, if_pos hm]
          simp [upd]
        · have hee : e ≠ e' := fun h => hn1 (h ▸ he')
          rw [i1 e' he']
          have hu : ∀ v, upd x (ad e) v (ad e') = x (ad e') := by
            intro v; unfold upd; rw [if_neg (fun h => hne e' he' h.symm)]
          rw [hu, List.idxOf_cons_ne _ hee]
          rw [show p + 1 + List.idxOf e' (L.filter m) = p + (List.idxOf e' (L.filter m)).succ by
            simp only [Nat.succ_eq_add_one]; omega]
      · intro a ha
        rw [i2 a (fun e' he' => ha e' (by simp [he']))]
        unfold upd; rw [if_neg (ha e (by simp))]
    · have hc : unpackFold accum y m ad (e :: L) p x
          = unpackFold accum y m ad L p (if accum then x else upd x (ad e) 0) := by
        unfold unpackFold; rw [List.foldl_cons, if_neg hm]
      rw [hc]
      obtain ⟨i1, i2⟩ := ih p (if accum then x else upd x (ad e) 0) hn2 hinj'
      have hf : (e :: L).filter m = L.filter m := List.filter_cons_of_neg hm
      rw [hf]
      have hu : ∀ a, a ≠ ad e → (if accum then x else upd x (ad e) 0) a = x a := by
        intro a ha
        cases accum with
        | true => rfl
        | false => simp [upd, ha]
      refine ⟨?_, ?_⟩
      · intro e' he'
        rcases List.mem_cons.1 he' with rfl | he'
        · rw [i2 (ad e') hne, if_neg hm]
          cases accum <;> simp [upd]
        · rw [i1 e' he', hu _ (fun h => hne e' he' h.symm)]
      · intro a ha
        rw [i2 a (fun e' he' => ha e' (by simp [he'])), hu a (ha e (by simp))]

end Verif.Rnn
