import Verif.Fn.Base
/-
Broadcast: models /repo/src/nbla/function/generic/broadcast.cpp.
Simplifications: `int` is unbounded. NBLA_BROADCAST_MAX_DIM (the template recursion depth) is not
modelled: the real code raises "not implemented" above it.
-/
namespace Verif.Fn
open Verif.ND

/-- expand_shape (common.hpp / broadcast.cpp:49): prepend ones up to `n` dimensions. -/
def expandShape (s : Shape) (n : Nat) : Shape := List.replicate (n - s.length) 1 ++ s

/-- broadcast.cpp:50-64, loop over axes: check and choose the stride of x. -/
def bcStrides : Shape → List Nat → Shape → Except String (List Nat)
  | e :: es, st :: sts, t :: ts =>
    if e = t ∨ e = 1 then
      match bcStrides es sts ts with
      | .error m => .error m
      | .ok r => .ok ((if e = t then st else 0) :: r)
    else .error "Trailing shapes must be same or dimension of trailing shape of input has 1."
  | _, _, _ => .ok []

/-- Broadcast::setup_impl (broadcast.cpp:32-67): the strides `stride_x_`; `shape_y_` is the target. -/
def bcSetup (xsh target : Shape) : Except String (List Nat) :=
  if xsh.length > 0 ∧ target.length < xsh.length then .error "Target shape dimension >= input dimension must hold."
  else
    let esh := expandShape xsh target.length
    bcStrides esh (cStrides esh) target

/-- strided_index::_get (broadcast.cpp:79-100): the template recursion runs from the last axis to the
first, carrying `(stride, x_index)`. -/
def stridedGet (yIndex : Nat) : List Nat → List Nat → Nat × Nat
  | s :: ss, d :: ds =>
    let (stride, xIndex) := stridedGet yIndex ss ds
    (stride * d, xIndex + (yIndex / stride) % d * s)
  | _, _ => (1, 0)

/-- The pairs touched by broadcast / broadcast_backward (broadcast.cpp:105-112, 138-145). -/
def bcPairs (strideX : List Nat) (target : Shape) : Pairs :=
  (List.range (prod target)).map fun i => (i, (stridedGet i strideX target).2)

/-- Broadcast::forward_impl. -/
def bcForward {R} (xsh target : Shape) (x y : Mem R) : Except String (Mem R) :=
  match bcSetup xsh target with
  | .error e => .error e
  | .ok st => .ok (fwd (bcPairs st target) x y)

/-- Broadcast::backward_impl (broadcast.cpp:179-199): when not accumulating, the gradient is zeroed. -/
def bcBackward {R} [Zero R] [Add R] (xsh target : Shape) (accum : Bool) (dy dx : Mem R) : Except String (Mem R) :=
  match bcSetup xsh target with
  | .error e => .error e
  | .ok st => .ok (bwdAdd (bcPairs st target) dy (if accum then dx else zeros))

/-! ### Specification -/

/-- NumPy's rule: x of shape `xsh` can be broadcast to `target` when, after aligning the last axes, every
extent is equal to the target's or is 1. -/
def CanBroadcast (xsh target : Shape) : Prop :=
  xsh.length ≤ target.length ∧
    ∀ (a : Nat) e t, xsh[a]? = some e → target[target.length - xsh.length + a]? = some t → e = t ∨ e = 1

/-- NumPy's rule: the element of x shown at multi-index `j` of the result: drop the leading indices and
use 0 along the stretched axes. -/
def bcIndex (xsh target : Shape) (j : List Nat) : List Nat :=
  (xsh.zip (j.drop (target.length - xsh.length))).map fun p => if p.1 = 1 then 0 else p.2

/-! ### Lemmas -/

theorem prod_expand (n : Nat) (s : Shape) : prod (expandShape s n) = prod s := by
  rw [expandShape, prod_append]
  have : ∀ k, prod (List.replicate k 1) = 1 := by
    intro k; induction k with
    | zero => rfl
    | succ k ih => simp [List.replicate_succ, prod, ih]
  simp [this]

/-- Axis-aligned version of the index rule. -/
def bcIdx : Shape → List Nat → List Nat
  | e :: es, i :: is => (if e = 1 then 0 else i) :: bcIdx es is
  | _, _ => []

theorem stridedGet_fst (i : Nat) (ss ds : List Nat) (h : ss.length = ds.length) :
    (stridedGet i ss ds).1 = prod ds := by
  induction ss generalizing ds with
  | nil => cases ds with
    | nil => rfl
    | cons _ _ => cases h
  | cons s ss ih => cases ds with
    | nil => cases h
    | cons d ds =>
      simp only [stridedGet, prod]
      rw [ih ds (by simpa using h), Nat.mul_comm]

/-- The offset computed by `strided_index` only depends on the low digits. -/
theorem stridedGet_add (i q : Nat) (ss ds : List Nat) (h : ss.length = ds.length) :
    (stridedGet (q * prod ds + i) ss ds).2 = (stridedGet i ss ds).2 := by
  induction ss generalizing ds i q with
  | nil => cases ds <;> rfl
  | cons s ss ih => cases ds with
    | nil => cases h
    | cons d ds =>
      have hl : ss.length = ds.length := by simpa using h
      simp only [stridedGet]
      have e1 : q * prod (d :: ds) + i = (q * d) * prod ds + i := by simp [prod, Nat.mul_assoc]
      rw [e1, ih _ _ _ hl, stridedGet_fst _ _ _ hl, stridedGet_fst _ _ _ hl]
      congr 2
      by_cases h0 : prod ds = 0
      · simp [h0]
      · rw [Nat.add_comm, Nat.add_mul_div_right _ _ (Nat.pos_of_ne_zero h0), Nat.add_mul_mod_self_right]

theorem stridedGet_ravel (ss ds : List Nat) (h : ss.length = ds.length) (j : List Nat) (hj : InBounds ds j) :
    (stridedGet (ravel ds j) ss ds).2 = nd2flat j ss := by
  induction ss generalizing ds j with
  | nil => cases ds with
    | nil => cases j <;> rfl
    | cons _ _ => cases h
  | cons s ss ih => cases ds with
    | nil => cases h
    | cons d ds => cases j with
      | nil => exact hj.elim
      | cons i is =>
        have hl : ss.length = ds.length := by simpa using h
        have hlt := ravel_lt hj.2
        simp only [stridedGet, ravel, nd2flat]
        rw [stridedGet_add _ _ _ _ hl, ih _ hl _ hj.2, stridedGet_fst _ _ _ hl]
        have e1 : (i * prod ds + ravel ds is) / prod ds = i := by
          rw [Nat.add_comm, Nat.add_mul_div_right _ _ (by omega), Nat.div_eq_of_lt hlt, Nat.zero_add]
        rw [e1, Nat.mod_eq_of_lt hj.1, Nat.add_comm]

theorem bcStrides_ok (es : Shape) (ts : Shape) (hl : es.length = ts.length)
    (h : ∀ (a : Nat) e t, es[a]? = some e → ts[a]? = some t → e = t ∨ e = 1) :
    ∃ st, bcStrides es (cStrides es) ts = .ok st ∧ st.length = ts.length ∧
      ∀ j, InBounds ts j → nd2flat j st = ravel es (bcIdx es j) ∧ InBounds es (bcIdx es j) := by
  induction es generalizing ts with
  | nil => cases ts with
    | nil => exact ⟨[], rfl, rfl, fun j hj => by cases j <;> simp_all [bcIdx, ravel, nd2flat, InBounds]⟩
    | cons _ _ => cases hl
  | cons e es ih => cases ts with
    | nil => cases hl
    | cons t ts =>
      obtain ⟨st, h1, h2, h3⟩ := ih ts (by simpa using hl) (fun a e' t' he ht => h (a + 1) e' t' (by simpa using he) (by simpa using ht))
      have h0 := h 0 e t rfl rfl
      rw [cStrides_cons]
      simp only [bcStrides, if_pos h0, h1]
      refine ⟨_, rfl, by simp [h2], ?_⟩
      intro j hj
      cases j with
      | nil => exact hj.elim
      | cons i is =>
        obtain ⟨g1, g2⟩ := h3 is hj.2
        simp only [bcIdx, nd2flat, ravel, InBounds, g1]
        have hi : i < t := hj.1
        constructor
        · congr 1
          by_cases e1 : e = 1
          · rw [if_pos e1]
            by_cases e2 : e = t
            · have : i = 0 := by omega
              simp [this]
            · simp [e2]
          · have h5 : e = t := by tauto
            simp only [if_neg e1, if_pos h5]
        · refine ⟨?_, g2⟩
          split
          · omega
          · have : e = t := by tauto
            omega

theorem bcStrides_error (es ts : Shape) (sts : List Nat) (hs : sts.length = es.length) (hl : es.length = ts.length)
    (h : ¬ ∀ (a : Nat) e t, es[a]? = some e → ts[a]? = some t → e = t ∨ e = 1) :
    ∃ m, bcStrides es sts ts = .error m := by
  induction es generalizing ts sts with
  | nil => exact absurd (fun a e t he _ => by simp at he) h
  | cons e es ih => cases ts with
    | nil => cases hl
    | cons t ts => cases sts with
      | nil => cases hs
      | cons st sts =>
        simp only [bcStrides]
        by_cases h0 : e = t ∨ e = 1
        · rw [if_pos h0]
          obtain ⟨m, hm⟩ := ih ts sts (by simpa using hs) (by simpa using hl) (by
            intro hh
            apply h
            intro a e' t' he ht
            cases a with
            | zero => simp at he ht; subst he; subst ht; exact h0
            | succ a => exact hh a e' t' (by simpa using he) (by simpa using ht))
          rw [hm]; exact ⟨_, rfl⟩
        · rw [if_neg h0]; exact ⟨_, rfl⟩

theorem bcIdx_eq (es : Shape) (j : List Nat) : bcIdx es j = (es.zip j).map fun p => if p.1 = 1 then 0 else p.2 := by
  induction es generalizing j with
  | nil => rfl
  | cons e es ih => cases j with
    | nil => rfl
    | cons i is => simp [bcIdx, ih]

theorem bcIdx_replicate (k : Nat) (s : Shape) (j : List Nat) (h : j.length = k + s.length) :
    ravel (List.replicate k 1 ++ s) (bcIdx (List.replicate k 1 ++ s) j) = ravel s (bcIdx s (j.drop k)) ∧
      (InBounds (List.replicate k 1 ++ s) (bcIdx (List.replicate k 1 ++ s) j) → InBounds s (bcIdx s (j.drop k))) := by
  induction k generalizing j with
  | zero => simp
  | succ k ih => cases j with
    | nil => simp at h; omega
    | cons i is =>
      have := ih is (by simp at h; omega)
      simp only [List.replicate_succ, List.cons_append, bcIdx, ravel, if_true, Nat.zero_mul, Nat.zero_add,
        List.drop_succ_cons, InBounds]
      exact ⟨this.1, fun hh => this.2 hh.2⟩

theorem expand_getElem (xsh target : Shape) (_hl : xsh.length ≤ target.length) :
    (∀ (a : Nat) e t, (expandShape xsh target.length)[a]? = some e → target[a]? = some t → e = t ∨ e = 1) ↔
    (∀ (a : Nat) e t, xsh[a]? = some e → target[target.length - xsh.length + a]? = some t → e = t ∨ e = 1) := by
  constructor
  · intro h a e t he ht
    refine h (target.length - xsh.length + a) e t ?_ ht
    rw [expandShape, List.getElem?_append_right (by simp)]
    simpa using he
  · intro h a e t he ht
    by_cases ha : a < target.length - xsh.length
    · rw [expandShape, List.getElem?_append_left (by simpa using ha), List.getElem?_replicate] at he
      right; simp [ha] at he; exact he.symm
    · rw [expandShape, List.getElem?_append_right (by simpa using ha)] at he
      refine h (a - (target.length - xsh.length)) e t (by simpa using he) ?_
      rw [← ht]; congr 1; omega

theorem bc_gathers (xsh target : Shape) (h : CanBroadcast xsh target) :
    ∃ st, bcSetup xsh target = .ok st ∧ Gathers target xsh (bcIndex xsh target) (bcPairs st target) := by
  have hle := h.1
  have hlen : (expandShape xsh target.length).length = target.length := by simp [expandShape]; omega
  obtain ⟨st, h1, h2, h3⟩ := bcStrides_ok (expandShape xsh target.length) target hlen
    ((expand_getElem xsh target h.1).mpr h.2)
  refine ⟨st, ?_, ?_⟩
  · rw [bcSetup, if_neg (by omega)]; exact h1
  · refine Gathers.of_range (fun i => (stridedGet i st target).2) ?_
    intro j hj
    have hjl := hj.length
    obtain ⟨g1, g2⟩ := h3 j hj
    obtain ⟨k1, k2⟩ := bcIdx_replicate (target.length - xsh.length) xsh j (by omega)
    rw [stridedGet_ravel _ _ h2 _ hj, g1, bcIndex, ← bcIdx_eq]
    exact ⟨k1, k2 g2⟩

/-- Setup accepts exactly the broadcastable shapes. -/
theorem bcSetup_iff (xsh target : Shape) : (∃ st, bcSetup xsh target = .ok st) ↔ CanBroadcast xsh target := by
  constructor
  · rintro ⟨st, h⟩
    by_cases hle : xsh.length ≤ target.length
    · refine ⟨hle, ?_⟩
      by_contra hn
      rw [← expand_getElem xsh target hle] at hn
      obtain ⟨m, hm⟩ := bcStrides_error (expandShape xsh target.length) target
        (cStrides (expandShape xsh target.length)) (cStrides_length _) (by simp [expandShape]; omega) hn
      rw [bcSetup, if_neg (by omega)] at h
      rw [hm] at h; cases h
    · rw [bcSetup, if_pos (by omega)] at h; cases h
  · intro h; obtain ⟨st, h1, _⟩ := bc_gathers xsh target h; exact ⟨st, h1⟩

end Verif.Fn
