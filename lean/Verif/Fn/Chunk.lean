import Verif.Fn.Transpose
/-
Concatenate, Split and Stack: models /repo/src/nbla/function/generic/{concatenate,split,stack}.cpp and
refine_axis (/repo/include/nbla/utils/axis_utils.hpp:22-30).
Simplifications: sizes are unbounded; `a / 0` (undefined behaviour) is 0; an out-of-range access to a
shape vector is the error "undefined behaviour".
-/
namespace Verif.Fn
open Verif.ND

/-- refine_axis (axis_utils.hpp:22-30). -/
def refineAxis (axis : Int) (ndim : Nat) : Except String Nat :=
  if axis < ndim ∧ axis ≥ -(ndim : Int) then .ok (if axis < 0 then axis + ndim else axis).toNat
  else .error "axis must be in the range of [-ndim, ndim)."

/-- The loops over `o` and `i` for one chunk (concatenate.cpp:66-70, stack.cpp:58-63, split.cpp:60-65):
(offset in the big array, offset in the chunk). -/
def chunkPairs (outer total off inner : Nat) : Pairs :=
  (List.range outer).flatMap fun o => (List.range inner).map fun i => (o * total + off + i, o * inner + i)

/-- concatenate.cpp:36-56, the loop over inputs from 1 on: shape checks and accumulation of `shape[axis]`.
`shape` is the running shape. -/
def catCheck (axis : Nat) : Shape → List Shape → Except String Shape
  | shape, [] => .ok shape
  | shape, s :: rest =>
    if s.length = 0 then .error "input value does not exist."
    else if s.length < shape.length then .error "undefined behaviour"
    else
      let shape' := shape.set axis (shape.getD axis 0 + s.getD axis 0)
      if ∃ j, j < shape.length ∧ j ≠ axis ∧ s.getD j 0 ≠ shape.getD j 0 then .error "Dimensions of inputs must match."
      else catCheck axis shape' rest

/-- What Concatenate::setup_impl computes. -/
structure CatState where
  axis : Nat
  oshape : Shape
  outer : Nat
  total : Nat
deriving DecidableEq, Repr

/-- Concatenate::setup_impl (concatenate.cpp:26-58). -/
def catSetup (axisArg : Int) (shapes : List Shape) : Except String CatState :=
  match shapes with
  | [] => .error "needs at least one input"
  | s0 :: rest =>
    match refineAxis axisArg s0.length with
    | .error e => .error e
    | .ok axis =>
      match catCheck axis s0 rest with
      | .error e => .error e
      | .ok osh =>
        .ok { axis, oshape := osh, outer := size s0 / sizeFrom s0 axis
              total := (shapes.map fun s => sizeFrom s axis).foldl (· + ·) 0 }

/-- The loop over inputs in forward (concatenate.cpp:61-74); the list has each input's inner size and
data. -/
def catLoop {R} (outer total : Nat) : Nat → List (Nat × Mem R) → Mem R → Mem R
  | _, [], y => y
  | off, (n, x) :: rest, y => catLoop outer total (off + n) rest (fwd (chunkPairs outer total off n) x y)

/-- Concatenate::forward_impl. -/
def catForward {R} (s : CatState) (shapes : List Shape) (xs : List (Mem R)) (y : Mem R) : Mem R :=
  catLoop s.outer s.total 0 ((shapes.map fun sh => sizeFrom sh s.axis).zip xs) y

/-- The loop over inputs in backward (concatenate.cpp:77-99): `(inner size, accum, dx)` for each input;
returns the new gradients. (`propagate_down` false leaves the gradient alone and is not modelled.) -/
def catBackLoop {R} [Add R] (outer total : Nat) (dy : Mem R) : Nat → List (Nat × Bool × Mem R) → List (Mem R)
  | _, [] => []
  | off, (n, a, dx) :: rest =>
    (if a then bwdAdd (chunkPairs outer total off n) dy dx else bwdSet (chunkPairs outer total off n) dy dx) ::
      catBackLoop outer total dy (off + n) rest

/-- Concatenate::backward_impl. -/
def catBackward {R} [Add R] (s : CatState) (shapes : List Shape) (accum : List Bool) (dy : Mem R) (dxs : List (Mem R)) :
    List (Mem R) :=
  catBackLoop s.outer s.total dy 0 ((shapes.map fun sh => sizeFrom sh s.axis).zip (accum.zip dxs))

/-- What Stack::setup_impl computes. -/
structure StackState where
  axis : Nat
  oshape : Shape
  num : Nat
  outer : Nat
  inner : Nat
deriving DecidableEq, Repr

/-- Stack::setup_impl (stack.cpp:26-51). -/
def stackSetup (axisArg : Int) (shapes : List Shape) : Except String StackState :=
  match shapes with
  | [] => .error "needs at least one input"
  | s0 :: rest =>
    let axis := if axisArg < 0 then axisArg + (s0.length + 1) else axisArg
    if ¬ axis ≥ 0 then .error "axis must not be less than zero"
    else if ¬ axis.toNat ≤ s0.length then .error "axis must be less than or equal to ndim of input."
    else if ∃ s ∈ rest, s ≠ s0 then .error "All inputs must be the same size."
    else
      let axis := axis.toNat
      .ok { axis, oshape := s0.insertIdx axis shapes.length, num := shapes.length
            outer := size s0 / sizeFrom s0 axis, inner := sizeFrom s0 axis }

/-- The pairs of input/output number `i0` in stack.cpp:56-63 and split.cpp:56-66 (big array, chunk). -/
def slotPairs (outer inner num i0 : Nat) : Pairs :=
  (List.range outer).flatMap fun i1 => (List.range inner).map fun i2 =>
    (i1 * (inner * num) + i0 * inner + i2, i1 * inner + i2)

/-- Stack::forward_impl (stack.cpp:53-66). -/
def stackForward {R} (s : StackState) (xs : List (Mem R)) (y : Mem R) : Mem R :=
  ((List.range s.num).zip xs).foldl (fun y p => fwd (slotPairs s.outer s.inner s.num p.1) p.2 y) y

/-- Stack::backward_impl (stack.cpp:68-87). -/
def stackBackward {R} [Add R] (s : StackState) (accum : List Bool) (dy : Mem R) (dxs : List (Mem R)) : List (Mem R) :=
  ((List.range s.num).zip (accum.zip dxs)).map fun p =>
    if p.2.1 then bwdAdd (slotPairs s.outer s.inner s.num p.1) dy p.2.2
    else bwdSet (slotPairs s.outer s.inner s.num p.1) dy p.2.2

/-- What Split::setup_impl computes. -/
structure SplitState where
  axis : Nat
  oshape : Shape
  num : Nat
  outer : Nat
  inner : Nat
deriving DecidableEq, Repr

/-- Split::setup_impl (split.cpp:26-56), with `nout` outputs. -/
def splitSetup (axisArg : Int) (ish : Shape) (nout : Nat) : Except String SplitState :=
  let axis := if axisArg < 0 then axisArg + ish.length else axisArg
  if ¬ axis ≥ 0 then .error "axis must not be less than zero"
  else if ¬ axis.toNat < ish.length then .error "axis must be less than ndim of inputs[0]."
  else
    let axis := axis.toNat
    let num := ish.getD axis 0
    if num ≠ nout then .error "inputs[0].shape[axis] must be the same number as the outputs."
    else
      let osh := ish.eraseIdx axis
      let inner := sizeFrom osh axis
      if inner = 0 then .error "Zero is specified as the input value."
      else
        let outer := size osh / inner
        if inner * num * outer ≠ size ish then .error "An error occurred during setup Split function."
        else .ok { axis, oshape := osh, num, outer, inner }

/-- Split::forward_impl (split.cpp:58-69): `y[small] = x[big]`. -/
def splitForward {R} (s : SplitState) (x : Mem R) (ys : List (Mem R)) : List (Mem R) :=
  ((List.range s.num).zip ys).map fun p => bwdSet (slotPairs s.outer s.inner s.num p.1) x p.2

/-- Split::backward_impl (split.cpp:82-99): `dx[big] = dy[small]` or `+=`. -/
def splitBackward {R} [Add R] (s : SplitState) (accum : Bool) (dys : List (Mem R)) (dx : Mem R) : Mem R :=
  ((List.range s.num).zip dys).foldl (fun dx p =>
    if accum then bwdAdd ((slotPairs s.outer s.inner s.num p.1).map Prod.swap) p.2 dx
    else fwd (slotPairs s.outer s.inner s.num p.1) p.2 dx) dx

/-! ### Lemmas -/

theorem slot_eq_chunk (outer inner num i0 : Nat) :
    slotPairs outer inner num i0 = chunkPairs outer (inner * num) (i0 * inner) inner := rfl

theorem mem_chunk (outer total off inner : Nat) (p : Nat × Nat) :
    p ∈ chunkPairs outer total off inner ↔
      ∃ o i, o < outer ∧ i < inner ∧ p = (o * total + off + i, o * inner + i) := by
  simp only [chunkPairs, List.mem_flatMap, List.mem_map, List.mem_range]
  constructor
  · rintro ⟨o, ho, i, hi, rfl⟩; exact ⟨o, i, ho, hi, rfl⟩
  · rintro ⟨o, i, ho, hi, rfl⟩; exact ⟨o, ho, i, hi, rfl⟩

theorem divmod_unique (d o o' r r' : Nat) (h : r < d) (h' : r' < d) (e : o * d + r = o' * d + r') : o = o' ∧ r = r' := by
  have hd : 0 < d := by omega
  have h1 : (o * d + r) / d = o := by
    rw [Nat.add_comm, Nat.add_mul_div_right _ _ hd, Nat.div_eq_of_lt h, Nat.zero_add]
  have h2 : (o' * d + r') / d = o' := by
    rw [Nat.add_comm, Nat.add_mul_div_right _ _ hd, Nat.div_eq_of_lt h', Nat.zero_add]
  have : o = o' := by rw [← h1, e, h2]
  subst this
  exact ⟨rfl, by omega⟩

/-- Writing one chunk into the big array. -/
theorem fwd_chunk {R} (outer total off inner : Nat) (hoff : off + inner ≤ total) (x y : Mem R) (o r : Nat)
    (ho : o < outer) (hr : r < total) :
    fwd (chunkPairs outer total off inner) x y (o * total + r) =
      if off ≤ r ∧ r < off + inner then x (o * inner + (r - off)) else y (o * total + r) := by
  by_cases h : off ≤ r ∧ r < off + inner
  · rw [if_pos h]
    have hp : (o * total + r, o * inner + (r - off)) ∈ chunkPairs outer total off inner := by
      rw [mem_chunk]
      exact ⟨o, r - off, ho, by omega, by rw [Nat.add_assoc]; congr 2; omega⟩
    refine fwd_mem _ x y _ hp ?_
    intro q hq e
    obtain ⟨o', i', ho', hi', rfl⟩ := (mem_chunk _ _ _ _ _).mp hq
    simp only [Nat.add_assoc] at e
    obtain ⟨e1, e2⟩ := divmod_unique total o' o (off + i') r (by omega) hr e
    subst e1
    show o' * inner + i' = _
    congr 1; omega
  · rw [if_neg h]
    apply fwd_not_mem
    intro hm
    obtain ⟨q, hq, e⟩ := List.mem_map.mp hm
    obtain ⟨o', i', ho', hi', rfl⟩ := (mem_chunk _ _ _ _ _).mp hq
    simp only [Nat.add_assoc] at e
    obtain ⟨e1, e2⟩ := divmod_unique total o' o (off + i') r (by omega) hr e
    omega

/-- Reading one chunk out of the big array. -/
theorem bwdSet_chunk {R} (outer total off inner : Nat) (b c : Mem R) (o i : Nat) (ho : o < outer) (hi : i < inner) :
    bwdSet (chunkPairs outer total off inner) b c (o * inner + i) = b (o * total + off + i) := by
  rw [bwdSet_eq_fwd]
  refine fwd_mem _ b c (o * inner + i, o * total + off + i) ?_ ?_
  · exact List.mem_map.mpr ⟨(o * total + off + i, o * inner + i), (mem_chunk _ _ _ _ _).mpr ⟨o, i, ho, hi, rfl⟩, rfl⟩
  · intro q hq e
    obtain ⟨q, hq2, rfl⟩ := List.mem_map.mp hq
    obtain ⟨o', i', ho', hi', rfl⟩ := (mem_chunk _ _ _ _ _).mp hq2
    obtain ⟨e1, e2⟩ := divmod_unique inner o' o i' i hi' hi e
    subst e1; subst e2; rfl

theorem bwdAdd_mem {R} [AddCommMonoid R] (ps : Pairs) (hn : (ps.map (·.2)).Nodup) (b c : Mem R) (p : Nat × Nat)
    (hp : p ∈ ps) : bwdAdd ps b c p.2 = c p.2 + b p.1 := by
  rw [bwdAdd_eq]
  congr 1
  induction ps with
  | nil => cases hp
  | cons q ps ih =>
    simp only [List.map_cons, List.nodup_cons] at hn
    have hz : ∀ t : Nat, t ∉ ps.map (·.2) → (ps.map fun p => if p.2 = t then b p.1 else 0).sum = 0 := by
      intro t ht
      have : (ps.map fun p => if p.2 = t then b p.1 else 0) = ps.map fun _ => (0 : R) := by
        apply List.map_congr_left
        intro p hp
        rw [if_neg]
        intro e; exact ht (List.mem_map.mpr ⟨p, hp, e⟩)
      rw [this]; simp
    simp only [List.map_cons, List.sum_cons]
    rcases List.mem_cons.mp hp with h | h
    · subst h
      rw [if_pos rfl, hz _ hn.1, add_zero]
    · rw [if_neg, zero_add, ih hn.2 h]
      intro e
      exact hn.1 (List.mem_map.mpr ⟨p, h, e.symm⟩)

theorem chunk_small (outer total off inner : Nat) :
    (chunkPairs outer total off inner).map (·.2) = List.range (outer * inner) := by
  rw [← range_mul, chunkPairs, List.map_flatMap]
  congr 1; funext o
  rw [List.map_map]
  rfl

theorem bwdAdd_chunk {R} [AddCommMonoid R] (outer total off inner : Nat) (b c : Mem R) (o i : Nat) (ho : o < outer)
    (hi : i < inner) :
    bwdAdd (chunkPairs outer total off inner) b c (o * inner + i) = c (o * inner + i) + b (o * total + off + i) :=
  bwdAdd_mem _ (by rw [chunk_small]; exact List.nodup_range) b c (o * total + off + i, o * inner + i)
    ((mem_chunk _ _ _ _ _).mpr ⟨o, i, ho, hi, rfl⟩)

/-- Position of a multi-index split at an axis. -/
theorem ravel_append (A B : Shape) (ka kb : List Nat) (h : ka.length = A.length) :
    ravel (A ++ B) (ka ++ kb) = ravel A ka * prod B + ravel B kb := by
  induction A generalizing ka with
  | nil => cases ka with
    | nil => simp [ravel]
    | cons _ _ => simp at h
  | cons d A ih => cases ka with
    | nil => simp at h
    | cons k ka =>
      simp only [List.cons_append, ravel]
      rw [ih ka (by simpa using h), prod_append, Nat.add_mul, Nat.mul_assoc, Nat.add_assoc]

theorem inBounds_append (A B : Shape) (ka kb : List Nat) (h : ka.length = A.length) :
    InBounds (A ++ B) (ka ++ kb) ↔ InBounds A ka ∧ InBounds B kb := by
  induction A generalizing ka with
  | nil => cases ka with
    | nil => simp [InBounds]
    | cons _ _ => simp at h
  | cons d A ih => cases ka with
    | nil => simp at h
    | cons k ka => simp only [List.cons_append, InBounds, ih ka (by simpa using h), and_assoc]

/-- Offset of the `c`-th chunk. -/
def offsetOf (ns : List Nat) (c : Nat) : Nat := (ns.take c).sum

/-- The concatenation loop, element by element. -/
theorem catLoop_spec {R} (outer total : Nat) : ∀ (off : Nat) (l : List (Nat × Mem R)) (y : Mem R),
    off + (l.map (·.1)).sum ≤ total → ∀ o, o < outer →
    (∀ c n x, l[c]? = some (n, x) → ∀ i, i < n →
      catLoop outer total off l y (o * total + (off + offsetOf (l.map (·.1)) c + i)) = x (o * n + i)) ∧
    (∀ r, r < total → r < off ∨ off + (l.map (·.1)).sum ≤ r → catLoop outer total off l y (o * total + r) = y (o * total + r)) := by
  intro off l
  induction l generalizing off with
  | nil => intro y _ o ho; exact ⟨fun c n x h => by simp at h, fun r _ _ => rfl⟩
  | cons p l ih =>
    obtain ⟨n, x⟩ := p
    intro y hle o ho
    simp only [List.map_cons, List.sum_cons] at hle
    obtain ⟨h1, h2⟩ := ih (off + n) (fwd (chunkPairs outer total off n) x y) (by omega) o ho
    constructor
    · intro c n' x' hc i hi
      cases c with
      | zero =>
        simp only [List.getElem?_cons_zero, Option.some.injEq, Prod.mk.injEq] at hc
        obtain ⟨rfl, rfl⟩ := hc
        rw [catLoop, offsetOf]
        simp only [List.take_zero, List.sum_nil, Nat.add_zero]
        rw [h2 _ (by omega) (Or.inl (by omega)), fwd_chunk _ _ _ _ (by omega) _ _ _ _ ho (by omega),
          if_pos (by omega)]
        congr 2; omega
      | succ c =>
        have := h1 c n' x' (by simpa using hc) i hi
        rw [catLoop, ← this]
        congr 2
        simp only [offsetOf, List.map_cons, List.take_succ_cons, List.sum_cons]; omega
    · intro r hr hor
      simp only [List.map_cons, List.sum_cons] at hor
      rw [catLoop, h2 r hr (by omega), fwd_chunk _ _ _ _ (by omega) _ _ _ _ ho hr, if_neg (by omega)]

theorem catBackLoop_spec {R} [AddCommMonoid R] (outer total : Nat) (dy : Mem R) : ∀ (off : Nat) (l : List (Nat × Bool × Mem R))
    (c n : Nat) (a : Bool) (dx : Mem R), l[c]? = some (n, a, dx) →
    ∃ g, (catBackLoop outer total dy off l)[c]? = some g ∧ ∀ o i, o < outer → i < n →
      g (o * n + i) = (if a then dx (o * n + i) else 0) + dy (o * total + (off + offsetOf (l.map (·.1)) c + i)) := by
  intro off l
  induction l generalizing off with
  | nil => intro c n a dx h; simp at h
  | cons p l ih =>
    obtain ⟨n0, a0, dx0⟩ := p
    intro c n a dx hc
    cases c with
    | zero =>
      simp only [List.getElem?_cons_zero, Option.some.injEq, Prod.mk.injEq] at hc
      obtain ⟨rfl, rfl, rfl⟩ := hc
      refine ⟨_, rfl, ?_⟩
      intro o i ho hi
      simp only [offsetOf, List.take_zero, List.sum_nil, Nat.add_zero]
      cases a0
      · simp only [Bool.false_eq_true, if_false, zero_add]
        rw [bwdSet_chunk _ _ _ _ _ _ _ _ ho hi, Nat.add_assoc]
      · simp only [if_true]
        rw [bwdAdd_chunk _ _ _ _ _ _ _ _ ho hi, Nat.add_assoc (o * total)]
    | succ c =>
      obtain ⟨g, hg, h⟩ := ih (off + n0) c n a dx (by simpa using hc)
      refine ⟨g, by simpa [catBackLoop] using hg, ?_⟩
      intro o i ho hi
      rw [h o i ho hi]
      congr 3
      simp only [offsetOf, List.map_cons, List.take_succ_cons, List.sum_cons]; omega

end Verif.Fn
