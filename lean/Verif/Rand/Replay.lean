import Verif.Rand.ChoiceProps
import Mathlib.Algebra.Field.Basic
import Mathlib.Logic.Function.Iterate
/-
C134: random state of a function, recomputation and seeds. C135: Dropout. RandomErase is in Erase.lean.
Models the random state handling shared by dropout.cpp, rand.cpp, randn.cpp, randint.cpp, rand_binomial.cpp,
rand_beta.cpp, rand_gamma.cpp, random_choice.cpp, random_crop.cpp, random_erase.cpp, random_flip.cpp and
random_shift.cpp in /repo/src/nbla/function/generic, with Function::setup_recompute and Function::recompute
(/repo/src/nbla/function.cpp:176-200) and the forward visitor (/repo/src/nbla/computation_graph/variable.cpp:327-375).
-/
namespace Verif.Rand
open Verif.ND Verif.Fn

/-- The random state of one function object (dropout.hpp:62-63, function.hpp:71): rgen_, rgen_for_recompute_,
save_rng_, called_setup_recompute_. -/
structure RFn (G : Type) where
  own : G
  saved : G
  save : Bool
  called : Bool

/-- The process: RandomManager's generator (random_manager.cpp) and the function. -/
structure RState (G : Type) where
  glob : G
  fn : RFn G

/-- What happens, in order. `forward` carries whether an output of the function is flagged for recomputation;
`other` is any use of the global generator by somebody else, including set_seed. -/
inductive ROp (G I : Type)
  | setup (seedGen : G)
  | forward (recompute : Bool) (x : I)
  | recompute (x : I)
  | other (f : G → G)

/-- Result of an operation. -/
inductive RRes (O : Type)
  | done
  | out (o : O)
  | raised
deriving DecidableEq

/-- One operation; `kernel x g` is the function's kernel (dropout(), random_shift(), …) run on a generator, and
`seeded` is `seed_ != -1`.
setup: setup_impl resets rgen_ (dropout.cpp:48-49). forward: setup_recompute if flagged (variable.cpp:349-362,
function.cpp:176-180), then forward_impl (dropout.cpp:76-88). recompute: function.cpp:182-200 and recompute_impl
(dropout.cpp:90-95), which works on a copy of the saved generator. -/
def rstep {G I O} (kernel : I → G → O × G) (seeded : Bool) (s : RState G) : ROp G I → RState G × RRes O
  | .setup g => ({ s with fn := { s.fn with own := g } }, .done)
  | .forward rc x =>
    let fn := if rc then { s.fn with save := true, called := true } else s.fn
    let gen := if seeded then fn.own else s.glob
    let fn := if fn.save then { fn with saved := gen } else fn
    let r := kernel x gen
    ((if seeded then { s with fn := { fn with own := r.2 } } else { glob := r.2, fn := fn }), .out r.1)
  | .recompute x =>
    if s.fn.called then
      let r := kernel x s.fn.saved
      ({ s with fn := { s.fn with called := false } }, .out r.1)
    else (s, .raised)
  | .other f => ({ s with glob := f s.glob }, .done)

/-- A history. -/
def rrun {G I O} (kernel : I → G → O × G) (seeded : Bool) : RState G → List (ROp G I) → RState G × List (RRes O)
  | s, [] => (s, [])
  | s, op :: ops =>
    let r := rstep kernel seeded s op
    let r' := rrun kernel seeded r.1 ops
    (r'.1, r.2 :: r'.2)

/-! ### Specification -/

/-- What the user knows after a history: the output of the latest forward as a function of the input it would be given
(same random numbers), and whether some forward since the latest successful recompute was flagged. -/
structure Known (G I O : Type) where
  last : Option (I → O)
  pending : Bool

/-- Expected result of every operation given the results of the forwards (the only thing not determined): a recompute
returns what the latest forward computed, or raises when no flagged forward preceded it. -/
def ReplayOK {G I O} : Known G I O → List (ROp G I × RRes O) → Prop
  | _, [] => True
  | k, (.setup _, r) :: l => r = .done ∧ ReplayOK k l
  | k, (.other _, r) :: l => r = .done ∧ ReplayOK k l
  | k, (.forward rc x, r) :: l => ∃ f : I → O, r = .out (f x) ∧ ReplayOK ⟨some f, k.pending || rc⟩ l
  | k, (.recompute x, r) :: l =>
    if k.pending then (∃ f, k.last = some f ∧ r = .out (f x)) ∧ ReplayOK ⟨k.last, false⟩ l
    else r = .raised ∧ ReplayOK k l

theorem replay_core {G I O} (kernel : I → G → O × G) (seeded : Bool) (ops : List (ROp G I)) (s : RState G)
    (k : Known G I O) (hp : s.fn.called = k.pending)
    (hs : s.fn.save = true → ∀ f, k.last = some f → f = fun x => (kernel x s.fn.saved).1)
    (hc : k.pending = true → s.fn.save = true ∧ k.last ≠ none) :
    ReplayOK k (ops.zip (rrun kernel seeded s ops).2) := by
  induction ops generalizing s k with
  | nil => trivial
  | cons op ops ih =>
    simp only [rrun, List.zip_cons_cons]
    cases op with
    | setup g => exact ⟨rfl, ih _ _ hp hs hc⟩
    | other f => exact ⟨rfl, ih _ _ hp hs hc⟩
    | recompute x =>
      simp only [ReplayOK]
      by_cases h : k.pending = true
      · rw [if_pos h]
        obtain ⟨h1, h2⟩ := hc h
        have hcall : s.fn.called = true := by rw [hp, h]
        obtain ⟨f, hf⟩ := Option.ne_none_iff_exists'.mp h2
        have hstep : rstep kernel seeded s (.recompute x) =
            ({ s with fn := { s.fn with called := false } }, .out (kernel x s.fn.saved).1) := by
          simp only [rstep, hcall, if_true]
        rw [hstep]
        refine ⟨⟨f, hf, by rw [hs h1 f hf]⟩, ?_⟩
        exact ih _ _ rfl hs (by simp)
      · rw [if_neg h]
        have hcall : s.fn.called = false := by rw [hp]; simpa using h
        have hstep : rstep kernel seeded s (.recompute x) = (s, .raised) := by
          simp only [rstep, hcall, Bool.false_eq_true, if_false]
        rw [hstep]
        exact ⟨rfl, ih _ _ hp hs hc⟩
    | forward rc x =>
      simp only [ReplayOK]
      refine ⟨fun x => (kernel x (if seeded then s.fn.own else s.glob)).1, ?_, ?_⟩
      · cases rc <;> simp [rstep]
      · apply ih
        · cases rc <;> cases seeded <;> cases hsv : s.fn.save <;> simp [rstep, hp, hsv]
        · intro hsave f hf
          simp only [Option.some.injEq] at hf
          subst hf
          cases rc <;> cases seeded <;> cases hsv : s.fn.save <;> simp [rstep, hsv] at hsave ⊢
        · intro hpend
          refine ⟨?_, by simp⟩
          cases rc with
          | true => cases seeded <;> simp [rstep]
          | false =>
            simp only [Bool.or_false] at hpend
            have := (hc hpend).1
            cases seeded <;> simp [rstep, this]

/-- C134 (recomputation). Over any history of setups, forwards, recomputations and foreign uses of the random number
generator, starting from a fresh function, every recomputation on the same input gives exactly the output of the latest
forward (same random numbers), and raises when no forward flagged for recomputation came before it since the latest
recomputation. -/
theorem C134_recompute_replays {G I O} (kernel : I → G → O × G) (seeded : Bool) (own saved glob : G) (ops : List (ROp G I)) :
    ReplayOK ⟨none, false⟩ (ops.zip (rrun kernel seeded ⟨glob, ⟨own, saved, false, false⟩⟩ ops).2) := by
  apply replay_core
  · rfl
  · intro h; cases h
  · intro h; cases h

/-- C134: a recomputation does not advance any generator that later forwards use. -/
theorem C134_recompute_no_draw {G I O} (kernel : I → G → O × G) (seeded : Bool) (s : RState G) (x : I) :
    (rstep kernel seeded s (.recompute x)).1.glob = s.glob ∧ (rstep kernel seeded s (.recompute x)).1.fn.own = s.fn.own := by
  unfold rstep
  cases s.fn.called <;> simp

/-- The operations that involve the function. -/
def mine {G I} : ROp G I → Bool
  | .other _ => false
  | _ => true

theorem seeded_step {G I O} (kernel : I → G → O × G) (fn : RFn G) (op : ROp G I) (h : mine op = true) :
    ∃ fn' res, ∀ gl, rstep kernel true ⟨gl, fn⟩ op = (⟨gl, fn'⟩, res) := by
  cases op with
  | other f => cases h
  | setup g => exact ⟨{ fn with own := g }, .done, fun gl => rfl⟩
  | forward rc x => exact ⟨(rstep kernel true ⟨fn.own, fn⟩ (.forward rc x)).1.fn, (rstep kernel true ⟨fn.own, fn⟩ (.forward rc x)).2, fun gl => rfl⟩
  | recompute x =>
    cases hc : fn.called with
    | true => exact ⟨{ fn with called := false }, .out (kernel x fn.saved).1, fun gl => by simp [rstep, hc]⟩
    | false => exact ⟨fn, .raised, fun gl => by simp [rstep, hc]⟩

/-- C134 (seed). A function with its own seed gives the same outputs whatever else uses the global generator, whatever its
state, and leaves it alone: after setup its outputs are determined by the seed and its inputs. -/
theorem C134_seeded {G I O} (kernel : I → G → O × G) (fn : RFn G) (glob glob' : G) (ops : List (ROp G I)) :
    ((ops.zip (rrun kernel true ⟨glob, fn⟩ ops).2).filter (fun p => mine p.1)).map (·.2) =
      (rrun kernel true ⟨glob', fn⟩ (ops.filter mine)).2 ∧
    (rrun kernel true ⟨glob', fn⟩ (ops.filter mine)).1.glob = glob' := by
  induction ops generalizing fn glob with
  | nil => exact ⟨rfl, rfl⟩
  | cons op ops ih =>
    cases hm : mine op with
    | true =>
      obtain ⟨fn', res, h⟩ := seeded_step kernel fn op hm
      obtain ⟨h1, h2⟩ := ih fn' glob
      have e1 : (op :: ops).filter mine = op :: ops.filter mine := by simp [hm]
      have e2 : ∀ gl l, rrun kernel true ⟨gl, fn⟩ (op :: l) = ((rrun kernel true ⟨gl, fn'⟩ l).1, res :: (rrun kernel true ⟨gl, fn'⟩ l).2) := by
        intro gl l
        simp only [rrun, h]
      rw [e1, e2, e2]
      refine ⟨?_, h2⟩
      simp only [List.zip_cons_cons, List.filter_cons, hm, if_true, List.map_cons]
      rw [h1]
    | false =>
      cases op with
      | other f =>
        obtain ⟨h1, h2⟩ := ih fn (f glob)
        have e1 : (ROp.other f :: ops).filter mine = ops.filter mine := by simp [hm]
        rw [e1]
        refine ⟨?_, h2⟩
        simp only [rrun, rstep, List.zip_cons_cons, List.filter_cons, hm, Bool.false_eq_true, if_false]
        exact h1
      | setup g => cases hm
      | forward rc x => cases hm
      | recompute x => cases hm

/-- A history that meets the case analysis: forward (flagged), somebody draws, recompute gives the same, a second recompute
raises. The kernel returns input plus the generator. -/
example : (rrun (fun (x g : Nat) => (x + g, g + 1)) false ⟨10, ⟨0, 0, false, false⟩⟩
    [.forward true 1, .other (· + 5), .forward false 1, .other (· + 5), .recompute 1, .recompute 1, .forward false 1]).2 =
      [.out 11, .done, .out 17, .done, .out 17, .raised, .out 23] := by decide

/-! ### Dropout -/

/-- State of a Dropout object between calls: `none` is a mask that has never been written or has been cleared. -/
abbrev Mask := Option (Nat → Bool)

/-- `m[s] = rdist_(rgen)` for s < n (dropout.cpp:64-69); `bern` is the Bernoulli distribution on the generator. -/
def dropMask {G} (bern : G → Bool × G) : Nat → G → List Bool × G
  | 0, g => ([], g)
  | n + 1, g => let r := bern g; let r' := dropMask bern n r.2; (r.1 :: r'.1, r'.2)

/-- Dropout::dropout (dropout.cpp:59-71) on the mask drawn: y[s] = x[s] * m[s] * scale_. -/
def dropForward {R} [CommRing R] (n : Nat) (scale : R) (m : Nat → Bool) (x y : Mem R) : Mem R :=
  (List.range n).foldl (fun y s => put y s (x s * (if m s then 1 else 0) * scale)) y

/-- Dropout::backward_impl (dropout.cpp:107-123) with propagate_down[0]: reads the mask, then clears it
(dropout.cpp:97-104). Reading a mask that was cleared gives undefined numbers: `none`. -/
def dropBackward {R} [CommRing R] (n : Nat) (scale : R) (mask : Mask) (accum : Bool) (dy dx : Mem R) : Option (Mem R) × Mask :=
  match mask with
  | some m => (some ((List.range n).foldl (fun dx s =>
      put dx s ((if accum then dx s else 0) + dy s * (if m s then 1 else 0) * scale)) dx), none)
  | none => (none, none)

/-- Calls on one Dropout object (with fixed input size), in order. -/
inductive DOp (R : Type) | forward (m : Nat → Bool) (x : Mem R) | recompute (m : Nat → Bool) (x : Mem R) | backward (accum : Bool) (dy dx : Mem R)

/-- The mask after a call. -/
def dropStep {R} [CommRing R] (n : Nat) (scale : R) (mask : Mask) : DOp R → Mask
  | .forward m _ => some m
  | .recompute m _ => some m
  | .backward a dy dx => (dropBackward n scale mask a dy dx).2

theorem foldl_put {R} (n : Nat) (f : Nat → R → R) (y : Mem R) (k : Nat) :
    (List.range n).foldl (fun y s => put y s (f s (y s))) y k = if k < n then f k (y k) else y k := by
  induction n with
  | zero => simp
  | succ n ih =>
    rw [List.range_succ, List.foldl_append]
    simp only [List.foldl_cons, List.foldl_nil]
    by_cases e : k = n
    · subst e
      rw [put_same, if_pos (by omega), ih, if_neg (by omega)]
    · rw [put_other _ _ e, ih]
      by_cases h : k < n
      · rw [if_pos h, if_pos (by omega)]
      · rw [if_neg h, if_neg (by omega)]

/-- C135: every output of Dropout is either zero or the input divided by 1 - p. -/
theorem C135_dropout_forward {R} [Field R] (n : Nat) (p : R) (m : Nat → Bool) (x y : Mem R) (s : Nat) (hs : s < n) :
    dropForward n (1 / (1 - p)) m x y s = if m s then x s / (1 - p) else 0 := by
  unfold dropForward
  rw [foldl_put n (fun s _ => x s * (if m s then 1 else 0) * (1 / (1 - p))), if_pos hs]
  cases m s <;> simp [div_eq_mul_inv]

/-- C135: each element of the mask comes from its own draw, in order. -/
theorem C135_dropout_draws {G} (bern : G → Bool × G) (n : Nat) (g : G) :
    (dropMask bern n g).1.length = n ∧
    ∀ s, s < n → (dropMask bern n g).1.getD s false = (bern ((fun g => (bern g).2)^[s] g)).1 := by
  induction n generalizing g with
  | zero => exact ⟨rfl, by intro s hs; omega⟩
  | succ n ih =>
    obtain ⟨h1, h2⟩ := ih (bern g).2
    refine ⟨by simp only [dropMask, List.length_cons, h1], ?_⟩
    intro s hs
    cases s with
    | zero => rfl
    | succ s =>
      simp only [dropMask, List.getD_cons_succ]
      rw [h2 s (by omega), Function.iterate_succ_apply]

/-- C135 (gradient), partial. In any history of calls on a Dropout object, a backward whose latest preceding call is a
forward or a recompute is the transpose of that forward: gradients pass exactly through the elements kept.
What is missing: a backward that follows a backward has no mask, see `C135_dropout_second_backward`. -/
theorem C135_dropout_grad_partial {R} [CommRing R] (n : Nat) (scale : R) (ops : List (DOp R)) (mask0 : Mask) (m : Nat → Bool) (x : Mem R)
    (op : DOp R) (hop : op = .forward m x ∨ op = .recompute m x) :
    ∃ bw : Bool → Mem R → Mem R → Mem R,
      (∀ a dy dx, (dropBackward n scale ((ops ++ [op]).foldl (dropStep n scale) mask0) a dy dx).1 = some (bw a dy dx)) ∧
      GradOK n n (fun x => dropForward n scale m x (fun _ => 0)) (callBackward bw) := by
  have hm : (ops ++ [op]).foldl (dropStep n scale) mask0 = some m := by
    rw [List.foldl_append]
    rcases hop with rfl | rfl <;> rfl
  rw [hm]
  refine ⟨_, fun a dy dx => rfl, ?_, ?_⟩
  · intro dx x dy
    unfold dot
    apply Finset.sum_congr rfl
    intro i hi
    have hi' := Finset.mem_range.mp hi
    simp only [callBackward, Bool.false_eq_true, if_false]
    rw [foldl_put n (fun s _ => 0 + dy s * (if m s then 1 else 0) * scale), if_pos hi']
    unfold dropForward
    rw [foldl_put n (fun s _ => x s * (if m s then 1 else 0) * scale), if_pos hi']
    ring
  · intro dy dx dx' k
    simp only [callBackward, Bool.false_eq_true, if_false, if_true]
    rw [foldl_put n (fun s v => v + dy s * (if m s then 1 else 0) * scale),
      foldl_put n (fun s _ => 0 + dy s * (if m s then 1 else 0) * scale)]
    split <;> simp [zeros]

/-- C135, refuted part: calling backward twice after one forward, the second one has no mask to use. -/
theorem C135_dropout_second_backward {R} [CommRing R] (n : Nat) (scale : R) (m : Nat → Bool) (x dy dx dy' dx' : Mem R) (a a' : Bool) :
    (dropBackward n scale ([DOp.forward m x, .backward a dy dx].foldl (dropStep n scale) none) a' dy' dx').1 = none := rfl

/-- Two of three elements kept with p = 1/2. -/
example : (List.range 3).map (dropForward (R := Int) 3 2 (fun s => s != 1) (fun s => (s : Int) + 1) (fun _ => 9)) = [2, 0, 6] := by decide

end Verif.Rand
