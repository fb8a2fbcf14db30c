import Verif.Rand.Replay
/-
C136: RandomErase.
Models /repo/src/nbla/function/generic/random_erase.cpp (CPU, channel first).
Simplifications: the rectangles drawn (with "erase probability <= prob" already decided) are given; coordinates are exact
integers (C++ stores them as float); He and We, computed with square roots, are arbitrary numbers not larger than the image.
-/
namespace Verif.Rand
open Verif.ND Verif.Fn

/-- One row of random_coords: eprob <= prob, ye_start, xe_start, ye_end, xe_end. -/
structure Rect where
  on : Bool
  y0 : Nat
  x0 : Nat
  y1 : Nat
  x1 : Nat

/-- generate_coords_and_next (random_erase.cpp:49-71): a rectangle of `he` × `we` at a position drawn in [0, H - he] × [0, W - we]. -/
def mkRect (on : Bool) (ys xs he we : Nat) : Rect := ⟨on, ys, xs, ys + he, xs + we⟩

/-- The condition in erase_2d and backward (random_erase.cpp:109-110, 354-358). -/
def inRect (r : Rect) (h w : Nat) : Bool :=
  r.on && (decide (r.y0 ≤ h) && decide (h ≤ r.y1)) && (decide (r.x0 ≤ w) && decide (w ≤ r.x1))

/-- Which rectangle applies to channel `c` of sample `b` in round `n` (random_erase.cpp:101-105, 118-123, 259-270, 340-347). -/
def rectIdx (share : Bool) (B C n b c : Nat) : Nat := if share then n * B + b else (n * B + b) * C + c

/-- Position `[b, c, h, w]` is erased in round `n`. -/
def hits (share : Bool) (B C : Nat) (rects : Nat → Rect) (n : Nat) (p : List Nat) : Bool :=
  match p with
  | [b, c, h, w] => inRect (rects (rectIdx share B C n b c)) h w
  | _ => false

/-- RandomErase::random_erase (random_erase.cpp:247-271) after the rectangles have been drawn: copy x, then N rounds over all
pixels; every erased pixel gets a fresh random value. -/
def eraseForward {R G} (repl : G → R × G) (share : Bool) (N B C H W : Nat) (rects : Nat → Rect) (x y : Mem R) (g : G) : Mem R × G :=
  let y := (List.range (B * (C * (H * W)))).foldl (fun y i => put y i (x i)) y
  (List.range N).foldl (fun st n => (indices [B, C, H, W]).foldl (fun (st : Mem R × G) p =>
    if hits share B C rects n p then
      let r := repl st.2
      (put st.1 (ravel [B, C, H, W] p) r.1, r.2)
    else st) st) (y, g)

/-- RandomErase::backward_impl (random_erase.cpp:299-377) with propagate_down[0]. -/
def eraseBackward {R} [Zero R] [Add R] (fine share : Bool) (N B C H W : Nat) (rects : Nat → Rect) (accum : Bool) (dy dx : Mem R) : Mem R :=
  if fine then
    (indices [B, C, H, W]).foldl (fun dx p =>
      let i := ravel [B, C, H, W] p
      let fall := (List.range N).any (fun n => hits share B C rects n p)
      put dx i (if fall then (if accum then dx i + 0 else 0) else (if accum then dx i + dy i else dy i))) dx
  else (List.range (B * (C * (H * W)))).foldl (fun dx i => put dx i (if accum then dx i + dy i else dy i)) dx

/-! ### Lemmas -/

theorem prod4 (B C H W : Nat) : prod [B, C, H, W] = B * (C * (H * W)) := by simp [prod]

theorem foldl_idx {R} (sh : Shape) (f : List Nat → R → R) (y : Mem R) (p : List Nat) (hp : InBounds sh p) :
    (indices sh).foldl (fun y p => put y (ravel sh p) (f p (y (ravel sh p)))) y (ravel sh p) = f p (y (ravel sh p)) := by
  have key : ∀ (l : List (List Nat)) (y : Mem R), (∀ q ∈ l, InBounds sh q) → l.Nodup →
      (p ∈ l → l.foldl (fun y p => put y (ravel sh p) (f p (y (ravel sh p)))) y (ravel sh p) = f p (y (ravel sh p))) ∧
      (p ∉ l → l.foldl (fun y p => put y (ravel sh p) (f p (y (ravel sh p)))) y (ravel sh p) = y (ravel sh p)) := by
    intro l
    induction l with
    | nil => intro y _ _; exact ⟨by simp, by simp⟩
    | cons q l ih =>
      intro y hb hn
      rw [List.nodup_cons] at hn
      obtain ⟨i1, i2⟩ := ih (put y (ravel sh q) (f q (y (ravel sh q)))) (fun r hr => hb r (List.mem_cons_of_mem _ hr)) hn.2
      constructor
      · intro hm
        by_cases e0 : p = q
        · subst e0
          rw [List.foldl_cons, i2 hn.1, put_same]
        · have hm : p ∈ l := by
            rcases List.mem_cons.mp hm with h | h
            · exact absurd h e0
            · exact h
          have hne : p ≠ q := e0
          have hne' : ravel sh p ≠ ravel sh q := fun e => hne (ravel_inj sh p q hp (hb q List.mem_cons_self) e)
          rw [List.foldl_cons, i1 hm, put_other _ _ hne']
      · intro hm
        rw [List.mem_cons, not_or] at hm
        have hne' : ravel sh p ≠ ravel sh q := fun e => hm.1 (ravel_inj sh p q hp (hb q List.mem_cons_self) e)
        rw [List.foldl_cons, i2 hm.2, put_other _ _ hne']
  exact (key (indices sh) y (fun q hq => (mem_indices _ _).mp hq) ((indices_nodup sh).of_map _)).1 ((mem_indices _ _).mpr hp)

/-- One round of the erasing loop. -/
theorem erase_round {R G} (repl : G → R × G) (sh : Shape) (hit : List Nat → Bool) (st : Mem R × G) (p : List Nat) (hp : InBounds sh p) :
    ∃ g', ((indices sh).foldl (fun (st : Mem R × G) p => if hit p then
        let r := repl st.2
        (put st.1 (ravel sh p) r.1, r.2) else st) st).1 (ravel sh p) = if hit p then (repl g').1 else st.1 (ravel sh p) := by
  have key : ∀ (l : List (List Nat)) (st : Mem R × G), (∀ q ∈ l, InBounds sh q) →
      (∃ g', (l.foldl (fun (st : Mem R × G) p => if hit p then
        let r := repl st.2
        (put st.1 (ravel sh p) r.1, r.2) else st) st).1 (ravel sh p) = if hit p ∧ p ∈ l then (repl g').1 else st.1 (ravel sh p)) := by
    intro l
    induction l with
    | nil => intro st _; exact ⟨st.2, by simp⟩
    | cons q l ih =>
      intro st hb
      rw [List.foldl_cons]
      by_cases hq : hit q = true
      · simp only [hq, if_true]
        obtain ⟨g', hg⟩ := ih (put st.1 (ravel sh q) (repl st.2).1, (repl st.2).2) (fun r hr => hb r (List.mem_cons_of_mem _ hr))
        rw [hg]
        by_cases hpl : hit p = true ∧ p ∈ l
        · exact ⟨g', by rw [if_pos hpl, if_pos ⟨hpl.1, List.mem_cons_of_mem _ hpl.2⟩]⟩
        · rw [if_neg hpl]
          by_cases e : p = q
          · subst e
            exact ⟨st.2, by rw [if_pos ⟨hq, List.mem_cons_self⟩]; exact put_same _ _ _⟩
          · have hne' : ravel sh p ≠ ravel sh q := fun e' => e (ravel_inj sh p q hp (hb q List.mem_cons_self) e')
            refine ⟨st.2, ?_⟩
            rw [if_neg (by rintro ⟨a, b⟩; rcases List.mem_cons.mp b with b | b; exact e b; exact hpl ⟨a, b⟩)]
            exact put_other _ _ hne'
      · simp only [hq, Bool.false_eq_true, if_false]
        obtain ⟨g', hg⟩ := ih st (fun r hr => hb r (List.mem_cons_of_mem _ hr))
        refine ⟨g', ?_⟩
        rw [hg]
        by_cases hpl : hit p = true ∧ p ∈ l
        · rw [if_pos hpl, if_pos ⟨hpl.1, List.mem_cons_of_mem _ hpl.2⟩]
        · rw [if_neg hpl, if_neg]
          rintro ⟨a, b⟩
          rcases List.mem_cons.mp b with b | b
          · subst b; exact hq a
          · exact hpl ⟨a, b⟩
  obtain ⟨g', hg⟩ := key (indices sh) st (fun q hq => (mem_indices _ _).mp hq)
  refine ⟨g', ?_⟩
  rw [hg]
  by_cases h : hit p = true
  · rw [if_pos ⟨h, (mem_indices _ _).mpr hp⟩, if_pos h]
  · rw [if_neg (fun c => h c.1), if_neg h]

/-- The pixel is covered by one of the rectangles in force for its sample (and channel unless shared). -/
def Erased (share : Bool) (N B C : Nat) (rects : Nat → Rect) (p : List Nat) : Prop := ∃ n, n < N ∧ hits share B C rects n p = true

/-- C136 (which rectangle): the rectangles are drawn in row-major order of a table of shape [N, B] (shared by the channels) or
[N, B, C], and a pixel of channel `c` of sample `b` is erased exactly when a rectangle at `[n, b]` (at `[n, b, c]`) of the table
contains it; the table has one entry for each, so no two samples (channels) use the same draw. -/
theorem C136_erase_table (share : Bool) (N B C : Nat) (rects : Nat → Rect) (b c h w : Nat) (hb : b < B) (hc : c < C) :
    (Erased share N B C rects [b, c, h, w] ↔ ∃ n, n < N ∧
      let r := if share then rects (ravel [N, B] [n, b]) else rects (ravel [N, B, C] [n, b, c])
      r.on = true ∧ (r.y0 ≤ h ∧ h ≤ r.y1) ∧ (r.x0 ≤ w ∧ w ≤ r.x1)) ∧
    (∀ n, n < N → ravel [N, B] [n, b] < N * B ∧ ravel [N, B, C] [n, b, c] < N * (B * C)) := by
  constructor
  · unfold Erased hits inRect rectIdx
    apply exists_congr
    intro n
    apply and_congr_right
    intro _
    cases share <;> simp [ravel, prod, Nat.add_mul, Nat.mul_assoc, Nat.add_assoc, and_assoc]
  · intro n hn
    have h1 := ravel_lt (show InBounds [N, B] [n, b] by simp [InBounds, hn, hb])
    have h2 := ravel_lt (show InBounds [N, B, C] [n, b, c] by simp [InBounds, hn, hb, hc])
    simpa [prod] using And.intro h1 h2

/-- C136 (forward): a pixel covered by no rectangle keeps its value; a covered one gets a value drawn from the replacement
distribution. -/
theorem C136_erase_forward {R G} (repl : G → R × G) (share : Bool) (N B C H W : Nat) (rects : Nat → Rect) (x y : Mem R) (g : G)
    (p : List Nat) (hp : InBounds [B, C, H, W] p) :
    (¬ Erased share N B C rects p → (eraseForward repl share N B C H W rects x y g).1 (ravel [B, C, H, W] p) = x (ravel [B, C, H, W] p)) ∧
    (Erased share N B C rects p → ∃ g', (eraseForward repl share N B C H W rects x y g).1 (ravel [B, C, H, W] p) = (repl g').1) := by
  have hlt : ravel [B, C, H, W] p < B * (C * (H * W)) := by rw [← prod4]; exact ravel_lt hp
  unfold eraseForward
  simp only
  have h0 : (List.range (B * (C * (H * W)))).foldl (fun y i => put y i (x i)) y (ravel [B, C, H, W] p) = x (ravel [B, C, H, W] p) := by
    rw [foldl_put _ (fun i _ => x i), if_pos hlt]
  generalize (List.range (B * (C * (H * W)))).foldl (fun y i => put y i (x i)) y = y0 at h0
  induction N with
  | zero => exact ⟨fun _ => h0, fun ⟨n, hn, _⟩ => by omega⟩
  | succ N ih =>
    rw [List.range_succ, List.foldl_append]
    simp only [List.foldl_cons, List.foldl_nil]
    obtain ⟨g', hg⟩ := erase_round repl [B, C, H, W] (hits share B C rects N) ((List.range N).foldl (fun st n =>
      (indices [B, C, H, W]).foldl (fun (st : Mem R × G) p => if hits share B C rects n p then
        let r := repl st.2
        (put st.1 (ravel [B, C, H, W] p) r.1, r.2) else st) st) (y0, g)) p hp
    rw [hg]
    by_cases hN : hits share B C rects N p = true
    · rw [if_pos hN]
      exact ⟨fun hne => absurd ⟨N, by omega, hN⟩ hne, fun _ => ⟨g', rfl⟩⟩
    · rw [if_neg hN]
      constructor
      · intro hne
        exact ih.1 (fun ⟨n, hn, hh⟩ => hne ⟨n, by omega, hh⟩)
      · rintro ⟨n, hn, hh⟩
        have : n ≠ N := by rintro rfl; exact hN hh
        exact ih.2 ⟨n, by omega, hh⟩

/-- C136 (gradient): with ste_fine_grained the gradient passes exactly through the pixels that were not erased, each once
whatever the number of overlapping rectangles; without it the gradient passes everywhere. -/
theorem C136_erase_backward {R} [AddCommMonoid R] (fine share : Bool) (N B C H W : Nat) (rects : Nat → Rect) (accum : Bool) (dy dx : Mem R)
    (p : List Nat) (hp : InBounds [B, C, H, W] p) :
    (fine = true → Erased share N B C rects p → eraseBackward fine share N B C H W rects accum dy dx (ravel [B, C, H, W] p) =
      if accum then dx (ravel [B, C, H, W] p) else 0) ∧
    (fine = false ∨ ¬ Erased share N B C rects p → eraseBackward fine share N B C H W rects accum dy dx (ravel [B, C, H, W] p) =
      (if accum then dx (ravel [B, C, H, W] p) else 0) + dy (ravel [B, C, H, W] p)) := by
  have hlt : ravel [B, C, H, W] p < B * (C * (H * W)) := by rw [← prod4]; exact ravel_lt hp
  have hany : (List.range N).any (fun n => hits share B C rects n p) = true ↔ Erased share N B C rects p := by
    rw [List.any_eq_true]
    constructor
    · rintro ⟨n, hn, h⟩; exact ⟨n, List.mem_range.mp hn, h⟩
    · rintro ⟨n, hn, h⟩; exact ⟨n, List.mem_range.mpr hn, h⟩
  cases fine with
  | true =>
    have hf := foldl_idx [B, C, H, W] (fun p v => if (List.range N).any (fun n => hits share B C rects n p) then
      (if accum then v + 0 else 0) else (if accum then v + dy (ravel [B, C, H, W] p) else dy (ravel [B, C, H, W] p))) dx p hp
    have e : eraseBackward true share N B C H W rects accum dy dx (ravel [B, C, H, W] p) = _ := hf
    rw [e]
    constructor
    · intro _ he
      rw [if_pos (hany.mpr he)]
      simp
    · rintro (h | h)
      · cases h
      · rw [if_neg (fun c => h (hany.mp c))]
        cases accum <;> simp
  | false =>
    constructor
    · intro h; cases h
    · intro _
      unfold eraseBackward
      simp only [Bool.false_eq_true, if_false]
      rw [foldl_put _ (fun i v => if accum then v + dy i else dy i), if_pos hlt]
      cases accum <;> simp

/-- C136 (size), partial: the rectangle drawn for `he` × `we` covers `he + 1` rows and `we + 1` columns, cut at the border of the
image. What is missing: the claim that it covers `he` × `we` pixels, which fails (`C136_erase_size_wrong`). -/
theorem C136_erase_size_partial (ys xs he we H W : Nat) (h w : Nat) (_ : h < H) (_ : w < W) :
    inRect (mkRect true ys xs he we) h w = true ↔ (ys ≤ h ∧ h < ys + (he + 1)) ∧ (xs ≤ w ∧ w < xs + (we + 1)) := by
  unfold inRect mkRect
  simp
  omega

/-- C136, refuted part: in a 4×4 image a rectangle of 2×2 (a quarter of the area) erases 9 pixels, and an empty one still erases a
pixel. -/
theorem C136_erase_size_wrong :
    ((indices [4, 4]).filter (fun p => inRect (mkRect true 1 1 2 2) (p.getD 0 0) (p.getD 1 0))).length = 9 ∧
    ((indices [4, 4]).filter (fun p => inRect (mkRect true 1 1 0 0) (p.getD 0 0) (p.getD 1 0))).length = 1 := by
  decide

/-- Two samples, one channel, 2×2 pixels; the second sample has its top left pixel erased. -/
example : (List.range 8).map (eraseForward (fun g : Int => (g, g + 1)) true 1 2 1 2 2 (fun i => mkRect (i == 1) 0 0 0 0)
      (fun i => (i : Int)) (fun _ => 99) 50).1 = [0, 1, 2, 3, 50, 5, 6, 7] ∧
    (List.range 8).map (eraseBackward true true 1 2 1 2 2 (fun i => mkRect (i == 1) 0 0 0 0) false (fun _ => (1 : Int)) (fun _ => 7)) =
      [1, 1, 1, 1, 0, 1, 1, 1] := by
  decide

end Verif.Rand
