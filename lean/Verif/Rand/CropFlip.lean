import Verif.Rand.Shift
/-
C131: RandomCrop and RandomFlip. C132: one pattern per sample.
-/
namespace Verif.Rand
open Verif.ND Verif.Fn

/-! ### RandomCrop -/

/-- One start position per axis such that the window lies inside of x. -/
def CropStarts (xsh ysh : Shape) (n : Nat) (starts : List (List Nat)) : Prop :=
  starts.length = n ∧ ∀ st ∈ starts, st.length = xsh.length ∧
    ∀ d, d < xsh.length → st.getD d 0 + ysh.getD d 0 ≤ xsh.getD d 0

theorem cropSetup_some {xsh crop ysh : Shape} (h : cropSetup xsh crop = some ysh) :
    crop.length ≤ xsh.length ∧ ysh = xsh.take (xsh.length - crop.length) ++ crop ∧
      ∀ d, d < crop.length → crop.getD d 0 ≤ xsh.getD (xsh.length - crop.length + d) 0 := by
  unfold cropSetup at h
  split at h
  · rename_i h1
    split at h
    · rename_i h2
      simp only [Option.some.injEq] at h
      refine ⟨h1, h.symm, ?_⟩
      intro d hd
      rw [List.all_eq_true] at h2
      have hd2 : xsh.length - crop.length + d < xsh.length := by omega
      have := h2 (crop.getD d 0, xsh.getD (xsh.length - crop.length + d) 0) (by
        rw [List.mem_iff_getElem]
        refine ⟨d, by simp; omega, ?_⟩
        rw [List.getD_eq_getElem _ _ hd, List.getD_eq_getElem _ _ hd2]
        simp)
      simpa using this
    · cases h
  · cases h

/-- C131: the crop shape replaces the last axes of the shape of x, and setup raises exactly when a crop extent
is larger than x (or there are more of them than axes). -/
theorem C131_crop_setup (xsh crop : Shape) :
    cropSetup xsh crop = if crop.length ≤ xsh.length ∧
      ∀ d, d < crop.length → crop.getD d 0 ≤ xsh.getD (xsh.length - crop.length + d) 0 then
        some (xsh.take (xsh.length - crop.length) ++ crop) else none := by
  by_cases h : crop.length ≤ xsh.length ∧
      ∀ d, d < crop.length → crop.getD d 0 ≤ xsh.getD (xsh.length - crop.length + d) 0
  · rw [if_pos h]
    unfold cropSetup
    rw [if_pos h.1, if_pos]
    rw [List.all_eq_true]
    intro p hp
    rw [List.mem_iff_getElem] at hp
    obtain ⟨d, hd, rfl⟩ := hp
    simp only [List.length_zip, List.length_drop] at hd
    have hd1 : d < crop.length := by omega
    have hd2 : xsh.length - crop.length + d < xsh.length := by omega
    have := h.2 d hd1
    rw [List.getD_eq_getElem _ _ hd1, List.getD_eq_getElem _ _ hd2] at this
    simpa using this
  · rw [if_neg h]
    cases hc : cropSetup xsh crop with
    | none => rfl
    | some ysh =>
      obtain ⟨h1, _, h3⟩ := cropSetup_some hc
      exact absurd ⟨h1, h3⟩ h

theorem drawLefts_spec {G} (next : Gen G) (off : Nat) (xsh crop : Shape) (g : G) (hl : xsh.length = off + crop.length)
    (h : ∀ d, d < crop.length → crop.getD d 0 ≤ xsh.getD (off + d) 0) :
    (drawLefts next off xsh crop g).1.length = xsh.length ∧
      ∀ d, d < xsh.length → (drawLefts next off xsh crop g).1.getD d 0 + (xsh.take off ++ crop).getD d 0 ≤ xsh.getD d 0 := by
  induction xsh generalizing off crop g with
  | nil =>
    simp only [List.length_nil] at hl
    have h0 : off = 0 := by omega
    have h1 : crop = [] := List.length_eq_zero_iff.mp (by omega)
    subst h0; subst h1
    exact ⟨rfl, by intro d hd; simp at hd⟩
  | cons x xs ih =>
    cases off with
    | zero =>
      cases crop with
      | nil => simp at hl
      | cons c cs =>
        have hc : c ≤ x := by simpa using h 0 (by simp)
        obtain ⟨h1, h2⟩ := ih 0 cs (next g).2 (by simpa using hl) (by
          intro d hd
          have := h (d + 1) (by simpa using hd)
          simpa using this)
        refine ⟨by simp only [drawLefts, List.length_cons, h1], ?_⟩
        intro d hd
        cases d with
        | zero =>
          simp only [drawLefts, List.getD_cons_zero, List.take_zero, List.nil_append]
          have := Nat.mod_lt (next g).1 (show 0 < x - c + 1 by omega)
          omega
        | succ d =>
          simp only [drawLefts, List.getD_cons_succ, List.take_zero, List.nil_append]
          have := h2 d (by simpa using hd)
          simpa using this
    | succ off =>
      obtain ⟨h1, h2⟩ := ih off crop g (by simp only [List.length_cons] at hl; omega) (by
        intro d hd
        have := h d hd
        rw [show off + 1 + d = (off + d) + 1 by omega] at this
        simpa using this)
      refine ⟨by simp only [drawLefts, List.length_cons, h1], ?_⟩
      intro d hd
      cases d with
      | zero => simp [drawLefts]
      | succ d =>
        simp only [drawLefts, List.getD_cons_succ, List.take_succ_cons, List.cons_append]
        exact h2 d (by simpa using hd)

/-- C131: whatever the generator, every drawn window lies inside of x. -/
theorem C131_crop_starts {G} (next : Gen G) (xsh crop ysh : Shape) (h : cropSetup xsh crop = some ysh) (n : Nat) (g : G) :
    CropStarts xsh ysh n (drawCrops next xsh crop n g).1 := by
  obtain ⟨h1, rfl, h3⟩ := cropSetup_some h
  induction n generalizing g with
  | zero => exact ⟨rfl, by simp [drawCrops]⟩
  | succ n ih =>
    obtain ⟨i1, i2⟩ := ih (drawLefts next (xsh.length - crop.length) xsh crop g).2
    refine ⟨by simp only [drawCrops, List.length_cons, i1], ?_⟩
    intro st hst
    simp only [drawCrops, List.mem_cons] at hst
    rcases hst with rfl | hst
    · exact drawLefts_spec next _ xsh crop g (by omega) h3
    · exact i2 st hst

/-- C131: every window position inside of x can be drawn. -/
theorem C131_crop_reachable (x c v : Nat) (h : v + c ≤ x) : ∃ r, r % (x - c + 1) = v :=
  ⟨v, Nat.mod_eq_of_lt (by omega)⟩

theorem crop_gathersC (xsh ysh : Shape) (hl : xsh.length = ysh.length) (base n : Nat) (hn : 0 < n) (starts : List (List Nat))
    (hs : CropStarts xsh ysh n starts) :
    GathersC ysh xsh (pick base starts.length (fun k d i => some ((starts.getD k []).getD d 0 + i)) ysh 0 0)
      (cropPairs xsh ysh base starts) := by
  refine walk_gathers base starts.length (by rw [hs.1]; exact hn) (fun k d i => some ((starts.getD k []).getD d 0 + i)) ysh xsh hl ?_
  intro k d i a hk hd hi h
  simp only [Option.some.injEq] at h
  have h1 := (hs.2 (starts.getD k []) (by rw [List.getD_eq_getElem _ _ hk]; exact List.getElem_mem hk)).2 d hd
  omega

theorem pick_total (base n : Nat) (m : Nat → Nat → Nat → Nat) (sh : Shape) (dim k : Nat) (j : List Nat) :
    ∃ l, pick base n (fun k d i => some (m k d i)) sh dim k j = some l := by
  induction sh generalizing dim k j with
  | nil => exact ⟨[], by cases j <;> rfl⟩
  | cons s rest ih => cases j with
    | nil => exact ⟨[], rfl⟩
    | cons i is =>
      obtain ⟨l, hl⟩ := ih (dim + 1) ((k + i * stepOf base rest dim) % n) is
      exact ⟨m k dim i :: l, by simp only [pick, hl]⟩

/-- A gather without constants is a plain gather. -/
theorem GathersC_some {ysh xsh : Shape} {f : List Nat → Option (List Nat)} {ps : CPairs} (h : GathersC ysh xsh f ps)
    (ht : ∀ j, ∃ l, f j = some l) : Gathers ysh xsh (fun j => (f j).getD []) (somes ps) where
  perm := by
    have h1 : (somes ps).Perm (somes ((indices ysh).map fun j => (ravel ysh j, (f j).map (ravel xsh)))) :=
      h.perm.filterMap _
    refine h1.trans (List.Perm.of_eq ?_)
    generalize indices ysh = l
    induction l with
    | nil => rfl
    | cons j l ih =>
      obtain ⟨a, ha⟩ := ht j
      have : somes (((j :: l)).map fun j => (ravel ysh j, (f j).map (ravel xsh))) =
          (ravel ysh j, ravel xsh a) :: somes (l.map fun j => (ravel ysh j, (f j).map (ravel xsh))) := by
        simp only [List.map_cons, ha, Option.map_some, somes, List.filterMap_cons]
      rw [this, ih]
      simp only [List.map_cons, ha, Option.getD_some]
  bound := by
    intro j hj
    obtain ⟨a, ha⟩ := ht j
    simp only [ha, Option.getD_some]
    exact h.bound j a hj ha

/-- C131 (gradient). RandomCrop's backward is the transpose of its forward for the positions drawn, for every
shape, base axis and positions: gradients go exactly to the elements inside the window. -/
theorem C131_crop_grad {R} [CommSemiring R] (xsh ysh : Shape) (hl : xsh.length = ysh.length) (base n : Nat) (hn : 0 < n)
    (starts : List (List Nat)) (hs : CropStarts xsh ysh n starts) (y : Mem R) :
    GradOK (prod xsh) (prod ysh) (fun x => cropForward xsh ysh base starts x y)
      (callBackward (cropBackward xsh ysh base starts)) := by
  apply (GathersC_some (crop_gathersC xsh ysh hl base n hn starts hs) (fun j => pick_total base starts.length
    (fun k d i => (starts.getD k []).getD d 0 + i) ysh 0 0 j)).gradOK_add
  intro accum dy dx
  cases accum <;> rfl

theorem mapAxes_some (m : Nat → Nat → Nat) (d : Nat) (j : List Nat) :
    mapAxes (fun d i => some (m d i)) d j = some (j.mapIdx fun e i => m (d + e) i) := by
  induction j generalizing d with
  | nil => rfl
  | cons i is ih =>
    simp only [mapAxes, ih, List.mapIdx_cons, Nat.add_zero]
    have : (fun e i => m (d + 1 + e) i) = fun e i => m (d + (e + 1)) i := by
      funext e i'
      rw [Nat.add_right_comm, Nat.add_assoc]
    rw [this]

/-- C131. With at most one sample axis, element `j` of the output is the element of x at `j` plus the window
position drawn for the sample of `j`. -/
theorem C131_crop_forward {R} (xsh ysh : Shape) (hl : xsh.length = ysh.length) (base : Nat) (hb : base ≤ 1)
    (hlen : base < xsh.length) (hne : 0 < prod xsh) (starts : List (List Nat))
    (hs : CropStarts xsh ysh (nPatterns xsh base) starts) (x y : Mem R) (j : List Nat) (hj : InBounds ysh j) :
    cropForward xsh ysh base starts x y (ravel ysh j) =
      x (ravel xsh (j.mapIdx fun d i => (starts.getD (patternOf base j d) []).getD d 0 + i)) := by
  have hn := nPatterns_pos xsh base hne
  have hG := GathersC_some (crop_gathersC xsh ysh hl base _ hn starts hs) (fun j => pick_total base starts.length
    (fun k d i => (starts.getD k []).getD d 0 + i) ysh 0 0 j)
  unfold cropForward
  rw [hG.forward x y j hj, pick_one base starts.length hb _ ysh (by rw [hs.1]; exact hn) ?_ j hj]
  · rw [mapAxes_some (fun d i => (starts.getD (patternOf base j d) []).getD d 0 + i)]
    simp
  · rintro rfl
    cases xsh with
    | nil => simp at hlen
    | cons a as =>
      cases ysh with
      | nil => simp at hl
      | cons b bs =>
        rw [hs.1, nPatterns_one a as hne]
        have hlt : 0 < starts.length := by rw [hs.1]; exact hn
        have := (hs.2 _ (List.getElem_mem hlt)).2 0 (by simp)
        simp only [List.getD_cons_zero, List.headD_cons] at *
        omega

/-- A 2×2 window in each of two 3×3 images: positions (1,0) and (0,1). -/
example : cropSetup [2, 3, 3] [2, 2] = some [2, 2, 2] ∧ CropStarts [2, 3, 3] [2, 2, 2] (nPatterns [2, 3, 3] 1) [[0, 1, 0], [0, 0, 1]] ∧
    (indices [2, 2, 2]).map (fun j => cropForward [2, 3, 3] [2, 2, 2] 1 [[0, 1, 0], [0, 0, 1]] (fun i => i) (fun _ => 99) (ravel [2, 2, 2] j)) =
      [3, 4, 6, 7, 10, 11, 13, 14] := by
  refine ⟨by decide, ⟨by decide, ?_⟩, by decide⟩
  decide

/-! ### RandomFlip -/

/-- One flag per axis; only axes in `axes` may be flipped. -/
def FlipPats (ndim : Nat) (axes : List Nat) (n : Nat) (flips : List (List Bool)) : Prop :=
  flips.length = n ∧ ∀ f ∈ flips, f.length = ndim ∧ ∀ d, f.getD d false = true → d ∈ axes

/-- Position read along an axis of extent `size`. -/
def flipPos (flip : Bool) (size i : Nat) : Nat := if flip then size - 1 - i else i

/-- C131: whatever the generator, only the axes listed by the user are flipped. -/
theorem C131_flip_axes {G} (next : Gen G) (ndim : Nat) (axes : List Nat) (n : Nat) (g : G) :
    FlipPats ndim axes n (drawFlips next ndim axes n g).1 := by
  induction n generalizing g with
  | zero => exact ⟨rfl, by simp [drawFlips]⟩
  | succ n ih =>
    obtain ⟨h1, h2⟩ := ih (draws next ndim g).2
    refine ⟨by simp only [drawFlips, List.length_cons, h1], ?_⟩
    intro f hf
    simp only [drawFlips, List.mem_cons] at hf
    rcases hf with rfl | hf
    · refine ⟨by simp, ?_⟩
      intro d hd
      by_cases hdn : d < ndim
      · rw [List.getD_eq_getElem _ _ (by simpa using hdn)] at hd
        simp only [List.getElem_map, List.getElem_range, Bool.and_eq_true, List.contains_iff_mem] at hd
        exact hd.2
      · rw [List.getD_eq_default _ _ (by simp; omega)] at hd
        cases hd
    · exact h2 f hf

/-- C131: an axis is flipped for sample `k` exactly when it is listed and the number drawn for it is odd; every
output of the generator is used for one (sample, axis) pair. -/
theorem C131_flip_draw {G} (next : Gen G) (ndim : Nat) (axes : List Nat) (n : Nat) (g : G) :
    (drawFlips next ndim axes n g).2 = (draws next (n * ndim) g).2 ∧
    ∀ k d, k < n → d < ndim → ((drawFlips next ndim axes n g).1.getD k []).getD d false =
      ((draws next (n * ndim) g).1.getD (k * ndim + d) 0 % 2 != 0 && axes.contains d) := by
  induction n generalizing g with
  | zero => exact ⟨by simp [drawFlips, draws], by intro k id hk; omega⟩
  | succ n ih =>
    obtain ⟨h1, h2⟩ := ih (draws next ndim g).2
    have e : (n + 1) * ndim = ndim + n * ndim := by rw [Nat.add_mul, Nat.one_mul, Nat.add_comm]
    rw [e, draws_add]
    refine ⟨h1, ?_⟩
    intro k d hk hd
    have hl := draws_length next ndim g
    cases k with
    | zero =>
      simp only [drawFlips, List.getD_cons_zero, Nat.zero_mul, Nat.zero_add]
      rw [List.getD_append _ _ _ _ (by omega), List.getD_eq_getElem _ _ (by simpa using hd)]
      simp
    | succ k =>
      simp only [drawFlips, List.getD_cons_succ]
      rw [h2 k d (by omega) hd, List.getD_append_right _ _ _ _ (by rw [hl, Nat.add_mul]; omega)]
      congr 4
      rw [hl, Nat.add_mul]; omega

theorem flip_gathersC (sh : Shape) (base : Nat) (flips : List (List Bool)) (hf : flips ≠ []) :
    GathersC sh sh (pick base flips.length (fun k d i => some (flipPos ((flips.getD k []).getD d false) (sh.getD d 0) i)) sh 0 0)
      (flipPairs sh base flips) := by
  refine walk_gathers base flips.length (List.length_pos_of_ne_nil hf)
    (fun k d i => some (flipPos ((flips.getD k []).getD d false) (sh.getD d 0) i)) sh sh rfl ?_
  intro k d i a _ _ hi h
  simp only [Option.some.injEq, flipPos] at h
  split at h <;> omega

/-- The flip seen as a map of multi-indices. -/
def flipIdx (base : Nat) (flips : List (List Bool)) (sh : Shape) (j : List Nat) : List Nat :=
  (pick base flips.length (fun k d i => some (flipPos ((flips.getD k []).getD d false) (sh.getD d 0) i)) sh 0 0 j).getD []

theorem flip_gathers (sh : Shape) (base : Nat) (flips : List (List Bool)) (hf : flips ≠ []) :
    Gathers sh sh (flipIdx base flips sh) (somes (flipPairs sh base flips)) :=
  GathersC_some (flip_gathersC sh base flips hf) (fun j => pick_total base flips.length
    (fun k d i => flipPos ((flips.getD k []).getD d false) (sh.getD d 0) i) sh 0 0 j)

/-- Flipping twice with the same patterns is the identity when no sample axis is flipped. -/
theorem pick_flip_twice (base n : Nat) (hn : 0 < n) (fl : Nat → Nat → Bool) (full : Shape)
    (hfl : ∀ k d, k < n → d < base → fl k d = false) (sh : Shape) (dim k : Nat) (hk : k < n) (hd : full.drop dim = sh)
    (j : List Nat) (hj : InBounds sh j) (l : List Nat)
    (h : pick base n (fun k d i => some (flipPos (fl k d) (full.getD d 0) i)) sh dim k j = some l) :
    pick base n (fun k d i => some (flipPos (fl k d) (full.getD d 0) i)) sh dim k l = some j := by
  induction sh generalizing dim k j l with
  | nil => cases j with
    | nil => simp only [pick, Option.some.injEq] at h; subst h; rfl
    | cons _ _ => simp [InBounds] at hj
  | cons s rest ih => cases j with
    | nil => simp [InBounds] at hj
    | cons i is =>
      have hs : full.getD dim 0 = s := by
        have := congrArg (fun l : List Nat => l.getD 0 0) hd
        simpa using this
      have hd' : full.drop (dim + 1) = rest := by rw [← List.drop_drop, hd]; rfl
      obtain ⟨l', hl'⟩ := pick_total base n (fun k d i => flipPos (fl k d) (full.getD d 0) i) rest (dim + 1)
        ((k + i * stepOf base rest dim) % n) is
      simp only [pick, hl', Option.some.injEq] at h
      subst h
      have hkey : (k + flipPos (fl k dim) (full.getD dim 0) i * stepOf base rest dim) % n = (k + i * stepOf base rest dim) % n := by
        by_cases hb : dim < base
        · rw [hfl k dim hk hb]; rfl
        · rw [stepOf_ge _ _ _ (by omega)]; simp
      have := ih (dim + 1) ((k + i * stepOf base rest dim) % n) (Nat.mod_lt _ hn) hd' is hj.2 l' hl'
      simp only [pick, hkey, this, Option.some.injEq, List.cons.injEq, and_true]
      unfold flipPos
      rw [hs]
      have := hj.1
      split <;> omega

theorem flipIdx_inBounds (sh : Shape) (base : Nat) (flips : List (List Bool)) (hf : flips ≠ []) (j : List Nat) (hj : InBounds sh j) :
    InBounds sh (flipIdx base flips sh j) := (flip_gathers sh base flips hf).bound j hj

theorem flipIdx_twice (sh : Shape) (base : Nat) (flips : List (List Bool)) (hf : flips ≠ [])
    (hfl : ∀ f ∈ flips, ∀ d, d < base → f.getD d false = false) (j : List Nat) (hj : InBounds sh j) :
    flipIdx base flips sh (flipIdx base flips sh j) = j := by
  obtain ⟨l, hl⟩ := pick_total base flips.length
    (fun k d i => flipPos ((flips.getD k []).getD d false) (sh.getD d 0) i) sh 0 0 j
  have hn := List.length_pos_of_ne_nil hf
  have := pick_flip_twice base flips.length hn (fun k d => (flips.getD k []).getD d false) sh (by
    intro k d hk hd
    exact hfl _ (by rw [List.getD_eq_getElem _ _ hk]; exact List.getElem_mem hk) d hd) sh 0 0 hn rfl j hj l hl
  unfold flipIdx
  rw [hl]
  simp only [Option.getD_some]
  rw [this]
  rfl

/-- C131 (gradient), partial. RandomFlip's backward is the transpose of its forward for the flips drawn,
whatever the shape, base axis and number of patterns, when no sample axis (an axis before base_axis) is flipped.
What is missing: flips of sample axes (see `C131_flip_sample_axis_wrong`). -/
theorem C131_flip_grad_partial {R} [CommSemiring R] (sh : Shape) (base : Nat) (flips : List (List Bool)) (hf : flips ≠ [])
    (hfl : ∀ f ∈ flips, ∀ d, d < base → f.getD d false = false) (y : Mem R) :
    GradOK (prod sh) (prod sh) (fun x => flipForward sh base flips x y)
      (callBackward (flipBackward sh base flips)) := by
  have hG := flip_gathers sh base flips hf
  have hswap : ((somes (flipPairs sh base flips)).map Prod.swap).Perm (somes (flipPairs sh base flips)) := by
    have h1 := hG.perm.map Prod.swap
    refine h1.trans (List.Perm.trans ?_ hG.perm.symm)
    rw [List.map_map]
    have e : (indices sh).map (Prod.swap ∘ fun j => (ravel sh j, ravel sh (flipIdx base flips sh j))) =
        ((indices sh).map (flipIdx base flips sh)).map (fun j => (ravel sh j, ravel sh (flipIdx base flips sh j))) := by
      rw [List.map_map]
      apply List.map_congr_left
      intro j hj
      simp only [Function.comp, Prod.swap]
      rw [flipIdx_twice sh base flips hf hfl j ((mem_indices _ _).mp hj)]
    rw [e]
    apply List.Perm.map
    have hnd : (indices sh).Nodup := (indices_nodup sh).of_map _
    rw [List.perm_ext_iff_of_nodup]
    · intro j
      rw [List.mem_map]
      constructor
      · rintro ⟨j', hj', rfl⟩
        exact (mem_indices _ _).mpr (flipIdx_inBounds sh base flips hf j' ((mem_indices _ _).mp hj'))
      · intro hj
        have hj' := (mem_indices _ _).mp hj
        exact ⟨flipIdx base flips sh j, (mem_indices _ _).mpr (flipIdx_inBounds sh base flips hf j hj'),
          flipIdx_twice sh base flips hf hfl j hj'⟩
    · apply List.Nodup.map_on _ hnd
      intro a ha b hb hab
      rw [← flipIdx_twice sh base flips hf hfl a ((mem_indices _ _).mp ha), hab,
        flipIdx_twice sh base flips hf hfl b ((mem_indices _ _).mp hb)]
    · exact hnd
  have hnod : (((somes (flipPairs sh base flips)).map Prod.swap).map (·.2)).Nodup := by
    rw [List.map_map]
    have h2 := (hG.perm.map (·.1)).nodup_iff
    have : ((fun p : Nat × Nat => p.2) ∘ Prod.swap) = (fun p : Nat × Nat => p.1) := rfl
    rw [this, h2, List.map_map]
    exact indices_nodup sh
  apply hG.gradOK_add
  intro accum dy dx
  cases accum with
  | false =>
    show bwdSet _ dy zeros = bwdAdd _ dy zeros
    rw [bwdSet_nodup _ hnod, bwdAdd_perm hswap]
  | true =>
    show bwdAdd _ dy dx = bwdAdd _ dy dx
    rw [bwdAdd_perm hswap]

/-- C131. With at most one sample axis, element `j` of the output is the element of x with the axes drawn for
the sample of `j` reversed. -/
theorem C131_flip_forward {R} (sh : Shape) (base : Nat) (hb : base ≤ 1) (hlen : base < sh.length) (hne : 0 < prod sh)
    (axes : List Nat) (flips : List (List Bool)) (hp : FlipPats sh.length axes (nPatterns sh base) flips)
    (x y : Mem R) (j : List Nat) (hj : InBounds sh j) :
    flipForward sh base flips x y (ravel sh j) =
      x (ravel sh (j.mapIdx fun d i => flipPos ((flips.getD (patternOf base j d) []).getD d false) (sh.getD d 0) i)) := by
  have hn : 0 < flips.length := by rw [hp.1]; exact nPatterns_pos sh base hne
  have hf : flips ≠ [] := List.length_pos_iff.mp hn
  unfold flipForward
  rw [(flip_gathers sh base flips hf).forward x y j hj]
  unfold flipIdx
  rw [pick_one base flips.length hb _ sh hn ?_ j hj]
  · rw [mapAxes_some (fun d i => flipPos ((flips.getD (patternOf base j d) []).getD d false) (sh.getD d 0) i)]
    simp
  · rintro rfl
    cases sh with
    | nil => simp
    | cons s rest => rw [hp.1, nPatterns_one s rest hne]; simp

/-- C131, refuted part: with base_axis = 1 and flips of the sample axis 0 as well as axis 1, the gradient goes to
the wrong elements. Forward reads x[1,1] for y[0,1], backward adds the gradient of y[0,1] to x[1,0]. -/
theorem C131_flip_sample_axis_wrong :
    flipForward [2, 2] 1 [[true, false], [true, true]] (fun i => i) (fun _ => 9) 1 = 3 ∧
    flipBackward [2, 2] 1 [[true, false], [true, true]] false (fun i => if i = 1 then 1 else 0) (fun _ => 0) 3 = 0 ∧
    flipBackward [2, 2] 1 [[true, false], [true, true]] false (fun i => if i = 1 then 1 else 0) (fun _ => 0) 2 = 1 ∧
    ¬ GradOK (R := Int) 4 4 (fun x => flipForward [2, 2] 1 [[true, false], [true, true]] x (fun _ => 0))
      (callBackward (flipBackward [2, 2] 1 [[true, false], [true, true]])) := by
  refine ⟨by decide, by decide, by decide, ?_⟩
  intro h
  have := h.1 (fun _ => 0) (fun i => if i = 3 then 1 else 0) (fun i => if i = 1 then 1 else 0)
  revert this
  decide

/-- Two images of 1×2, the first flipped: hypotheses of C131 are met. -/
example : FlipPats 3 [2] (nPatterns [2, 1, 2] 1) [[false, false, true], [false, false, false]] ∧
    (indices [2, 1, 2]).map (fun j => flipForward [2, 1, 2] 1 [[false, false, true], [false, false, false]] (fun i => i) (fun _ => 9) (ravel [2, 1, 2] j)) =
      [1, 0, 2, 3] := by
  refine ⟨⟨by decide, ?_⟩, by decide⟩
  intro f hf
  simp only [List.mem_cons, List.not_mem_nil, or_false] at hf
  rcases hf with rfl | rfl
  · refine ⟨rfl, ?_⟩
    intro d hd
    match d, hd with
    | 0, hd => simp at hd
    | 1, hd => simp at hd
    | 2, _ => simp
    | d + 3, hd => simp at hd
  · refine ⟨rfl, ?_⟩
    intro d hd
    match d, hd with
    | 0, hd => simp at hd
    | 1, hd => simp at hd
    | 2, hd => simp at hd
    | d + 3, hd => simp at hd

end Verif.Rand
