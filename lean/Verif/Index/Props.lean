import Verif.Index.Pairs
/-
C18: basic indexing has NumPy semantics. C19: setting a slice up again.
-/
namespace Verif.Index
open Verif.ND

/-! ### Hypotheses of the partial theorem -/

/-- Keys for which the number of missing trailing slices is computed right: no `None` in the key, or
an Ellipsis in it, or nothing but `None`s, or all axes indexed. -/
def KeyOK (ndim : Nat) (key : List Item) : Prop :=
  Item.newaxis ∉ key ∨ Item.ellipsis ∈ key ∨ key.filter (· != .newaxis) = [] ∨
    ndim ≤ (key.filter (· != .newaxis)).length

/-- Every slice of the (expanded) key is covered on its axis or has step zero. -/
def SlicesCovered : List Item → Shape → Prop
  | .slice s :: k, d :: ds => (npStep s = 0 ∨ Covered d s) ∧ SlicesCovered k ds
  | .int _ :: k, _ :: ds => SlicesCovered k ds
  | .newaxis :: k, ds => SlicesCovered k ds
  | .ellipsis :: k, ds => SlicesCovered k ds
  | _, _ => True

/-! ### prepare against npExpand -/

theorem mem_filter_ne (key : List Item) : Item.ellipsis ∈ key.filter (· != .newaxis) ↔ Item.ellipsis ∈ key := by
  simp [List.mem_filter]

theorem replaceEllipsis_eq (ins : Nat) (key : List Item) (h : Item.ellipsis ∈ key) :
    replaceEllipsis ins key = key.takeWhile (· != .ellipsis) ++ List.replicate ins (.slice .full) ++
      (key.dropWhile (· != .ellipsis)).drop 1 := by
  induction key with
  | nil => cases h
  | cons k r ih =>
    cases k with
    | ellipsis => simp [replaceEllipsis]
    | _ =>
      have h' : Item.ellipsis ∈ r := by simpa using h
      simp [replaceEllipsis, ih h']

theorem replaceEllipsis_filter (ins : Nat) (key : List Item) :
    replaceEllipsis ins (key.filter (· != .newaxis)) = (replaceEllipsis ins key).filter (· != .newaxis) := by
  induction key with
  | nil => rfl
  | cons k r ih =>
    cases k with
    | ellipsis =>
      simp only [replaceEllipsis, List.filter_append]
      have : (List.replicate ins (Item.slice .full)).filter (· != .newaxis) = List.replicate ins (Item.slice .full) := by
        rw [List.filter_eq_self]; intro a ha; rw [List.mem_replicate] at ha; rw [ha.2]; rfl
      rw [this]; rfl
    | newaxis => simpa [replaceEllipsis] using ih
    | int i => simpa [replaceEllipsis] using ih
    | slice s => simpa [replaceEllipsis] using ih

theorem filter_length (key : List Item) :
    (key.filter (· != .newaxis)).length = (key.map consumes).sum + key.count .ellipsis := by
  induction key with
  | nil => rfl
  | cons k r ih =>
    cases k with
    | newaxis =>
      have e1 : List.filter (· != Item.newaxis) (Item.newaxis :: r) = List.filter (· != .newaxis) r := by simp
      rw [e1, ih, List.count_cons]; simp [consumes]
    | ellipsis =>
      have e1 : List.filter (· != Item.newaxis) (Item.ellipsis :: r) = Item.ellipsis :: List.filter (· != .newaxis) r := by simp
      rw [e1, List.length_cons, ih, List.count_cons]; simp [consumes]; omega
    | int i =>
      have e1 : List.filter (· != Item.newaxis) (Item.int i :: r) = Item.int i :: List.filter (· != .newaxis) r := by simp
      rw [e1, List.length_cons, ih, List.count_cons]; simp [consumes]; omega
    | slice s =>
      have e1 : List.filter (· != Item.newaxis) (Item.slice s :: r) = Item.slice s :: List.filter (· != .newaxis) r := by simp
      rw [e1, List.length_cons, ih, List.count_cons]; simp [consumes]; omega

theorem count_replace (ins : Nat) (key : List Item) :
    (replaceEllipsis ins key).count .ellipsis = key.count .ellipsis - 1 := by
  induction key with
  | nil => rfl
  | cons k r ih =>
    cases k with
    | ellipsis =>
      simp only [replaceEllipsis, List.count_append]
      have : (List.replicate ins (Item.slice .full)).count .ellipsis = 0 := by
        rw [List.count_eq_zero]; intro h; rw [List.mem_replicate] at h; cases h.2
      rw [this]; simp
    | newaxis => simp [replaceEllipsis, ih]
    | int i => simp [replaceEllipsis, ih]
    | slice s => simp [replaceEllipsis, ih]

theorem length_replace (ins : Nat) (key : List Item) (h : Item.ellipsis ∈ key) :
    (replaceEllipsis ins key).length + 1 = key.length + ins := by
  induction key with
  | nil => cases h
  | cons k r ih =>
    cases k with
    | ellipsis => simp [replaceEllipsis]; omega
    | _ =>
      have h' : Item.ellipsis ∈ r := by simpa using h
      have := ih h'
      simp only [replaceEllipsis, List.length_cons]; omega

theorem no_ellipsis_takeWhile (key : List Item) (h : Item.ellipsis ∉ key) :
    key.takeWhile (· != .ellipsis) = key ∧ key.dropWhile (· != .ellipsis) = [] := by
  induction key with
  | nil => exact ⟨rfl, rfl⟩
  | cons k r ih =>
    have hk : k ≠ .ellipsis := fun e => h (by rw [e]; exact List.mem_cons_self)
    have hr := ih (fun e => h (List.mem_cons_of_mem _ e))
    have hb : (k != Item.ellipsis) = true := by simpa using hk
    simp [List.takeWhile_cons, List.dropWhile_cons, hb, hr.1, hr.2]

/-- Common tail of `prepare`. -/
def prepareTail (shape : Shape) (key' : List Item) : Except String (List Item × List PySlice) :=
  match itemsToSlices shape (key'.filter (· != .newaxis)) with
  | .error e => .error e
  | .ok ss => if ss = [] then .error "not enough values to unpack" else .ok (key', ss)

theorem full_filter (n : Nat) :
    (List.replicate n (Item.slice .full)).filter (· != .newaxis) = List.replicate n (Item.slice .full) := by
  rw [List.filter_eq_self]; intro a ha; rw [List.mem_replicate] at ha; rw [ha.2]; rfl

theorem prepare_spec (shape : Shape) (key : List Item) (hk : KeyOK shape.length key) :
    match npExpand shape.length key with
    | none => ∃ e, prepare shape key = .error e
    | some k' => prepare shape key = prepareTail shape k' ∧ Item.ellipsis ∉ k' ∧
        (k'.filter (· != .newaxis)).length = shape.length := by
  have hlen := filter_length key
  by_cases hnil : key.filter (· != .newaxis) = []
  · -- nothing but None
    have hc : key.count .ellipsis = 0 ∧ (key.map consumes).sum = 0 := by
      rw [hnil] at hlen; simp only [List.length_nil] at hlen; omega
    have hne : Item.ellipsis ∉ key := by rw [← List.count_eq_zero]; exact hc.1
    have hex : npExpand shape.length key = some (key ++ List.replicate shape.length (.slice .full)) := by
      simp [npExpand, hc.1, hc.2, (no_ellipsis_takeWhile key hne).1, (no_ellipsis_takeWhile key hne).2]
    rw [hex]
    have hfil : (key ++ List.replicate shape.length (Item.slice .full)).filter (· != .newaxis) =
        List.replicate shape.length (.slice .full) := by
      rw [List.filter_append, hnil, full_filter]; rfl
    have hnr : Item.ellipsis ∉ List.replicate shape.length (Item.slice .full) := by
      intro h; rw [List.mem_replicate] at h; cases h.2
    refine ⟨?_, ?_, ?_⟩
    · simp only [prepare, hnil, if_true, hnr, if_false, List.length_replicate, Nat.lt_irrefl,
        Nat.sub_self, List.replicate_zero, List.append_nil, gt_iff_lt, List.length_append]
      have : shape.length - (key.length + shape.length) = 0 := by omega
      rw [this]
      simp only [List.replicate_zero, List.append_nil, prepareTail, hfil]
      rfl
    · intro h
      rcases List.mem_append.mp h with h | h
      · exact hne h
      · exact hnr h
    · rw [hfil]; simp
  · by_cases hell : Item.ellipsis ∈ key
    · have hc1 : 0 < key.count .ellipsis := List.count_pos_iff.mpr hell
      have hellf : Item.ellipsis ∈ key.filter (· != .newaxis) := (mem_filter_ne key).mpr hell
      by_cases hmany : key.count .ellipsis > 1
      · have hex : npExpand shape.length key = none := by simp [npExpand, hmany]
        rw [hex]
        simp only [prepare, hnil, if_false, hellf, if_true]
        have : Item.ellipsis ∈ replaceEllipsis (shape.length + 1 - (key.filter (· != .newaxis)).length)
            (key.filter (· != .newaxis)) := by
          rw [replaceEllipsis_filter, mem_filter_ne, ← List.count_pos_iff, count_replace]; omega
        rw [if_pos this]
        exact ⟨_, rfl⟩
      · have hone : key.count .ellipsis = 1 := by omega
        have hins : shape.length + 1 - (key.filter (· != .newaxis)).length = shape.length - (key.map consumes).sum := by
          omega
        have hnot : Item.ellipsis ∉ replaceEllipsis (shape.length - (key.map consumes).sum)
            (key.filter (· != .newaxis)) := by
          rw [replaceEllipsis_filter, mem_filter_ne, ← List.count_eq_zero, count_replace]; omega
        have hlr := length_replace (shape.length - (key.map consumes).sum) _ hellf
        by_cases hmuch : (key.map consumes).sum > shape.length
        · have hex : npExpand shape.length key = none := by simp [npExpand, hmuch]
          rw [hex]
          simp only [prepare, hnil, if_false, hellf, if_true, hins, hnot]
          have : (replaceEllipsis (shape.length - (key.map consumes).sum)
            (key.filter (· != .newaxis))).length > shape.length := by omega
          rw [if_pos this]
          exact ⟨_, rfl⟩
        · have hex : npExpand shape.length key =
              some (replaceEllipsis (shape.length - (key.map consumes).sum) key) := by
            rw [replaceEllipsis_eq _ _ hell]
            simp only [npExpand]
            rw [if_neg (by omega)]
          rw [hex]
          have hl : (replaceEllipsis (shape.length - (key.map consumes).sum)
            (key.filter (· != .newaxis))).length = shape.length := by omega
          have hl2 : shape.length ≤ (replaceEllipsis (shape.length - (key.map consumes).sum) key).length := by
            have hl' := hl
            rw [replaceEllipsis_filter] at hl'
            have := List.length_filter_le (fun x => x != Item.newaxis)
              (replaceEllipsis (shape.length - (key.map consumes).sum) key)
            omega
          refine ⟨?_, ?_, ?_⟩
          · simp only [prepare, hnil, if_false, hellf, if_true, hins, hnot, hl, gt_iff_lt, Nat.lt_irrefl,
              Nat.sub_self, List.replicate_zero, List.append_nil]
            rw [Nat.sub_eq_zero_of_le hl2]
            simp only [List.replicate_zero, List.append_nil, prepareTail, replaceEllipsis_filter]
            rfl
          · rw [replaceEllipsis_filter, mem_filter_ne] at hnot; exact hnot
          · rw [← replaceEllipsis_filter]; exact hl
    · have hc0 : key.count .ellipsis = 0 := List.count_eq_zero.mpr hell
      have hellf : Item.ellipsis ∉ key.filter (· != .newaxis) := fun h => hell ((mem_filter_ne key).mp h)
      by_cases hmuch : (key.map consumes).sum > shape.length
      · have hex : npExpand shape.length key = none := by simp [npExpand, hmuch]
        rw [hex]
        simp only [prepare, hnil, if_false, hellf]
        rw [if_pos (by omega)]
        exact ⟨_, rfl⟩
      · have hex : npExpand shape.length key =
            some (key ++ List.replicate (shape.length - (key.map consumes).sum) (.slice .full)) := by
          simp only [npExpand]
          rw [if_neg (by omega), (no_ellipsis_takeWhile key hell).1, (no_ellipsis_takeWhile key hell).2]
          simp
        rw [hex]
        have hfil : (key ++ List.replicate (shape.length - (key.map consumes).sum) (Item.slice .full)).filter
            (· != .newaxis) = key.filter (· != .newaxis) ++
              List.replicate (shape.length - (key.map consumes).sum) (.slice .full) := by
          rw [List.filter_append, full_filter]
        have hkl : shape.length - key.length = shape.length - (key.map consumes).sum := by
          rcases hk with h | h | h | h
          · have : key.filter (· != .newaxis) = key := by
              rw [List.filter_eq_self]
              intro a ha
              have : a ≠ .newaxis := fun e => h (e ▸ ha)
              simpa using this
            rw [this] at hlen
            omega
          · exact absurd h hell
          · exact absurd h hnil
          · have := List.length_filter_le (fun x => x != Item.newaxis) key
            omega
        refine ⟨?_, ?_, ?_⟩
        · simp only [prepare, hnil, if_false, hellf]
          rw [if_neg (by omega), hkl, hlen, hc0]
          simp only [Nat.add_zero, prepareTail, hfil]
          rfl
        · intro h
          rcases List.mem_append.mp h with h | h
          · exact hell h
          · rw [List.mem_replicate] at h; cases h.2
        · rw [hfil, List.length_append, List.length_replicate]; omega

/-! ### axis by axis -/

/-- Selected positions per consumed axis. -/
def posOf : List NpAxis → Pos
  | [] => []
  | .new :: a => posOf a
  | .pick p :: a => [p] :: posOf a
  | .range ps :: a => ps :: posOf a

/-- The multi-index of the sliced (not yet reshaped) array. -/
def fullIdx : List NpAxis → List Nat → List Nat
  | .new :: a, _ :: j => fullIdx a j
  | .pick _ :: a, j => 0 :: fullIdx a j
  | .range _ :: a, i :: j => i :: fullIdx a j
  | _, _ => []

theorem prod_pos_npShape (A : List NpAxis) : prod ((posOf A).map List.length) = prod (npShape A) := by
  induction A with
  | nil => rfl
  | cons a A ih => cases a <;> simp [posOf, npShape, prod, ih]

theorem fullIdx_spec (A : List NpAxis) (j : List Nat) (hj : InBounds (npShape A) j) :
    InBounds ((posOf A).map List.length) (fullIdx A j) ∧
    ravel ((posOf A).map List.length) (fullIdx A j) = ravel (npShape A) j ∧
    srcIdx (posOf A) (fullIdx A j) = npSource A j := by
  induction A generalizing j with
  | nil => cases j with
    | nil => simp [posOf, fullIdx, InBounds, ravel, npShape, srcIdx, npSource]
    | cons _ _ => exact hj.elim
  | cons a A ih =>
    cases a with
    | new => cases j with
      | nil => exact hj.elim
      | cons i is =>
        obtain ⟨h1, h2, h3⟩ := ih is hj.2
        have hi : i = 0 := by have := hj.1; omega
        refine ⟨h1, ?_, h3⟩
        simp only [fullIdx, posOf, npShape, ravel, hi]
        rw [h2]; omega
    | pick p =>
      obtain ⟨h1, h2, h3⟩ := ih j hj
      refine ⟨⟨by simp, h1⟩, ?_, ?_⟩
      · simp only [fullIdx, posOf, npShape, List.map_cons, ravel]
        rw [h2]; omega
      · simp only [posOf, fullIdx, srcIdx, npSource, h3]; rfl
    | range ps => cases j with
      | nil => exact hj.elim
      | cons i is =>
        obtain ⟨h1, h2, h3⟩ := ih is hj.2
        refine ⟨⟨hj.1, h1⟩, ?_, ?_⟩
        · simp only [fullIdx, posOf, npShape, List.map_cons, ravel]
          rw [h2, prod_pos_npShape]
        · simp only [posOf, fullIdx, srcIdx, npSource, h3]

theorem npRange_get (n : Nat) (s : PySlice) (i : Nat) (h : i < (npRange n s).length) :
    (npRange n s)[i] = (npStart n s + i * npStep s).toNat := by
  simp [npRange]

theorem npRange_length (n : Nat) (s : PySlice) : (npRange n s).length = npLen n s := by simp [npRange]

theorem axOK_slice (d : Nat) (s : PySlice) (h : Covered d s) :
    ∃ r, setupAxis d (pyArgs d s) = .ok r ∧ AxOK r d (npRange d s) := by
  obtain ⟨ax, h1, h2, h3⟩ := setupAxis_spec d s h
  refine ⟨_, h1, by simp [npRange_length], ?_⟩
  intro i hi
  have hmem : (npRange d s)[i] ∈ npRange d s := List.getElem_mem hi
  have hlt := npRange_lt d s _ h.2.1 hmem
  refine ⟨?_, hlt⟩
  have hl : 0 < npLen d s := by rw [npRange_length] at hi; omega
  simp only [h2 hl, h3]
  obtain ⟨j, ej, _⟩ := (mem_npRange d s _ h.2.1).mp hmem
  rw [npRange_get] at ej ⊢
  -- the position is non-negative, so `toNat` does not change it
  have hnn : 0 ≤ npStart d s + (i : Int) * npStep s := by
    by_cases hk : npStep s > 0
    · have h0 : 0 ≤ npStart d s := by
        simp only [npStart, if_pos hk]
        cases s.start with
        | none => simp
        | some v => simp only [Option.map_some, Option.getD_some, npBound]; split <;> split <;> (try split) <;> omega
      have := Int.mul_nonneg (a := (i : Int)) (b := npStep s) (by omega) (by omega)
      omega
    · have hi' : i < npLen d s := by rw [npRange_length] at hi; exact hi
      have h0 := h.2.1
      simp only [npLen, if_neg hk] at hi'
      rw [Int.lt_toNat, Int.lt_iff_add_one_le, Int.le_ediv_iff_mul_le (by omega), Int.add_mul, Int.mul_neg] at hi'
      have h1 : -1 ≤ npStop d s := by
        simp only [npStop, if_neg hk]
        cases s.stop with
        | none => simp
        | some v => simp only [Option.map_some, Option.getD_some, npBound]; split <;> split <;> (try split) <;> omega
      omega
  omega

theorem axOK_int (d : Nat) (hd : (d : Int) < sliceNone) (i : Int) (h : -(d : Int) ≤ i ∧ i < d) :
    ∃ s r, itemToSlice d (.int i) = .ok s ∧ npStep s ≠ 0 ∧ setupAxis d (pyArgs d s) = .ok r ∧
      AxOK r d [(if i < 0 then i + d else i).toNat] := by
  have key : ∀ p : Nat, p < d → ∃ r, setupAxis d (pyArgs d ⟨some p, some (p + 1), some 1⟩) = .ok r ∧ AxOK r d [p] := by
    intro p hp
    obtain ⟨r, h1, h2⟩ := axOK_slice d ⟨some p, some (p + 1), some 1⟩ (by
      refine ⟨⟨hd, by omega⟩, by simp [npStep], by simp [npStep, sliceNone], ?_, by simp [npStep]⟩
      intro v hv
      injection hv with hv
      subst hv
      left; omega)
    refine ⟨r, h1, ?_⟩
    have : npRange d ⟨some p, some (p + 1), some 1⟩ = [p] := by
      have hs : npStart d ⟨some (p : Int), some (p + 1), some 1⟩ = p := by
        simp only [npStart, npStep, Option.getD_some, npBound, Option.map_some]
        simp only [Int.reduceLT, gt_iff_lt, if_true]
        split <;> split <;> (try split) <;> omega
      have ht : npStop d ⟨some (p : Int), some (p + 1), some 1⟩ = p + 1 := by
        simp only [npStop, npStep, Option.getD_some, npBound, Option.map_some]
        simp only [Int.reduceLT, gt_iff_lt, if_true]
        split <;> split <;> (try split) <;> omega
      have hl : npLen d ⟨some (p : Int), some (p + 1), some 1⟩ = 1 := by
        simp only [npLen, hs, ht, npStep, Option.getD_some]
        simp only [Int.reduceLT, gt_iff_lt, if_true, Int.ediv_one]
        omega
      simp only [npRange, hl, hs]
      simp [npStep]
    rw [this] at h2
    exact h2
  by_cases hi : 0 ≤ i
  · obtain ⟨r, h1, h2⟩ := key i.toNat (by omega)
    refine ⟨⟨some i, some (i + 1), some 1⟩, r, ?_, by simp [npStep], ?_, ?_⟩
    · simp [itemToSlice, hi, h.2]
    · have e : ((i.toNat : Nat) : Int) = i := by omega
      rw [e] at h1; exact h1
    · rw [if_neg (by omega)]; exact h2
  · obtain ⟨r, h1, h2⟩ := key (i + d).toNat (by omega)
    refine ⟨⟨some (d + i), some (d + i + 1), some 1⟩, r, ?_, by simp [npStep], ?_, ?_⟩
    · simp only [itemToSlice]
      rw [if_neg (by omega), if_pos (by omega)]
    · have e : (((i + d).toNat : Nat) : Int) = d + i := by omega
      rw [e] at h1; exact h1
    · rw [if_pos (by omega)]; exact h2

/-- All axes: integers to slices, then setup, against the specification. -/
theorem axes_spec (k' : List Item) (shape : Shape) (hell : Item.ellipsis ∉ k')
    (hl : (k'.filter (· != .newaxis)).length = shape.length)
    (hd : ∀ d ∈ shape, (d : Int) < sliceNone) (hcov : SlicesCovered k' shape) :
    match npAxes k' shape with
    | none => (∃ e, itemsToSlices shape (k'.filter (· != .newaxis)) = .error e) ∨
        ∃ ss e, itemsToSlices shape (k'.filter (· != .newaxis)) = .ok ss ∧
          setupAxes shape ((shape.zip ss).map fun p => pyArgs p.1 p.2) = .error e
    | some A => ∃ ss r, itemsToSlices shape (k'.filter (· != .newaxis)) = .ok ss ∧
        ss.length = shape.length ∧
        setupAxes shape ((shape.zip ss).map fun p => pyArgs p.1 p.2) = .ok r ∧
        AllOK r shape (posOf A) ∧ resultShape k' ((posOf A).map List.length) = npShape A := by
  induction k' generalizing shape with
  | nil =>
    have : shape = [] := by
      have := hl; simp only [List.filter_nil, List.length_nil] at this
      exact List.length_eq_zero_iff.mp this.symm
    subst this
    exact ⟨[], [], rfl, rfl, rfl, trivial, rfl⟩
  | cons k r ih =>
    have hell' : Item.ellipsis ∉ r := fun h => hell (List.mem_cons_of_mem _ h)
    cases k with
    | ellipsis => exact absurd List.mem_cons_self hell
    | newaxis =>
      have ef : List.filter (· != Item.newaxis) (Item.newaxis :: r) = List.filter (· != .newaxis) r := by simp
      rw [ef] at hl ⊢
      have := ih shape hell' hl hd hcov
      simp only [npAxes]
      cases hn : npAxes r shape with
      | none => rw [hn] at this; exact this
      | some A =>
        rw [hn] at this
        obtain ⟨ss, r', h1, h2, h3, h4, h5⟩ := this
        exact ⟨ss, r', h1, h2, h3, h4, by simp [resultShape, posOf, npShape, h5]⟩
    | int i =>
      have ef : List.filter (· != Item.newaxis) (Item.int i :: r) = Item.int i :: List.filter (· != .newaxis) r := by simp
      rw [ef] at hl ⊢
      cases shape with
      | nil => simp at hl
      | cons d ds =>
        have hl' : (r.filter (· != .newaxis)).length = ds.length := by simpa using hl
        have := ih ds hell' hl' (fun x hx => hd x (List.mem_cons_of_mem _ hx)) hcov
        simp only [npAxes]
        by_cases hi : -(d : Int) ≤ i ∧ i < d
        · rw [if_pos hi]
          obtain ⟨s, r0, e1, _, e3, e4⟩ := axOK_int d (hd d List.mem_cons_self) i hi
          cases hn : npAxes r ds with
          | none =>
            rw [hn] at this
            rcases this with ⟨e, he⟩ | ⟨ss, e, h1, h2⟩
            · left; exact ⟨e, by simp [itemsToSlices, e1, he]⟩
            · right; exact ⟨s :: ss, e, by simp [itemsToSlices, e1, h1], by simp [setupAxes, e3, h2]⟩
          | some A =>
            rw [hn] at this
            obtain ⟨ss, r', h1, h2, h3, h4, h5⟩ := this
            refine ⟨s :: ss, r0 :: r', by simp [itemsToSlices, e1, h1], by simp [h2], by simp [setupAxes, e3, h3],
              ⟨e4, h4⟩, ?_⟩
            simp [resultShape, posOf, npShape, h5]
        · rw [if_neg hi]
          left
          refine ⟨"index is out of bounds", ?_⟩
          simp only [itemsToSlices, itemToSlice]
          rw [if_neg (by omega), if_neg (by omega)]
    | slice s =>
      have ef : List.filter (· != Item.newaxis) (Item.slice s :: r) = Item.slice s :: List.filter (· != .newaxis) r := by simp
      rw [ef] at hl ⊢
      cases shape with
      | nil => simp at hl
      | cons d ds =>
        have hl' : (r.filter (· != .newaxis)).length = ds.length := by simpa using hl
        have := ih ds hell' hl' (fun x hx => hd x (List.mem_cons_of_mem _ hx)) hcov.2
        simp only [npAxes]
        by_cases h0 : npStep s = 0
        · rw [if_pos h0]
          have hz : setupAxis d (pyArgs d s) = .error "slice step cannot be zero" := by
            simp only [setupAxis]
            rw [if_pos (by rw [pyArgs_eq]; exact h0)]
          cases hi : itemsToSlices ds (List.filter (· != .newaxis) r) with
          | error e => left; exact ⟨e, by simp [itemsToSlices, itemToSlice, hi]⟩
          | ok ss => right; exact ⟨s :: ss, "slice step cannot be zero", by simp [itemsToSlices, itemToSlice, hi], by simp [setupAxes, hz]⟩
        · rw [if_neg h0]
          have hc : Covered d s := hcov.1.resolve_left h0
          obtain ⟨r0, e3, e4⟩ := axOK_slice d s hc
          cases hn : npAxes r ds with
          | none =>
            rw [hn] at this
            rcases this with ⟨e, he⟩ | ⟨ss, e, h1, h2⟩
            · left; exact ⟨e, by simp [itemsToSlices, itemToSlice, he]⟩
            · right; exact ⟨s :: ss, e, by simp [itemsToSlices, itemToSlice, h1], by simp [setupAxes, e3, h2]⟩
          | some A =>
            rw [hn] at this
            obtain ⟨ss, r', h1, h2, h3, h4, h5⟩ := this
            refine ⟨s :: ss, r0 :: r', by simp [itemsToSlices, itemToSlice, h1], by simp [h2],
              by simp [setupAxes, e3, h3], ⟨e4, h4⟩, ?_⟩
            simp [resultShape, posOf, npShape, h5]

/-! ### C18 -/

/-- **C18 (partial).** For an array of rank ≥ 1 and a key whose slices have covered bounds and whose
`None`s do not hit the missing-axes bug, `x[key]` fails exactly when NumPy fails; otherwise it has
NumPy's shape and each of its elements is the element of `x` NumPy selects (read inside `x`).
Missing for the full property: uncovered slice bounds, `None` with missing trailing axes, rank 0 —
refuted below. -/
theorem C18_getitem_partial {α} (shape : Shape) (hs : shape ≠ []) (hd : ∀ d ∈ shape, (d : Int) < sliceNone)
    (x y0 : Int → α) (key : List Item) (hk : KeyOK shape.length key)
    (hcov : ∀ k', npExpand shape.length key = some k' → SlicesCovered k' shape) :
    match npIndex shape key with
    | none => ∃ e, getitem shape x y0 key = .error e
    | some A => ∃ y, getitem shape x y0 key = .ok (npShape A, y) ∧
        ∀ j, InBounds (npShape A) j →
          InBounds shape (npSource A j) ∧
          y (ravel (npShape A) j : Nat) = x (ravel shape (npSource A j) : Nat) := by
  have hp := prepare_spec shape key hk
  unfold npIndex
  cases hex : npExpand shape.length key with
  | none =>
    rw [hex] at hp
    obtain ⟨e, he⟩ := hp
    exact ⟨e, by simp [getitem, he]⟩
  | some k' =>
    rw [hex] at hp
    obtain ⟨hp1, hp2, hp3⟩ := hp
    have ha := axes_spec k' shape hp2 hp3 hd (hcov k' hex)
    simp only [Option.bind_some]
    cases hn : npAxes k' shape with
    | none =>
      rw [hn] at ha
      rcases ha with ⟨e, he⟩ | ⟨ss, e, h1, h2⟩
      · exact ⟨e, by simp [getitem, hp1, prepareTail, he]⟩
      · by_cases hss : ss = []
        · exact ⟨_, by simp [getitem, hp1, prepareTail, h1, hss]; rfl⟩
        · have hfill : ∀ axes : List Ax, axes.length ≥ shape.length → fillAxes shape axes = axes := by
            intro axes h; simp [fillAxes, Nat.sub_eq_zero_of_le h]
          have hls : ss.length = shape.length := by
            have : ∀ (sh : Shape) (it : List Item) ss, it.length = sh.length → itemsToSlices sh it = .ok ss →
                ss.length = sh.length := by
              intro sh
              induction sh with
              | nil => intro it ss h1 h2; cases it with
                | nil => simp [itemsToSlices] at h2; simp [← h2]
                | cons _ _ => simp at h1
              | cons d ds ih => intro it ss h1 h2; cases it with
                | nil => simp at h1
                | cons k ks =>
                  simp only [itemsToSlices] at h2
                  cases hk1 : itemToSlice d k with
                  | error e => rw [hk1] at h2; cases h2
                  | ok s =>
                    rw [hk1] at h2
                    cases hk2 : itemsToSlices ds ks with
                    | error e => rw [hk2] at h2; cases h2
                    | ok ss' =>
                      rw [hk2] at h2
                      injection h2 with h2
                      rw [← h2, List.length_cons, ih ks ss' (by simpa using h1) hk2]; rfl
            exact this shape _ ss hp3 h1
          refine ⟨e, ?_⟩
          simp only [getitem, hp1, prepareTail, h1, hss, if_false, setup]
          rw [hfill _ (by simp [hls]), h2]
    | some A =>
      rw [hn] at ha
      obtain ⟨ss, r, h1, h2, h3, h4, h5⟩ := ha
      have hss : ss ≠ [] := by
        rintro rfl
        exact hs (List.length_eq_zero_iff.mp h2.symm)
      have hfill : fillAxes shape ((shape.zip ss).map fun p => pyArgs p.1 p.2) =
          (shape.zip ss).map fun p => pyArgs p.1 p.2 := by
        have : shape.length - ((shape.zip ss).map fun p => pyArgs p.1 p.2).length = 0 := by
          simp [h2]
        simp only [fillAxes, this, List.take_zero, List.map_nil, List.nil_append]
      have hsz := h4.sizes
      refine ⟨forward x y0 (slicePairs shape r), ?_, ?_⟩
      · simp only [getitem, hp1, prepareTail, h1, hss, if_false, setup, hfill, h3, hsz, h5]
        rw [if_neg]
        rintro ⟨_, h⟩
        exact h (by rw [(C33_size _ 0).1, (C33_size _ 0).1, prod_pos_npShape])
      · intro j hj
        obtain ⟨f1, f2, f3⟩ := fullIdx_spec A j hj
        have := forward_spec x y0 h4 hs (fullIdx A j) f1
        rw [f2, f3] at this
        refine ⟨?_, this⟩
        rw [← f3]
        exact src_inBounds h4 _ f1

/-- Keys of integers, in-range slices and an Ellipsis meet the hypotheses. -/
example : KeyOK 3 [.int 1, .ellipsis, .slice ⟨some 3, none, some (-1)⟩] ∧
    ∀ k', npExpand 3 [.int 1, .ellipsis, .slice ⟨some 3, none, some (-1)⟩] = some k' →
      SlicesCovered k' [2, 3, 4] := by
  refine ⟨Or.inl (by decide), ?_⟩
  intro k' h
  have h : k' = [.int 1, .slice .full, .slice ⟨some 3, none, some (-1)⟩] := by
    injection h with h; exact h.symm
  subst h
  refine ⟨Or.inr ⟨⟨by decide, by decide⟩, by decide, by decide, ?_, ?_⟩,
    Or.inr ⟨⟨by decide, by decide⟩, by decide, by decide, ?_, ?_⟩, trivial⟩
  · intro v hv; cases hv
  · intro _ v hv; cases hv
  · intro v hv; injection hv with hv; subst hv; left; decide
  · intro _ v hv; cases hv

/-- The result of such an indexing: x[1, ..., 3::-1] on shape (2,3,4). -/
example : (getitem [2, 3, 4] (fun i => i) (fun _ => -1)
      [.int 1, .ellipsis, .slice ⟨some 3, none, some (-1)⟩]).toOption.map
    (fun r => (r.1, (List.range 12).map fun k : Nat => r.2 k)) =
    some ([3, 4], [15, 14, 13, 12, 19, 18, 17, 16, 23, 22, 21, 20]) := by decide +kernel

/-- Refutation 1: a start below `-n` is not clamped: `x[-10:3]` on 5 elements has 8 elements instead of
3, read from before the array. -/
theorem C18_refuted_low_start :
    npIndex [5] [.slice ⟨some (-10), some 3, none⟩] = some [.range [0, 1, 2]] ∧
    (getitem [5] (fun i => i) (fun _ => 100) [.slice ⟨some (-10), some 3, none⟩]).toOption.map
      (fun r => (r.1, (List.range 8).map fun k : Nat => r.2 k)) =
      some ([8], [-5, -4, -3, -2, -1, 0, 1, 2]) := by
  constructor
  · rfl
  · decide +kernel

/-- Refutation 2: `x[9:2:-1]` on 5 elements reads past the end. -/
theorem C18_refuted_high_start :
    npIndex [5] [.slice ⟨some 9, some 2, some (-1)⟩] = some [.range [4, 3]] ∧
    (getitem [5] (fun i => i) (fun _ => 100) [.slice ⟨some 9, some 2, some (-1)⟩]).toOption.map
      (fun r => (r.1, (List.range 7).map fun k : Nat => r.2 k)) =
      some ([7], [9, 8, 7, 6, 5, 4, 3]) := by
  constructor
  · rfl
  · decide +kernel

/-- Refutation 3: `x[5:9:2]` on 5 elements is empty in NumPy but has one element (read past the end)
here. -/
theorem C18_refuted_past_end :
    npIndex [5] [.slice ⟨some 5, some 9, some 2⟩] = some [.range []] ∧
    (getitem [5] (fun i => i) (fun _ => 100) [.slice ⟨some 5, some 9, some 2⟩]).toOption.map
      (fun r => (r.1, r.2 0)) = some ([1], 5) := by
  constructor
  · rfl
  · decide +kernel

/-- Refutation 4: `x[7:9]` on 5 elements gets the output extent −2. -/
theorem C18_refuted_negative_extent :
    setupAxis 5 (pyArgs 5 ⟨some 7, some 9, none⟩) = .ok (⟨7, 9, 1⟩, -2) := by rfl

/-- Refutation 5: `x[None, 0]` on shape (2,3) is NumPy shape (1,3), but fails here; on shape (2,1) it
returns shape (1,) instead of (1,1). -/
theorem C18_refuted_newaxis :
    (npIndex [2, 3] [.newaxis, .int 0]).map npShape = some [1, 3] ∧
    (getitem [2, 3] (fun i => i) (fun _ => 100) [.newaxis, .int 0]).toOption.isNone = true ∧
    (npIndex [2, 1] [.newaxis, .int 0]).map npShape = some [1, 1] ∧
    (getitem [2, 1] (fun i => i) (fun _ => 100) [.newaxis, .int 0]).toOption.map (fun r => r.1) =
      some [1] := by
  refine ⟨rfl, by decide +kernel, rfl, by decide +kernel⟩

/-! ### Adjointness of slice forward and backward -/

/-- Sum of `f` over a list. -/
def sumOver {β} (l : List β) (f : β → Int) : Int := (l.map f).sum

theorem backward_eq (dy dx : Int → Int) (ps : List (Int × Int)) (k : Int) :
    backward dy dx ps k = dx k + sumOver ps (fun p => if p.2 = k then dy p.1 else 0) := by
  induction ps generalizing dx with
  | nil => simp [backward, sumOver]
  | cons p r ih =>
    simp only [backward, List.foldl_cons] at ih ⊢
    rw [ih]
    simp only [sumOver, List.map_cons, List.sum_cons, write]
    by_cases h : p.2 = k
    · rw [if_pos h.symm, if_pos h, h]; omega
    · rw [if_neg (fun e => h e.symm), if_neg h]; omega

/-- Backward in terms of the selected positions. -/
theorem slice_backward_of_ok {rs : List (Ax × Int)} {ds : Shape} {P : Pos}
    (h : AllOK rs ds P) (hne : ds ≠ []) (dy dx : Int → Int) (k : Nat) :
    backward dy dx (slicePairs ds rs) k =
      dx k + sumOver (indices (P.map List.length))
        (fun j => if ravel ds (srcIdx P j) = k then dy (ravel (P.map List.length) j : Nat) else 0) := by
  have hne' : rs ≠ [] := by
    rintro rfl
    cases ds with
    | nil => exact hne rfl
    | cons _ _ => cases P <;> exact h.elim
  rw [backward_eq]
  congr 1
  have hsz := h.sizes
  have hlen : ∀ {rs : List (Ax × Int)} {ds : Shape} {P : Pos}, AllOK rs ds P → rs.length = ds.length ∧ rs.length = P.length := by
    intro rs
    induction rs with
    | nil => intro ds P h; cases ds <;> cases P <;> simp_all [AllOK]
    | cons r rs ih =>
      intro ds P h
      cases ds with
      | nil => exact h.elim
      | cons d ds => cases P with
        | nil => exact h.elim
        | cons p ps => have := ih h.2; simp; omega
  obtain ⟨hl1, hl2⟩ := hlen h
  unfold slicePairs
  simp only [hsz]
  have hmap : ((rs.map fun p => (p.1, p.2.toNat)).zip ((cStrides ds).zip (cStrides (P.map List.length)))).map
      (fun l => l.1.2) = P.map List.length := by
    rw [← hsz]
    have : (fun l : AxI => l.1.2) = (fun q : Ax × Nat => q.2) ∘ Prod.fst := rfl
    rw [this, ← List.map_map, List.map_fst_zip]
    · simp
    · simp [cStrides_length, hl1]
  rw [pairs_closed _ (by
    intro hc
    have hc' := congrArg (List.map fun l : AxI => l.1.2) hc
    rw [hmap] at hc'
    have hP : P = [] := by simpa using hc'
    have : rs.length ≠ 0 := by intro h; exact hne' (List.length_eq_zero_iff.mp h)
    rw [hP] at hl2
    exact this hl2), hmap]
  unfold sumOver
  rw [List.map_map]
  congr 1
  apply List.map_congr_left
  intro j hj
  obtain ⟨d1, d2⟩ := dots h j ((mem_indices _ _).mp hj)
  simp only [Function.comp, Int.zero_add, d1, d2]
  by_cases e : ravel ds (srcIdx P j) = k
  · rw [if_pos e, if_pos (by omega)]
  · rw [if_neg e, if_neg (by omega)]

theorem setupAxes_slices (ds : Shape) (ss : List PySlice) (hl : ss.length = ds.length)
    (hc : ∀ p ∈ ds.zip ss, Covered p.1 p.2) :
    ∃ r, setupAxes ds ((ds.zip ss).map fun p => pyArgs p.1 p.2) = .ok r ∧
      AllOK r ds ((ds.zip ss).map fun p => npRange p.1 p.2) := by
  induction ds generalizing ss with
  | nil => exact ⟨[], by simp [setupAxes], trivial⟩
  | cons d ds ih =>
    cases ss with
    | nil => simp at hl
    | cons s ss =>
      obtain ⟨r0, e1, e2⟩ := axOK_slice d s (hc (d, s) (by simp))
      obtain ⟨r, h1, h2⟩ := ih ss (by simpa using hl) (fun p hp => hc p (by simp [hp]))
      exact ⟨r0 :: r, by simp [setupAxes, e1, h1], ⟨e2, h2⟩⟩

/-- **C40.** Backward of a slice `x[s₁, …, sₙ]` is the transpose of its forward: the input gradient at
offset `k` is the old gradient plus the sum of the output gradients over exactly the multi-indices `j`
of the result whose selected element (by the NumPy positions `npRange`) lies at offset `k`; and the
forward copies for each such `j` that element.
(Values in the integers; the argument uses only commutative addition.) -/
theorem C40_slice_backward (ds : Shape) (hne : ds ≠ []) (ss : List PySlice) (hl : ss.length = ds.length)
    (hc : ∀ p ∈ ds.zip ss, Covered p.1 p.2) :
    ∃ r, setup ds ((ds.zip ss).map fun p => pyArgs p.1 p.2) = .ok r ∧
      r.map (fun p => p.2.toNat) = (ds.zip ss).map (fun p => (npRange p.1 p.2).length) ∧
      (∀ (x y0 : Int → Int) j, InBounds (r.map fun p => p.2.toNat) j →
        forward x y0 (slicePairs ds r) (ravel (r.map fun p => p.2.toNat) j : Nat) =
          x (ravel ds (srcIdx ((ds.zip ss).map fun p => npRange p.1 p.2) j) : Nat)) ∧
      ∀ (dy dx : Int → Int) (k : Nat),
        backward dy dx (slicePairs ds r) k =
          dx k + sumOver (indices (r.map fun p => p.2.toNat))
            (fun j => if ravel ds (srcIdx ((ds.zip ss).map fun p => npRange p.1 p.2) j) = k
              then dy (ravel (r.map fun p => p.2.toNat) j : Nat) else 0) := by
  obtain ⟨r, h1, h2⟩ := setupAxes_slices ds ss hl hc
  have hfill : fillAxes ds ((ds.zip ss).map fun p => pyArgs p.1 p.2) =
      (ds.zip ss).map fun p => pyArgs p.1 p.2 := by
    have : ds.length - ((ds.zip ss).map fun p => pyArgs p.1 p.2).length = 0 := by
      simp [hl]
    simp only [fillAxes, this, List.take_zero, List.map_nil, List.nil_append]
  have hsz := h2.sizes
  refine ⟨r, by rw [setup, hfill, h1], by rw [hsz, List.map_map]; rfl, ?_, ?_⟩
  · intro x y0 j hj
    rw [hsz] at hj ⊢
    exact forward_spec x y0 h2 hne j hj
  · intro dy dx k
    rw [slice_backward_of_ok h2 hne, hsz]

example : ∀ p ∈ [5, 4].zip [(⟨some (-4), some 9, some 2⟩ : PySlice), ⟨none, none, some (-1)⟩],
    Covered p.1 p.2 := by
  intro p hp
  simp at hp
  rcases hp with rfl | rfl <;> simp [Covered, npStep, sliceNone]

/-! ### C19 -/

/-- Setting up a function again: its stored arguments are those left by the previous setup
(slice.cpp stores them in `start_`, `stop_`, `step_`, and `copy()` (slice.hpp:72-74) copies them;
CgFunction::setup, computation_graph/function.cpp:50-60, copies and sets up again after `rewire_on`). -/
def resetup (shape : Shape) (axes : List Ax) : Except String (List (Ax × Int)) :=
  match setup shape axes with
  | .error e => .error e
  | .ok r => setup shape (r.map (·.1))

/-- **C19, refutation.** `x[::-1]` on 5 elements has 5 elements after the first setup and none after the
second. -/
theorem C19_refuted :
    (setup [5] [pyArgs 5 ⟨none, none, some (-1)⟩]).toOption.map (·.map (·.2)) = some [5] ∧
    (resetup [5] [pyArgs 5 ⟨none, none, some (-1)⟩]).toOption.map (·.map (·.2)) = some [0] := by
  decide +kernel

/-- An axis whose normalised stop is not negative. -/
def StopNonneg (d : Nat) (a : Ax) : Prop := 0 ≤ normStart d a ∧ 0 ≤ normStop d a

theorem setupAxis_idem (d : Nat) (a r : Ax) (n : Int) (h0 : a.step ≠ sliceNone) (hs : StopNonneg d a)
    (h1 : normStart d a ≠ sliceNone) (h2 : normStop d a ≠ sliceNone)
    (h : setupAxis d a = .ok (r, n)) : setupAxis d r = .ok (r, n) := by
  by_cases hz : a.step = 0
  · simp [setupAxis, hz] at h
  rw [setupAxis_norm d a hz h0] at h
  injection h with h
  injection h with hr hn
  subst hr
  have key := setupAxis_norm d ⟨normStart d a, normStop d a, a.step⟩ hz h0
  have g1 : ∀ w e : Int, 0 ≤ w → w ≠ sliceNone → normStart d ⟨w, e, a.step⟩ = w := by
    intro w e p q
    simp only [normStart]
    rw [if_neg (show ¬ w < 0 by omega), if_neg q]
  have g2 : ∀ w e : Int, 0 ≤ w → w ≠ sliceNone → normStop d ⟨e, w, a.step⟩ = w := by
    intro w e p q
    simp only [normStop]
    rw [if_neg (show ¬ w < 0 by omega), if_neg q]
  have e1 : normStart d ⟨normStart d a, normStop d a, a.step⟩ = normStart d a := g1 _ _ hs.1 h1
  have e2 : normStop d ⟨normStart d a, normStop d a, a.step⟩ = normStop d a := g2 _ _ hs.2 h2
  rw [e1, e2] at key
  rw [key, ← hn]

theorem setupAxes_idem (shape : Shape) (axes : List Ax) (r : List (Ax × Int))
    (h : setupAxes shape axes = .ok r)
    (hok : ∀ p ∈ shape.zip axes, p.2.step ≠ sliceNone ∧ StopNonneg p.1 p.2 ∧
      normStart p.1 p.2 ≠ sliceNone ∧ normStop p.1 p.2 ≠ sliceNone) :
    setupAxes shape (r.map (·.1)) = .ok r ∧ r.length = shape.length := by
  induction shape generalizing axes r with
  | nil => cases axes with
    | nil => simp [setupAxes] at h; subst h; exact ⟨rfl, rfl⟩
    | cons _ _ => simp [setupAxes] at h
  | cons d ds ih => cases axes with
    | nil => simp [setupAxes] at h
    | cons a as =>
      simp only [setupAxes] at h
      cases h1 : setupAxis d a with
      | error e => rw [h1] at h; cases h
      | ok q =>
        rw [h1] at h
        cases h2 : setupAxes ds as with
        | error e => rw [h2] at h; cases h
        | ok qs =>
          rw [h2] at h
          injection h with h
          subst h
          obtain ⟨q1, q2⟩ := q
          obtain ⟨c1, c2, c3, c4⟩ := hok (d, a) (by simp)
          have := setupAxis_idem d a q1 q2 c1 c2 c3 c4 h1
          obtain ⟨i1, i2⟩ := ih as qs h2 (fun p hp => hok p (by simp [hp]))
          refine ⟨?_, by simp [i2]⟩
          simp only [List.map_cons, setupAxes, this, i1]

/-- **C19 (partial).** If the normalised starts and stops of all axes are non-negative — in particular
for every slice with positive step and in-range bounds — any further setup on the same shape leaves
arguments and output extents as they are. Missing: `stop` normalised to −1, refuted above. -/
theorem C19_resetup_partial (shape : Shape) (axes : List Ax) (r : List (Ax × Int)) (n : Nat)
    (h : setup shape axes = .ok r)
    (hok : ∀ p ∈ shape.zip (fillAxes shape axes), p.2.step ≠ sliceNone ∧ StopNonneg p.1 p.2 ∧
      normStart p.1 p.2 ≠ sliceNone ∧ normStop p.1 p.2 ≠ sliceNone) :
    (List.range n).foldl (fun (s : Except String (List (Ax × Int))) _ =>
      match s with
      | .error e => .error e
      | .ok q => setup shape (q.map (·.1))) (.ok r) = .ok r := by
  obtain ⟨h1, h2⟩ := setupAxes_idem shape _ r h hok
  have hs : setup shape (r.map (·.1)) = .ok r := by
    have : fillAxes shape (r.map (·.1)) = r.map (·.1) := by simp [fillAxes, h2]
    rw [setup, this, h1]
  induction n with
  | zero => rfl
  | succ n ih => rw [List.range_succ, List.foldl_append, ih]; exact hs

example : setup [4, 6] [⟨1, -1, 1⟩, ⟨0, 6, 2⟩] = .ok [(⟨1, 3, 1⟩, 2), (⟨0, 6, 2⟩, 3)] := by rfl
example : ∀ p ∈ [4, 6].zip (fillAxes [4, 6] [⟨1, -1, 1⟩, ⟨0, 6, 2⟩]), p.2.step ≠ sliceNone ∧
    StopNonneg p.1 p.2 ∧ normStart p.1 p.2 ≠ sliceNone ∧ normStop p.1 p.2 ≠ sliceNone := by
  intro p hp
  simp [fillAxes] at hp
  rcases hp with rfl | rfl <;> simp [StopNonneg, normStart, normStop, sliceNone]

/-- **C18 (missing leading axes).** A slice call with fewer entries than axes is the call with the remaining leading axes taken whole:
from 0, step 1, all `d` elements. -/
theorem C18_leading_axes (lead rest : Shape) (axes : List Ax) (hl : axes.length = rest.length) :
    setup (lead ++ rest) axes = (setup rest axes).map fun r => (lead.map fun d : Nat => ((⟨0, d, 1⟩ : Ax), (d : Int))) ++ r := by
  have e1 : fillAxes (lead ++ rest) axes = lead.map (fun d : Nat => (⟨0, d, 1⟩ : Ax)) ++ axes := by
    simp [fillAxes, hl]
  have e2 : fillAxes rest axes = axes := by simp [fillAxes, hl]
  unfold setup
  rw [e1, e2]
  induction lead with
  | nil => simp only [List.nil_append, List.map_nil]; cases setupAxes rest axes <;> rfl
  | cons d lead ih =>
    have hd : setupAxis d ⟨0, d, 1⟩ = .ok (⟨0, d, 1⟩, (d : Int)) := by
      have hN : sliceNone = 0x7fffffff := rfl
      by_cases h0 : d = 0
      · subst h0; simp [setupAxis, sliceNone]
      · have : ¬ ((d : Int) < 0) := by omega
        by_cases hm : (d : Int) = sliceNone
        · simp [setupAxis, hm]
          simp [sliceNone]
        · simp [setupAxis, this, hm, sliceNone]
          omega
    simp only [List.cons_append, List.map_cons, setupAxes, hd]
    have e1' : fillAxes (lead ++ rest) axes = lead.map (fun d : Nat => (⟨0, d, 1⟩ : Ax)) ++ axes := by simp [fillAxes, hl]
    rw [ih e1']
    cases setupAxes rest axes <;> rfl

end Verif.Index
