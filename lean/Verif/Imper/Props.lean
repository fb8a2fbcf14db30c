import Verif.Imper.Model
import Mathlib.Algebra.BigOperators.Ring.List
import Mathlib.Tactic.IntervalCases
/-
Properties C211 to C213: imperative calls and Reshape.
-/
namespace Verif.Imper

variable {V σ : Type}

/-! ### Specification -/

/-- NdArrays in use have buffers in use. -/
def WF (h : Heap V) : Prop := ∀ i, i < h.nNd → (h.nd i).arr < h.nArr

/-- What the function sees of its inputs. -/
def inShapes (h : Heap V) (ins : List Nat) : List Shape := ins.map fun i => (h.nd i).shape
def inValues (h : Heap V) (ins : List Nat) : List V := ins.map fun i => h.mem (h.nd i).arr

/-- The buffers of the arrays the caller gives as outputs. -/
def givenBufs (h : Heap V) (given : List (Option Nat)) : List Nat := (given.filterMap id).map fun a => (h.nd a).arr

/-! ### Lemmas -/

theorem upd_same {α : Type} (f : Nat → α) (a : Nat) (b : α) : upd f a b a = b := by simp [upd]
theorem upd_other {α : Type} (f : Nat → α) (a : Nat) (b : α) {x : Nat} (h : x ≠ a) : upd f a b x = f x := by simp [upd, h]

theorem alloc_old (ins : List Nat) : ∀ (l : List (Shape × Option Nat)) (h : Heap V),
    (∀ i, i < h.nNd → (alloc h ins l).nd i = h.nd i) ∧ (alloc h ins l).mem = h.mem ∧
      (∀ (k : Nat) p, l[k]? = some p → ((alloc h ins l).nd (h.nNd + k)).shape = p.1) ∧
      (∀ (k : Nat) p, l[k]? = some p → p.2 = none → ((alloc h ins l).nd (h.nNd + k)).arr = h.nArr + k)
  | [], h => by simp [alloc]
  | (s, o) :: rest, h => by
    rw [alloc]
    obtain ⟨h1, h2, h3, h4⟩ := alloc_old ins rest
      { h with nd := upd h.nd h.nNd ⟨s, outArr h ins o⟩, nNd := h.nNd + 1, nArr := h.nArr + 1 }
    refine ⟨?_, h2, ?_, ?_⟩
    · intro i hi
      rw [h1 i (by simp; omega)]
      exact upd_other _ _ _ (by omega)
    · intro k p hk
      cases k with
      | zero =>
        simp only [List.getElem?_cons_zero, Option.some.injEq] at hk
        rw [show h.nNd + 0 = h.nNd from rfl, h1 h.nNd (by simp)]
        simp [upd_same, ← hk]
      | succ k =>
        have := h3 k p (by simpa using hk)
        simp only at this
        rw [show h.nNd + (k + 1) = h.nNd + 1 + k by omega]; exact this
    · intro k p hk hp
      cases k with
      | zero =>
        simp only [List.getElem?_cons_zero, Option.some.injEq] at hk
        subst hk
        rw [show h.nNd + 0 = h.nNd from rfl, h1 h.nNd (by simp)]
        simp only at hp
        simp [upd_same, outArr, hp]
      | succ k =>
        have := h4 k p (by simpa using hk) hp
        simp only at this
        rw [show h.nNd + (k + 1) = h.nNd + 1 + k by omega, this]; omega

/-- The caller's arrays fit. -/
def Fits (h : Heap V) (first : Nat) (l : List (Option Nat)) (i : Nat) : Prop :=
  ∀ (k a : Nat), l[k]? = some (some a) → size (h.nd a).shape = size (h.nd (first + (i + k))).shape

theorem bind_ok (first : Nat) : ∀ (l : List (Option Nat)) (i : Nat) (h : Heap V),
    (∀ (k a : Nat), l[k]? = some (some a) → a < first) →
    (Fits h first l i → ∃ h' outs, bind h first l i = .ok (h', outs) ∧ h'.mem = h.mem ∧ outs.length = l.length ∧
      (∀ j, (∀ k, k < l.length → j ≠ first + (i + k)) → h'.nd j = h.nd j) ∧
      (∀ (k : Nat) g, l[k]? = some g → outs[k]? = some (g.getD (first + (i + k))) ∧
        h'.nd (first + (i + k)) = ⟨(h.nd (first + (i + k))).shape, (h.nd (g.getD (first + (i + k)))).arr⟩)) ∧
    (¬ Fits h first l i → bind h first l i = .error "In-place array size and function output size must match.")
  | [], i, h, _ => by
    refine ⟨fun _ => ⟨h, [], rfl, rfl, rfl, fun _ _ => rfl, by simp⟩, fun hn => ?_⟩
    exact absurd (by intro k a hk; simp at hk) hn
  | g :: rest, i, h, hlt => by
    have hlt' : ∀ (k a : Nat), rest[k]? = some (some a) → a < first := fun k a hk => hlt (k + 1) a (by simpa using hk)
    rw [bind]
    extract_lets hh
    obtain ⟨ih1, ih2⟩ := bind_ok first rest (i + 1) hh hlt'
    have hshape : ∀ j, (hh.nd j).shape = (h.nd j).shape := by
      intro j
      by_cases hj : j = first + i
      · subst hj; simp [hh, upd_same]
      · simp [hh, upd_other _ _ _ hj]
    have hfits : Fits h first (g :: rest) i ↔
        size (h.nd (g.getD (first + i))).shape = size (h.nd (first + i)).shape ∧ Fits hh first rest (i + 1) := by
      constructor
      · intro hf
        refine ⟨?_, ?_⟩
        · cases g with
          | none => simp
          | some a => simpa using hf 0 a (by simp)
        · intro k a hk
          rw [hshape, hshape, show i + 1 + k = i + (k + 1) by omega]
          exact hf (k + 1) a (by simpa using hk)
      · rintro ⟨h0, hr⟩ k a hk
        cases k with
        | zero =>
          simp only [List.getElem?_cons_zero, Option.some.injEq] at hk
          simpa [hk] using h0
        | succ k =>
          have := hr k a (by simpa using hk)
          rwa [hshape, hshape, show i + 1 + k = i + (k + 1) by omega] at this
    refine ⟨fun hf => ?_, fun hf => ?_⟩
    · obtain ⟨h0, hr⟩ := hfits.1 hf
      obtain ⟨h', outs, he, hm, hl, ho, hk⟩ := ih1 hr
      refine ⟨h', (g.getD (first + i)) :: outs, by rw [if_neg (by simpa using h0), he], by rw [hm], by simp [hl], ?_, ?_⟩
      · intro j hj
        rw [ho j (fun k hk' => by
          have := hj (k + 1) (by simp; omega)
          rwa [show i + 1 + k = i + (k + 1) by omega])]
        have := hj 0 (by simp)
        exact upd_other _ _ _ (by simpa using this)
      · intro k g' hg
        cases k with
        | zero =>
          simp only [List.getElem?_cons_zero, Option.some.injEq] at hg
          subst hg
          refine ⟨by simp, ?_⟩
          rw [ho _ (fun k _ => by omega)]
          simp only [hh, Nat.add_zero, upd_same]
        | succ k =>
          have hg' : rest[k]? = some g' := by simpa using hg
          obtain ⟨e1, e2⟩ := hk k g' hg'
          rw [show i + (k + 1) = i + 1 + k by omega]
          refine ⟨by simpa using e1, ?_⟩
          rw [e2, hshape]
          congr 2
          cases g' with
          | none => exact upd_other _ _ _ (by simp; omega)
          | some a =>
            have := hlt' k a hg'
            exact upd_other _ _ _ (by simp; omega)
    · by_cases h0 : size (h.nd (g.getD (first + i))).shape = size (h.nd (first + i)).shape
      · have hr : ¬ Fits hh first rest (i + 1) := fun hr => hf (hfits.2 ⟨h0, hr⟩)
        rw [if_neg (by simpa using h0), ih2 hr]
      · rw [if_pos h0]

theorem write_nd (first : Nat) : ∀ (vs : List (Option V)) (i : Nat) (h : Heap V), (write h first vs i).nd = h.nd
  | [], _, _ => rfl
  | none :: vs, i, h => by rw [write, write_nd first vs]
  | some v :: vs, i, h => by rw [write, write_nd first vs]

theorem write_other (first : Nat) (a : Nat) : ∀ (vs : List (Option V)) (i : Nat) (h : Heap V),
    (∀ (k : Nat) v, vs[k]? = some (some v) → (h.nd (first + (i + k))).arr ≠ a) → (write h first vs i).mem a = h.mem a
  | [], _, _, _ => rfl
  | none :: vs, i, h, hk => by
    rw [write]
    refine write_other first a vs _ _ fun k v hv => ?_
    rw [show i + 1 + k = i + (k + 1) by omega]
    exact hk (k + 1) v (by simpa using hv)
  | some v :: vs, i, h, hk => by
    rw [write, write_other first a vs]
    · have := hk 0 v (by simp)
      exact upd_other _ _ _ (by simpa using Ne.symm this)
    · intro k v hv
      have := hk (k + 1) v (by simpa using hv)
      rwa [show i + 1 + k = i + (k + 1) by omega]

theorem write_at (first : Nat) : ∀ (vs : List (Option V)) (i : Nat) (h : Heap V) (k : Nat) (v : V),
    vs[k]? = some (some v) →
    (∀ j, k < j → j < vs.length → (h.nd (first + (i + j))).arr ≠ (h.nd (first + (i + k))).arr) →
    (write h first vs i).mem (h.nd (first + (i + k))).arr = v
  | [], _, _, k, v, hk, _ => by simp at hk
  | none :: vs, i, h, k, v, hk, hd => by
    cases k with
    | zero => simp at hk
    | succ k =>
      rw [write]
      have := write_at first vs (i + 1) h k v (by simpa using hk) (fun j h1 h2 => by
        have := hd (j + 1) (by omega) (by simp; omega)
        rwa [show i + 1 + j = i + (j + 1) by omega, show i + 1 + k = i + (k + 1) by omega])
      rwa [show i + 1 + k = i + (k + 1) by omega] at this
  | some w :: vs, i, h, k, v, hk, hd => by
    cases k with
    | zero =>
      simp only [List.getElem?_cons_zero, Option.some.injEq] at hk
      subst hk
      rw [write, write_other]
      · simp [upd_same]
      · intro k v' hv'
        have := hd (k + 1) (by omega) (by
          have := (List.getElem?_eq_some_iff.1 hv').1
          simp; omega)
        rwa [show i + 1 + k = i + (k + 1) by omega]
    | succ k =>
      rw [write]
      have := write_at first vs (i + 1) { h with mem := upd h.mem (h.nd (first + i)).arr w } k v (by simpa using hk)
        (fun j h1 h2 => by
          have := hd (j + 1) (by omega) (by simp; omega)
          rwa [show i + 1 + j = i + (j + 1) by omega, show i + 1 + k = i + (k + 1) by omega])
      rwa [show i + 1 + k = i + (k + 1) by omega] at this

/-- The members the call works with. -/
def callSt (f : Fn V σ) (o : Obj σ) : σ := if o.used then f.copy o.st else o.st

theorem execute_setup (f : Fn V σ) (o : Obj σ) (h : Heap V) (ins : List Nat) (n : Nat) (given : List (Option Nat))
    (hle : given.length ≤ n) (st : σ) (shapes : List (Shape × Option Nat))
    (hs : f.setup (callSt f o) (inShapes h ins) = (st, .ok shapes)) (hn : shapes.length = n) :
    execute f o h ins n given =
      match bind (alloc h ins shapes) h.nNd (given ++ List.replicate (n - given.length) none) 0 with
      | .error e => (.error e, if o.used then ⟨true, o.st⟩ else ⟨true, st⟩, alloc h ins shapes)
      | .ok (h2, outs) => (.ok outs, if o.used then ⟨true, o.st⟩ else ⟨true, st⟩,
          write h2 h.nNd (f.fwd st (ins.map fun i => h2.mem (h2.nd i).arr)) 0) := by
  unfold callSt inShapes at hs
  unfold execute
  rw [if_neg (by simpa using hle)]
  simp only [hs]
  rw [if_neg (by simpa using hn)]
  rfl

theorem padded (given : List (Option Nat)) (m k : Nat) (a : Nat)
    (hk : (given ++ List.replicate m none)[k]? = some (some a)) : given[k]? = some (some a) := by
  rw [List.getElem?_append] at hk
  split at hk
  · exact hk
  · rw [List.getElem?_replicate] at hk
    split at hk <;> simp at hk

/-- When a call succeeds: not too many arrays are given, the set up accepts the input shapes and has n outputs, and every given array
has the size of its output. -/
theorem C211_execute_succeeds_iff (f : Fn V σ) (o : Obj σ) (h : Heap V) (ins : List Nat) (n : Nat) (given : List (Option Nat))
    (hg : ∀ a, some a ∈ given → a < h.nNd) :
    (∃ rs, (execute f o h ins n given).1 = .ok rs) ↔
      given.length ≤ n ∧ ∃ st shapes, f.setup (callSt f o) (inShapes h ins) = (st, .ok shapes) ∧ shapes.length = n ∧
        ∀ (k a : Nat) (p : Shape × Option Nat), given[k]? = some (some a) → shapes[k]? = some p → size (h.nd a).shape = size p.1 := by
  by_cases hle : given.length ≤ n
  swap
  · refine ⟨fun ⟨rs, hr⟩ => ?_, fun hr => absurd hr.1 hle⟩
    unfold execute at hr
    rw [if_pos hle] at hr
    simp at hr
  cases hs : f.setup (callSt f o) (inShapes h ins) with
  | mk st r =>
  cases r with
  | error e =>
    refine ⟨fun ⟨rs, hr⟩ => ?_, fun hr => ?_⟩
    · unfold execute at hr
      unfold callSt inShapes at hs
      rw [if_neg (by simpa using hle)] at hr
      simp only [hs] at hr
      simp at hr
    · obtain ⟨_, st', sh', h1, _⟩ := hr
      simp at h1
  | ok shapes =>
  by_cases hn : shapes.length = n
  swap
  · refine ⟨fun ⟨rs, hr⟩ => ?_, fun hr => ?_⟩
    · unfold execute at hr
      unfold callSt inShapes at hs
      rw [if_neg (by simpa using hle)] at hr
      simp only [hs] at hr
      rw [if_pos hn] at hr
      simp at hr
    · obtain ⟨_, st', sh', h1, h2, _⟩ := hr
      simp only [Prod.mk.injEq, Except.ok.injEq] at h1
      rw [← h1.2] at h2
      exact absurd h2 hn
  rw [execute_setup f o h ins n given hle st shapes hs hn]
  obtain ⟨a1, _, a3, _⟩ := alloc_old ins shapes h
  have hlt : ∀ (k a : Nat), (given ++ List.replicate (n - given.length) none)[k]? = some (some a) → a < h.nNd := fun k a hk =>
    hg a (List.mem_of_getElem? (padded _ _ _ _ hk))
  obtain ⟨b1, b2⟩ := bind_ok h.nNd _ 0 (alloc h ins shapes) hlt
  have hfits : Fits (alloc h ins shapes) h.nNd (given ++ List.replicate (n - given.length) none) 0 ↔
      ∀ (k a : Nat) (p : Shape × Option Nat), given[k]? = some (some a) → shapes[k]? = some p → size (h.nd a).shape = size p.1 := by
    constructor
    · intro hf k a p hk hp
      have hk' : (given ++ List.replicate (n - given.length) none)[k]? = some (some a) := by
        rw [List.getElem?_append_left (List.getElem?_eq_some_iff.1 hk).1]; exact hk
      have := hf k a hk'
      rw [a1 a (hg a (List.mem_of_getElem? hk)), Nat.zero_add, a3 k p hp] at this
      exact this
    · intro hf k a hk
      have hk' := padded _ _ _ _ hk
      have hlen := (List.getElem?_eq_some_iff.1 hk').1
      have hsh : shapes[k]? = some (shapes[k]'(by omega)) := List.getElem?_eq_getElem (by omega)
      rw [a1 a (hg a (List.mem_of_getElem? hk')), Nat.zero_add, a3 k _ hsh]
      exact hf k a _ hk' hsh
  constructor
  · rintro ⟨rs, hr⟩
    refine ⟨hle, st, shapes, rfl, hn, ?_⟩
    rw [← hfits]
    by_contra hnf
    rw [b2 hnf] at hr
    simp at hr
  · rintro ⟨_, st', sh', h1, _, hf⟩
    simp only [Prod.mk.injEq, Except.ok.injEq] at h1
    rw [← h1.2] at hf
    obtain ⟨h', outs, he, _⟩ := b1 (hfits.2 hf)
    exact ⟨outs, by rw [he]⟩

/-- A call that fails changes no array that existed before: neither shape, nor buffer, nor contents. -/
theorem C211_execute_error_changes_nothing (f : Fn V σ) (o : Obj σ) (h : Heap V) (ins : List Nat) (n : Nat)
    (given : List (Option Nat)) (e : String) (he : (execute f o h ins n given).1 = .error e) :
    (∀ i, i < h.nNd → (execute f o h ins n given).2.2.nd i = h.nd i) ∧ (execute f o h ins n given).2.2.mem = h.mem := by
  unfold execute at he ⊢
  by_cases hle : given.length ≤ n
  swap
  · rw [if_pos hle]; simp
  rw [if_neg (by simpa using hle)] at he ⊢
  cases hs : f.setup (if o.used then f.copy o.st else o.st) (ins.map fun i => (h.nd i).shape) with
  | mk st r =>
  cases r with
  | error e => simp only [hs]; simp
  | ok shapes =>
    simp only [hs] at he ⊢
    by_cases hn : shapes.length = n
    swap
    · rw [if_pos hn]; simp
    rw [if_neg (by simpa using hn)] at he ⊢
    obtain ⟨a1, a2, _⟩ := alloc_old ins shapes h
    generalize bind (alloc h ins shapes) h.nNd (given ++ List.replicate (n - given.length) none) 0 = b at he ⊢
    cases b with
    | error e => exact ⟨a1, a2⟩
    | ok p => simp at he

/-- C211. A successful call of a function that shares no buffers and writes all its outputs. -/
theorem C211_execute_writes_outputs_partial (f : Fn V σ) (o : Obj σ) (h : Heap V) (ins : List Nat) (n : Nat)
    (given : List (Option Nat)) (st : σ) (shapes : List (Shape × Option Nat)) (vals : List V)
    (hwf : WF h) (hins : ∀ i ∈ ins, i < h.nNd) (hg : ∀ a, some a ∈ given → a < h.nNd)
    (hle : given.length ≤ n) (hs : f.setup (callSt f o) (inShapes h ins) = (st, .ok shapes)) (hn : shapes.length = n)
    (hsize : ∀ (k a : Nat) (p : Shape × Option Nat), given[k]? = some (some a) → shapes[k]? = some p → size (h.nd a).shape = size p.1)
    (hshare : ∀ p ∈ shapes, p.2 = none)
    (hfwd : f.fwd st (inValues h ins) = vals.map some) (hvals : vals.length = n)
    (hdist : (givenBufs h given).Nodup) :
    ∃ rs, (execute f o h ins n given).1 = .ok rs ∧ rs.length = n ∧
      -- every result holds the value computed for it
      (∀ (k r : Nat) (v : V), rs[k]? = some r → vals[k]? = some v →
        (execute f o h ins n given).2.2.mem ((execute f o h ins n given).2.2.nd r).arr = v) ∧
      -- a given array is returned; for the others there is a new array of the shape that setup decided
      (∀ (k a : Nat), given[k]? = some (some a) → rs[k]? = some a) ∧
      (∀ (k r : Nat), (∀ a, given[k]? ≠ some (some a)) → rs[k]? = some r →
        h.nNd ≤ r ∧ shapes[k]?.map Prod.fst = some ((execute f o h ins n given).2.2.nd r).shape) ∧
      -- no other array changes
      (∀ i, i < h.nNd → (execute f o h ins n given).2.2.nd i = h.nd i) ∧
      (∀ b, b < h.nArr → b ∉ givenBufs h given → (execute f o h ins n given).2.2.mem b = h.mem b) := by
  obtain ⟨a1, a2, a3, a4⟩ := alloc_old ins shapes h
  have hlt : ∀ (k a : Nat), (given ++ List.replicate (n - given.length) none)[k]? = some (some a) → a < h.nNd := fun k a hk =>
    hg a (List.mem_of_getElem? (padded _ _ _ _ hk))
  have hplen : (given ++ List.replicate (n - given.length) none).length = n := by simp; omega
  have hfits : Fits (alloc h ins shapes) h.nNd (given ++ List.replicate (n - given.length) none) 0 := by
    intro k a hk
    have hk' := padded _ _ _ _ hk
    have hlen := (List.getElem?_eq_some_iff.1 hk').1
    have hsh : shapes[k]? = some (shapes[k]'(by omega)) := List.getElem?_eq_getElem (by omega)
    rw [a1 a (hg a (List.mem_of_getElem? hk')), Nat.zero_add, a3 k _ hsh]
    exact hsize k a _ hk' hsh
  obtain ⟨h2, outs, hb, bm, bl, bo, bk⟩ := (bind_ok h.nNd _ 0 (alloc h ins shapes) hlt).1 hfits
  have hold : ∀ i, i < h.nNd → h2.nd i = h.nd i := fun i hi => by rw [bo i (fun k _ => by omega), a1 i hi]
  have hin : (ins.map fun i => h2.mem (h2.nd i).arr) = inValues h ins := by
    unfold inValues
    refine List.map_congr_left fun i hi => ?_
    rw [hold i (hins i hi), bm, a2]
  have hex : execute f o h ins n given = (.ok outs, if o.used then ⟨true, o.st⟩ else ⟨true, st⟩, write h2 h.nNd (vals.map some) 0) := by
    rw [execute_setup f o h ins n given hle st shapes hs hn, hb]
    simp only [hin, hfwd]
  rw [hex]
  simp only [write_nd]
  -- the buffer of the k-th output
  have hbuf : ∀ k, k < n → (h2.nd (h.nNd + (0 + k))).arr =
      match given[k]? with
      | some (some a) => (h.nd a).arr
      | _ => h.nArr + k := by
    intro k hk
    have hpk : (given ++ List.replicate (n - given.length) none)[k]? =
        some ((given ++ List.replicate (n - given.length) none)[k]'(by omega)) := List.getElem?_eq_getElem (by omega)
    obtain ⟨-, e2⟩ := bk k _ hpk
    generalize (given ++ List.replicate (n - given.length) none)[k]'(by omega) = g at hpk e2
    rw [e2]
    cases g with
    | some a =>
      have hk' := padded _ _ _ _ hpk
      simp only [Option.getD_some, hk']
      rw [a1 a (hg a (List.mem_of_getElem? hk'))]
    | none =>
      have hsh : shapes[k]? = some (shapes[k]'(by omega)) := List.getElem?_eq_getElem (by omega)
      have : ∀ a, given[k]? ≠ some (some a) := by
        intro a ha
        rw [List.getElem?_append_left (List.getElem?_eq_some_iff.1 ha).1, ha] at hpk
        simp at hpk
      simp only [Option.getD_none, Nat.zero_add]
      rw [a4 k _ hsh (hshare _ (List.mem_of_getElem? hsh))]
  have hinj : ∀ j k, k < j → j < n → (h2.nd (h.nNd + (0 + j))).arr ≠ (h2.nd (h.nNd + (0 + k))).arr := by
    intro j k hkj hj
    rw [hbuf j hj, hbuf k (by omega)]
    have hlow : ∀ (m a : Nat), given[m]? = some (some a) → (h.nd a).arr < h.nArr := fun m a hm =>
      hwf a (hg a (List.mem_of_getElem? hm))
    cases hgj : given[j]? with
    | none =>
      cases hgk : given[k]? with
      | none => simp; omega
      | some g =>
        cases g with
        | none => simp; omega
        | some a => have := hlow k a hgk; simp; omega
    | some g =>
      cases g with
      | none =>
        cases hgk : given[k]? with
        | none => simp; omega
        | some g =>
          cases g with
          | none => simp; omega
          | some a => have := hlow k a hgk; simp; omega
      | some b =>
        cases hgk : given[k]? with
        | none => have := hlow j b hgj; simp; omega
        | some g =>
          cases g with
          | none => have := hlow j b hgj; simp; omega
          | some a =>
            simp only
            intro heq
            -- two positions of the list of buffers
            obtain ⟨hkl, hke⟩ := List.getElem?_eq_some_iff.1 hgk
            have hsplit : given = given.take (k + 1) ++ given.drop (k + 1) := (List.take_append_drop _ _).symm
            unfold givenBufs at hdist
            rw [hsplit, List.filterMap_append, List.map_append, List.nodup_append] at hdist
            refine hdist.2.2 (h.nd a).arr ?_ (h.nd b).arr ?_ heq.symm
            · refine List.mem_map.2 ⟨a, List.mem_filterMap.2 ⟨some a, ?_, rfl⟩, rfl⟩
              refine List.mem_of_getElem? (i := k) ?_
              rw [List.getElem?_take_of_lt (by omega)]; exact hgk
            · refine List.mem_map.2 ⟨b, List.mem_filterMap.2 ⟨some b, ?_, rfl⟩, rfl⟩
              refine List.mem_of_getElem? (i := j - (k + 1)) ?_
              rw [List.getElem?_drop, show k + 1 + (j - (k + 1)) = j by omega]; exact hgj
  have hres : ∀ (k r : Nat), outs[k]? = some r → k < n ∧ ∃ g, (given ++ List.replicate (n - given.length) none)[k]? = some g ∧
      r = g.getD (h.nNd + k) := by
    intro k r hk
    have hk' := (List.getElem?_eq_some_iff.1 hk).1
    have hpk : (given ++ List.replicate (n - given.length) none)[k]? =
        some ((given ++ List.replicate (n - given.length) none)[k]'(by omega)) := List.getElem?_eq_getElem (by omega)
    obtain ⟨e1, -⟩ := bk k _ hpk
    rw [hk] at e1
    refine ⟨by omega, _, hpk, by simpa using e1⟩
  have harr : ∀ (k r : Nat), outs[k]? = some r → (h2.nd r).arr = (h2.nd (h.nNd + (0 + k))).arr := by
    intro k r hk
    obtain ⟨hkn, g, hpk, hr⟩ := hres k r hk
    cases g with
    | none => simp [hr]
    | some a =>
      have hk' := padded _ _ _ _ hpk
      rw [hbuf k hkn, hk']
      simp only [Option.getD_some] at hr
      rw [hr, hold a (hg a (List.mem_of_getElem? hk'))]
  refine ⟨outs, rfl, by omega, ?_, ?_, ?_, hold, ?_⟩
  · intro k r v hk hv
    rw [harr k r hk]
    refine write_at h.nNd _ 0 h2 k v (by simp [hv]) ?_
    intro j h1 h2'
    exact hinj j k h1 (by simpa [hvals] using h2')
  · intro k a hk
    have hk' : (given ++ List.replicate (n - given.length) none)[k]? = some (some a) := by
      rw [List.getElem?_append_left (List.getElem?_eq_some_iff.1 hk).1]; exact hk
    simpa using (bk k _ hk').1
  · intro k r hno hk
    obtain ⟨hkn, g, hpk, hr⟩ := hres k r hk
    cases g with
    | some a => exact absurd (padded _ _ _ _ hpk) (hno a)
    | none =>
      simp only [Option.getD_none] at hr
      have hsh : shapes[k]? = some (shapes[k]'(by omega)) := List.getElem?_eq_getElem (by omega)
      obtain ⟨-, e2⟩ := bk k _ hpk
      rw [Nat.zero_add] at e2
      refine ⟨by omega, ?_⟩
      rw [hr, e2]
      simp only
      rw [a3 k _ hsh, hsh]
      rfl
  · intro b hb' hnb
    rw [write_other, bm, a2]
    intro k v hv
    have hkn : k < n := by
      have := (List.getElem?_eq_some_iff.1 hv).1
      simpa [hvals] using this
    rw [hbuf k hkn]
    cases hgk : given[k]? with
    | none => simp; omega
    | some g =>
      cases g with
      | none => simp; omega
      | some a =>
        simp only
        rintro rfl
        exact hnb (List.mem_map.2 ⟨a, List.mem_filterMap.2 ⟨some a, List.mem_of_getElem? hgk, rfl⟩, rfl⟩)

/-- A heap of three arrays: two of size 4 and one of size 6. -/
def heap0 : Heap Nat :=
  { nd := fun i => [⟨[4], 0⟩, ⟨[2, 2], 1⟩, ⟨[6], 2⟩].getD i ⟨[], 3⟩, mem := fun i => [10, 20, 30].getD i 0, nNd := 3, nArr := 3 }

/-- A function with two outputs: the sum of its inputs, and its first input. -/
def two : Fn Nat Unit where
  setup _ shs := ((), .ok [(shs.getD 0 [], none), (shs.getD 0 [], none)])
  fwd _ vs := [some vs.sum, some (vs.getD 0 0)]
  copy _ := ()

/-- The hypotheses of C211 are met: the first output goes to an array that is also an input. -/
example : ∃ rs, (execute two ⟨false, ()⟩ heap0 [0, 1] 2 [some 1]).1 = .ok rs ∧ rs.length = 2 := by
  obtain ⟨rs, h1, h2, _⟩ := C211_execute_writes_outputs_partial two ⟨false, ()⟩ heap0 [0, 1] 2 [some 1] () [([4], none), ([4], none)] [30, 10]
    (by intro i hi; simp only [heap0] at hi ⊢; interval_cases i <;> decide)
    (by decide) (by simp [heap0]) (by decide) rfl rfl
    (by
      intro k a p hk hp
      match k with
      | 0 => simp at hk hp; subst hk; subst hp; rfl
      | k + 1 => simp at hk)
    (by simp) rfl rfl (by decide)
  exact ⟨rs, h1, h2⟩

example : let r := execute two ⟨false, ()⟩ heap0 [0, 1] 2 [some 1]
    r.1.toOption = some [1, 4] ∧ r.2.2.mem (r.2.2.nd 1).arr = 30 ∧ r.2.2.mem (r.2.2.nd 4).arr = 10 ∧ (r.2.2.nd 1).shape = [2, 2] := by
  decide

example : (execute two ⟨false, ()⟩ heap0 [0, 1] 2 [some 2]).1.toOption = none := by decide

/-- What is false in general: with an in-place Reshape (the default) the array given as output is returned, but nothing is written. -/
theorem C211_inplace_reshape_given_output_not_written (h : Heap V) (x out : Nat) (o : Obj RState) (hx : o.st.inplace = true)
    (hout : out < h.nNd) (rs : List Nat) (hr : (execute (reshape V) o h [x] 1 [some out]).1 = .ok rs) :
    rs = [out] ∧ (execute (reshape V) o h [x] 1 [some out]).2.2.mem = h.mem := by
  obtain ⟨hle, st, shapes, hs, hn, hsz⟩ := (C211_execute_succeeds_iff (reshape V) o h [x] 1 [some out] (by simpa using hout)).1 ⟨rs, hr⟩
  rw [execute_setup _ _ _ _ _ _ hle st shapes hs hn] at hr ⊢
  obtain ⟨a1, a2, a3, a4⟩ := alloc_old [x] shapes h
  obtain ⟨b1, b2⟩ := bind_ok h.nNd ([some out] ++ List.replicate (1 - [some out].length) none) 0 (alloc h [x] shapes)
    (by
      intro k a hk
      have := padded _ _ _ _ hk
      match k with
      | 0 => simp at this; omega
      | k + 1 => simp at this)
  have hst : st.inplace = true := by
    have hc : callSt (reshape V) o = o.st := by simp [callSt, reshape]
    rw [hc] at hs
    simp only [reshape] at hs
    split at hs
    · simp at hs
    · simp only [Prod.mk.injEq] at hs
      rw [← hs.1]; exact hx
  by_cases hf : Fits (alloc h [x] shapes) h.nNd ([some out] ++ List.replicate (1 - [some out].length) none) 0
  · obtain ⟨h', outs, he, hm, hl, _, hk⟩ := b1 hf
    rw [he] at hr ⊢
    simp only [Except.ok.injEq] at hr
    have h0 := (hk 0 (some out) (by simp)).1
    refine ⟨?_, ?_⟩
    · subst hr
      match outs, hl, h0 with
      | [a], _, h0 => simpa using h0
    · simp only [reshape, hst, if_true, write]
      rw [hm, a2]
  · rw [b2 hf] at hr
    simp at hr

example : let r := execute (reshape Nat) ⟨false, ⟨[2, 2], true⟩⟩ heap0 [0] 1 [some 1]
    r.1.toOption = some [1] ∧ r.2.2.mem (r.2.2.nd 1).arr = 20 ∧ heap0.mem (heap0.nd 0).arr = 10 := by decide

/-! ### C212: a function object used more than once -/

/-- A call: what the program does to the arrays before it, and its arguments. -/
structure Call (V : Type) where
  before : Heap V → Heap V
  ins : List Nat
  n : Nat
  given : List (Option Nat)

/-- The results of a series of calls of one function object, and the arrays at the end. -/
def history (f : Fn V σ) : Obj σ → Heap V → List (Call V) → List (Except String (List Nat)) × Heap V
  | _, h, [] => ([], h)
  | o, h, c :: cs =>
    let r := execute f o (c.before h) c.ins c.n c.given
    let rest := history f r.2.1 r.2.2 cs
    (r.1 :: rest.1, rest.2)

/-- The same with a new function object for every call. -/
def historyFresh (f : Fn V σ) (s : σ) : Heap V → List (Call V) → List (Except String (List Nat)) × Heap V
  | h, [] => ([], h)
  | h, c :: cs =>
    let r := execute f ⟨false, s⟩ (c.before h) c.ins c.n c.given
    let rest := historyFresh f s r.2.2 cs
    (r.1 :: rest.1, rest.2)

theorem execute_obj (f : Fn V σ) (o : Obj σ) (h : Heap V) (ins : List Nat) (n : Nat) (given : List (Option Nat)) :
    (execute f o h ins n given).2.1 = o ∨ (execute f o h ins n given).2.1 =
      if o.used then ⟨true, o.st⟩ else ⟨true, (f.setup o.st (inShapes h ins)).1⟩ := by
  unfold execute
  by_cases hle : given.length ≤ n
  swap
  · rw [if_pos hle]; exact Or.inl rfl
  rw [if_neg (by simpa using hle)]
  refine Or.inr ?_
  cases hu : o.used
  · simp only [Bool.false_eq_true, if_false]
    change _ = Obj.mk true (f.setup o.st (ins.map fun i => (h.nd i).shape)).1
    cases hs : f.setup o.st (ins.map fun i => (h.nd i).shape) with
    | mk st r =>
    cases r with
    | error e => rfl
    | ok shapes =>
      simp only
      by_cases hn : shapes.length = n
      · rw [if_neg (by simpa using hn)]
        generalize bind (alloc h ins shapes) h.nNd (given ++ List.replicate (n - given.length) none) 0 = b
        cases b <;> rfl
      · rw [if_pos hn]
  · simp only [if_true]
    cases hs : f.setup (f.copy o.st) (ins.map fun i => (h.nd i).shape) with
    | mk st r =>
    cases r with
    | error e => rfl
    | ok shapes =>
      simp only
      by_cases hn : shapes.length = n
      · rw [if_neg (by simpa using hn)]
        generalize bind (alloc h ins shapes) h.nNd (given ++ List.replicate (n - given.length) none) 0 = b
        cases b <;> rfl
      · rw [if_pos hn]

theorem execute_congr (f : Fn V σ) (o o' : Obj σ) (h : Heap V) (ins : List Nat) (n : Nat) (given : List (Option Nat))
    (hst : callSt f o = callSt f o') :
    (execute f o h ins n given).1 = (execute f o' h ins n given).1 ∧ (execute f o h ins n given).2.2 = (execute f o' h ins n given).2.2 := by
  unfold callSt at hst
  unfold execute
  by_cases hle : given.length ≤ n
  swap
  · rw [if_pos hle, if_pos hle]; exact ⟨rfl, rfl⟩
  have hle' : ¬ ¬ given.length ≤ n := not_not.2 hle
  rw [if_neg hle', if_neg hle']
  simp only [hst]
  cases hs : f.setup (if o'.used then f.copy o'.st else o'.st) (ins.map fun i => (h.nd i).shape) with
  | mk st r =>
  cases r with
  | error e => exact ⟨rfl, rfl⟩
  | ok shapes =>
    simp only
    by_cases hn : shapes.length = n
    · have hn' : ¬ shapes.length ≠ n := not_not.2 hn
      rw [if_neg hn', if_neg hn']
      generalize bind (alloc h ins shapes) h.nNd (given ++ List.replicate (n - given.length) none) 0 = b
      cases b <;> exact ⟨rfl, rfl⟩
    · rw [if_pos hn, if_pos hn]; exact ⟨rfl, rfl⟩

theorem history_aux (f : Fn V σ) (s : σ) (hc : ∀ shs, f.copy (f.setup s shs).1 = s) : ∀ (cs : List (Call V)) (o : Obj σ) (h : Heap V),
    (o = ⟨false, s⟩ ∨ ∃ shs, o = ⟨true, (f.setup s shs).1⟩) → history f o h cs = historyFresh f s h cs
  | [], _, _, _ => rfl
  | c :: cs, o, h, ho => by
    have hst : callSt f o = callSt f ⟨false, s⟩ := by
      rcases ho with rfl | ⟨shs, rfl⟩
      · rfl
      · simp [callSt, hc]
    obtain ⟨e1, e2⟩ := execute_congr f o ⟨false, s⟩ (c.before h) c.ins c.n c.given hst
    have hnext : (execute f o (c.before h) c.ins c.n c.given).2.1 = ⟨false, s⟩ ∨
        ∃ shs, (execute f o (c.before h) c.ins c.n c.given).2.1 = ⟨true, (f.setup s shs).1⟩ := by
      rcases execute_obj f o (c.before h) c.ins c.n c.given with h' | h'
      · rw [h']; exact ho
      · rw [h']
        rcases ho with rfl | ⟨shs, rfl⟩
        · exact Or.inr ⟨_, by simp only [Bool.false_eq_true, if_false]; rfl⟩
        · exact Or.inr ⟨shs, by simp⟩
    simp only [history, historyFresh]
    rw [history_aux f s hc cs _ _ hnext, e1, e2]

/-- C212. If copying the object after any set up gives back the original settings, a series of calls of one object cannot be told from
the same calls with a new object each time. -/
theorem C212_reuse_same_as_fresh_partial (f : Fn V σ) (s : σ) (hc : ∀ shs, f.copy (f.setup s shs).1 = s) (h : Heap V)
    (cs : List (Call V)) : history f ⟨false, s⟩ h cs = historyFresh f s h cs :=
  history_aux f s hc cs _ h (Or.inl rfl)

theorem map_nonneg_id (s : List ℤ) (q : ℤ) (hs : ∀ d ∈ s, 0 ≤ d) : (s.map fun d => if d < 0 then q else d) = s := by
  conv_rhs => rw [← List.map_id s]
  refine List.map_congr_left fun d hd => ?_
  rw [if_neg (by have := hs d hd; omega)]; rfl

/-- Reshape with all sizes given satisfies it. -/
theorem C212_reshape_reuse (s : RState) (hs : ∀ d ∈ s.shape, 0 ≤ d) (h : Heap V) (cs : List (Call V)) :
    history (reshape V) ⟨false, s⟩ h cs = historyFresh (reshape V) s h cs := by
  refine C212_reuse_same_as_fresh_partial _ _ (fun shs => ?_) h cs
  have : ∀ t, (reshapeShape s.shape t).1 = s.shape := by
    intro t
    unfold reshapeShape
    split
    · rfl
    · split
      · rfl
      · exact map_nonneg_id _ _ hs
  simp only [reshape]
  have ht := this (size (shs.getD 0 []))
  generalize reshapeShape s.shape (size (shs.getD 0 [])) = r at ht
  obtain ⟨r1, r2⟩ := r
  simp only at ht
  subst ht
  cases r2 <;> rfl

/-! ### C213: the shape of Reshape -/

theorem restSize_aux : ∀ (s : List ℤ) (r : ℤ), s.foldl (fun r d => if d < 0 then r else r * d) r = r * (s.filter (fun d => 0 ≤ d)).prod
  | [], r => by simp
  | d :: s, r => by
    rw [List.foldl_cons, restSize_aux s]
    by_cases hd : d < 0
    · rw [if_pos hd, List.filter_cons_of_neg (by simpa using hd)]
    · rw [if_neg hd, List.filter_cons_of_pos (by simpa using hd), List.prod_cons]; ring

theorem restSize_eq (s : List ℤ) : restSize s = (s.filter (fun d => 0 ≤ d)).prod := by
  rw [restSize, restSize_aux]; ring

theorem prod_fill (q : ℤ) : ∀ s : List ℤ, (s.map fun d => if d < 0 then q else d).prod =
    (s.filter (fun d => 0 ≤ d)).prod * q ^ (s.filter (· < 0)).length
  | [] => by simp
  | d :: s => by
    rw [List.map_cons, List.prod_cons, prod_fill q s]
    by_cases hd : d < 0
    · rw [if_pos hd, List.filter_cons_of_neg (by simpa using hd), List.filter_cons_of_pos (by simpa using hd), List.length_cons, pow_succ]
      ring
    · rw [if_neg hd, List.filter_cons_of_pos (by simpa using hd), List.filter_cons_of_neg (by simpa using hd), List.prod_cons]; ring

theorem foldl_prod (s : List ℤ) : s.foldl (· * ·) 1 = s.prod := by
  rw [List.prod_eq_foldl]

theorem filter_prod_nonneg : ∀ s : List ℤ, 0 ≤ (s.filter (fun d => 0 ≤ d)).prod
  | [] => by simp
  | d :: s => by
    by_cases hd : 0 ≤ d
    · rw [List.filter_cons_of_pos (by simpa using hd), List.prod_cons]
      exact mul_nonneg hd (filter_prod_nonneg s)
    · rw [List.filter_cons_of_neg (by simpa using hd)]; exact filter_prod_nonneg s

/-- C213. A reshape is accepted exactly if at most one size is negative and a non-negative size in its place makes the product of all
sizes that of the input (with the other sizes not zero if one is negative: otherwise the program divides by zero); the shape is then
the given one with that size filled in. -/
theorem C213_reshape_shape (s : List ℤ) (t : Nat) (s' : List ℤ) :
    reshapeShape s t = (s', none) ↔
      (s.filter (· < 0)).length ≤ 1 ∧ ((∃ d ∈ s, d < 0) → ∀ d ∈ s, d ≠ 0) ∧
        ∃ q : ℤ, 0 ≤ q ∧ s' = (s.map fun d => if d < 0 then q else d) ∧ s'.prod = t := by
  have hrest0 : restSize s = 0 ↔ ∃ d ∈ s, d = 0 := by
    rw [restSize_eq, List.prod_eq_zero_iff]
    simp
  unfold reshapeShape
  by_cases h2 : 2 ≤ (s.filter (· < 0)).length
  · rw [if_pos h2]
    constructor
    · intro h; simp at h
    · intro h; omega
  rw [if_neg h2]
  by_cases hz : (∃ d ∈ s, d < 0) ∧ restSize s = 0
  · rw [if_pos hz]
    constructor
    · intro h; simp at h
    · rintro ⟨_, h, _⟩
      obtain ⟨d, hd, h0⟩ := hrest0.1 hz.2
      exact absurd h0 (h hz.1 d hd)
  rw [if_neg hz]
  have hnz : (∃ d ∈ s, d < 0) → ∀ d ∈ s, d ≠ 0 := fun hn d hd h0 => hz ⟨hn, hrest0.2 ⟨d, hd, h0⟩⟩
  have hqn : 0 ≤ (t : ℤ).tdiv (restSize s) := Int.tdiv_nonneg (by omega) (by rw [restSize_eq]; exact filter_prod_nonneg s)
  simp only [foldl_prod, Prod.mk.injEq]
  constructor
  · rintro ⟨h1, h3⟩
    refine ⟨by omega, hnz, _, hqn, h1.symm, ?_⟩
    rw [← h1]
    by_contra hne
    rw [if_pos (fun h => hne h.symm)] at h3
    simp at h3
  · rintro ⟨h1, _, q, hq, he, hp⟩
    have hs' : (s.map fun d => if d < 0 then (t : ℤ).tdiv (restSize s) else d) = s' := by
      rw [he]
      by_cases hneg : ∃ d ∈ s, d < 0
      · have hr : restSize s ≠ 0 := fun h0 => hz ⟨hneg, h0⟩
        have hlen : (s.filter (· < 0)).length = 1 := by
          obtain ⟨d, hd, hd0⟩ := hneg
          have : 0 < (s.filter (· < 0)).length := List.length_pos_of_mem (List.mem_filter.2 ⟨hd, by simpa using hd0⟩)
          omega
        have : (t : ℤ).tdiv (restSize s) = q := by
          rw [← hp, he, prod_fill, hlen, pow_one, ← restSize_eq]
          exact Int.mul_tdiv_cancel_left q hr
        rw [this]
      · have hs : ∀ d ∈ s, 0 ≤ d := fun d hd => by
          by_contra hlt
          exact hneg ⟨d, hd, by omega⟩
        rw [map_nonneg_id _ _ hs, map_nonneg_id _ _ hs]
    refine ⟨hs', ?_⟩
    rw [hs', if_neg (by simp [hp])]

example : reshapeShape [-1, 2, 3] 24 = ([4, 2, 3], none) := by decide
example : (reshapeShape [-1, 2] 5).2 ≠ none := by decide
example : (reshapeShape [-1, -1] 4).2 ≠ none := by decide

/-- What is false of C212: after the first call with an inferred size the object keeps that size, even if the call fails; later calls
are accepted for the first size only. -/
theorem C212_reshape_inferred_size_stays (s : RState) (t : Nat) (hneg : ∃ d ∈ s.shape, d < 0) (h1 : (s.shape.filter (· < 0)).length ≤ 1)
    (hnz : ∀ d ∈ s.shape, d ≠ 0) (t' : Nat) (ok : (reshapeShape (reshapeShape s.shape t).1 t').2 = none) :
    (t' : ℤ) = (s.shape.filter (fun d => 0 ≤ d)).prod * ((t : ℤ) / (s.shape.filter (fun d => 0 ≤ d)).prod) := by
  have hr0 : restSize s.shape ≠ 0 := by
    rw [restSize_eq]
    intro h0
    rw [List.prod_eq_zero_iff] at h0
    exact hnz 0 (List.mem_filter.1 h0).1 rfl
  have hf : (reshapeShape s.shape t).1 = s.shape.map fun d => if d < 0 then (t : ℤ).tdiv (restSize s.shape) else d := by
    unfold reshapeShape
    rw [if_neg (by omega), if_neg (fun h => hr0 h.2)]
  have hlen : (s.shape.filter (· < 0)).length = 1 := by
    obtain ⟨d, hd, hd0⟩ := hneg
    have : 0 < (s.shape.filter (· < 0)).length := List.length_pos_of_mem (List.mem_filter.2 ⟨hd, by simpa using hd0⟩)
    omega
  have hrn : 0 ≤ restSize s.shape := by rw [restSize_eq]; exact filter_prod_nonneg _
  have hnn : ∀ d ∈ (reshapeShape s.shape t).1, 0 ≤ d := by
    rw [hf]
    intro d hd
    obtain ⟨e, he, rfl⟩ := List.mem_map.1 hd
    split
    · exact Int.tdiv_nonneg (by omega) hrn
    · omega
  obtain ⟨_, _, q, _, he, hp⟩ := (C213_reshape_shape (reshapeShape s.shape t).1 t' (reshapeShape (reshapeShape s.shape t).1 t').1).1
    (Prod.ext rfl ok)
  rw [map_nonneg_id _ _ hnn] at he
  rw [he, hf, prod_fill, hlen, pow_one, ← restSize_eq] at hp
  rw [← hp, restSize_eq] at *
  rw [Int.tdiv_eq_ediv_of_nonneg (by omega)]

/-- The witness: one object, shape (-1, 2), inputs of size 4 and then 6: the second call fails, though a new object gives (3, 2); and a
failed first call spoils the object too. -/
example : ((history (reshape Nat) ⟨false, ⟨[-1, 2], false⟩⟩ heap0 [⟨id, [0], 1, []⟩, ⟨id, [2], 1, []⟩]).1.map Except.toOption) =
    [some [3], none] := by decide
example : ((historyFresh (reshape Nat) ⟨[-1, 2], false⟩ heap0 [⟨id, [0], 1, []⟩, ⟨id, [2], 1, []⟩]).1.map Except.toOption) =
    [some [3], some [4]] := by decide
example : (reshapeShape [-1, 2] 5).1 = [2, 2] := by decide

/-- The hypotheses of C212_reshape_reuse are met by a history with different inputs. -/
example : history (reshape Nat) ⟨false, ⟨[2, 2], false⟩⟩ heap0 [⟨id, [0], 1, []⟩, ⟨id, [1], 1, [some 0]⟩] =
    historyFresh (reshape Nat) ⟨[2, 2], false⟩ heap0 [⟨id, [0], 1, []⟩, ⟨id, [1], 1, [some 0]⟩] :=
  C212_reshape_reuse _ (by decide) _ _

end Verif.Imper
