/- Lemmas about array maps, node updates and the tree of narrowed arrays. -/
import Verif.Synced.Spec

namespace Verif.Synced

variable {V : Type}

/-! ### `array_` -/

theorem find_insert (k k' : Key) (e : Arr × Bool) (l : List (Key × Arr × Bool)) :
    find k (insert k' e l) = if k = k' then some e else find k l := by
  unfold insert
  induction l with
  | nil =>
    simp only [List.filter_nil, List.nil_append, find]
    by_cases h : k = k'
    · simp [h]
    · have : ¬ k' = k := fun h' => h h'.symm
      simp [h, this]
  | cons hd tl ih =>
    obtain ⟨k1, e1⟩ := hd
    by_cases h1 : k1 = k'
    · subst h1
      have hf : List.filter (fun x : Key × Arr × Bool => decide (x.1 ≠ k1)) ((k1, e1) :: tl)
          = List.filter (fun x : Key × Arr × Bool => decide (x.1 ≠ k1)) tl := by simp
      rw [hf, ih]
      by_cases h : k = k1
      · simp [h]
      · have : ¬ k1 = k := fun h' => h h'.symm
        simp [find, h, this]
    · have hf : List.filter (fun x : Key × Arr × Bool => decide (x.1 ≠ k')) ((k1, e1) :: tl)
          = (k1, e1) :: List.filter (fun x : Key × Arr × Bool => decide (x.1 ≠ k')) tl := by simp [h1]
      rw [hf, List.cons_append]
      by_cases h : k1 = k
      · subst h; simp [find, h1]
      · simp only [find, h, if_false]
        exact ih

theorem find_filter (k : Key) (P : Key → Bool) (l : List (Key × Arr × Bool)) :
    find k (l.filter (fun e => P e.1)) = if P k then find k l else none := by
  induction l with
  | nil => simp [find]
  | cons hd tl ih =>
    obtain ⟨k1, e1⟩ := hd
    by_cases h1 : P k1
    · simp only [List.filter_cons, h1, if_true, find]
      by_cases h : k1 = k
      · subst h; simp [h1]
      · simp only [h, if_false]; exact ih
    · simp only [List.filter_cons, h1, find]
      by_cases h : k1 = k
      · subst h; simp [h1, ih]
      · simp only [h, if_false]; exact ih

theorem find_isEmpty {l : List (Key × Arr × Bool)} (h : l.isEmpty = true) (k : Key) : find k l = none := by
  cases l with
  | nil => rfl
  | cons _ _ => simp at h

theorem isEmpty_of_find {l : List (Key × Arr × Bool)} {k : Key} {e} (h : find k l = some e) :
    l.isEmpty = false := by
  cases l with
  | nil => simp [find] at h
  | cons _ _ => rfl

theorem find_two_length {l : List (Key × Arr × Bool)} {k k' : Key} {e e'} (h : find k l = some e)
    (h' : find k' l = some e') (hne : k ≠ k') : 1 < l.length := by
  cases l with
  | nil => simp [find] at h
  | cons x t =>
    cases t with
    | cons _ _ => simp
    | nil =>
      obtain ⟨k1, e1⟩ := x
      simp only [find] at h h'
      by_cases hk : k1 = k
      · by_cases hk' : k1 = k'
        · exact absurd (hk.symm.trans hk') hne
        · simp [hk'] at h'
      · simp [hk] at h

theorem insert_isEmpty (k : Key) (e : Arr × Bool) (l : List (Key × Arr × Bool)) :
    (insert k e l).isEmpty = false := by
  simp [insert]

/-! ### updates -/

@[simp] theorem upd_self (s : St V) (n : Nat) (f : Node V → Node V) : (upd s n f).node n = f (s.node n) := by
  simp [upd]

theorem upd_ne (s : St V) {n m : Nat} (f : Node V → Node V) (h : m ≠ n) : (upd s n f).node m = s.node m := by
  simp [upd, h]

@[simp] theorem upd_mem (s : St V) (n : Nat) (f : Node V → Node V) : (upd s n f).mem = s.mem := rfl
@[simp] theorem upd_alive (s : St V) (n : Nat) (f : Node V → Node V) : (upd s n f).alive = s.alive := rfl
@[simp] theorem upd_count (s : St V) (n : Nat) (f : Node V → Node V) : (upd s n f).count = s.count := rfl
@[simp] theorem upd_nextBlk (s : St V) (n : Nat) (f : Node V → Node V) : (upd s n f).nextBlk = s.nextBlk := rfl
@[simp] theorem writeArr_node (s : St V) (a : Arr) (z : Nat) (f : Nat → V) : (writeArr s a z f).node = s.node := rfl
@[simp] theorem writeArr_alive (s : St V) (a : Arr) (z : Nat) (f : Nat → V) : (writeArr s a z f).alive = s.alive := rfl
@[simp] theorem writeArr_count (s : St V) (a : Arr) (z : Nat) (f : Nat → V) : (writeArr s a z f).count = s.count := rfl
@[simp] theorem writeArr_nextBlk (s : St V) (a : Arr) (z : Nat) (f : Nat → V) : (writeArr s a z f).nextBlk = s.nextBlk := rfl

/-- Two states with the same tree (only arrays, flags, counters and memory may differ). -/
structure SameShape (s s' : St V) : Prop where
  count : s'.count = s.count
  alive : s'.alive = s.alive
  parent : ∀ n, (s'.node n).parent = (s.node n).parent
  off : ∀ n, (s'.node n).off = (s.node n).off
  size : ∀ n, (s'.node n).size = (s.node n).size
  children : ∀ n, (s'.node n).children = (s.node n).children

theorem SameShape.refl (s : St V) : SameShape s s := ⟨rfl, rfl, fun _ => rfl, fun _ => rfl, fun _ => rfl, fun _ => rfl⟩

theorem SameShape.trans {s s' s'' : St V} (h : SameShape s s') (h' : SameShape s' s'') : SameShape s s'' :=
  ⟨h'.count.trans h.count, h'.alive.trans h.alive, fun n => (h'.parent n).trans (h.parent n),
   fun n => (h'.off n).trans (h.off n), fun n => (h'.size n).trans (h.size n),
   fun n => (h'.children n).trans (h.children n)⟩

/-- A node update that keeps the tree. -/
structure KeepsShape (f : Node V → Node V) : Prop where
  parent : ∀ d, (f d).parent = d.parent
  off : ∀ d, (f d).off = d.off
  size : ∀ d, (f d).size = d.size
  children : ∀ d, (f d).children = d.children

theorem sameShape_upd (s : St V) (n : Nat) {f : Node V → Node V} (h : KeepsShape f) : SameShape s (upd s n f) := by
  refine ⟨rfl, rfl, ?_, ?_, ?_, ?_⟩ <;> intro m <;> simp only [upd] <;> split
  · exact h.parent _
  · rfl
  · exact h.off _
  · rfl
  · exact h.size _
  · rfl
  · exact h.children _
  · rfl

theorem sameShape_foldl_upd (f : Node V → Node V) (h : KeepsShape f) (L : List Nat) (s : St V) :
    SameShape s (L.foldl (fun s c => upd s c f) s) := by
  induction L generalizing s with
  | nil => exact SameShape.refl s
  | cons c L ih => exact (sameShape_upd s c h).trans (ih _)

theorem sameShape_writeArr (s : St V) (a : Arr) (z : Nat) (f : Nat → V) : SameShape s (writeArr s a z f) :=
  ⟨rfl, rfl, fun _ => rfl, fun _ => rfl, fun _ => rfl, fun _ => rfl⟩

/-- Fold of one idempotent update over a list. -/
theorem foldl_upd_node (f : Node V → Node V) (hf : ∀ d, f (f d) = f d) (L : List Nat) (s : St V) (m : Nat) :
    (L.foldl (fun s c => upd s c f) s).node m = if m ∈ L then f (s.node m) else s.node m := by
  induction L generalizing s with
  | nil => simp
  | cons c L ih =>
    rw [List.foldl_cons, ih]
    by_cases hm : m = c
    · subst hm; simp [hf]
    · rw [upd_ne s f hm]; simp [hm]

theorem foldl_upd_rest (f : Node V → Node V) (L : List Nat) (s : St V) :
    (L.foldl (fun s c => upd s c f) s).mem = s.mem ∧ (L.foldl (fun s c => upd s c f) s).alive = s.alive ∧
    (L.foldl (fun s c => upd s c f) s).count = s.count ∧
    (L.foldl (fun s c => upd s c f) s).nextBlk = s.nextBlk := by
  induction L generalizing s with
  | nil => exact ⟨rfl, rfl, rfl, rfl⟩
  | cons c L ih => exact ih _

/-! ### depth-first lists -/

theorem dfs_eq_foldl (act : St V → Nat → St V) (ch : Nat → List Nat) (fuel n : Nat) (s : St V) :
    dfs act ch fuel n s = (descList ch fuel n).foldl act s := by
  induction fuel generalizing n s with
  | zero => rfl
  | succ k ih =>
    simp only [dfs, descList]
    generalize ch n = L
    induction L generalizing s with
    | nil => rfl
    | cons c L ihL =>
      simp only [List.foldl_cons, List.flatMap_cons, List.foldl_append, List.cons_append]
      rw [ih, ihL]

/-- The tree of narrowed arrays: ids grow from parent to child; living children lie inside the parent,
do not overlap each other; the children list is exact. `st n` is the first element of `n` in the root. -/
structure Tree (s : St V) (st : Nat → Nat) : Prop where
  root : s.alive 0 = true ∧ (s.node 0).parent = none ∧ (s.node 0).off = 0 ∧ st 0 = 0 ∧ 0 < s.count
  dead : ∀ n, s.count ≤ n → s.alive n = false
  child : ∀ n, n ≠ 0 → s.alive n = true → ∃ p, (s.node n).parent = some p ∧ p < n ∧ s.alive p = true ∧
    st n = st p + (s.node n).off ∧ (s.node n).off + (s.node n).size ≤ (s.node p).size ∧ st p = (s.node p).off
  kids : ∀ p c, s.alive p = true → (c ∈ (s.node p).children ↔ s.alive c = true ∧ (s.node c).parent = some p)
  nodup : ∀ p, s.alive p = true → (s.node p).children.Nodup
  disj : ∀ c1 c2 p, s.alive c1 = true → s.alive c2 = true → (s.node c1).parent = some p →
    (s.node c2).parent = some p → c1 ≠ c2 →
    (s.node c1).off + (s.node c1).size ≤ (s.node c2).off ∨ (s.node c2).off + (s.node c2).size ≤ (s.node c1).off

theorem Tree.shape {s s' : St V} {st} (h : Tree s st) (e : SameShape s s') : Tree s' st := by
  constructor
  · rw [e.alive, e.parent, e.off, e.count]; exact h.root
  · intro n hn; rw [e.alive]; exact h.dead n (by rw [← e.count]; exact hn)
  · intro n h0 ha; rw [e.alive] at ha
    obtain ⟨p, h1, h2, h3, h4, h5, h6⟩ := h.child n h0 ha
    refine ⟨p, ?_, h2, ?_, ?_, ?_, ?_⟩
    · rw [e.parent]; exact h1
    · rw [e.alive]; exact h3
    · rw [e.off]; exact h4
    · rw [e.off, e.size, e.size]; exact h5
    · rw [e.off]; exact h6
  · intro p c ha; rw [e.alive] at ha; rw [e.children, e.alive, e.parent]; exact h.kids p c ha
  · intro p ha; rw [e.alive] at ha; rw [e.children]; exact h.nodup p ha
  · intro c1 c2 p h1 h2 h3 h4 h5
    rw [e.alive] at h1 h2; rw [e.parent] at h3 h4
    rw [e.off, e.off, e.size, e.size]; exact h.disj c1 c2 p h1 h2 h3 h4 h5

/-- `Sub s r n`: `n` is `r` or was narrowed from it, directly or not. -/
inductive Sub (s : St V) (r : Nat) : Nat → Prop
  | refl : Sub s r r
  | step {p n} : Sub s r p → (s.node n).parent = some p → Sub s r n

theorem Sub.trans {s : St V} {a b c : Nat} (h : Sub s a b) (h' : Sub s b c) : Sub s a c := by
  induction h' with
  | refl => exact h
  | step _ hp ih => exact Sub.step ih hp

theorem Sub.shape {s s' : St V} (e : SameShape s s') {r n : Nat} (h : Sub s r n) : Sub s' r n := by
  induction h with
  | refl => exact Sub.refl
  | step _ hp ih => exact Sub.step ih (by rw [e.parent]; exact hp)

theorem SameShape.symm {s s' : St V} (h : SameShape s s') : SameShape s' s :=
  ⟨h.count.symm, h.alive.symm, fun n => (h.parent n).symm, fun n => (h.off n).symm,
   fun n => (h.size n).symm, fun n => (h.children n).symm⟩

theorem Sub.alive {s : St V} {st} (T : Tree s st) {r n : Nat} (h : Sub s r n) (ha : s.alive n = true) :
    s.alive r = true := by
  induction h with
  | refl => exact ha
  | @step p n _ hp ih =>
    apply ih
    by_cases h0 : n = 0
    · subst h0; rw [T.root.2.1] at hp; cases hp
    · obtain ⟨p', h1, _, h3, _⟩ := T.child n h0 ha
      rw [h1] at hp; cases hp; exact h3

theorem Sub.le {s : St V} {st} (T : Tree s st) {r n : Nat} (h : Sub s r n) (ha : s.alive n = true) : r ≤ n := by
  induction h with
  | refl => exact Nat.le_refl _
  | @step p n hs hp ih =>
    by_cases h0 : n = 0
    · subst h0; rw [T.root.2.1] at hp; cases hp
    · obtain ⟨p', h1, h2, h3, _⟩ := T.child n h0 ha
      rw [h1] at hp; cases hp
      have := ih h3; omega

theorem sub_root {s : St V} {st} (T : Tree s st) (n : Nat) (ha : s.alive n = true) : Sub s 0 n := by
  induction n using Nat.strongRecOn with
  | _ n ih =>
    by_cases h0 : n = 0
    · subst h0; exact Sub.refl
    · obtain ⟨p, h1, h2, h3, _⟩ := T.child n h0 ha
      exact Sub.step (ih p h2 h3) h1

/-- Element `i` of the root belongs to array `n`. -/
def Covers (s : St V) (st : Nat → Nat) (n i : Nat) : Prop := st n ≤ i ∧ i < st n + (s.node n).size

theorem Sub.covers {s : St V} {st} (T : Tree s st) {r n : Nat} (h : Sub s r n) (ha : s.alive n = true)
    {i : Nat} (hc : Covers s st n i) : Covers s st r i := by
  induction h with
  | refl => exact hc
  | @step p n hs hp ih =>
    by_cases h0 : n = 0
    · subst h0; rw [T.root.2.1] at hp; cases hp
    · obtain ⟨p', h1, h2, h3, h4, h5, h6⟩ := T.child n h0 ha
      rw [h1] at hp; cases hp
      apply ih h3
      unfold Covers at *
      omega

/-- A proper descendant comes through a child. -/
theorem Sub.through {s : St V} {r n : Nat} (h : Sub s r n) (hne : r ≠ n) :
    ∃ c, (s.node c).parent = some r ∧ Sub s c n := by
  induction h with
  | refl => exact absurd rfl hne
  | @step p n hs hp ih =>
    by_cases h : r = p
    · subst h; exact ⟨n, hp, Sub.refl⟩
    · obtain ⟨c, hc, hs'⟩ := ih h; exact ⟨c, hc, Sub.step hs' hp⟩

/-- Arrays that share an element are nested. -/
theorem chain {s : St V} {st} (T : Tree s st) {n m i : Nat} (hn : s.alive n = true) (hm : s.alive m = true)
    (cn : Covers s st n i) (cm : Covers s st m i) : Sub s n m ∨ Sub s m n := by
  have key : ∀ b : Nat, ∀ n m : Nat, n + m ≤ b → s.alive n = true → s.alive m = true →
      Covers s st n i → Covers s st m i → n ≤ m → Sub s n m := by
    intro b
    induction b with
    | zero => intro n m hb _ _ _ _ _; have : n = m := by omega
              subst this; exact Sub.refl
    | succ b ih =>
      intro n m hb hn hm cn cm hle
      by_cases he : n = m
      · subst he; exact Sub.refl
      · have h0 : m ≠ 0 := by omega
        obtain ⟨p, h1, h2, h3, h4, h5, h6⟩ := T.child m h0 hm
        have cp : Covers s st p i := by unfold Covers at *; omega
        by_cases hnp : n ≤ p
        · exact Sub.step (ih n p (by omega) hn h3 cn cp hnp) h1
        · have hs := ih p n (by omega) h3 hn cp cn (by omega)
          obtain ⟨c, hc, hcn⟩ := hs.through (by omega)
          have hac := hcn.alive T hn
          have cc := hcn.covers T hn cn
          by_cases hcm : c = m
          · subst hcm
            have := hcn.le T hn; omega
          · exfalso
            have hc0 : c ≠ 0 := by intro h; subst h; rw [T.root.2.1] at hc; cases hc
            obtain ⟨p', g1, g2, g3, g4, g5, g6⟩ := T.child c hc0 hac
            rw [g1] at hc; cases hc
            have := T.disj c m p hac hm g1 h1 hcm
            unfold Covers at *
            omega
  rcases Nat.le_total n m with h | h
  · exact Or.inl (key _ n m (Nat.le_refl _) hn hm cn cm h)
  · exact Or.inr (key _ m n (Nat.le_refl _) hm hn cm cn h)

/-- A unique child leads to a given descendant. -/
theorem sub_child_unique {s : St V} {st} (T : Tree s st) {c1 c2 p n : Nat}
    (h1 : (s.node c1).parent = some p) (h2 : (s.node c2).parent = some p) (ha : s.alive n = true)
    (s1 : Sub s c1 n) (s2 : Sub s c2 n) : c1 = c2 := by
  induction s1 with
  | refl =>
    cases s2 with
    | refl => rfl
    | @step q _ hs hp =>
      rw [h1] at hp; cases hp
      have ac : s.alive p = true := by
        by_cases h0 : c1 = 0
        · subst h0; rw [T.root.2.1] at h1; cases h1
        · obtain ⟨p', g1, g2, g3, _⟩ := T.child c1 h0 ha; rw [g1] at h1; cases h1; exact g3
      have hc2 := hs.alive T ac
      have hle := hs.le T ac
      have h0 : c2 ≠ 0 := by intro h; subst h; rw [T.root.2.1] at h2; cases h2
      obtain ⟨p', g1, g2, _⟩ := T.child c2 h0 hc2
      rw [g1] at h2; cases h2; omega
  | @step q n hs hp ih =>
    have h0 : n ≠ 0 := by intro h; subst h; rw [T.root.2.1] at hp; cases hp
    obtain ⟨p', g1, g2, g3, _⟩ := T.child n h0 ha
    rw [g1] at hp; cases hp
    cases s2 with
    | refl =>
      exfalso
      rw [g1] at h2; cases h2
      have hc1 := hs.alive T g3
      have hle := hs.le T g3
      have h0 : c1 ≠ 0 := by intro h; subst h; rw [T.root.2.1] at h1; cases h1
      obtain ⟨p', k1, k2, _⟩ := T.child c1 h0 hc1
      rw [k1] at h1; cases h1; omega
    | @step q' _ hs' hp' =>
      rw [g1] at hp'; cases hp'
      exact ih g3 hs'

/-- Proper descendants of `n`. -/
def Below (s : St V) (n m : Nat) : Prop := Sub s n m ∧ m ≠ n ∧ s.alive m = true

theorem mem_descList {s : St V} {st} (T : Tree s st) (fuel n : Nat) (hn : s.alive n = true)
    (hf : s.count ≤ fuel + n) (m : Nat) :
    m ∈ descList (fun k => (s.node k).children) fuel n ↔ Below s n m := by
  induction fuel generalizing n with
  | zero =>
    have : s.alive n = false := T.dead n (by omega)
    rw [this] at hn; cases hn
  | succ k ih =>
    simp only [descList, List.mem_flatMap, List.mem_cons]
    constructor
    · rintro ⟨c, hc, h⟩
      obtain ⟨hac, hpc⟩ := (T.kids n c hn).1 hc
      have hc0 : c ≠ 0 := by intro h; subst h; rw [T.root.2.1] at hpc; cases hpc
      obtain ⟨p', g1, g2, _⟩ := T.child c hc0 hac
      rw [g1] at hpc; cases hpc
      rcases h with h | h
      · subst h
        exact ⟨Sub.step Sub.refl g1, by omega, hac⟩
      · obtain ⟨h1, h2, h3⟩ := (ih c hac (by omega)).1 h
        have := h1.le T h3
        exact ⟨(Sub.step Sub.refl g1).trans h1, by omega, h3⟩
    · rintro ⟨h1, h2, h3⟩
      obtain ⟨c, hc, hs⟩ := h1.through (fun h => h2 h.symm)
      have hac := hs.alive T h3
      have hc0 : c ≠ 0 := by intro h; subst h; rw [T.root.2.1] at hc; cases hc
      obtain ⟨p', g1, g2, _⟩ := T.child c hc0 hac
      rw [g1] at hc; cases hc
      refine ⟨c, (T.kids n c hn).2 ⟨hac, g1⟩, ?_⟩
      by_cases hm : m = c
      · exact Or.inl hm
      · exact Or.inr ((ih c hac (by omega)).2 ⟨hs, hm, h3⟩)

theorem nodup_descList {s : St V} {st} (T : Tree s st) (fuel n : Nat) (hn : s.alive n = true)
    (hf : s.count ≤ fuel + n) : (descList (fun k => (s.node k).children) fuel n).Nodup := by
  induction fuel generalizing n with
  | zero => exact List.nodup_nil
  | succ k ih =>
    simp only [descList]
    have hsub : ∀ c ∈ (s.node n).children, s.alive c = true ∧ (s.node c).parent = some n ∧ n < c := by
      intro c hc
      obtain ⟨hac, hpc⟩ := (T.kids n c hn).1 hc
      have hc0 : c ≠ 0 := by intro h; subst h; rw [T.root.2.1] at hpc; cases hpc
      obtain ⟨p', g1, g2, _⟩ := T.child c hc0 hac
      rw [g1] at hpc; cases hpc
      exact ⟨hac, g1, g2⟩
    have hnd := T.nodup n hn
    revert hsub hnd
    generalize (s.node n).children = L
    intro hsub hnd
    induction L with
    | nil => exact List.nodup_nil
    | cons c L ihL =>
      simp only [List.flatMap_cons]
      obtain ⟨hac, hpc, hlt⟩ := hsub c (List.mem_cons_self ..)
      rw [List.nodup_append]
      refine ⟨?_, ihL (fun x hx => hsub x (List.mem_cons_of_mem _ hx)) (List.nodup_cons.1 hnd).2, ?_⟩
      · rw [List.nodup_cons]
        refine ⟨?_, ih c hac (by omega)⟩
        intro h
        exact ((mem_descList T k c hac (by omega) c).1 h).2.1 rfl
      · intro x hx y hy hxy
        subst hxy
        have hsx : Sub s c x ∧ s.alive x = true := by
          rcases List.mem_cons.1 hx with h | h
          · subst h; exact ⟨Sub.refl, hac⟩
          · have := (mem_descList T k c hac (by omega) x).1 h; exact ⟨this.1, this.2.2⟩
        obtain ⟨c', hc', hx'⟩ := List.mem_flatMap.1 hy
        obtain ⟨hac', hpc', hlt'⟩ := hsub c' (List.mem_cons_of_mem _ hc')
        have hsx' : Sub s c' x := by
          rcases List.mem_cons.1 hx' with h | h
          · subst h; exact Sub.refl
          · exact ((mem_descList T k c' hac' (by omega) x).1 h).1
        have := sub_child_unique T hpc hpc' hsx.2 hsx.1 hsx'
        subst this
        exact (List.nodup_cons.1 hnd).1 hc'

/-- Parents come before children in the depth-first list. -/
theorem topo_descList {s : St V} {st} (T : Tree s st) (fuel n : Nat) (hn : s.alive n = true)
    (hf : s.count ≤ fuel + n) (L1 L2 : List Nat) (m : Nat)
    (h : descList (fun k => (s.node k).children) fuel n = L1 ++ m :: L2) :
    ∃ p, (s.node m).parent = some p ∧ (p = n ∨ p ∈ L1) := by
  induction fuel generalizing n L1 L2 with
  | zero => simp [descList] at h
  | succ k ih =>
    simp only [descList] at h
    have hsub : ∀ c ∈ (s.node n).children, s.alive c = true ∧ (s.node c).parent = some n ∧ n < c := by
      intro c hc
      obtain ⟨hac, hpc⟩ := (T.kids n c hn).1 hc
      have hc0 : c ≠ 0 := by intro h; subst h; rw [T.root.2.1] at hpc; cases hpc
      obtain ⟨p', g1, g2, _⟩ := T.child c hc0 hac
      rw [g1] at hpc; cases hpc
      exact ⟨hac, g1, g2⟩
    revert hsub h
    generalize (s.node n).children = L
    intro h hsub
    induction L generalizing L1 with
    | nil => simp at h
    | cons c L ihL =>
      simp only [List.flatMap_cons] at h
      obtain ⟨hac, hpc, hlt⟩ := hsub c (List.mem_cons_self ..)
      rcases List.append_eq_append_iff.1 h with ⟨t, h1, h2⟩ | ⟨t, h1, h2⟩
      · -- m in the remaining children
        obtain ⟨p, hp, hor⟩ := ihL t h2 (fun x hx => hsub x (List.mem_cons_of_mem _ hx))
        refine ⟨p, hp, ?_⟩
        rcases hor with h | h
        · exact Or.inl h
        · right; rw [h1]; exact List.mem_append_right _ h
      · cases t with
        | nil =>
          simp only [List.nil_append] at h2
          obtain ⟨p, hp, hor⟩ := ihL [] h2.symm (fun x hx => hsub x (List.mem_cons_of_mem _ hx))
          refine ⟨p, hp, ?_⟩
          rcases hor with h | h
          · exact Or.inl h
          · simp at h
        | cons x t =>
          simp only [List.cons_append, List.cons.injEq] at h2
          obtain ⟨hx, h2⟩ := h2
          subst hx
          cases L1 with
          | nil =>
            simp only [List.nil_append, List.cons.injEq] at h1
            obtain ⟨h1, _⟩ := h1
            subst h1
            exact ⟨n, hpc, Or.inl rfl⟩
          | cons y L1 =>
            simp only [List.cons_append, List.cons.injEq] at h1
            obtain ⟨hy, h1⟩ := h1
            subst hy
            obtain ⟨p, hp, hor⟩ := ih c hac (by omega) L1 t h1
            refine ⟨p, hp, Or.inr ?_⟩
            rcases hor with h | h
            · subst h; exact List.mem_cons_self ..
            · exact List.mem_cons_of_mem _ h

/-! ### ancestors -/

theorem mem_ancestors {s : St V} {st} (T : Tree s st) (fuel n : Nat) (hn : s.alive n = true) (hf : n ≤ fuel)
    (m : Nat) : m ∈ ancestors s fuel n ↔ Sub s m n ∧ m ≠ n := by
  induction fuel generalizing n with
  | zero =>
    have : n = 0 := by omega
    subst this
    simp only [ancestors, List.not_mem_nil, false_iff]
    rintro ⟨h, hne⟩
    exact hne (by have := h.le T hn; omega)
  | succ k ih =>
    simp only [ancestors]
    by_cases h0 : n = 0
    · subst h0
      rw [T.root.2.1]
      simp only [List.not_mem_nil, false_iff]
      rintro ⟨h, hne⟩
      exact hne (by have := h.le T hn; omega)
    · obtain ⟨p, h1, h2, h3, _⟩ := T.child n h0 hn
      rw [h1]
      simp only [List.mem_cons, ih p h3 (by omega)]
      constructor
      · rintro (h | ⟨h, hne⟩)
        · subst h; exact ⟨Sub.step Sub.refl h1, by omega⟩
        · have := h.le T h3
          exact ⟨Sub.step h h1, by omega⟩
      · rintro ⟨h, hne⟩
        cases h with
        | refl => exact absurd rfl hne
        | @step q _ hs hp =>
          rw [h1] at hp; cases hp
          by_cases hm : m = p
          · exact Or.inl hm
          · exact Or.inr ⟨hs, hm⟩

/-- zeroFillRoot: an array containing `n` above which nothing is pending. -/
theorem zeroFillRoot_spec {s : St V} {st} (T : Tree s st) (n : Nat) (hn : s.alive n = true) :
    Sub s (zeroFillRoot s n) n ∧
    ∀ p, Sub s p (zeroFillRoot s n) → p ≠ zeroFillRoot s n → lazy (s.node p) = false := by
  have key : ∀ (fuel m r0 : Nat), s.alive m = true → m ≤ fuel → Sub s m r0 → s.alive r0 = true →
      (∀ p, Sub s p r0 → p ≠ r0 → Sub s m p → p ≠ m → lazy (s.node p) = false) →
      (m ≠ r0 → lazy (s.node m) = false) →
      let r := (ancestors s fuel m).foldl (fun r p => if lazy (s.node p) then p else r) r0
      Sub s r r0 ∧ ∀ p, Sub s p r → p ≠ r → lazy (s.node p) = false := by
    intro fuel
    induction fuel with
    | zero =>
      intro m r0 hm hle hs hr0 hmid hm'
      have : m = 0 := by omega
      subst this
      simp only [ancestors, List.foldl_nil]
      refine ⟨Sub.refl, ?_⟩
      intro p hp hne
      by_cases hp0 : p = 0
      · subst hp0; exact hm' hne
      · exact hmid p hp hne (sub_root T p (hp.alive T hr0)) hp0
    | succ k ih =>
      intro m r0 hm hle hs hr0 hmid hm'
      simp only [ancestors]
      by_cases h0 : m = 0
      · subst h0
        rw [T.root.2.1]
        simp only [List.foldl_nil]
        refine ⟨Sub.refl, ?_⟩
        intro p hp hne
        by_cases hp0 : p = 0
        · subst hp0; exact hm' hne
        · exact hmid p hp hne (sub_root T p (hp.alive T hr0)) hp0
      · obtain ⟨q, h1, h2, h3, _⟩ := T.child m h0 hm
        rw [h1]
        simp only [List.foldl_cons]
        by_cases hl : lazy (s.node q) = true
        · simp only [hl, if_true]
          have := ih q q h3 (by omega) Sub.refl h3 (by
            intro p hp hne hqp hne'
            exfalso
            have a1 := hp.le T h3
            have a2 := hqp.le T (hp.alive T h3)
            omega) (fun h => absurd rfl h)
          refine ⟨this.1.trans (Sub.trans (Sub.step Sub.refl h1) hs), this.2⟩
        · have hl' : lazy (s.node q) = false := by simpa using hl
          simp only [hl', Bool.false_eq_true, if_false]
          refine ih q r0 h3 (by omega) (Sub.trans (Sub.step Sub.refl h1) hs) hr0 ?_ (fun _ => hl')
          intro p hp hne hqp hpq
          -- p lies between q and r0, p ≠ q
          by_cases hpm : p = m
          · subst hpm; exact hm' hne
          · apply hmid p hp hne _ hpm
            obtain ⟨c, hc, hcp⟩ := hqp.through (fun h => hpq h.symm)
            have hpa := hp.alive T hr0
            have : c = m := sub_child_unique T hc h1 hr0 (hcp.trans hp) hs
            subst this; exact hcp
  have := key n n n hn (Nat.le_refl _) Sub.refl hn (by
    intro p hp hne hnp hne'
    have a1 := hp.le T hn
    have a2 := hnp.le T (hp.alive T hn)
    omega) (fun h => absurd rfl h)
  exact this

end Verif.Synced
