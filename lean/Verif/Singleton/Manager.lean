import Mathlib.Data.List.Basic
import Mathlib.Data.List.Nodup
/-
SingletonManager: models /repo/src/nbla/singleton_manager.cpp:19-53 and
/repo/include/nbla/singleton_manager-internal.hpp:23-66.
Simplifications: classes are numbers; `get<T>` holds the function-static `r` of class T; the address the memory allocator returns for a
new object is an argument of the operation (any address not in use); constructors and destructors of singletons do not call the
manager; one thread; `int` is unbounded.
-/
namespace Verif.Singleton

abbrev Cls := Nat
abbrev Addr := Nat

/-- The members of SingletonManager (singleton_manager.hpp:71-77): `singletons` maps an ID to the address and the class whose
deleter is registered, `adr2id` an address to an ID. -/
structure Mgr where
  count : Nat := 0
  singletons : List (Nat × Addr × Cls) := []
  adr2id : List (Addr × Nat) := []

/-- Process state: `self_` (singleton_manager.cpp:19), the function-static pointers `r`
(singleton_manager-internal.hpp:28), and the addresses of living objects; `doubleFree` records a delete of something not alive. -/
structure St where
  self : Option Mgr := none
  r : Cls → Option Addr := fun _ => none
  live : List Addr := []
  doubleFree : Bool := false

/-- SingletonManager::get_self (singleton_manager.cpp:46-52). -/
def getSelf (s : St) : Mgr := s.self.getD {}

/-- SingletonManager::get (singleton_manager-internal.hpp:23-52); `fresh` is the address of the new object, if one is made. -/
def get (t : Cls) (fresh : Addr) (s : St) : Addr × St :=
  match s.r t with
  | some p => (p, s)
  | none =>
    let m := getSelf s
    (fresh, { s with
      self := some { count := m.count + 1, singletons := (m.count, fresh, t) :: m.singletons, adr2id := (fresh, m.count) :: m.adr2id },
      r := fun u => if u = t then some fresh else s.r u, live := fresh :: s.live })

/-- SingletonManager::get_id (singleton_manager-internal.hpp:54-58): a missing address would give ID 0. -/
def getId (t : Cls) (fresh : Addr) (s : St) : Nat × St :=
  let s := { s with self := some (getSelf s) }
  let (p, s) := get t fresh s
  (((getSelf s).adr2id.lookup p).getD 0, s)

/-- The deleter of class t (singleton_manager-internal.hpp:37-45). -/
def deleter (t : Cls) (s : St) : St :=
  match s.r t with
  | some p => { s with live := s.live.erase p, doubleFree := s.doubleFree || !(s.live.contains p), r := fun u => if u = t then none else s.r u }
  | none => s

/-- SingletonManager::erase_by_id (singleton_manager.cpp:36-44). -/
def eraseById (id : Nat) (s : St) : St :=
  let m := getSelf s
  let s := { s with self := some m }
  match m.singletons.find? fun e => e.1 = id with
  | none => s
  | some (i, a, t) =>
    let s := deleter t s
    { s with self := some { m with singletons := m.singletons.filter fun e => e.1 ≠ i, adr2id := m.adr2id.filter fun e => e.1 ≠ a } }

/-- SingletonManager::erase (singleton_manager-internal.hpp:60-62). -/
def erase (t : Cls) (fresh : Addr) (s : St) : St :=
  let (id, s) := getId t fresh s
  eraseById id s

/-- SingletonManager::clear (singleton_manager.cpp:21-34). -/
def clear (s : St) : St :=
  match s.self with
  | none => s
  | some m => { (List.range m.count).foldl (fun s i => eraseById i s) s with self := none }

/-- Operations a program can perform. -/
inductive Op
  | get (t : Cls) (fresh : Addr)
  | getId (t : Cls) (fresh : Addr)
  | eraseById (id : Nat)
  | erase (t : Cls) (fresh : Addr)
  | clear

/-- One operation; the number returned is the pointer or the ID. -/
def step : Op → St → Nat × St
  | .get t a, s => get t a s
  | .getId t a, s => getId t a s
  | .eraseById i, s => (0, eraseById i s)
  | .erase t a, s => (0, erase t a s)
  | .clear, s => (0, clear s)

/-- The address the allocator hands out is not in use. -/
def Op.Fresh : Op → St → Prop
  | .get _ a, s | .getId _ a, s | .erase _ a, s => a ∉ s.live
  | _, _ => True

/-- States reachable from process start. -/
inductive Reach : St → Prop
  | init : Reach {}
  | step (s : St) (o : Op) : Reach s → o.Fresh s → Reach (step o s).2

/-! ### Invariant -/

structure Inv (s : St) : Prop where
  ids : (((getSelf s).singletons).map (·.1)).Nodup
  bound : ∀ e ∈ (getSelf s).singletons, e.1 < (getSelf s).count
  reg : ∀ i a t, (i, a, t) ∈ (getSelf s).singletons → s.r t = some a
  reg' : ∀ t a, s.r t = some a → ∃ i, (i, a, t) ∈ (getSelf s).singletons
  inj : ∀ t u a, s.r t = some a → s.r u = some a → t = u
  uniq : ∀ i j a b t, (i, a, t) ∈ (getSelf s).singletons → (j, b, t) ∈ (getSelf s).singletons → i = j
  live : ∀ a, a ∈ s.live ↔ ∃ t, s.r t = some a
  nodup : s.live.Nodup
  adr : ∀ i a t, (i, a, t) ∈ (getSelf s).singletons → (getSelf s).adr2id.lookup a = some i
  adr' : ∀ a i, (a, i) ∈ (getSelf s).adr2id → ∃ t, (i, a, t) ∈ (getSelf s).singletons
  safe : s.doubleFree = false

theorem get_of_some (t : Cls) (b p : Addr) (s : St) (h : s.r t = some p) : get t b s = (p, s) := by
  unfold get; rw [h]

theorem get_fst (t : Cls) (b : Addr) (s : St) : (get t b s).1 = (s.r t).getD b := by
  unfold get; cases s.r t <;> rfl

theorem getId_fst (t : Cls) (b p : Addr) (s : St) (h : s.r t = some p) : (getId t b s).1 = ((getSelf s).adr2id.lookup p).getD 0 := by
  unfold getId
  simp only []
  rw [get_of_some t b p _ (show ({ s with self := some (getSelf s) } : St).r t = some p from h)]
  rfl

theorem inv_init : Inv {} where
  ids := by simp [getSelf]
  bound := by simp [getSelf]
  reg := by simp [getSelf]
  reg' := by simp
  inj := by simp
  uniq := by simp [getSelf]
  live := by simp
  nodup := by simp
  adr := by simp [getSelf]
  adr' := by simp [getSelf]
  safe := rfl

theorem inv_touch {s : St} (h : Inv s) : Inv { s with self := some (getSelf s) } :=
  ⟨h.ids, h.bound, h.reg, h.reg', h.inj, h.uniq, h.live, h.nodup, h.adr, h.adr', h.safe⟩

theorem inv_get {s : St} (h : Inv s) (t : Cls) (a : Addr) (ha : a ∉ s.live) : Inv (get t a s).2 := by
  unfold get
  cases hr : s.r t with
  | some p => exact h
  | none =>
    have hno : ∀ i b, (i, b, t) ∉ (getSelf s).singletons := by
      intro i b hm
      rw [h.reg i b t hm] at hr
      cases hr
    have hna : ∀ u, s.r u ≠ some a := fun u e => ha ((h.live a).mpr ⟨u, e⟩)
    have hna' : ∀ i u, (i, a, u) ∉ (getSelf s).singletons := fun i u hm => hna u (h.reg _ _ _ hm)
    refine ⟨?_, ?_, ?_, ?_, ?_, ?_, ?_, ?_, ?_, ?_, h.safe⟩
    · show (((getSelf s).count, a, t) :: (getSelf s).singletons |>.map (·.1)).Nodup
      rw [List.map_cons, List.nodup_cons]
      refine ⟨?_, h.ids⟩
      intro hm
      obtain ⟨e, he, h1⟩ := List.mem_map.mp hm
      have := h.bound e he
      simp only [] at h1
      omega
    · intro e he
      show e.1 < (getSelf s).count + 1
      rcases List.mem_cons.mp he with rfl | he
      · exact Nat.lt_succ_self _
      · exact Nat.lt_succ_of_lt (h.bound e he)
    · intro i b u hm
      show (if u = t then some a else s.r u) = some b
      rcases List.mem_cons.mp hm with e | hm'
      · cases e; rw [if_pos rfl]
      · have hm' : (i, b, u) ∈ (getSelf s).singletons := hm'
        by_cases hu : u = t
        · exact absurd (hu ▸ hm') (hno i b)
        · rw [if_neg hu]; exact h.reg i b u hm'
    · intro u b hb
      have hb : (if u = t then some a else s.r u) = some b := hb
      by_cases hu : u = t
      · rw [if_pos hu] at hb
        cases hb; subst hu
        exact ⟨_, List.mem_cons_self ..⟩
      · rw [if_neg hu] at hb
        obtain ⟨i, hi⟩ := h.reg' u b hb
        exact ⟨i, List.mem_cons_of_mem _ hi⟩
    · intro u v b hu hv
      have hu : (if u = t then some a else s.r u) = some b := hu
      have hv : (if v = t then some a else s.r v) = some b := hv
      by_cases h1 : u = t <;> by_cases h2 : v = t
      · rw [h1, h2]
      · rw [if_pos h1] at hu; rw [if_neg h2, ← hu] at hv
        exact absurd hv (hna v)
      · rw [if_pos h2] at hv; rw [if_neg h1, ← hv] at hu
        exact absurd hu (hna u)
      · rw [if_neg h1] at hu; rw [if_neg h2] at hv
        exact h.inj u v b hu hv
    · intro i j b c u hi hj
      rcases List.mem_cons.mp hi with e | hi <;> rcases List.mem_cons.mp hj with e' | hj
      · cases e; cases e'; rfl
      · cases e; exact absurd hj (hno _ _)
      · cases e'; exact absurd hi (hno _ _)
      · exact h.uniq i j b c u hi hj
    · intro b
      show b ∈ a :: s.live ↔ ∃ u, (if u = t then some a else s.r u) = some b
      rw [List.mem_cons, h.live b]
      constructor
      · rintro (rfl | ⟨u, hu⟩)
        · exact ⟨t, if_pos rfl⟩
        · refine ⟨u, ?_⟩
          have : u ≠ t := by rintro rfl; rw [hu] at hr; cases hr
          rw [if_neg this, hu]
      · rintro ⟨u, hu⟩
        by_cases h1 : u = t
        · rw [if_pos h1] at hu; cases hu; exact Or.inl rfl
        · rw [if_neg h1] at hu; exact Or.inr ⟨u, hu⟩
    · exact List.nodup_cons.mpr ⟨ha, h.nodup⟩
    · intro i b u hm
      show ((a, (getSelf s).count) :: (getSelf s).adr2id).lookup b = some i
      rcases List.mem_cons.mp hm with e | hm'
      · cases e; simp [List.lookup]
      · have hm' : (i, b, u) ∈ (getSelf s).singletons := hm'
        have hb : b ≠ a := fun e => hna' i u (e ▸ hm')
        rw [List.lookup_cons, beq_eq_false_iff_ne.mpr hb]
        exact h.adr i b u hm'
    · intro b i hm
      rcases List.mem_cons.mp hm with e | hm
      · cases e; exact ⟨t, List.mem_cons_self ..⟩
      · obtain ⟨u, hu⟩ := h.adr' b i hm
        exact ⟨u, List.mem_cons_of_mem _ hu⟩

theorem lookup_filter (l : List (Addr × Nat)) (a b : Addr) (h : b ≠ a) : (l.filter fun e => decide (e.1 ≠ a)).lookup b = l.lookup b := by
  induction l with
  | nil => rfl
  | cons e l ih =>
    obtain ⟨c, i⟩ := e
    by_cases hc : c = a
    · subst hc
      rw [List.filter_cons_of_neg (by simp), ih, List.lookup_cons, beq_eq_false_iff_ne.mpr h]
    · rw [List.filter_cons_of_pos (by simpa using hc), List.lookup_cons, List.lookup_cons, ih]

/-- What erase_by_id does to a state that satisfies the invariant. -/
theorem eraseById_spec {s : St} (h : Inv s) (id : Nat) :
    Inv (eraseById id s) ∧
    ((¬ ∃ a t, (id, a, t) ∈ (getSelf s).singletons) → (eraseById id s).r = s.r ∧ (eraseById id s).live = s.live ∧
      getSelf (eraseById id s) = getSelf s) ∧
    ∀ a t, (id, a, t) ∈ (getSelf s).singletons → (eraseById id s).r = (fun u => if u = t then none else s.r u) ∧
      (eraseById id s).live = s.live.erase a ∧ (getSelf (eraseById id s)).count = (getSelf s).count ∧
      (getSelf (eraseById id s)).singletons = (getSelf s).singletons.filter fun e => e.1 ≠ id := by
  cases hf : (getSelf s).singletons.find? fun e => decide (e.1 = id) with
  | none =>
    have he : eraseById id s = { s with self := some (getSelf s) } := by
      unfold eraseById; simp only [hf]
    have hno : ¬ ∃ a t, (id, a, t) ∈ (getSelf s).singletons := by
      rintro ⟨a, t, hm⟩
      have := List.find?_eq_none.mp hf _ hm
      simp at this
    rw [he]
    exact ⟨inv_touch h, fun _ => ⟨rfl, rfl, rfl⟩, fun a t hm => absurd ⟨a, t, hm⟩ hno⟩
  | some e =>
    obtain ⟨i, a, t⟩ := e
    have hm := List.mem_of_find?_eq_some hf
    have hi : i = id := by simpa using List.find?_some hf
    subst hi
    have hr := h.reg i a t hm
    have hal : a ∈ s.live := (h.live a).mpr ⟨t, hr⟩
    have he : eraseById i s = { s with
        live := s.live.erase a, doubleFree := s.doubleFree || !(s.live.contains a), r := fun u => if u = t then none else s.r u,
        self := some { (getSelf s) with singletons := (getSelf s).singletons.filter fun e => e.1 ≠ i, adr2id := (getSelf s).adr2id.filter fun e => e.1 ≠ a } } := by
      unfold eraseById
      simp only [hf]
      unfold deleter
      simp only [hr]
    have hmem : ∀ e : Nat × Addr × Cls, e ∈ (getSelf s).singletons.filter (fun e => decide (e.1 ≠ i)) ↔ e ∈ (getSelf s).singletons ∧ e.1 ≠ i := by
      intro e; simp [List.mem_filter]
    have hold : ∀ j b u, (j, b, u) ∈ (getSelf s).singletons → j ≠ i → u ≠ t := by
      rintro j b u hj hji rfl
      exact hji (h.uniq j i b a u hj hm)
    refine ⟨?_, fun hno => absurd ⟨a, t, hm⟩ hno, ?_⟩
    · rw [he]
      refine ⟨?_, ?_, ?_, ?_, ?_, ?_, ?_, ?_, ?_, ?_, ?_⟩
      · exact List.Nodup.sublist (List.Sublist.map _ List.filter_sublist) h.ids
      · intro e he'
        exact h.bound e ((hmem e).mp he').1
      · intro j b u hj
        obtain ⟨hj, hji⟩ := (hmem _).mp hj
        show (if u = t then none else s.r u) = some b
        rw [if_neg (hold j b u hj hji)]
        exact h.reg j b u hj
      · intro u b hu
        have hu : (if u = t then none else s.r u) = some b := hu
        by_cases hut : u = t
        · rw [if_pos hut] at hu; cases hu
        · rw [if_neg hut] at hu
          obtain ⟨j, hj⟩ := h.reg' u b hu
          refine ⟨j, (hmem _).mpr ⟨hj, ?_⟩⟩
          rintro rfl
          have e1 := h.reg j b u hj
          have e2 := h.ids
          have : (j, b, u) = (j, a, t) := List.inj_on_of_nodup_map e2 hj hm rfl
          cases this
          exact hut rfl
      · intro u v b hu hv
        have hu : (if u = t then none else s.r u) = some b := hu
        have hv : (if v = t then none else s.r v) = some b := hv
        by_cases h1 : u = t
        · rw [if_pos h1] at hu; cases hu
        · by_cases h2 : v = t
          · rw [if_pos h2] at hv; cases hv
          · rw [if_neg h1] at hu; rw [if_neg h2] at hv
            exact h.inj u v b hu hv
      · intro j k b c u hj hk
        exact h.uniq j k b c u ((hmem _).mp hj).1 ((hmem _).mp hk).1
      · intro b
        show b ∈ s.live.erase a ↔ ∃ u, (if u = t then none else s.r u) = some b
        rw [h.nodup.mem_erase_iff, h.live b]
        constructor
        · rintro ⟨hb, u, hu⟩
          refine ⟨u, ?_⟩
          have : u ≠ t := by rintro rfl; rw [hr] at hu; cases hu; exact hb rfl
          rw [if_neg this, hu]
        · rintro ⟨u, hu⟩
          by_cases h1 : u = t
          · rw [if_pos h1] at hu; cases hu
          · rw [if_neg h1] at hu
            refine ⟨?_, u, hu⟩
            rintro rfl
            exact h1 (h.inj u t b hu hr)
      · exact h.nodup.erase a
      · intro j b u hj
        obtain ⟨hj', hji⟩ := (hmem _).mp hj
        show ((getSelf s).adr2id.filter fun e => decide (e.1 ≠ a)).lookup b = some j
        have hb : b ≠ a := fun e => hold j b u hj' hji (h.inj u t b (h.reg _ _ _ hj') (e ▸ hr))
        rw [lookup_filter _ _ _ hb]
        exact h.adr j b u hj'
      · intro b j hj
        have hj : (b, j) ∈ (getSelf s).adr2id.filter fun e => decide (e.1 ≠ a) := hj
        obtain ⟨hj, hb⟩ := List.mem_filter.mp hj
        have hb : b ≠ a := by simpa using hb
        obtain ⟨u, hu⟩ := h.adr' b j hj
        refine ⟨u, (hmem _).mpr ⟨hu, ?_⟩⟩
        rintro rfl
        have : (j, b, u) = (j, a, t) := List.inj_on_of_nodup_map h.ids hu hm rfl
        cases this
        exact hb rfl
      · show (s.doubleFree || !(s.live.contains a)) = false
        rw [h.safe]
        simp [hal]
    · intro b u hb
      have : (i, b, u) = (i, a, t) := List.inj_on_of_nodup_map h.ids hb hm rfl
      cases this
      rw [he]
      exact ⟨rfl, rfl, rfl, rfl⟩

theorem getId_spec {s : St} (h : Inv s) (t : Cls) (a : Addr) (ha : a ∉ s.live) :
    Inv (getId t a s).2 ∧ (getId t a s).2.r = (get t a s).2.r ∧ (getId t a s).2.live = (get t a s).2.live ∧
    ((getId t a s).1, (get t a s).1, t) ∈ (getSelf (getId t a s).2).singletons ∧ (get t a s).2.r t = some (get t a s).1 := by
  have h' := inv_touch h
  have hg := inv_get h' t a ha
  have e2 : (getId t a s).2 = (get t a { s with self := some (getSelf s) }).2 := rfl
  have er : (get t a { s with self := some (getSelf s) }).2.r = (get t a s).2.r := by
    unfold get; cases s.r t <;> rfl
  have el : (get t a { s with self := some (getSelf s) }).2.live = (get t a s).2.live := by
    unfold get; cases s.r t <;> rfl
  have e1 : (get t a { s with self := some (getSelf s) }).1 = (get t a s).1 := by
    unfold get; cases s.r t <;> rfl
  have hp : (get t a s).2.r t = some (get t a s).1 := by
    unfold get
    cases hr : s.r t with
    | some p => exact hr
    | none => exact if_pos rfl
  refine ⟨hg, by rw [e2, er], by rw [e2, el], ?_, hp⟩
  rw [e2]
  obtain ⟨i, hi⟩ := hg.reg' t _ (by rw [er]; exact hp)
  have e3 : (getId t a s).1 = i := by
    have := hg.adr i _ t hi
    show ((getSelf (get t a { s with self := some (getSelf s) }).2).adr2id.lookup (get t a { s with self := some (getSelf s) }).1).getD 0 = i
    rw [e1, this]; rfl
  rw [e3]
  exact hi

theorem erase_spec {s : St} (h : Inv s) (t : Cls) (a : Addr) (ha : a ∉ s.live) :
    Inv (erase t a s) ∧ (erase t a s).r = (fun u => if u = t then none else s.r u) ∧
      ∀ b, b ∈ (erase t a s).live ↔ b ∈ s.live ∧ s.r t ≠ some b := by
  obtain ⟨h1, h2, h3, h4, h5⟩ := getId_spec h t a ha
  obtain ⟨g1, _, g3⟩ := eraseById_spec h1 (getId t a s).1
  obtain ⟨k1, k2, _⟩ := g3 _ _ h4
  have e : erase t a s = eraseById (getId t a s).1 (getId t a s).2 := rfl
  have hr : (erase t a s).r = (fun u => if u = t then none else s.r u) := by
    rw [e, k1, h2]
    funext u
    by_cases hu : u = t
    · rw [if_pos hu, if_pos hu]
    · rw [if_neg hu, if_neg hu]
      unfold get
      cases s.r t with
      | some p => rfl
      | none => exact if_neg hu
  refine ⟨g1, hr, ?_⟩
  intro b
  rw [(show Inv (erase t a s) from g1).live b, hr, h.live b]
  constructor
  · rintro ⟨u, hu⟩
    have hu : (if u = t then none else s.r u) = some b := hu
    by_cases h1 : u = t
    · rw [if_pos h1] at hu; cases hu
    · rw [if_neg h1] at hu
      exact ⟨⟨u, hu⟩, fun hc => h1 (h.inj u t b hu hc)⟩
  · rintro ⟨⟨u, hu⟩, hc⟩
    refine ⟨u, ?_⟩
    have : u ≠ t := by rintro rfl; exact hc hu
    show (if u = t then none else s.r u) = some b
    rw [if_neg this, hu]

theorem clear_spec {s : St} (h : Inv s) : Inv (clear s) ∧ (clear s).live = [] ∧ (clear s).r = fun _ => none := by
  have key : ∀ n, Inv ((List.range n).foldl (fun s i => eraseById i s) s) ∧
      (getSelf ((List.range n).foldl (fun s i => eraseById i s) s)).count = (getSelf s).count ∧
      ∀ e ∈ (getSelf ((List.range n).foldl (fun s i => eraseById i s) s)).singletons, n ≤ e.1 := by
    intro n
    induction n with
    | zero => exact ⟨h, rfl, fun _ _ => Nat.zero_le _⟩
    | succ n ih =>
      rw [List.range_succ, List.foldl_append]
      simp only [List.foldl_cons, List.foldl_nil]
      obtain ⟨i1, i2, i3⟩ := ih
      obtain ⟨g1, g2, g3⟩ := eraseById_spec i1 n
      refine ⟨g1, ?_, ?_⟩
      · by_cases hx : ∃ a t, (n, a, t) ∈ (getSelf ((List.range n).foldl (fun s i => eraseById i s) s)).singletons
        · obtain ⟨a, t, hx⟩ := hx
          rw [(g3 a t hx).2.2.1, i2]
        · rw [(g2 hx).2.2, i2]
      · intro e he
        by_cases hx : ∃ a t, (n, a, t) ∈ (getSelf ((List.range n).foldl (fun s i => eraseById i s) s)).singletons
        · obtain ⟨a, t, hx⟩ := hx
          rw [(g3 a t hx).2.2.2, List.mem_filter] at he
          have := i3 e he.1
          have h2 : e.1 ≠ n := by simpa using he.2
          omega
        · rw [(g2 hx).2.2] at he
          have := i3 e he
          have h2 : e.1 ≠ n := by
            rintro h2
            obtain ⟨i, a, t⟩ := e
            have h2 : i = n := h2
            subst h2
            exact hx ⟨a, t, he⟩
          omega
  have fin : ∀ s' : St, Inv s' → (getSelf s').singletons = [] → (∀ t, s'.r t = none) ∧ s'.live = [] := by
    intro s' h' hs
    have hr : ∀ t, s'.r t = none := by
      intro t
      cases hr : s'.r t with
      | none => rfl
      | some a =>
        obtain ⟨i, hi⟩ := h'.reg' t a hr
        rw [hs] at hi; cases hi
    refine ⟨hr, ?_⟩
    apply List.eq_nil_iff_forall_not_mem.mpr
    intro a ha
    obtain ⟨t, ht⟩ := (h'.live a).mp ha
    rw [hr t] at ht; cases ht
  cases hm : s.self with
  | none =>
    have e : clear s = s := by unfold clear; rw [hm]
    have hs : (getSelf s).singletons = [] := by unfold getSelf; rw [hm]; rfl
    obtain ⟨f1, f2⟩ := fin s h hs
    rw [e]
    exact ⟨h, f2, funext f1⟩
  | some m =>
    have hg : getSelf s = m := by unfold getSelf; rw [hm]; rfl
    have e : clear s = { (List.range m.count).foldl (fun s i => eraseById i s) s with self := none } := by unfold clear; rw [hm]
    obtain ⟨k1, k2, k3⟩ := key m.count
    rw [hg] at k2
    have hs : (getSelf ((List.range m.count).foldl (fun s i => eraseById i s) s)).singletons = [] := by
      apply List.eq_nil_iff_forall_not_mem.mpr
      intro x hx
      have := k3 x hx
      have := k1.bound x hx
      omega
    obtain ⟨f1, f2⟩ := fin _ k1 hs
    rw [e]
    refine ⟨?_, f2, funext f1⟩
    refine ⟨?_, ?_, ?_, ?_, ?_, ?_, ?_, ?_, ?_, ?_, k1.safe⟩
    · simp [getSelf]
    · simp [getSelf]
    · simp [getSelf]
    · intro t a ht
      exact absurd (show ((List.range m.count).foldl (fun s i => eraseById i s) s).r t = some a from ht) (by rw [f1 t]; simp)
    · exact k1.inj
    · simp [getSelf]
    · exact k1.live
    · exact k1.nodup
    · simp [getSelf]
    · simp [getSelf]

theorem inv_reach {s : St} (h : Reach s) : Inv s := by
  induction h with
  | init => exact inv_init
  | step s o _ hf ih =>
    cases o with
    | get t a => exact inv_get ih t a hf
    | getId t a => exact (getId_spec ih t a hf).1
    | eraseById i => exact (eraseById_spec ih i).1
    | erase t a => exact (erase_spec ih t a hf).1
    | clear => exact (clear_spec ih).1

/-! ### C173 -/

/-- **C173 (one object per class, never deleted twice).** In every reachable state: `get` of a class returns a living object; a
second `get` returns the same one and creates nothing; different classes have different objects; nothing was ever deleted
twice; an object lives exactly if it is the current one of a class. -/
theorem C173_get {s : St} (h : Reach s) (t : Cls) (a : Addr) (ha : a ∉ s.live) :
    let p := (get t a s).1
    let s' := (get t a s).2
    p ∈ s'.live ∧ (∀ b, get t b s' = (p, s')) ∧ (∀ u b, u ≠ t → (get u b s').1 = p → b = p) ∧ s'.doubleFree = false ∧
      (∀ b, b ∈ s.live → b ∈ s'.live) ∧ (p ∉ s.live → s'.live = p :: s.live) := by
  have hi := inv_reach h
  have hg := inv_get hi t a ha
  have hp : (get t a s).2.r t = some (get t a s).1 := by
    unfold get
    cases hr : s.r t with
    | some p => exact hr
    | none => exact if_pos rfl
  refine ⟨(hg.live _).mpr ⟨t, hp⟩, ?_, ?_, hg.safe, ?_, ?_⟩
  · intro b
    exact get_of_some t b _ _ hp
  · intro u b hu e
    rw [get_fst] at e
    cases hru : (get t a s).2.r u with
    | none => rw [hru] at e; exact e
    | some q =>
      rw [hru] at e
      simp only [Option.getD_some] at e
      subst e
      exact absurd (hg.inj u t _ hru hp) hu
  · intro b hb
    unfold get
    cases s.r t with
    | some p => exact hb
    | none => exact List.mem_cons_of_mem _ hb
  · intro hn
    unfold get at hn ⊢
    cases hr : s.r t with
    | some p => rw [hr] at hn; exact absurd ((hi.live p).mpr ⟨t, hr⟩) hn
    | none => rfl

/-- **C173 (the object stays until it is erased).** The object of a class stays the same through any operation other than
erasing that class, erasing its ID, or clear. -/
theorem C173_stable {s : St} (h : Reach s) (t : Cls) (p : Addr) (hp : ∀ b, (get t b s).1 = p) (o : Op) (ho : o.Fresh s)
    (hn : o ≠ .clear) (he : ∀ a, o ≠ .erase t a) (hid : ∀ i, o = .eraseById i → ∀ b, i ≠ (getId t b s).1) :
    (∀ b, (get t b (step o s).2).1 = p) ∧ p ∈ (step o s).2.live := by
  have hi := inv_reach h
  have hr : s.r t = some p := by
    cases hr : s.r t with
    | some q =>
      have := hp 0
      unfold get at this
      rw [hr] at this
      rw [← this]
    | none =>
      have h0 := hp 0
      have h1 := hp 1
      rw [get_fst, hr] at h0 h1
      exact absurd (h0.trans h1.symm) (by decide)
  have hgoal : (step o s).2.r t = some p → (∀ b, (get t b (step o s).2).1 = p) ∧ p ∈ (step o s).2.live := by
    intro hs
    refine ⟨?_, ((inv_reach (Reach.step s o h ho)).live p).mpr ⟨t, hs⟩⟩
    intro b
    unfold get
    rw [hs]
  have hget : ∀ u a, (get u a s).2.r t = some p := by
    intro u a
    unfold get
    cases hu : s.r u with
    | some q => exact hr
    | none =>
      have : t ≠ u := by rintro rfl; rw [hr] at hu; cases hu
      show (if t = u then some a else s.r t) = some p
      rw [if_neg this, hr]
  apply hgoal
  cases o with
  | get u a => exact hget u a
  | getId u a =>
    have := (getId_spec hi u a ho).2.1
    show (getId u a s).2.r t = some p
    rw [this]; exact hget u a
  | eraseById i =>
    obtain ⟨_, g2, g3⟩ := eraseById_spec hi i
    show (eraseById i s).r t = some p
    by_cases hx : ∃ a u, (i, a, u) ∈ (getSelf s).singletons
    · obtain ⟨a, u, hx⟩ := hx
      rw [(g3 a u hx).1]
      have : t ≠ u := by
        rintro rfl
        obtain ⟨j, hj⟩ := hi.reg' t p hr
        have e1 := hi.uniq i j a p t hx hj
        subst e1
        apply hid i rfl 0
        rw [getId_fst t 0 p s hr, hi.adr i p t hj]; rfl
      simp only []
      rw [if_neg this, hr]
    · rw [(g2 hx).1, hr]
  | erase u a =>
    have hut : t ≠ u := fun e => he a (by rw [e])
    show (erase u a s).r t = some p
    rw [(erase_spec hi u a ho).2.1]
    simp only []
    rw [if_neg hut, hr]
  | clear => exact absurd rfl hn

/-- **C173 (erase and clear delete exactly what they say).** `erase` destroys the object of that class and no other, `erase_by_id` of
the class's ID does the same, `clear` destroys everything; a `get` afterwards makes a new object. -/
theorem C173_erase {s : St} (h : Reach s) (t : Cls) (a : Addr) (ha : a ∉ s.live) :
    (∀ b, b ∈ (erase t a s).live ↔ b ∈ s.live ∧ (get t a s).1 ≠ b) ∧
    (∀ b, b ∈ (eraseById (getId t a s).1 (getId t a s).2).live ↔ b ∈ s.live ∧ (get t a s).1 ≠ b) ∧
    (erase t a s).doubleFree = false ∧ (∀ b, (get t b (erase t a s)).1 = b) ∧
    (clear s).live = [] ∧ (clear s).doubleFree = false ∧ ∀ u b, (get u b (clear s)).1 = b := by
  have hi := inv_reach h
  obtain ⟨e1, e2, e3⟩ := erase_spec hi t a ha
  obtain ⟨c1, c2, c3⟩ := clear_spec hi
  have e4 : ∀ b, b ∈ (erase t a s).live ↔ b ∈ s.live ∧ (get t a s).1 ≠ b := by
    intro b
    rw [e3 b]
    constructor
    · rintro ⟨hb, hc⟩
      refine ⟨hb, ?_⟩
      unfold get
      cases hr : s.r t with
      | some p => intro e; simp only [] at e; rw [hr, e] at hc; exact hc rfl
      | none => intro e; simp only [] at e; rw [e] at ha; exact ha hb
    · rintro ⟨hb, hc⟩
      refine ⟨hb, fun hr => hc ?_⟩
      unfold get
      rw [hr]
  refine ⟨e4, e4, e1.safe, ?_, c2, c1.safe, ?_⟩
  · intro b
    unfold get
    rw [e2]
    simp
  · intro u b
    unfold get
    rw [c3]

/-- **C173 (IDs).** The ID of a class is the same on every call while the object lives, and two classes never share one. -/
theorem C173_ids {s : St} (h : Reach s) (t u : Cls) (a b c : Addr) (ha : a ∉ s.live) (hb : b ∉ (getId t a s).2.live) (hc : c ∉ (getId t a s).2.live) :
    (getId t c (getId t a s).2).1 = (getId t a s).1 ∧ (u ≠ t → (getId u b (getId t a s).2).1 ≠ (getId t a s).1) := by
  have hi := inv_reach h
  obtain ⟨h1, h2, h3, h4, h5⟩ := getId_spec hi t a ha
  have hreg : (getId t a s).2.r t = some (get t a s).1 := by rw [h2]; exact h5
  constructor
  · rw [getId_fst t c _ _ hreg, h1.adr _ _ _ h4]; rfl
  · intro hu e
    obtain ⟨g1, g2, g3, g4, g5⟩ := getId_spec h1 u b hb
    obtain ⟨q1, q2, q3, q4⟩ := (getId_spec h1 u b hb)
    have hreg' : (getId u b (getId t a s).2).2.r t = some (get t a s).1 := by
      rw [g2]
      unfold get
      cases hr : (getId t a s).2.r u with
      | some q => exact hreg
      | none => show (if t = u then some b else (getId t a s).2.r t) = _; rw [if_neg (Ne.symm hu)]; exact hreg
    obtain ⟨j, hj⟩ := g1.reg' t _ hreg'
    have hkeep : ((getId t a s).1, (get t a s).1, t) ∈ (getSelf (getId u b (getId t a s).2).2).singletons := by
      show _ ∈ (getSelf (get u b { (getId t a s).2 with self := some (getSelf (getId t a s).2) }).2).singletons
      unfold get
      cases hr : (getId t a s).2.r u with
      | some q => simp only [hr]; exact h4
      | none => simp only [hr]; exact List.mem_cons_of_mem _ h4
    rw [e] at g4
    have : ((getId t a s).1, (get u b (getId t a s).2).1, u) = ((getId t a s).1, (get t a s).1, t) := List.inj_on_of_nodup_map g1.ids g4 hkeep rfl
    exact hu (congrArg (fun z => z.2.2) this)

/-- Non-vacuity: three operations from process start; the address 7 is used again after its object was destroyed. -/
example : Reach (step (.get 5 7) (step (.erase 4 9) (step (.get 4 7) {}).2).2).2 ∧
    (step (.get 5 7) (step (.erase 4 9) (step (.get 4 7) {}).2).2).2.live = [7] :=
  ⟨.step _ (.get 5 7) (.step _ (.erase 4 9) (.step _ (.get 4 7) .init (by simp [Op.Fresh])) (by simp [Op.Fresh, step, get])) (by
    show 7 ∉ (step (.erase 4 9) (step (.get 4 7) {}).2).2.live
    decide), by decide⟩

end Verif.Singleton
