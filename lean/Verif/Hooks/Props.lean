import Verif.Hooks.Model
import Mathlib.Data.List.Nodup
import Mathlib.Data.List.Range
import Mathlib.Data.Nat.Find
import Mathlib.Tactic.Push
/-
C128 (hooks), C129 (constant arrays).
-/
namespace Verif.Hooks

/-! ### C128: which hooks are registered -/

/-- Specification: operation number i of the history is a registration in force at the end: its key was not removed later, and an earlier
registration of the same key had been removed before it. -/
def InForce (ops : List Op) (i : Nat) : Prop :=
  ∃ k cb, ops[i]? = some (.set k cb) ∧ (∀ j, i < j → ops[j]? ≠ some (.unset k)) ∧
    ∀ j cb', j < i → ops[j]? = some (.set k cb') → ∃ m, j < m ∧ m < i ∧ ops[m]? = some (.unset k)

/-- What operation i registers. -/
def registration (ops : List Op) (i : Nat) : Option (String × Nat) :=
  match ops[i]? with
  | some (.set k cb) => some (k, cb)
  | _ => none

open Classical in
/-- Specification: the registrations in force, in the order they were made. -/
noncomputable def registered (ops : List Op) : List (String × Nat) :=
  (List.range ops.length).filterMap fun i => if InForce ops i then registration ops i else none

theorem get_lt {ops : List Op} {i : Nat} {o : Op} (h : ops[i]? = some o) : i < ops.length := by
  by_contra hn
  rw [List.getElem?_eq_none (by omega)] at h; cases h

theorem inForce_lt {ops i} (h : InForce ops i) : i < ops.length := by
  obtain ⟨k, cb, h1, _⟩ := h; exact get_lt h1

theorem get_append_lt (ops : List Op) (o : Op) {i : Nat} (h : i < ops.length) : (ops ++ [o])[i]? = ops[i]? :=
  List.getElem?_append_left h

theorem get_append_eq (ops : List Op) (o : Op) : (ops ++ [o])[ops.length]? = some o := by simp

theorem get_append_gt (ops : List Op) (o : Op) {i : Nat} (h : ops.length < i) : (ops ++ [o])[i]? = none := by
  apply List.getElem?_eq_none; simp; omega

theorem inForce_append_lt (ops : List Op) (o : Op) {i : Nat} (hi : i < ops.length) :
    InForce (ops ++ [o]) i ↔ InForce ops i ∧ ∀ k cb, ops[i]? = some (.set k cb) → o ≠ .unset k := by
  constructor
  · rintro ⟨k, cb, h1, h2, h3⟩
    rw [get_append_lt ops o hi] at h1
    refine ⟨⟨k, cb, h1, ?_, ?_⟩, ?_⟩
    · intro j hj
      by_cases hjl : j < ops.length
      · have := h2 j hj; rw [get_append_lt ops o hjl] at this; exact this
      · rw [List.getElem?_eq_none (by omega)]; simp
    · intro j cb' hj hs
      obtain ⟨m, hm1, hm2, hm3⟩ := h3 j cb' hj (by rw [get_append_lt ops o (by omega)]; exact hs)
      rw [get_append_lt ops o (by omega)] at hm3
      exact ⟨m, hm1, hm2, hm3⟩
    · intro k' cb' h' ho
      rw [h1] at h'; cases h'
      exact h2 ops.length hi (by rw [get_append_eq, ho])
  · rintro ⟨⟨k, cb, h1, h2, h3⟩, h4⟩
    refine ⟨k, cb, by rw [get_append_lt ops o hi]; exact h1, ?_, ?_⟩
    · intro j hj
      rcases lt_trichotomy j ops.length with hjl | hje | hjg
      · rw [get_append_lt ops o hjl]; exact h2 j hj
      · subst hje; rw [get_append_eq]; intro he; exact h4 k cb h1 (Option.some.inj he)
      · rw [get_append_gt ops o hjg]; simp
    · intro j cb' hj hs
      rw [get_append_lt ops o (by omega)] at hs
      obtain ⟨m, hm1, hm2, hm3⟩ := h3 j cb' hj hs
      exact ⟨m, hm1, hm2, by rw [get_append_lt ops o (by omega)]; exact hm3⟩

open Classical in
theorem mem_registered (ops : List Op) (e : String × Nat) :
    e ∈ registered ops ↔ ∃ i, InForce ops i ∧ ops[i]? = some (.set e.1 e.2) := by
  unfold registered
  rw [List.mem_filterMap]
  constructor
  · rintro ⟨i, _, h⟩
    by_cases hf : InForce ops i
    · rw [if_pos hf] at h
      refine ⟨i, hf, ?_⟩
      obtain ⟨k, cb, h1, _⟩ := hf
      rw [registration, h1] at h; cases h; exact h1
    · rw [if_neg hf] at h; cases h
  · rintro ⟨i, hf, h⟩
    refine ⟨i, List.mem_range.2 (inForce_lt hf), ?_⟩
    rw [if_pos hf, registration, h]

/-- A new registration is in force iff its key is not registered. -/
theorem inForce_last_set (ops : List Op) (k : String) (cb : Nat) :
    InForce (ops ++ [.set k cb]) ops.length ↔ ∀ e ∈ registered ops, e.1 ≠ k := by
  classical
  constructor
  · rintro ⟨k', cb', h1, h2, h3⟩ e he hk
    rw [get_append_eq] at h1; cases h1
    obtain ⟨i, hf, hi⟩ := (mem_registered ops e).1 he
    have hil := get_lt hi
    rw [hk] at hi
    obtain ⟨m, hm1, hm2, hm3⟩ := h3 i e.2 hil (by rw [get_append_lt ops _ hil]; exact hi)
    rw [get_append_lt ops _ hm2] at hm3
    obtain ⟨k2, cb2, g1, g2, _⟩ := hf
    rw [hi] at g1; cases g1
    exact g2 m hm1 hm3
  · intro h
    refine ⟨k, cb, get_append_eq _ _, ?_, ?_⟩
    · intro j hj; rw [get_append_gt ops _ hj]; simp
    · intro j cb' hj hs
      rw [get_append_lt ops _ hj] at hs
      by_contra hno
      push Not at hno
      have hex : ∃ j : Nat, (∃ cb', ops[j]? = some (Op.set k cb')) ∧ ∀ m, j < m → ops[m]? ≠ some (Op.unset k) := by
        refine ⟨j, ⟨cb', hs⟩, ?_⟩
        intro m hm he
        have hml := get_lt he
        exact hno m hm hml (by rw [get_append_lt ops _ hml]; exact he)
      obtain ⟨⟨c0, hc0⟩, hu⟩ := Nat.find_spec hex
      have hmin := fun m hm => Nat.find_min hex (m := m) hm
      generalize Nat.find hex = j0 at hc0 hu hmin
      have hin : InForce ops j0 := by
        refine ⟨k, c0, hc0, hu, ?_⟩
        intro i ci hi his
        have := hmin i hi
        push Not at this
        obtain ⟨m, hm1, hm2⟩ := this ⟨ci, his⟩
        refine ⟨m, hm1, ?_, hm2⟩
        by_contra hge
        rcases Nat.lt_or_eq_of_le (Nat.le_of_not_lt hge) with hlt | heq
        · exact hu m hlt hm2
        · subst heq; rw [hc0] at hm2; cases hm2
      exact h (k, c0) ((mem_registered ops _).2 ⟨j0, hin, hc0⟩) rfl

open Classical in
theorem registered_append (ops : List Op) (o : Op) :
    registered (ops ++ [o]) =
      ((List.range ops.length).filterMap fun i => if InForce ops i ∧ (∀ k cb, ops[i]? = some (.set k cb) → o ≠ .unset k) then registration ops i else none) ++
      (if InForce (ops ++ [o]) ops.length then (registration (ops ++ [o]) ops.length).toList else []) := by
  unfold registered
  rw [List.length_append, List.length_singleton, List.range_succ, List.filterMap_append]
  congr 1
  · apply List.filterMap_congr
    intro i hi
    have hil := List.mem_range.1 hi
    have h1 := inForce_append_lt ops o hil
    have h2 : registration (ops ++ [o]) i = registration ops i := by
      unfold registration; rw [get_append_lt ops o hil]
    by_cases hc : InForce (ops ++ [o]) i
    · rw [if_pos hc, if_pos (h1.1 hc), h2]
    · rw [if_neg hc, if_neg (fun hh => hc (h1.2 hh))]
  · by_cases hc : InForce (ops ++ [o]) ops.length
    · rw [if_pos hc]
      cases hr : registration (ops ++ [o]) ops.length <;> simp [hr, hc]
    · simp [hc]

theorem eraseP_eq_filter (l : List (String × Nat)) (k : String) (hnd : (l.map Prod.fst).Nodup) :
    (l.eraseP fun e => e.1 = k) = l.filter fun e => e.1 ≠ k := by
  induction l with
  | nil => rfl
  | cons a l ih =>
    rw [List.map_cons, List.nodup_cons] at hnd
    by_cases ha : a.1 = k
    · rw [List.eraseP_cons_of_pos (by simpa using ha), List.filter_cons_of_neg (by simpa using ha)]
      rw [List.filter_eq_self.2]
      intro b hb
      have : b.1 ≠ k := fun h => hnd.1 (by rw [ha, ← h]; exact List.mem_map_of_mem hb)
      simpa using this
    · rw [List.eraseP_cons_of_neg (by simpa using ha), List.filter_cons_of_pos (by simpa using ha), ih hnd.2]

theorem hooks_main (ops : List Op) : hooksAfter ops = registered ops ∧ ((hooksAfter ops).map Prod.fst).Nodup := by
  classical
  induction ops using List.reverseRecOn with
  | nil => exact ⟨rfl, List.nodup_nil⟩
  | append_singleton ops o ih =>
    obtain ⟨ih1, ih2⟩ := ih
    have hstep : hooksAfter (ops ++ [o]) = stepHooks (hooksAfter ops) o := by
      unfold hooksAfter; rw [List.foldl_append]; rfl
    rw [hstep, registered_append]
    cases o with
    | set k cb =>
      have hfirst : ((List.range ops.length).filterMap fun i =>
          if InForce ops i ∧ (∀ k' cb', ops[i]? = some (.set k' cb') → (Op.set k cb) ≠ .unset k') then registration ops i else none) = registered ops := by
        unfold registered
        apply List.filterMap_congr
        intro i _
        have : (∀ k' cb', ops[i]? = some (.set k' cb') → (Op.set k cb) ≠ .unset k') := by intro _ _ _ h; cases h
        by_cases hf : InForce ops i
        · rw [if_pos hf, if_pos ⟨hf, this⟩]
        · rw [if_neg hf, if_neg (fun hh => hf hh.1)]
      rw [hfirst]
      have hreg : registration (ops ++ [Op.set k cb]) ops.length = some (k, cb) := by
        unfold registration; rw [get_append_eq]
      rw [hreg]
      show setHook (hooksAfter ops) k cb = _ ∧ ((setHook (hooksAfter ops) k cb).map Prod.fst).Nodup
      unfold setHook
      have hl := inForce_last_set ops k cb
      by_cases hk : ∃ e ∈ hooksAfter ops, e.1 = k
      · obtain ⟨e, he, hek⟩ := hk
        have hsome : ((hooksAfter ops).find? fun e => e.1 = k).isSome := by
          rw [List.find?_isSome]; exact ⟨e, he, by simpa using hek⟩
        obtain ⟨y, hy⟩ := Option.isSome_iff_exists.1 hsome
        rw [hy]
        have hn : ¬ InForce (ops ++ [Op.set k cb]) ops.length := fun h => hl.1 h e (ih1 ▸ he) hek
        rw [if_neg hn, List.append_nil]
        exact ⟨ih1, ih2⟩
      · push Not at hk
        have hnone : ((hooksAfter ops).find? fun e => e.1 = k) = none := by
          rw [List.find?_eq_none]; intro e he; simpa using hk e he
        rw [hnone]
        have hy : InForce (ops ++ [Op.set k cb]) ops.length := hl.2 (fun e he => hk e (ih1 ▸ he))
        rw [if_pos hy]
        refine ⟨by rw [ih1]; rfl, ?_⟩
        rw [List.map_append, List.nodup_append]
        refine ⟨ih2, by simp, ?_⟩
        intro a ha b hb
        simp only [List.map_cons, List.map_nil, List.mem_singleton] at hb
        subst hb
        obtain ⟨e, he, rfl⟩ := List.mem_map.1 ha
        exact hk e he
    | unset k =>
      have hlast : ¬ InForce (ops ++ [Op.unset k]) ops.length := by
        rintro ⟨k', cb', h1, _⟩; rw [get_append_eq] at h1; cases h1
      rw [if_neg hlast, List.append_nil]
      show unsetHook (hooksAfter ops) k = _ ∧ ((unsetHook (hooksAfter ops) k).map Prod.fst).Nodup
      unfold unsetHook
      constructor
      · rw [eraseP_eq_filter _ _ ih2, ih1]
        unfold registered
        rw [List.filter_filterMap]
        apply List.filterMap_congr
        intro i _
        by_cases hf : InForce ops i
        · obtain ⟨k', cb', h1, _⟩ := id hf
          have hr : registration ops i = some (k', cb') := by unfold registration; rw [h1]
          by_cases hk : k' = k
          · subst hk
            have hneg : ¬ (InForce ops i ∧ ∀ k cb, ops[i]? = some (.set k cb) → Op.unset k' ≠ .unset k) :=
              fun hh => hh.2 k' cb' h1 rfl
            rw [if_pos hf, if_neg hneg, hr]; simp
          · have hpos : InForce ops i ∧ ∀ k2 cb, ops[i]? = some (.set k2 cb) → Op.unset k ≠ .unset k2 := by
              refine ⟨hf, ?_⟩
              intro k2 c2 h2 he
              rw [h1] at h2; cases h2; cases he; exact hk rfl
            rw [if_pos hf, if_pos hpos, hr]; simp [hk]
        · rw [if_neg hf, if_neg (fun hh => hf hh.1)]; simp
      · exact ih2.sublist ((List.eraseP_sublist).map _)

/-- C128(a): after every history of set_*_hook and unset_*_hook calls, the registry holds exactly the registrations in force, in the
order they were made, at most one for each key. -/
theorem C128_registry (ops : List Op) : hooksAfter ops = registered ops ∧ ((hooksAfter ops).map Prod.fst).Nodup := hooks_main ops

example : hooksAfter [.set "a" 1, .set "b" 2, .set "a" 3, .unset "b", .set "b" 4, .unset "x"] = [("a", 1), ("b", 4)] := by decide
example : InForce [.set "a" 1, .unset "a", .set "a" 3] 2 := by
  refine ⟨"a", 3, rfl, ?_, ?_⟩
  · intro j hj
    rw [List.getElem?_eq_none (by simp; omega)]; simp
  · intro j cb' hj hs
    have : j = 0 ∨ j = 1 := by omega
    rcases this with rfl | rfl
    · exact ⟨1, by omega, by omega, rfl⟩
    · simp at hs

/-! ### C128: when hooks are called -/

/-- Specification: in the trace t, each piece of work is directly preceded by all pre hooks (in order, then the one given by the user),
and directly followed by all post hooks (the one of the user first), unless an exception cut the trace there. -/
def Bracketed (pre post : Nat → List Ev) (ok : Bool) (t : List Ev) : Prop :=
  ∀ a x b, t = a ++ .work x :: b → pre x <:+ a ∧ (post x <+: b ∨ (b <+: post x ∧ ok = false))

def preOf (pre : List (String × Nat)) (u : Bool) (x : Nat) : List Ev := preCalls pre x ++ if u then [.userPre x] else []
def postOf (post : List (String × Nat)) (u : Bool) (x : Nat) : List Ev := (if u then [.userPost x] else []) ++ postCalls post x

theorem work_not_pre {pre u x y} : Ev.work y ∉ preOf pre u x := by
  unfold preOf preCalls; cases u <;> simp

theorem work_not_post {post u x y} : Ev.work y ∉ postOf post u x := by
  unfold postOf postCalls; cases u <;> simp

theorem runSeq_spec (fails : Ev → Bool) (es : List Ev) :
    ((runSeq fails es).2 = true → (runSeq fails es).1 = es) ∧ (runSeq fails es).1 <+: es := by
  induction es with
  | nil => exact ⟨fun _ => rfl, List.prefix_rfl⟩
  | cons e es ih =>
    unfold runSeq
    split
    · exact ⟨fun h => by simp at h, ⟨es, rfl⟩⟩
    · refine ⟨fun h => by simp only [ih.1 h], ?_⟩
      exact (List.prefix_cons_inj e).2 ih.2

theorem visitFunction_eq (pre post u1 u2 fails x) :
    visitFunction pre post u1 u2 fails x = runSeq fails (preOf pre u1 x ++ .work x :: postOf post u2 x) := by
  unfold visitFunction preOf postOf; simp [List.append_assoc]

theorem worked_append (a b : List Ev) : worked (a ++ b) = worked a ++ worked b := by unfold worked; rw [List.filterMap_append]

theorem worked_nil_of (l : List Ev) (h : ∀ y, Ev.work y ∉ l) : worked l = [] := by
  unfold worked
  rw [List.filterMap_eq_nil_iff]
  intro e he
  cases e with
  | work y => exact absurd he (h y)
  | _ => rfl

theorem split_work {P Q a b : List Ev} {x y : Nat} (hP : ∀ z, Ev.work z ∉ P) (hQ : ∀ z, Ev.work z ∉ Q)
    (h : P ++ .work x :: Q = a ++ .work y :: b) : x = y ∧ a = P ∧ b = Q := by
  induction P generalizing a with
  | nil =>
    cases a with
    | nil => simp at h; exact ⟨h.1, rfl, h.2.symm⟩
    | cons c a =>
      simp at h
      have : Ev.work y ∈ Q := by rw [h.2]; simp
      exact absurd this (hQ y)
  | cons p P ih =>
    cases a with
    | nil =>
      simp at h
      exact absurd (by rw [h.1]; simp : Ev.work y ∈ p :: P) (hP y)
    | cons c a =>
      simp at h
      obtain ⟨h1, h2, h3⟩ := ih (fun z hz => hP z (List.mem_cons_of_mem _ hz)) h.2
      exact ⟨h1, by rw [h.1, h2], h3⟩

theorem prefix_cases {P Q t : List Ev} {e : Ev} (h : t <+: P ++ e :: Q) : t <+: P ∨ ∃ s, t = P ++ e :: s ∧ s <+: Q := by
  induction P generalizing t with
  | nil =>
    cases t with
    | nil => exact Or.inl List.prefix_rfl
    | cons c t =>
      rw [List.nil_append, List.cons_prefix_cons] at h
      right; exact ⟨t, by rw [h.1]; rfl, h.2⟩
  | cons p P ih =>
    cases t with
    | nil => exact Or.inl List.nil_prefix
    | cons c t =>
      rw [List.cons_append, List.cons_prefix_cons] at h
      rcases ih h.2 with h' | ⟨s, hs, hq⟩
      · left; rw [h.1]; exact (List.prefix_cons_inj p).2 h'
      · right; exact ⟨s, by rw [h.1, hs]; rfl, hq⟩

theorem visitAll_spec (pre post : List (String × Nat)) (u1 u2 : Bool) (fails : Ev → Bool) (xs : List Nat) :
    let r := visitAll pre post u1 u2 fails xs
    (r.2 = true → r.1 = xs.flatMap fun x => preOf pre u1 x ++ .work x :: postOf post u2 x) ∧
    (r.2 = false → ∃ ys x zs s, xs = ys ++ x :: zs ∧ r.1 = (ys.flatMap fun x => preOf pre u1 x ++ .work x :: postOf post u2 x) ++ s ∧
      s <+: preOf pre u1 x ++ .work x :: postOf post u2 x) := by
  induction xs with
  | nil => exact ⟨fun _ => rfl, fun h => by simp [visitAll] at h⟩
  | cons x xs ih =>
    intro r
    have hv := visitFunction_eq pre post u1 u2 fails x
    have hs := runSeq_spec fails (preOf pre u1 x ++ .work x :: postOf post u2 x)
    rw [← hv] at hs
    have hr : r = visitAll pre post u1 u2 fails (x :: xs) := rfl
    unfold visitAll at hr
    generalize visitFunction pre post u1 u2 fails x = o at hs hr
    obtain ⟨t, b⟩ := o
    cases b with
    | false =>
      simp only at hr
      rw [hr]
      exact ⟨fun h => by simp at h, fun _ => ⟨[], x, xs, t, rfl, rfl, hs.2⟩⟩
    | true =>
      simp only at hr
      have ht := hs.1 rfl
      simp only at ht
      rw [hr]
      constructor
      · intro h
        simp only at h ⊢
        rw [ih.1 h, ht, List.flatMap_cons]
      · intro h
        simp only at h ⊢
        obtain ⟨ys, y, zs, s, e1, e2, e3⟩ := ih.2 h
        exact ⟨x :: ys, y, zs, s, by rw [e1]; rfl, by simp only [e2, ht, List.flatMap_cons, List.append_assoc], e3⟩

theorem bracket_flat (pre post : List (String × Nat)) (u1 u2 : Bool) (xs : List Nat) (s : List Ev) (x0 : Nat) (ok : Bool)
    (hs : s = [] ∨ (ok = false ∧ s <+: preOf pre u1 x0 ++ .work x0 :: postOf post u2 x0)) :
    Bracketed (preOf pre u1) (postOf post u2) ok ((xs.flatMap fun x => preOf pre u1 x ++ .work x :: postOf post u2 x) ++ s) := by
  induction xs with
  | nil =>
    intro a x b h
    rw [List.flatMap_nil, List.nil_append] at h
    rcases hs with rfl | ⟨hok, hp⟩
    · simp at h
    · rcases prefix_cases hp with hp' | ⟨s', hs', hq⟩
      · have : Ev.work x ∈ preOf pre u1 x0 := hp'.subset (by rw [h]; simp)
        exact absurd this work_not_pre
      · rw [hs'] at h
        have hQ : ∀ z, Ev.work z ∉ s' := fun z hz => work_not_post (hq.subset hz)
        obtain ⟨h1, h2, h3⟩ := split_work (fun z => work_not_pre) hQ h
        subst h1 h2 h3
        exact ⟨List.suffix_rfl, Or.inr ⟨hq, hok⟩⟩
  | cons y ys ih =>
    intro a x b h
    rw [List.flatMap_cons, List.append_assoc] at h
    generalize hrest : (ys.flatMap fun x => preOf pre u1 x ++ .work x :: postOf post u2 x) ++ s = rest at h ih
    -- either the work is that of y, or it lies in the rest
    have key : ∀ (P : List Ev) a, (∀ z, Ev.work z ∉ P) → P ++ .work y :: (postOf post u2 y ++ rest) = a ++ .work x :: b →
        (x = y ∧ a = P ∧ b = postOf post u2 y ++ rest) ∨ ∃ a', a = P ++ .work y :: (postOf post u2 y ++ a') ∧ rest = a' ++ .work x :: b := by
      intro P
      have key2 : ∀ (Q : List Ev) a, (∀ z, Ev.work z ∉ Q) → Q ++ rest = a ++ .work x :: b → ∃ a', a = Q ++ a' ∧ rest = a' ++ .work x :: b := by
        intro Q
        induction Q with
        | nil => intro a _ h; exact ⟨a, rfl, h⟩
        | cons q Q ihq =>
          intro a hQ h
          cases a with
          | nil => simp at h; exact absurd (by rw [h.1]; simp : Ev.work x ∈ q :: Q) (hQ x)
          | cons c a =>
            simp at h
            obtain ⟨a', h1, h2⟩ := ihq a (fun z hz => hQ z (List.mem_cons_of_mem _ hz)) h.2
            exact ⟨a', by rw [h.1, h1]; rfl, h2⟩
      induction P with
      | nil =>
        intro a _ h
        cases a with
        | nil => simp at h; exact Or.inl ⟨h.1.symm, rfl, h.2.symm⟩
        | cons c a =>
          simp at h
          obtain ⟨a', h1, h2⟩ := key2 (postOf post u2 y) a (fun z => work_not_post) h.2
          exact Or.inr ⟨a', by rw [← h.1, h1]; rfl, h2⟩
      | cons p P ihP =>
        intro a hP h
        cases a with
        | nil => simp at h; exact absurd (by rw [h.1]; simp : Ev.work x ∈ p :: P) (hP x)
        | cons c a =>
          simp at h
          rcases ihP a (fun z hz => hP z (List.mem_cons_of_mem _ hz)) h.2 with ⟨g1, g2, g3⟩ | ⟨a', g1, g2⟩
          · exact Or.inl ⟨g1, by rw [h.1, g2], g3⟩
          · exact Or.inr ⟨a', by rw [h.1, g1]; rfl, g2⟩
    rcases key (preOf pre u1 y) a (fun z => work_not_pre) (by rw [← h]; simp) with ⟨g1, g2, g3⟩ | ⟨a', g1, g2⟩
    · subst g1 g2 g3
      exact ⟨List.suffix_rfl, Or.inl (List.prefix_append _ _)⟩
    · obtain ⟨i1, i2⟩ := ih a' x b g2
      refine ⟨?_, i2⟩
      rw [g1]
      exact i1.trans ⟨preOf pre u1 y ++ .work y :: postOf post u2 y, by simp⟩

/-- C128(b): in every forward or backward propagation, whatever hooks or functions raise exceptions: each function that runs is directly
preceded by all registered pre hooks in order of registration and directly followed by all registered post hooks (cut short only by an
exception); without exception every function runs once, in order, and with one a prefix of them. -/
theorem C128_function_hooks (preOps postOps : List Op) (u1 u2 : Bool) (fails : Ev → Bool) (xs : List Nat) :
    let r := visitAll (hooksAfter preOps) (hooksAfter postOps) u1 u2 fails xs
    Bracketed (preOf (registered preOps) u1) (postOf (registered postOps) u2) r.2 r.1 ∧
    (r.2 = true → worked r.1 = xs) ∧ worked r.1 <+: xs := by
  rw [← (C128_registry preOps).1, ← (C128_registry postOps).1]
  generalize hooksAfter preOps = pre
  generalize hooksAfter postOps = post
  intro r
  obtain ⟨h1, h2⟩ := visitAll_spec pre post u1 u2 fails xs
  have hw1 : ∀ x, worked (preOf pre u1 x ++ .work x :: postOf post u2 x) = [x] := by
    intro x
    rw [worked_append, worked_nil_of _ (fun y => work_not_pre)]
    show x :: worked (postOf post u2 x) = [x]
    rw [worked_nil_of _ (fun y => work_not_post)]
  have hw : ∀ ys : List Nat, worked (ys.flatMap fun x => preOf pre u1 x ++ .work x :: postOf post u2 x) = ys := by
    intro ys
    induction ys with
    | nil => rfl
    | cons y ys ih => rw [List.flatMap_cons, worked_append, hw1, ih]; rfl
  cases hr : r.2 with
  | true =>
    have ht := h1 hr
    have ht' : r.1 = xs.flatMap fun x => preOf pre u1 x ++ .work x :: postOf post u2 x := ht
    refine ⟨?_, fun _ => by rw [ht', hw], by rw [ht', hw]; exact List.prefix_rfl⟩
    have := bracket_flat pre post u1 u2 xs [] 0 true (Or.inl rfl)
    rw [List.append_nil] at this
    rw [ht']; exact this
  | false =>
    obtain ⟨ys, x, zs, s, e1, e2, e3⟩ := h2 hr
    have e2' : r.1 = (ys.flatMap fun x => preOf pre u1 x ++ .work x :: postOf post u2 x) ++ s := e2
    refine ⟨?_, fun h => by simp at h, ?_⟩
    · rw [e2']; exact bracket_flat pre post u1 u2 ys s x false (Or.inr ⟨rfl, e3⟩)
    · rw [e2', worked_append, hw, e1]
      refine (List.prefix_append_right_inj ys).2 ?_
      have hp : worked s <+: worked (preOf pre u1 x ++ .work x :: postOf post u2 x) := by
        obtain ⟨s', hs'⟩ := e3
        rw [← hs', worked_append]; exact List.prefix_append _ _
      rw [hw1] at hp
      exact hp.trans ⟨zs, rfl⟩

example : (visitAll [("a", 1), ("b", 2)] [("c", 3)] false true (fun _ => false) [7, 8]).1 =
    [.preHook 1 7, .preHook 2 7, .work 7, .userPost 7, .postHook 3 7, .preHook 1 8, .preHook 2 8, .work 8, .userPost 8, .postHook 3 8] := by decide
example : visitAll [("a", 1)] [("c", 3)] false true (fun e => e = .work 8) [7, 8] =
    ([.preHook 1 7, .work 7, .userPost 7, .postHook 3 7, .preHook 1 8, .work 8], false) := by decide

/-- C128(c), what holds in the solver: every parameter whose gradient was computed is processed once, in order, and all registered pre
hooks (then the user's) have been called for it before. Missing: the post hooks do not come after. -/
theorem C128_solver_pre_hooks_partial (preOps postOps : List Op) (u1 u2 : Bool) (zeroing : Nat → Bool) (xs : List Nat) :
    let t := solverLoop (hooksAfter preOps) (hooksAfter postOps) u1 u2 zeroing xs
    worked t = xs.filter (fun x => !zeroing x) ∧
    ∀ a x b, t = a ++ .work x :: b → preOf (registered preOps) u1 x ++ postOf (registered postOps) u2 x <:+ a := by
  rw [← (C128_registry preOps).1, ← (C128_registry postOps).1]
  generalize hooksAfter preOps = pre
  generalize hooksAfter postOps = post
  intro t
  have hsc : ∀ x, scopedCallback pre post u1 u2 x = preOf pre u1 x ++ postOf post u2 x := by
    intro x; unfold scopedCallback preOf postOf; simp
  have hnw : ∀ x y, Ev.work y ∉ preOf pre u1 x ++ postOf post u2 x := by
    intro x y h
    rcases List.mem_append.1 h with h | h
    · exact work_not_pre h
    · exact work_not_post h
  show worked (solverLoop pre post u1 u2 zeroing xs) = _ ∧ ∀ a x b, solverLoop pre post u1 u2 zeroing xs = a ++ .work x :: b → _
  clear t
  induction xs with
  | nil => exact ⟨rfl, fun a x b h => by simp [solverLoop] at h⟩
  | cons y ys ih =>
    unfold solverLoop
    by_cases hz : zeroing y = true
    · rw [if_pos hz, List.filter_cons_of_neg (by simp [hz])]; exact ih
    · rw [if_neg hz, List.filter_cons_of_pos (by simpa using hz), hsc]
      constructor
      · rw [worked_append, worked_append, worked_nil_of _ (hnw y), ih.1]; rfl
      · intro a x b h
        rw [List.append_assoc, List.singleton_append] at h
        generalize solverLoop pre post u1 u2 zeroing ys = rest at h ih
        have key : ∀ (P : List Ev) a, (∀ z, Ev.work z ∉ P) → P ++ .work y :: rest = a ++ .work x :: b →
            (x = y ∧ a = P) ∨ ∃ a', a = P ++ .work y :: a' ∧ rest = a' ++ .work x :: b := by
          intro P
          induction P with
          | nil =>
            intro a _ h
            cases a with
            | nil => simp at h; exact Or.inl ⟨h.1.symm, rfl⟩
            | cons c a => simp at h; exact Or.inr ⟨a, by rw [← h.1]; rfl, h.2⟩
          | cons p P ihP =>
            intro a hP h
            cases a with
            | nil => simp at h; exact absurd (by rw [h.1]; simp : Ev.work x ∈ p :: P) (hP x)
            | cons c a =>
              simp at h
              rcases ihP a (fun z hz => hP z (List.mem_cons_of_mem _ hz)) h.2 with ⟨g1, g2⟩ | ⟨a', g1, g2⟩
              · exact Or.inl ⟨g1, by rw [h.1, g2]⟩
              · exact Or.inr ⟨a', by rw [h.1, g1]; rfl, g2⟩
        rcases key _ a (hnw y) h with ⟨g1, g2⟩ | ⟨a', g1, g2⟩
        · subst g1 g2; exact List.suffix_rfl
        · exact (ih.2 a' x b g2).trans ⟨preOf pre u1 y ++ postOf post u2 y ++ [.work y], by rw [g1]; simp⟩

/-- C128, refuted part: with a solver, the post hook of a parameter is always called before the parameter is processed (the
ScopedCallback object is a temporary), never after. -/
theorem C128_refuted_solver_post_hook : ∃ (xs : List Nat), ∃ a b, 
    solverLoop [] [("k", 1)] false false (fun _ => false) xs = a ++ .postHook 1 5 :: b ∧ .work 5 ∈ b ∧ .work 5 ∉ a ∧ .postHook 1 5 ∉ b :=
  ⟨[5], [], [.work 5], by decide, by decide, by decide, by decide⟩

/-- C128, refuted part 2: setting a hook under an existing key does not replace it. -/
theorem C128_refuted_replace : ∃ ops k cb, (k, cb) ∉ hooksAfter (ops ++ [.set k cb]) := ⟨[.set "a" 1], "a", 2, by decide⟩

/-! ### C129: NNabla::ones and zeros -/

/-- Specification: thread t never asked for zeros in the history. -/
def NoZeros (rs : List Req) (t : Nat) : Prop := ∀ n, Req.zeros t n ∉ rs

theorem cache_inv (rs : List Req) :
    (∀ t, (cacheAfter rs).zeros t = none) ∧ (∀ t a, (cacheAfter rs).ones t = some a → a.1 < (cacheAfter rs).next) ∧
    (∀ t t' a a', (cacheAfter rs).ones t = some a → (cacheAfter rs).ones t' = some a' → a.1 = a'.1 → t = t') ∧
    (∀ t, NoZeros rs t → ∀ a, (cacheAfter rs).ones t = some a → a.2.value = 1) := by
  induction rs using List.reverseRecOn with
  | nil =>
    refine ⟨fun _ => rfl, ?_, ?_, ?_⟩
    · intro _ _ h; cases h
    · intro _ _ _ _ h; cases h
    · intro _ _ _ h; cases h
  | append_singleton rs r ih =>
    obtain ⟨h1, h2, h3, h4⟩ := ih
    have hs : cacheAfter (rs ++ [r]) = (stepCache (cacheAfter rs) r).1 := by unfold cacheAfter; rw [List.foldl_append]; rfl
    rw [hs]
    have hno : ∀ t, NoZeros (rs ++ [r]) t → NoZeros rs t := fun t h n hm => h n (List.mem_append_left _ hm)
    generalize hc : cacheAfter rs = c at *
    have store : ∀ tid size (v : Int), (∀ t, NoZeros (rs ++ [r]) t → t = tid → v = 1) →
        let c' : Cache := { c with ones := fun t => if t = tid then some (c.next, ⟨size, v⟩) else c.ones t, next := c.next + 1 }
        (∀ t, c'.zeros t = none) ∧ (∀ t a, c'.ones t = some a → a.1 < c'.next) ∧
        (∀ t t' a a', c'.ones t = some a → c'.ones t' = some a' → a.1 = a'.1 → t = t') ∧
        (∀ t, NoZeros (rs ++ [r]) t → ∀ a, c'.ones t = some a → a.2.value = 1) := by
      intro tid size v hv c'
      refine ⟨h1, ?_, ?_, ?_⟩
      · intro t a ha
        have ha' : (if t = tid then some (c.next, Arr.mk size v) else c.ones t) = some a := ha
        show a.1 < c.next + 1
        split at ha'
        · cases ha'; exact Nat.lt_succ_self _
        · have := h2 t a ha'; omega
      · intro t t' a a' ha ha' he
        have ha1 : (if t = tid then some (c.next, Arr.mk size v) else c.ones t) = some a := ha
        have ha2 : (if t' = tid then some (c.next, Arr.mk size v) else c.ones t') = some a' := ha'
        split at ha1
        · rename_i e1
          split at ha2
          · rename_i e2; rw [e1, e2]
          · cases ha1; have := h2 t' a' ha2; simp only at he; omega
        · split at ha2
          · cases ha2; have := h2 t a ha1; simp only at he; omega
          · exact h3 t t' a a' ha1 ha2 he
      · intro t ht a ha
        have ha1 : (if t = tid then some (c.next, Arr.mk size v) else c.ones t) = some a := ha
        split at ha1
        · rename_i e1; cases ha1; exact hv t ht e1
        · exact h4 t (hno t ht) a ha1
    have keep : (∀ t, c.zeros t = none) ∧ (∀ t a, c.ones t = some a → a.1 < c.next) ∧
        (∀ t t' a a', c.ones t = some a → c.ones t' = some a' → a.1 = a'.1 → t = t') ∧
        (∀ t, NoZeros (rs ++ [r]) t → ∀ a, c.ones t = some a → a.2.value = 1) := ⟨h1, h2, h3, fun t ht => h4 t (hno t ht)⟩
    cases r with
    | ones tid size =>
      show (∀ t, (ones c tid size).1.zeros t = none) ∧ _
      have st := store tid size 1 (fun _ _ _ => rfl)
      have : (stepCache c (.ones tid size)).1 = (ones c tid size).1 := rfl
      rw [this]
      unfold ones
      simp only
      split
      · exact st
      · split
        · exact st
        · exact keep
    | zeros tid size =>
      have st := store tid size 0 (fun t ht he => absurd (List.mem_append_right _ (by rw [he]; exact List.mem_singleton.2 rfl)) (ht size))
      have : (stepCache c (.zeros tid size)).1 = (zeros c tid size).1 := rfl
      rw [this]
      unfold zeros
      simp only
      rw [h1 tid]
      exact st

/-- C129(a): in every history of requests from any threads, zeros(size) returns an array of at least size zeros, and ones(size) one of at
least size ones provided that this thread never asked for zeros. The array returned is alive. -/
theorem C129_content_partial (rs : List Req) (t size : Nat) :
    (size ≤ (zeros (cacheAfter rs) t size).2.2.size ∧ (zeros (cacheAfter rs) t size).2.2.value = 0 ∧
      Alive (zeros (cacheAfter rs) t size).1 (zeros (cacheAfter rs) t size).2.1) ∧
    (size ≤ (ones (cacheAfter rs) t size).2.2.size ∧ Alive (ones (cacheAfter rs) t size).1 (ones (cacheAfter rs) t size).2.1 ∧
      (NoZeros rs t → (ones (cacheAfter rs) t size).2.2.value = 1)) := by
  obtain ⟨h1, h2, h3, h4⟩ := cache_inv rs
  generalize cacheAfter rs = c at *
  constructor
  · unfold zeros
    simp only [h1 t]
    exact ⟨le_refl _, by decide, t, ⟨size, 0⟩, Or.inl (by simp)⟩
  · unfold ones
    simp only
    split
    · exact ⟨le_refl _, ⟨t, ⟨size, 1⟩, Or.inl (by simp)⟩, fun _ => rfl⟩
    · rename_i a ha
      split
      · exact ⟨le_refl _, ⟨t, ⟨size, 1⟩, Or.inl (by simp)⟩, fun _ => rfl⟩
      · rename_i hle
        exact ⟨by simpa using hle, ⟨t, a.2, Or.inl ha⟩, fun hz => h4 t hz a ha⟩

/-- C129(b): an array given by ones stays alive through requests of other threads, and through requests of ones of this thread that are
not larger than it. -/
theorem C129_lifetime (rs : List Req) (t size : Nat) (r : Req)
    (hr : ∀ n, r ≠ .zeros t n) (hr' : ∀ n, r = .ones t n → n ≤ (ones (cacheAfter rs) t size).2.2.size) :
    Alive (stepCache (ones (cacheAfter rs) t size).1 r).1 (ones (cacheAfter rs) t size).2.1 := by
  obtain ⟨h1, h2, h3, h4⟩ := cache_inv rs
  generalize cacheAfter rs = c at *
  have hown : (ones c t size).1.ones t = some (ones c t size).2 := by
    unfold ones
    simp only
    split
    · simp
    · rename_i a ha
      split
      · simp
      · exact ha
  have hz : ∀ u, (ones c t size).1.zeros u = none := by
    intro u
    unfold ones
    simp only
    split
    · exact h1 u
    · split <;> exact h1 u
  generalize ones c t size = o at *
  obtain ⟨c', a⟩ := o
  simp only at *
  refine ⟨t, a.2, Or.inl ?_⟩
  cases r with
  | ones u n =>
    show (ones c' u n).1.ones t = _
    unfold ones
    simp only
    by_cases hu : u = t
    · subst hu
      have := hr' n rfl
      rw [hown]
      simp only
      rw [if_neg (by omega)]
      exact hown
    · have hne : t ≠ u := fun h => hu h.symm
      split
      · simp only [if_neg hne]; exact hown
      · split
        · simp only [if_neg hne]; exact hown
        · exact hown
  | zeros u n =>
    show (zeros c' u n).1.ones t = _
    unfold zeros
    simp only [hz u]
    have hne : t ≠ u := fun h => hr n (by rw [h])
    simp only [if_neg hne]; exact hown

/-- C129, refuted part: after a thread asked for zeros, ones gives it zeros. -/
theorem C129_refuted_ones_after_zeros : ∃ rs t size, (ones (cacheAfter rs) t size).2.2.value = 0 :=
  ⟨[.zeros 0 4], 0, 3, by decide⟩

/-- C129, refuted part 2: asking for zeros again frees the array returned before. -/
theorem C129_refuted_zeros_dangling : ∃ rs t size, ∃ r, ¬ Alive (stepCache (zeros (cacheAfter rs) t size).1 r).1 (zeros (cacheAfter rs) t size).2.1 := by
  refine ⟨[], 0, 4, .zeros 0 4, ?_⟩
  rintro ⟨t, x, h | h⟩
  · have : (if t = 0 then some (1, Arr.mk 4 0) else if t = 0 then some (0, Arr.mk 4 0) else none) = some (0, x) := h
    split at this
    · simp at this
    · simp at this
  · cases h

example : NoZeros [.ones 0 4, .zeros 1 2] 0 ∧ (ones (cacheAfter [.ones 0 4, .zeros 1 2]) 0 3).2 = (0, ⟨4, 1⟩) := by
  refine ⟨?_, by decide⟩
  intro n h; simp at h

end Verif.Hooks
