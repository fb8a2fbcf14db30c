import Verif.Cache.Props
import Mathlib.Algebra.BigOperators.Group.List.Basic
/-
The prefetching cache reader: for every schedule of its threads it returns the contents of the file that was asked for.
-/
namespace Verif.Cache
variable {F D : Type} [DecidableEq F]

/-! ### Specification -/

/-- The calls that were made: those at a moment when no call was in progress. -/
def calls (content : F → D) : Sys F D → List (Act F) → List F
  | _, [] => []
  | s, a :: acts =>
    (match a, s.pc with
     | .call fn _, .idle => [fn]
     | _, _ => []) ++ calls content (step content s a) acts

/-- Every action of the list is a move of the caller or of a thread, and changes something. -/
def Effective (content : F → D) : Sys F D → List (Act F) → Prop
  | _, [] => True
  | s, a :: acts => (∀ fn pre, a ≠ .call fn pre) ∧ step content s a ≠ s ∧ Effective content (step content s a) acts

/-! ### Invariant -/

/-- The prefetcher's work on behalf of file `t` (none: it has nothing to do). -/
def Held (content : F → D) (p : Pf F D) : Option F → Prop
  | none => p.queue = [] ∧ p.working = none
  | some fn => (p.queue = [fn] ∧ p.working = none) ∨ (p.queue = [] ∧ p.working = some fn) ∨
      (p.queue = [] ∧ p.working = none ∧ p.cur = some (content fn))

/-- The file prefetcher `k` is for: its file_name, except while the caller is fetching its result. -/
def target (pc : PC F D) (k : Nat) (p : Pf F D) : Option F :=
  match pc with
  | .readHit fn _ i => if k = i then some fn else p.slot
  | _ => p.slot

/-- Conditions that depend on where the caller is. -/
def Side (content : F → D) (pfs : List (Pf F D)) : PC F D → Prop
  | .readHit _ _ i => ∃ p, pfs[i]? = some p ∧ p.slot = none
  | .waste res fn _ names _ => res = content fn ∧ names.length = pfs.length ∧
      ∀ (k : Nat) p, pfs[k]? = some p → names[k]? = some none → p.slot = none
  | .request res fn _ names => res = content fn ∧ names.length = pfs.length ∧
      ∀ (k : Nat) p, pfs[k]? = some p → names[k]? = some none → p.slot = none
  | .crashed => False
  | _ => True

structure Inv (content : F → D) (n : Nat) (s : Sys F D) : Prop where
  len : s.pfs.length = n
  held : ∀ (k : Nat) p, s.pfs[k]? = some p → Held content p (target s.pc k p)
  side : Side content s.pfs s.pc
  log : ∀ e ∈ s.log, e.2 = content e.1

omit [DecidableEq F] in
theorem worker_held (content : F → D) (p : Pf F D) (t : Option F) (h : Held content p t) : Held content (p.worker content) t := by
  cases t with
  | none =>
    obtain ⟨h1, h2⟩ := h
    simp only [Pf.worker, h1, h2]
    exact ⟨h1, h2⟩
  | some fn =>
    rcases h with ⟨h1, h2⟩ | ⟨h1, h2⟩ | ⟨h1, h2, h3⟩
    · simp only [Pf.worker, h1, h2]
      exact Or.inr (Or.inl ⟨rfl, rfl⟩)
    · simp only [Pf.worker, h2]
      exact Or.inr (Or.inr ⟨h1, rfl, rfl⟩)
    · simp only [Pf.worker, h1, h2]
      exact Or.inr (Or.inr ⟨h1, h2, h3⟩)

omit [DecidableEq F] in
theorem worker_slot (content : F → D) (p : Pf F D) : (p.worker content).slot = p.slot := by
  unfold Pf.worker
  split <;> rfl

omit [DecidableEq F] in
theorem joined_held {content : F → D} {p : Pf F D} {t : Option F} (h : Held content p t) (hj : p.joined = true) :
    p.queue = [] ∧ p.working = none ∧ ∀ fn, t = some fn → p.cur = some (content fn) := by
  simp only [Pf.joined, Bool.and_eq_true, List.isEmpty_iff, Option.isNone_iff_eq_none] at hj
  refine ⟨hj.1, hj.2, ?_⟩
  rintro fn rfl
  rcases h with ⟨h1, h2⟩ | ⟨h1, h2⟩ | ⟨h1, h2, h3⟩
  · rw [hj.1] at h1; simp at h1
  · rw [hj.2] at h2; simp at h2
  · exact h3

theorem inv_main (content : F → D) (n : Nat) (hn : 0 < n) (s : Sys F D) (h : Inv content n s) : Inv content n (mainStep content s) := by
  obtain ⟨pfs, pc, log⟩ := s
  obtain ⟨hlen, hheld, hside, hlog⟩ := h
  simp only at hlen hheld hside hlog
  cases pc with
  | idle => exact ⟨hlen, hheld, hside, hlog⟩
  | crashed => exact ⟨hlen, hheld, hside, hlog⟩
  | hit fn pre i =>
    simp only [mainStep]
    cases hp : pfs[i]? with
    | none =>
      simp only []
      rw [if_neg (by omega)]
      exact ⟨hlen, hheld, trivial, hlog⟩
    | some p =>
      simp only []
      by_cases hs : p.slot = some fn
      · rw [if_pos hs]
        have hi : i < pfs.length := (List.getElem?_eq_some_iff.mp hp).1
        refine ⟨by simpa using hlen, ?_, ⟨_, List.getElem?_set_self hi, rfl⟩, hlog⟩
        intro k q hq
        simp only at hq
        by_cases hk : k = i
        · subst hk
          rw [List.getElem?_set_self hi, Option.some.injEq] at hq
          subst hq
          have := hheld k p hp
          simp only [target, if_true]
          simp only [target, hs] at this
          exact this
        · rw [List.getElem?_set_ne (Ne.symm hk)] at hq
          have := hheld k q hq
          simp only [target, if_neg hk]
          exact this
      · rw [if_neg hs]
        exact ⟨hlen, hheld, trivial, hlog⟩
  | readHit fn pre i =>
    obtain ⟨p, hp, hslot⟩ := hside
    have hi : i < pfs.length := (List.getElem?_eq_some_iff.mp hp).1
    have hh := hheld i p hp
    simp only [target, if_true] at hh
    simp only [mainStep, hp]
    by_cases hj : p.joined = true
    · rw [if_pos hj]
      obtain ⟨j1, j2, j3⟩ := joined_held hh hj
      have j3 := j3 fn rfl
      simp only [Pf.read, j3]
      have hall : ∀ (k : Nat) q, (pfs.set i { p with slot := none, cur := none })[k]? = some q → Held content q q.slot := by
        intro k q hq
        by_cases hk : k = i
        · subst hk
          rw [List.getElem?_set_self hi, Option.some.injEq] at hq
          subst hq
          exact ⟨j1, j2⟩
        · rw [List.getElem?_set_ne (Ne.symm hk)] at hq
          have := hheld k q hq
          simp only [target, if_neg hk] at this
          exact this
      refine ⟨by simpa using hlen, hall, ⟨rfl, by simp, ?_⟩, hlog⟩
      intro k q hq hnm
      rw [List.getElem?_map] at hnm
      simp only at hq
      rw [hq] at hnm
      simpa using hnm
    · rw [if_neg hj]
      exact ⟨hlen, hheld, ⟨p, hp, hslot⟩, hlog⟩
  | direct fn pre =>
    simp only [mainStep]
    refine ⟨hlen, hheld, ⟨rfl, by simp, ?_⟩, hlog⟩
    intro k q hq hnm
    rw [List.getElem?_map, hq] at hnm
    simpa using hnm
  | waste res fn pre names i =>
    obtain ⟨s1, s2, s3⟩ := hside
    simp only [mainStep]
    cases hnm : names[i]? with
    | none => exact ⟨hlen, hheld, ⟨s1, s2, s3⟩, hlog⟩
    | some o =>
      cases o with
      | none => exact ⟨hlen, hheld, ⟨s1, s2, s3⟩, hlog⟩
      | some g =>
        simp only []
        by_cases hg : g ∈ pre
        · rw [if_pos hg]; exact ⟨hlen, hheld, ⟨s1, s2, s3⟩, hlog⟩
        · rw [if_neg hg]
          have hi : i < pfs.length := by
            rw [← s2]; exact (List.getElem?_eq_some_iff.mp hnm).1
          have hp : pfs[i]? = some pfs[i] := List.getElem?_eq_getElem hi
          simp only [hp]
          by_cases hj : pfs[i].joined = true
          · rw [if_pos hj]
            obtain ⟨j1, j2, -⟩ := joined_held (hheld i _ hp) hj
            refine ⟨by simpa using hlen, ?_, ⟨s1, by simpa using s2, ?_⟩, hlog⟩
            · intro k q hq
              simp only at hq
              by_cases hk : k = i
              · subst hk
                rw [List.getElem?_set_self hi, Option.some.injEq] at hq
                subst hq
                exact ⟨j1, j2⟩
              · rw [List.getElem?_set_ne (Ne.symm hk)] at hq
                exact hheld k q hq
            · intro k q hq hnn
              by_cases hk : k = i
              · subst hk
                rw [List.getElem?_set_self hi, Option.some.injEq] at hq
                subst hq; rfl
              · rw [List.getElem?_set_ne (Ne.symm hk)] at hq
                exact s3 k q hq hnn
          · rw [if_neg hj]; exact ⟨hlen, hheld, ⟨s1, s2, s3⟩, hlog⟩
  | request res fn todo names =>
    obtain ⟨s1, s2, s3⟩ := hside
    cases todo with
    | nil =>
      simp only [mainStep]
      refine ⟨hlen, hheld, trivial, ?_⟩
      intro e he
      rcases List.mem_append.mp he with he | he
      · exact hlog e he
      · rw [List.mem_singleton] at he
        rw [he]; exact s1
    | cons g todo =>
      simp only [mainStep]
      by_cases hg : some g ∈ names
      · rw [if_pos hg]; exact ⟨hlen, hheld, ⟨s1, s2, s3⟩, hlog⟩
      · rw [if_neg hg]
        cases hf : names.findIdx? (· == none) with
        | none => exact ⟨hlen, hheld, ⟨s1, s2, s3⟩, hlog⟩
        | some k =>
          simp only []
          rw [List.findIdx?_eq_some_iff_getElem] at hf
          obtain ⟨hk, hkn, -⟩ := hf
          have hi : k < pfs.length := by omega
          have hp : pfs[k]? = some pfs[k] := List.getElem?_eq_getElem hi
          have hkn' : names[k]? = some none := by
            rw [List.getElem?_eq_getElem hk]
            simpa using hkn
          have hsl := s3 k _ hp hkn'
          have hh := hheld k _ hp
          simp only [target, hsl] at hh
          simp only [hp]
          refine ⟨by simpa using hlen, ?_, ⟨s1, by simpa using s2, ?_⟩, hlog⟩
          · intro j q hq
            simp only at hq
            by_cases hjk : j = k
            · subst hjk
              rw [List.getElem?_set_self hi, Option.some.injEq] at hq
              subst hq
              exact Or.inl ⟨by simp [Pf.request, hh.1], hh.2⟩
            · rw [List.getElem?_set_ne (Ne.symm hjk)] at hq
              exact hheld j q hq
          · intro j q hq hnn
            by_cases hjk : j = k
            · subst hjk
              rw [List.getElem?_set_self hk] at hnn
              simp at hnn
            · rw [List.getElem?_set_ne (Ne.symm hjk)] at hq hnn
              exact s3 j q hq hnn

omit [DecidableEq F] in
theorem modify_get (pfs : List (Pf F D)) (f : Pf F D → Pf F D) (j k : Nat) (q : Pf F D) (h : (pfs.modify j f)[k]? = some q) :
    ∃ p, pfs[k]? = some p ∧ q = if j = k then f p else p := by
  rw [List.getElem?_modify] at h
  cases hp : pfs[k]? with
  | none => rw [hp] at h; simp at h
  | some p =>
    rw [hp] at h
    refine ⟨p, rfl, ?_⟩
    by_cases e : j = k
    · simp [e] at h ⊢; exact h.symm
    · simp [e] at h ⊢; exact h.symm

theorem inv_step (content : F → D) (n : Nat) (hn : 0 < n) (s : Sys F D) (h : Inv content n s) (a : Act F) :
    Inv content n (step content s a) := by
  cases a with
  | main => exact inv_main content n hn s h
  | call fn pre =>
    obtain ⟨pfs, pc, log⟩ := s
    cases pc <;> first
      | exact ⟨h.len, h.held, trivial, h.log⟩
      | exact h
  | worker j =>
    obtain ⟨hlen, hheld, hside, hlog⟩ := h
    refine ⟨by simpa [step] using hlen, ?_, ?_, hlog⟩
    · intro k q hq
      obtain ⟨p, hp, e⟩ := modify_get _ _ _ _ _ hq
      have := hheld k p hp
      have et : target s.pc k q = target s.pc k p := by
        have : q.slot = p.slot := by
          rw [e]; split
          · exact worker_slot content p
          · rfl
        simp only [target, this]
      show Held content q (target s.pc k q)
      rw [et, e]
      split
      · exact worker_held content p _ this
      · exact this
    · have sl : ∀ (k : Nat) q, (s.pfs.modify j (Pf.worker content))[k]? = some q → ∃ p, s.pfs[k]? = some p ∧ q.slot = p.slot := by
        intro k q hq
        obtain ⟨p, hp, e⟩ := modify_get _ _ _ _ _ hq
        refine ⟨p, hp, ?_⟩
        rw [e]; split
        · exact worker_slot content p
        · rfl
      show Side content (s.pfs.modify j (Pf.worker content)) s.pc
      cases hpc : s.pc with
      | readHit fn pre i =>
        rw [hpc] at hside
        obtain ⟨p, hp, hs⟩ := hside
        have hi : i < s.pfs.length := (List.getElem?_eq_some_iff.mp hp).1
        obtain ⟨q, hq⟩ : ∃ q, (s.pfs.modify j (Pf.worker content))[i]? = some q :=
          ⟨_, List.getElem?_eq_getElem (by simpa using hi)⟩
        obtain ⟨p', hp', e⟩ := sl i q hq
        rw [hp] at hp'
        simp only [Option.some.injEq] at hp'
        exact ⟨q, hq, by rw [e, ← hp', hs]⟩
      | waste res fn pre names i =>
        rw [hpc] at hside
        refine ⟨hside.1, by simpa using hside.2.1, ?_⟩
        intro k q hq hnm
        obtain ⟨p, hp, e⟩ := sl k q hq
        rw [e]; exact hside.2.2 k p hp hnm
      | request res fn todo names =>
        rw [hpc] at hside
        refine ⟨hside.1, by simpa using hside.2.1, ?_⟩
        intro k q hq hnm
        obtain ⟨p, hp, e⟩ := sl k q hq
        rw [e]; exact hside.2.2 k p hp hnm
      | crashed => rw [hpc] at hside; exact hside
      | idle => trivial
      | hit fn pre i => trivial
      | direct fn pre => trivial

theorem inv_init (content : F → D) (n : Nat) : Inv content n (Sys.init n : Sys F D) := by
  refine ⟨by simp [Sys.init], ?_, trivial, by simp [Sys.init]⟩
  intro k p hp
  simp only [Sys.init, List.getElem?_replicate] at hp
  split at hp
  · simp only [Option.some.injEq] at hp
    subst hp
    exact ⟨rfl, rfl⟩
  · simp at hp

theorem inv_run (content : F → D) (n : Nat) (hn : 0 < n) (s : Sys F D) (h : Inv content n s) (acts : List (Act F)) :
    Inv content n (run content s acts) := by
  induction acts generalizing s with
  | nil => exact h
  | cons a acts ih => exact ih _ (inv_step content n hn s h a)

/-- The file asked for by the call in progress. -/
def pending : PC F D → List F
  | .hit fn _ _ => [fn]
  | .readHit fn _ _ => [fn]
  | .direct fn _ => [fn]
  | .waste _ fn _ _ _ => [fn]
  | .request _ fn _ _ => [fn]
  | _ => []

theorem pending_step (content : F → D) (n : Nat) (hn : 0 < n) (s : Sys F D) (h : Inv content n s) (a : Act F) :
    (step content s a).log.map (·.1) ++ pending (step content s a).pc =
      s.log.map (·.1) ++ pending s.pc ++ (match a, s.pc with | .call fn _, .idle => [fn] | _, _ => []) := by
  have hi := inv_step content n hn s h a
  have hnc : (step content s a).pc ≠ .crashed := fun e => by
    have := hi.side
    rw [e] at this
    exact this
  obtain ⟨pfs, pc, log⟩ := s
  cases a with
  | call fn pre => cases pc <;> simp [step, pending]
  | worker k => simp [step]
  | main =>
    revert hnc
    simp only [step]
    cases pc with
    | idle => intro _; simp [mainStep]
    | crashed => intro _; simp [mainStep]
    | hit fn pre i =>
      simp only [mainStep]
      cases pfs[i]? with
      | none =>
        simp only []
        split
        · intro hnc; simp at hnc
        · intro _; simp [pending]
      | some p =>
        simp only []
        split <;> intro _ <;> simp [pending]
    | readHit fn pre i =>
      simp only [mainStep]
      cases pfs[i]? with
      | none => intro hnc; simp at hnc
      | some p =>
        simp only []
        split
        · simp only [Pf.read]
          cases p.cur <;> intro _ <;> simp [pending]
        · intro _; simp [pending]
    | direct fn pre => intro _; simp [mainStep, pending]
    | waste res fn pre names i =>
      simp only [mainStep]
      cases names[i]? with
      | none => intro _; simp [pending]
      | some o =>
        cases o with
        | none => intro _; simp [pending]
        | some g =>
          simp only []
          split
          · intro _; simp [pending]
          · cases pfs[i]? with
            | none => intro hnc; simp at hnc
            | some p =>
              simp only []
              split <;> intro _ <;> simp [pending]
    | request res fn todo names =>
      cases todo with
      | nil => intro _; simp [mainStep, pending]
      | cons g todo =>
        simp only [mainStep]
        split
        · intro _; simp [pending]
        · cases names.findIdx? (· == none) with
          | none => intro _; simp [pending]
          | some k =>
            simp only []
            cases pfs[k]? with
            | none => intro hnc; simp at hnc
            | some p => intro _; simp [pending]

theorem calls_run (content : F → D) (n : Nat) (hn : 0 < n) (s : Sys F D) (h : Inv content n s) (acts : List (Act F)) :
    (run content s acts).log.map (·.1) ++ pending (run content s acts).pc = s.log.map (·.1) ++ pending s.pc ++ calls content s acts := by
  induction acts generalizing s with
  | nil => simp [run, calls]
  | cons a acts ih =>
    have := ih (step content s a) (inv_step content n hn s h a)
    rw [pending_step content n hn s h a] at this
    show (run content (step content s a) acts).log.map (·.1) ++ pending (run content (step content s a) acts).pc = _
    rw [this]
    simp only [calls, List.append_assoc]

/-- C190: safety. With at least one prefetch thread, for every sequence of calls, every list of files to prefetch and every
schedule of caller and threads: the reader does not crash, the results come in the order of the calls, and each result is the
contents of the file asked for (never the data of another prefetched file, never a half-read file). -/
theorem C190_prefetch_safe_partial (content : F → D) (n : Nat) (hn : 0 < n) (acts : List (Act F)) :
    (run content (Sys.init n) acts).pc ≠ .crashed ∧
    (∀ e ∈ (run content (Sys.init n) acts).log, e.2 = content e.1) ∧
    (run content (Sys.init n) acts).log.map (·.1) <+: calls content (Sys.init n) acts ∧
    ((run content (Sys.init n) acts).pc = .idle → (run content (Sys.init n) acts).log.map (·.1) = calls content (Sys.init n) acts) := by
  have h := inv_run content n hn _ (inv_init content n) acts
  have hc := calls_run content n hn _ (inv_init content n) acts
  simp only [Sys.init, List.map_nil, pending, List.append_nil, List.nil_append] at hc
  refine ⟨?_, h.log, ⟨_, hc⟩, ?_⟩
  · intro e
    have := h.side
    rw [e] at this
    exact this
  · intro e
    simp only [Sys.init] at e ⊢
    rw [e] at hc
    simpa [pending] using hc

/-! ### Progress -/

/-- Work left for the threads. -/
def load (p : Pf F D) : Nat := 2 * p.queue.length + (if p.working.isSome then 1 else 0)

def loads (pfs : List (Pf F D)) : Nat := (pfs.map load).sum

/-- Work left for the caller. -/
def rank (n : Nat) : PC F D → Nat
  | .hit _ pre i => 6 + 4 * pre.length + n + (n - i)
  | .readHit _ pre _ => 5 + 4 * pre.length + n
  | .direct _ pre => 4 + 4 * pre.length + n
  | .waste _ _ pre names i => 2 + 4 * pre.length + (names.length - i)
  | .request _ _ todo _ => 1 + 4 * todo.length
  | _ => 0

def left (s : Sys F D) : Nat := rank s.pfs.length s.pc + loads s.pfs

omit [DecidableEq F] in
theorem loads_set (pfs : List (Pf F D)) (i : Nat) (p q : Pf F D) (h : pfs[i]? = some p) :
    loads (pfs.set i q) + load p = loads pfs + load q := by
  induction pfs generalizing i with
  | nil => simp at h
  | cons a pfs ih =>
    cases i with
    | zero =>
      simp only [List.getElem?_cons_zero, Option.some.injEq] at h
      subst h
      simp only [loads, List.set_cons_zero, List.map_cons, List.sum_cons]
      omega
    | succ i =>
      rw [List.getElem?_cons_succ] at h
      have := ih i h
      simp only [loads, List.set_cons_succ, List.map_cons, List.sum_cons] at this ⊢
      omega

omit [DecidableEq F] in
theorem worker_load (content : F → D) (p : Pf F D) : p.worker content = p ∨ load (p.worker content) < load p := by
  obtain ⟨slot, queue, working, cur⟩ := p
  cases working with
  | some fn => right; simp [Pf.worker, load]
  | none =>
    cases queue with
    | nil => left; rfl
    | cons fn q => right; simp [Pf.worker, load]; omega

omit [DecidableEq F] in
theorem loads_modify (content : F → D) (pfs : List (Pf F D)) (j : Nat) :
    pfs.modify j (Pf.worker content) = pfs ∨ loads (pfs.modify j (Pf.worker content)) < loads pfs := by
  by_cases hj : j < pfs.length
  · have hp : pfs[j]? = some pfs[j] := List.getElem?_eq_getElem hj
    have e : pfs.modify j (Pf.worker content) = pfs.set j (pfs[j].worker content) := by
      rw [List.modify_eq_set_getElem?, hp]; rfl
    have hl := loads_set pfs j pfs[j] (pfs[j].worker content) hp
    rcases worker_load content pfs[j] with h | h
    · left
      rw [e, h]
      simp
    · right
      rw [e]
      omega
  · left
    rw [List.modify_eq_set_getElem?, List.getElem?_eq_none (by omega)]
    rfl

omit [DecidableEq F] in
theorem load_joined {p : Pf F D} (h : p.joined = true) : load p = 0 := by
  simp only [Pf.joined, Bool.and_eq_true, List.isEmpty_iff, Option.isNone_iff_eq_none] at h
  simp [load, h.1, h.2]

/-- A step of the caller does nothing or brings the end nearer; it does nothing only when no call is in progress or the caller
waits for a prefetcher that still has work. -/
theorem main_progress (content : F → D) (n : Nat) (hn : 0 < n) (s : Sys F D) (h : Inv content n s) :
    left (mainStep content s) < left s ∨ (mainStep content s = s ∧ (s.pc = .idle ∨ ∃ (i : Nat) (p : Pf F D), s.pfs[i]? = some p ∧ p.joined = false)) := by
  obtain ⟨pfs, pc, log⟩ := s
  obtain ⟨hlen, hheld, hside, hlog⟩ := h
  simp only at hlen hheld hside hlog
  cases pc with
  | idle => exact Or.inr ⟨rfl, Or.inl rfl⟩
  | crashed => exact absurd hside id
  | hit fn pre i =>
    simp only [mainStep]
    cases hp : pfs[i]? with
    | none =>
      simp only []
      rw [if_neg (by omega)]
      left
      simp only [left, rank]; omega
    | some p =>
      have hi : i < pfs.length := (List.getElem?_eq_some_iff.mp hp).1
      simp only []
      left
      split
      · have := loads_set pfs i p { p with slot := none } hp
        have e : load { p with slot := none } = load p := rfl
        simp only [left, rank, List.length_set]; omega
      · simp only [left, rank]; omega
  | readHit fn pre i =>
    obtain ⟨p, hp, hslot⟩ := hside
    have hh := hheld i p hp
    simp only [target, if_true] at hh
    simp only [mainStep, hp]
    by_cases hj : p.joined = true
    · rw [if_pos hj]
      have j3 := (joined_held hh hj).2.2 fn rfl
      simp only [Pf.read, j3]
      left
      have := loads_set pfs i p ({ p with slot := none, cur := none } : Pf F D) hp
      have e : load ({ p with slot := none, cur := none } : Pf F D) = load p := rfl
      simp only [left, rank, List.length_set, List.length_map]; omega
    · rw [if_neg hj]
      right
      refine ⟨rfl, Or.inr ⟨i, p, hp, by simpa using hj⟩⟩
  | direct fn pre =>
    left
    simp only [mainStep, left, rank, List.length_map]; omega
  | waste res fn pre names i =>
    obtain ⟨s1, s2, s3⟩ := hside
    simp only [mainStep]
    cases hnm : names[i]? with
    | none =>
      left
      simp only [left, rank]; omega
    | some o =>
      have hi : i < names.length := (List.getElem?_eq_some_iff.mp hnm).1
      cases o with
      | none =>
        left
        simp only [left, rank]; omega
      | some g =>
        simp only []
        by_cases hg : g ∈ pre
        · rw [if_pos hg]
          left
          simp only [left, rank]; omega
        · rw [if_neg hg]
          have hi' : i < pfs.length := by omega
          have hp : pfs[i]? = some pfs[i] := List.getElem?_eq_getElem hi'
          simp only [hp]
          by_cases hj : pfs[i].joined = true
          · rw [if_pos hj]
            left
            have := loads_set pfs i pfs[i] pfs[i].read.2 hp
            have e : load pfs[i].read.2 = load pfs[i] := rfl
            simp only [left, rank, List.length_set]; omega
          · rw [if_neg hj]
            right
            refine ⟨rfl, Or.inr ⟨i, pfs[i], hp, by simpa using hj⟩⟩
  | request res fn todo names =>
    obtain ⟨s1, s2, s3⟩ := hside
    left
    cases todo with
    | nil => simp only [mainStep, left, rank]; omega
    | cons g todo =>
      simp only [mainStep]
      by_cases hg : some g ∈ names
      · rw [if_pos hg]
        simp only [left, rank, List.length_cons]; omega
      · rw [if_neg hg]
        cases hf : names.findIdx? (· == none) with
        | none => simp only [left, rank, List.length_cons]; omega
        | some k =>
          simp only []
          rw [List.findIdx?_eq_some_iff_getElem] at hf
          obtain ⟨hk, -, -⟩ := hf
          have hi : k < pfs.length := by omega
          have hp : pfs[k]? = some pfs[k] := List.getElem?_eq_getElem hi
          simp only [hp]
          have := loads_set pfs k pfs[k] (pfs[k].request g) hp
          have e : load (pfs[k].request g) = load pfs[k] + 2 := by
            unfold load Pf.request
            simp only [List.length_append, List.length_singleton]
            omega
          simp only [left, rank, List.length_set, List.length_cons]; omega

/-- C190: progress. In every reachable state with a call in progress some step changes the state (no deadlock), every step that
changes the state brings the call nearer to its end, and therefore every execution in which steps keep being taken ends with
the call returning after at most `left s` steps. -/
theorem C190_prefetch_progress_partial (content : F → D) (n : Nat) (hn : 0 < n) (acts : List (Act F)) (s : Sys F D)
    (hs : s = run content (Sys.init n) acts) :
    (s.pc ≠ .idle → ∃ a : Act F, (∀ fn pre, a ≠ .call fn pre) ∧ step content s a ≠ s) ∧
    (∃ N, ∀ more, Effective content s more → more.length ≤ N) ∧
    ∃ more, Effective content s more ∧ (run content s more).pc = .idle := by
  have hinv : Inv content n s := hs ▸ inv_run content n hn _ (inv_init content n) acts
  clear hs
  have dec : ∀ s : Sys F D, Inv content n s → ∀ a : Act F, (∀ fn pre, a ≠ .call fn pre) → step content s a ≠ s →
      left (step content s a) < left s := by
    intro s hi a ha hc
    cases a with
    | call fn pre => exact absurd rfl (ha fn pre)
    | main =>
      rcases main_progress content n hn s hi with h | h
      · exact h
      · exact absurd h.1 hc
    | worker j =>
      rcases loads_modify content s.pfs j with h | h
      · exfalso; apply hc; simp only [step, h]
      · have e : left (step content s (.worker j)) = rank s.pfs.length s.pc + loads (s.pfs.modify j (Pf.worker content)) := by
          simp [left, step]
        rw [e]
        simp only [left]; omega
  have ex : ∀ s : Sys F D, Inv content n s → s.pc ≠ .idle → ∃ a : Act F, (∀ fn pre, a ≠ .call fn pre) ∧ step content s a ≠ s := by
    intro s hi hpc
    rcases main_progress content n hn s hi with h | ⟨-, h | ⟨i, p, hp, hj⟩⟩
    · refine ⟨.main, by simp, ?_⟩
      intro e
      have e : mainStep content s = s := e
      rw [e] at h; omega
    · exact absurd h hpc
    · refine ⟨.worker i, by simp, ?_⟩
      intro e
      have hi' : i < s.pfs.length := (List.getElem?_eq_some_iff.mp hp).1
      have e2 : (step content s (.worker i)).pfs[i]? = some (p.worker content) := by
        simp [step, List.getElem?_modify, hp]
      rw [e, hp, Option.some.injEq] at e2
      rcases p with ⟨slot, queue, working, cur⟩
      cases working with
      | some fn => simp [Pf.worker] at e2
      | none =>
        cases queue with
        | nil => simp [Pf.joined] at hj
        | cons fn q => simp [Pf.worker] at e2
  refine ⟨ex s hinv, ⟨left s, ?_⟩, ?_⟩
  · intro more
    induction more generalizing s with
    | nil => intro _; exact Nat.zero_le _
    | cons a more ih =>
      rintro ⟨h1, h2, h3⟩
      have := ih (step content s a) (inv_step content n hn s hinv a) h3
      have := dec s hinv a h1 h2
      rw [List.length_cons]; omega
  · have key : ∀ (m : Nat) (s : Sys F D), Inv content n s → left s ≤ m → ∃ more, Effective content s more ∧ (run content s more).pc = .idle := by
      intro m
      induction m with
      | zero =>
        intro s hi hm
        by_cases hpc : s.pc = .idle
        · exact ⟨[], trivial, hpc⟩
        · obtain ⟨a, h1, h2⟩ := ex s hi hpc
          have := dec s hi a h1 h2
          omega
      | succ m ih =>
        intro s hi hm
        by_cases hpc : s.pc = .idle
        · exact ⟨[], trivial, hpc⟩
        · obtain ⟨a, h1, h2⟩ := ex s hi hpc
          have h3 := dec s hi a h1 h2
          obtain ⟨more, g1, g2⟩ := ih _ (inv_step content n hn s hi a) (by omega)
          exact ⟨a :: more, ⟨h1, h2, g1⟩, g2⟩
    exact key _ s hinv (Nat.le_refl _)

/-- C190, what is missing: with `cache_file_cache_num_of_threads = 0` (a value the data source itself tests for) the first read
fails with an unbound local variable. -/
theorem C190_no_threads_refuted (content : F → D) (fn : F) (pre : List F) :
    (run content (Sys.init 0 : Sys F D) [.call fn pre, .main]).pc = .crashed := rfl

/-- A run: file 0 is read directly while 1 and 2 are requested; then 2 is asked for while its thread is still reading. -/
example : (run (fun f : Nat => f + 100) (Sys.init 2)
    ([.call 0 [1, 2]] ++ List.replicate 10 .main ++ [.worker 1, .call 2 [], .main, .main, .main, .worker 1, .worker 0, .main, .worker 0] ++
      List.replicate 6 .main)).log = [(0, 100), (2, 102)] := by decide

end Verif.Cache
