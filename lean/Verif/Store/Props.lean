import Verif.Store.Inv
/-
C126 (references and automatic clearing), C127 (shapes and storage).
-/
namespace Verif.Store
open Verif.Fn Verif.ND

/-! ### C126: get_number_of_references and the clearing done when a Python Variable is destroyed -/

/-- Specification: Python Variables p and q (both alive) use the same memory. -/
def SameMemory (st : St) (p q : Nat) : Prop := root st (arrOf st p) = root st (arrOf st q)

instance (st : St) (p q : Nat) : Decidable (SameMemory st p q) := by unfold SameMemory; infer_instance

/-- Specification: the Python Variables that use memory r. -/
def usersOf (st : St) (r : Nat) : Finset Nat :=
  (Finset.range st.nPy).filter fun q => st.plive q = true ∧ root st (arrOf st q) = r

theorem root_mem {st : St} (h : WF st) {s : Nat} (hs : s < st.nSyn) : root st s ∈ st.path s := by
  obtain ⟨t, ht⟩ := h.path_hd s hs
  unfold root
  rw [ht]
  simp only [List.getLastD_cons]
  cases t with
  | nil => simp
  | cons a t => simp [List.getLastD_eq_getLast?, List.getLast?_eq_some_getLast]

theorem mem_root_iff {st : St} (h : WF st) {s t : Nat} (hs : s < st.nSyn) (ht : t < st.nSyn) :
    root st s ∈ st.path t ↔ root st t = root st s := by
  constructor
  · intro hm
    have hr : root st s < st.nSyn := h.path_lt s hs _ (root_mem h hs)
    -- the root has a path that is a suffix of that of s and starts with the last element of s
    have h1 := h.path_suf s hs _ (root_mem h hs)
    have h2 := h.path_suf t ht _ hm
    obtain ⟨u, hu⟩ := h.path_hd _ hr
    obtain ⟨a1, ha1⟩ := h1
    obtain ⟨a2, ha2⟩ := h2
    have e1 : root st s = (st.path (root st s)).getLastD (root st s) := by
      conv_lhs => unfold root
      rw [← ha1, hu]
      simp [List.getLastD_eq_getLast?, List.getLast?_eq_some_getLast (List.cons_ne_nil (root st s) u)]
    have e2 : root st t = (st.path (root st s)).getLastD (root st s) := by
      conv_lhs => unfold root
      rw [← ha2, hu]
      simp [List.getLastD_eq_getLast?, List.getLast?_eq_some_getLast (List.cons_ne_nil (root st s) u)]
    rw [e2, ← e1]
  · intro he
    rw [← he]; exact root_mem h ht

theorem count_users {st : St} (h : Inv st) {s : Nat} (hs : s < st.nSyn) :
    st.scount (root st s) = ((usersOf st (root st s)).card : Int) := by
  have hr : root st s < st.nSyn := h.path_lt s hs _ (root_mem h.toWF hs)
  rw [h.s _ hr]
  rw [sum_chain (fun d => st.nlive d = true) (fun d => root st s ∈ st.path (st.arr d)) (fun v => st.vlive v = true) st.data st.vcount st.ncount
    (fun v hv => ⟨h.nl _ (h.data_l v hv), h.data_l v hv⟩) (fun d hd => by have := h.n d hd; simpa using this)]
  rw [sum_chain (fun v => st.vlive v = true) (fun v => root st s ∈ st.path (st.arr (st.data v))) (fun c => st.clive c = true) st.var st.ccount st.vcount
    (fun c hc => ⟨h.vl _ (h.var_l c hc), h.var_l c hc⟩) (fun d hd => by have := h.v d hd; simpa using this)]
  rw [sum_chain (fun c => st.clive c = true) (fun c => root st s ∈ st.path (st.arr (st.data (st.var c)))) (fun p => st.plive p = true) st.pvar (fun _ => 1) st.ccount
    (fun p hp => ⟨h.cl _ (h.pvar_l p hp), h.pvar_l p hp⟩) (fun d hd => by have := h.c d hd; simpa using this)]
  unfold usersOf
  rw [Finset.card_filter]
  push_cast
  apply Finset.sum_congr rfl
  intro p _
  unfold sel
  by_cases hp : st.plive p = true
  · have ha : st.arr (st.data (st.var (st.pvar p))) < st.nSyn :=
      h.arr_lt _ (h.data_l _ (h.var_l _ (h.pvar_l p hp)))
    have := mem_root_iff h.toWF hs ha
    simp only [hp, true_and, this, arrOf]
  · simp only [hp, false_and, if_false]; simp

theorem arrOf_lt {st : St} (h : Inv st) {p : Nat} (hp : livePy st p) : arrOf st p < st.nSyn :=
  h.arr_lt _ (h.data_l _ (h.var_l _ (h.pvar_l p hp.2)))

/-- C126(a): in every history, get_number_of_references of a Variable is the number of Python Variables whose data lives in the same
memory, whether it is shared through a common CgVariable, Variable or NdArray, through view, through set_array (in-place functions) or
through narrow. -/
theorem C126_number_of_references (ops : List Op) (p : Nat) (hp : livePy (run ops) p) :
    numberOfReferences (run ops) p = ((usersOf (run ops) (root (run ops) (arrOf (run ops) p))).card : Int) :=
  count_users (run_I ops) (arrOf_lt (run_I ops) hp)

theorem C126_positive (ops : List Op) (p : Nat) (hp : livePy (run ops) p) : 1 ≤ numberOfReferences (run ops) p := by
  rw [C126_number_of_references ops p hp]
  have : p ∈ usersOf (run ops) (root (run ops) (arrOf (run ops) p)) := by
    unfold usersOf
    simp only [Finset.mem_filter, Finset.mem_range, and_true]
    exact hp
  have := Finset.card_pos.2 ⟨p, this⟩
  omega

theorem clear_spec (st : St) (p : Nat) (e : Env) (s : Nat) :
    (clearDuringAutoForward st p e).1.cleared s = st.cleared s ∨
    (s = arrOf st p ∧ numberOfReferences st p < 2 ∧ e.auto = true ∧ e.persistent = false ∧ e.parent = true ∧ e.gradDep = false ∧
      hasFamily st s = false) := by
  unfold clearDuringAutoForward
  split
  · exact Or.inl rfl
  rename_i h1
  split
  · rename_i h2
    split
    · exact Or.inl rfl
    · rename_i h3
      by_cases hs : s = arrOf st p
      · right
        subst hs
        simp only [Bool.or_eq_true, Bool.not_eq_true', not_or, Bool.not_eq_false, Bool.not_eq_true] at h1
        exact ⟨rfl, h2.1, h1.1.1, h1.1.2, h1.2, h2.2, by simpa using h3⟩
      · left
        show put st.cleared (arrOf st p) true s = _
        rw [put_other _ _ hs]
  · exact Or.inl rfl

theorem reshapeNd_cleared (st : St) (d : Nat) (shape : Shape) (force : Bool) {s : Nat} (hs : s < st.nSyn) :
    (reshapeNd st d shape force).1.cleared s = st.cleared s ∧ st.nSyn ≤ (reshapeNd st d shape force).1.nSyn := by
  unfold reshapeNd
  split
  · exact ⟨rfl, le_refl _⟩
  split
  · exact ⟨rfl, le_refl _⟩
  split
  · exact ⟨rfl, le_refl _⟩
  split
  · exact ⟨rfl, le_refl _⟩
  · unfold setArray
    split
    · exact ⟨put_other _ _ hs.ne, Nat.le_succ _⟩
    · exact ⟨put_other _ _ hs.ne, Nat.le_succ _⟩

theorem setData_cleared (st : St) (v d : Nat) : (setData st v d).1.cleared = st.cleared := by
  unfold setData; split <;> rfl

theorem setGrad_cleared (st : St) (v d : Nat) : (setGrad st v d).1.cleared = st.cleared := by
  unfold setGrad; split <;> rfl

/-- Only the destruction of a Python Variable clears memory. -/
theorem step_cleared (st : St) (op : Op) (s : Nat) (hs : s < st.nSyn) :
    (step st op).cleared s = st.cleared s ∨
    ∃ p e, op = .delPy p e ∧ livePy st p ∧ s = arrOf st p ∧ numberOfReferences st p < 2 ∧ e.auto = true ∧ e.persistent = false ∧
      e.parent = true ∧ e.gradDep = false ∧ hasFamily st s = false := by
  cases op with
  | newNd shape => left; exact put_other _ _ hs.ne
  | viewNd d shape =>
    left; show (if _ then _ else _ : St).cleared s = _; split
    · unfold viewNd; split <;> rfl
    · rfl
  | narrowNd d a b =>
    left; show (if _ then _ else _ : St).cleared s = _; split
    · unfold narrowNd; split
      · rfl
      · split
        · exact put_other _ _ hs.ne
        · rfl
    · rfl
  | setArray d d' =>
    left; show (if _ then _ else _ : St).cleared s = _; split
    · unfold setArray; split <;> rfl
    · rfl
  | reshapeNd d shape force =>
    left; show (if _ then _ else _ : St).cleared s = _; split
    · exact (reshapeNd_cleared st d shape force hs).1
    · rfl
  | hold d b => left; show (if _ then _ else _ : St).cleared s = _; split <;> rfl
  | freeNd d => left; show (if _ then _ else _ : St).cleared s = _; split <;> rfl
  | newVar shape =>
    left
    show put (put st.cleared st.nSyn false) (st.nSyn + 1) false s = _
    rw [put_other _ _ (by omega), put_other _ _ (by omega)]
  | varFrom d =>
    left; show (if _ then _ else _ : St).cleared s = _; split
    · exact put_other _ _ hs.ne
    · rfl
  | setData v d =>
    left; show (if _ then _ else _ : St).cleared s = _; split
    · rw [setData_cleared]
    · rfl
  | setGrad v d =>
    left; show (if _ then _ else _ : St).cleared s = _; split
    · rw [setGrad_cleared]
    · rfl
  | reshapeVar v shape force =>
    left; show (if _ then _ else _ : St).cleared s = _; split
    · unfold reshapeVar
      split
      · rfl
      split
      · rfl
      simp only
      have h1 := reshapeNd_cleared { st with vshape := put st.vshape v shape } (st.data v) shape (if prod (st.vshape v) = prod shape then false else true) (s := s) hs
      split
      · rename_i st2 e he; rw [he] at h1; exact h1.1
      · rename_i st2 he
        rw [he] at h1
        have h2 := reshapeNd_cleared st2 (st2.grad v) shape (if prod (st.vshape v) = prod shape then false else true) (s := s) (lt_of_lt_of_le hs h1.2)
        rw [h2.1]; exact h1.1
    · rfl
  | viewVar v =>
    left; show (if _ then _ else _ : St).cleared s = _; split
    · have hn : (newVar st (st.vshape v)).cleared s = st.cleared s := by
        show put (put st.cleared st.nSyn false) (st.nSyn + 1) false s = _
        rw [put_other _ _ (by omega), put_other _ _ (by omega)]
      have h1 := setData_cleared (newVar st (st.vshape v)) st.nVar ((newVar st (st.vshape v)).data v)
      unfold viewVar
      simp only
      split
      · rename_i st2 e he; rw [he] at h1; rw [h1]; exact hn
      · rename_i st2 he
        rw [he] at h1
        rw [setGrad_cleared, h1]; exact hn
    · rfl
  | freeVar v => left; show (if _ then _ else _ : St).cleared s = _; split <;> rfl
  | newCg v => left; show (if _ then _ else _ : St).cleared s = _; split <;> rfl
  | setVariable c v => left; show (if _ then _ else _ : St).cleared s = _; split <;> rfl
  | freeCg c => left; show (if _ then _ else _ : St).cleared s = _; split <;> rfl
  | newPy c => left; show (if _ then _ else _ : St).cleared s = _; split <;> rfl
  | setVar p c => left; show (if _ then _ else _ : St).cleared s = _; split <;> rfl
  | delPy p e =>
    by_cases hp : livePy st p
    · have : (step st (.delPy p e)).cleared s = (clearDuringAutoForward st p e).1.cleared s := by
        show (if _ then _ else _ : St).cleared s = _
        rw [if_pos hp]; rfl
      rw [this]
      rcases clear_spec st p e s with h | h
      · exact Or.inl h
      · exact Or.inr ⟨p, e, rfl, hp, h⟩
    · left; show (if _ then _ else _ : St).cleared s = _; rw [if_neg hp]

/-- C126(b): in every history, memory s is cleared by an operation only if the operation is the destruction of a Python Variable in
auto-forward mode and no other Python Variable uses that memory. -/
theorem C126_clears_only_unused (ops : List Op) (op : Op) (s : Nat) (hs : s < (run ops).nSyn)
    (hc : (step (run ops) op).cleared s ≠ (run ops).cleared s) :
    ∃ p e, op = .delPy p e ∧ livePy (run ops) p ∧ s = arrOf (run ops) p ∧ e.auto = true ∧ e.persistent = false ∧ e.gradDep = false ∧
      ∀ q, livePy (run ops) q → SameMemory (run ops) p q → q = p := by
  rcases step_cleared (run ops) op s hs with h | ⟨p, e, h1, hp, h3, h4, h5, h6, h7, h8, h9⟩
  · exact absurd h hc
  · refine ⟨p, e, h1, hp, h3, h5, h6, h8, ?_⟩
    intro q hq hsm
    rw [C126_number_of_references ops p hp] at h4
    have hcard : (usersOf (run ops) (root (run ops) (arrOf (run ops) p))).card ≤ 1 := by omega
    have mq : q ∈ usersOf (run ops) (root (run ops) (arrOf (run ops) p)) := by
      unfold usersOf; simp only [Finset.mem_filter, Finset.mem_range]; exact ⟨hq.1, hq.2, hsm.symm⟩
    have mp : p ∈ usersOf (run ops) (root (run ops) (arrOf (run ops) p)) := by
      unfold usersOf; simp only [Finset.mem_filter, Finset.mem_range]; exact ⟨hp.1, hp.2, trivial⟩
    exact Finset.card_le_one.1 hcard q mq p mp

/-- C126(b'): memory that is part of a larger array, or of which a live NdArray is a narrowed part, is never cleared. -/
theorem C126_family_not_cleared (ops : List Op) (op : Op) (s : Nat) (hs : s < (run ops).nSyn)
    (hc : (step (run ops) op).cleared s ≠ (run ops).cleared s) :
    ((run ops).path s).length ≤ 1 ∧ ∀ d, liveNd (run ops) d → s ∉ ((run ops).path ((run ops).arr d)).tail := by
  rcases step_cleared (run ops) op s hs with h | ⟨p, e, h1, hp, h3, h4, h5, h6, h7, h8, h9⟩
  · exact absurd h hc
  · unfold hasFamily at h9
    rw [Bool.or_eq_false_iff] at h9
    refine ⟨by simpa using h9.1, fun d hd hm => ?_⟩
    have := (List.any_eq_false.1 h9.2) d (List.mem_range.2 hd.1)
    simp [hd.2, hm] at this

/-- A live narrowed part: the Variable behind it is destroyed and the memory stays. -/
example : (run [.newVar [6], .newCg 0, .newPy 0, .narrowNd 0 1 2, .delPy 0 { auto := true, persistent := false, parent := true, gradDep := false }]).cleared 0 = false ∧
    (run [.newVar [6], .newCg 0, .newPy 0, .delPy 0 { auto := true, persistent := false, parent := true, gradDep := false }]).cleared 0 = true := by decide

/-- C126(c): and it is released when the last Python Variable that uses it is destroyed in auto-forward mode (not persistent, made by a
function, not needed by backward, not narrowed). -/
theorem C126_last_reference_clears (ops : List Op) (p : Nat) (e : Env) (hp : livePy (run ops) p)
    (hlast : ∀ q, livePy (run ops) q → SameMemory (run ops) p q → q = p)
    (ha : e.auto = true) (hper : e.persistent = false) (hpar : e.parent = true) (hg : e.gradDep = false)
    (hnar : ((run ops).path (arrOf (run ops) p)).length ≤ 1)
    (hpart : ∀ d, liveNd (run ops) d → arrOf (run ops) p ∉ ((run ops).path ((run ops).arr d)).tail) :
    (step (run ops) (.delPy p e)).cleared (arrOf (run ops) p) = true := by
  have hf : hasFamily (run ops) (arrOf (run ops) p) = false := by
    unfold hasFamily
    rw [Bool.or_eq_false_iff]
    refine ⟨by simpa using hnar, List.any_eq_false.2 fun d hd h => ?_⟩
    simp only [Bool.and_eq_true, decide_eq_true_eq] at h
    exact hpart d ⟨List.mem_range.1 hd, h.1⟩ h.2
  have hcard : (usersOf (run ops) (root (run ops) (arrOf (run ops) p))).card ≤ 1 := by
    apply Finset.card_le_one.2
    intro a ha b hb
    unfold usersOf at ha hb
    simp only [Finset.mem_filter, Finset.mem_range] at ha hb
    rw [hlast a ⟨ha.1, ha.2.1⟩ ha.2.2.symm, hlast b ⟨hb.1, hb.2.1⟩ hb.2.2.symm]
  have hn := C126_number_of_references ops p hp
  show (if _ then _ else _ : St).cleared _ = _
  rw [if_pos hp]
  show (clearDuringAutoForward (run ops) p e).1.cleared _ = true
  unfold clearDuringAutoForward
  rw [if_neg (by simp [ha, hper, hpar]), if_pos ⟨by rw [hn]; omega, hg⟩, if_neg (by simp [hf])]
  exact put_same _ _ _

/-- Two Python Variables share an array through view: both counters say 2; after one is destroyed nothing is cleared, after the second
the array is. -/
def demo : List Op :=
  [.newVar [2, 3], .newCg 0, .newPy 0, .viewVar 0, .newCg 1, .newPy 1, .newVar [4], .newCg 2, .newPy 2]

def autoEnv : Env := { auto := true, persistent := false, parent := true, gradDep := false }

example : numberOfReferences (run demo) 0 = 2 ∧ numberOfReferences (run demo) 1 = 2 ∧ numberOfReferences (run demo) 2 = 1 := by decide
example : (run (demo ++ [.delPy 0 autoEnv])).cleared 0 = false ∧ (run (demo ++ [.delPy 0 autoEnv, .delPy 1 autoEnv])).cleared 0 = true := by decide
example : livePy (run (demo ++ [.delPy 0 autoEnv])) 1 ∧ SameMemory (run demo) 0 1 ∧ ¬ SameMemory (run demo) 0 2 := by decide

/-- C126, refuted part: a Python NdArray object obtained from the Variable (v.data) is not counted. In auto-forward mode, memory the user
still holds through it is cleared when the Variable object goes away. -/
theorem C126_refuted_ndarray_not_counted :
    ∃ (ops : List Op) (op : Op) (d : Nat), liveNd (run ops) d ∧ (run ops).held d = true ∧
      (run ops).cleared ((run ops).arr d) = false ∧ (step (run ops) op).cleared ((run ops).arr d) = true := by
  refine ⟨[.newVar [2, 3], .newCg 0, .newPy 0, .hold 0 true], .delPy 0 autoEnv, 0, ?_⟩
  decide

/-! ### C127: shapes and storage -/

/-- C127(a): in every history, the number of elements of every NdArray equals the size of the array behind it. -/
theorem C127_size (ops : List Op) (d : Nat) (hd : liveNd (run ops) d) :
    prod ((run ops).nshape d) = (run ops).ssize ((run ops).arr d) := (run_I ops).size d hd.2

/-- C127(b): NdArray.reshape. Same number of elements: the array is kept. Another number: without force, or on a narrowed NdArray, an
error and nothing changes; with force, d gets an array no other NdArray uses and the others keep theirs. -/
theorem C127_reshape (ops : List Op) (d : Nat) (hd : liveNd (run ops) d) (shape : Shape) (force : Bool) :
    let st := run ops
    let r := reshapeNd st d shape force
    (prod (st.nshape d) = prod shape → r.2 = none ∧ r.1.nshape d = shape ∧ r.1.arr = st.arr ∧ ∀ d', d' ≠ d → r.1.nshape d' = st.nshape d') ∧
    (prod (st.nshape d) ≠ prod shape → (force = false ∨ 1 < (st.path (st.arr d)).length) → r.2 ≠ none ∧ r.1 = st) ∧
    (prod (st.nshape d) ≠ prod shape → force = true → (st.path (st.arr d)).length ≤ 1 →
      r.2 = none ∧ r.1.nshape d = shape ∧ (∀ d', liveNd st d' → d' ≠ d → r.1.arr d' = st.arr d' ∧ r.1.nshape d' = st.nshape d') ∧
      (∀ d', liveNd st d' → st.arr d' ≠ r.1.arr d) ∧ r.1.ssize (r.1.arr d) = prod shape ∧ root r.1 (r.1.arr d) = r.1.arr d) := by
  intro st r
  have hI := run_I ops
  refine ⟨?_, ?_, ?_⟩
  · intro hp
    by_cases h1 : st.nshape d = shape
    · have : r = (st, none) := by show reshapeNd st d shape force = _; unfold reshapeNd; rw [if_pos h1]
      rw [this]; exact ⟨rfl, h1, rfl, fun _ _ => rfl⟩
    · have : r = ({ st with nshape := put st.nshape d shape }, none) := by
        show reshapeNd st d shape force = _; unfold reshapeNd; rw [if_neg h1, if_pos hp]
      rw [this]; exact ⟨rfl, put_same _ _ _, rfl, fun d' h' => put_other _ _ h'⟩
  · intro hp hor
    have h1 : st.nshape d ≠ shape := fun h => hp (by rw [h])
    rcases hor with hf | hnar
    · have : r = (st, some "Total dimensions not match.") := by
        show reshapeNd st d shape force = _; unfold reshapeNd; rw [if_neg h1, if_neg hp, if_pos (by simp [hf])]
      rw [this]; exact ⟨by simp, rfl⟩
    · by_cases hf : (!force) = true
      · have : r = (st, some "Total dimensions not match.") := by
          show reshapeNd st d shape force = _; unfold reshapeNd; rw [if_neg h1, if_neg hp, if_pos hf]
        rw [this]; exact ⟨by simp, rfl⟩
      · have : r = (st, some "Narrowed NdArray does not allow reshape to change size.") := by
          show reshapeNd st d shape force = _; unfold reshapeNd; rw [if_neg h1, if_neg hp, if_neg hf, if_pos hnar]
        rw [this]; exact ⟨by simp, rfl⟩
  · intro hp hf hnar
    have h1 : st.nshape d ≠ shape := fun h => hp (by rw [h])
    have hr : r = setArray (newSyn { st with nshape := put st.nshape d shape } (prod shape)) d st.nSyn := by
      show reshapeNd st d shape force = _; unfold reshapeNd
      rw [if_neg h1, if_neg hp, if_neg (by simp [hf]), if_neg (by omega)]
    have hsz : ¬ prod ((newSyn { st with nshape := put st.nshape d shape } (prod shape)).nshape d) ≠
        (newSyn { st with nshape := put st.nshape d shape } (prod shape)).ssize st.nSyn := by
      show ¬ prod (put st.nshape d shape d) ≠ put st.ssize st.nSyn (prod shape) st.nSyn
      rw [put_same, put_same]; simp
    unfold setArray at hr
    rw [if_neg hsz] at hr
    rw [hr]
    refine ⟨rfl, put_same _ _ _, ?_, ?_, ?_, ?_⟩
    · intro d' _ hne
      exact ⟨put_other _ _ hne, put_other _ _ hne⟩
    · intro d' hl
      have := hI.arr_lt d' hl.2
      show st.arr d' ≠ put st.arr d st.nSyn d
      rw [put_same]; exact this.ne
    · show put st.ssize st.nSyn (prod shape) (put st.arr d st.nSyn d) = _
      rw [put_same, put_same]
    · show (put st.path st.nSyn [st.nSyn] (put st.arr d st.nSyn d)).getLastD (put st.arr d st.nSyn d) = put st.arr d st.nSyn d
      rw [put_same, put_same]; rfl

example : liveNd (run demo) 0 ∧ prod ((run demo).nshape 0) = prod [3, 2] ∧ prod ((run demo).nshape 0) ≠ prod [7] ∧
    ((run demo).path ((run demo).arr 0)).length ≤ 1 ∧
    (run (demo ++ [.reshapeNd 0 [7] true])).arr 0 = 6 ∧ (run (demo ++ [.narrowNd 0 0 1])).nshape 6 = [1, 3] := by decide
example : 1 < ((run (demo ++ [.narrowNd 0 0 1])).path ((run (demo ++ [.narrowNd 0 0 1])).arr 6)).length := by decide

/-- C127(c): NdArray.view returns an NdArray over the same array, whenever the number of elements is the same, and fails otherwise. -/
theorem C127_view (ops : List Op) (d : Nat) (hd : liveNd (run ops) d) (shape : Shape) :
    let st := run ops
    let r := viewNd st d shape
    (prod shape = prod (st.nshape d) → r.2 = none ∧ liveNd r.1 st.nNd ∧ r.1.arr st.nNd = r.1.arr d ∧ r.1.arr d = st.arr d ∧
      r.1.nshape st.nNd = shape ∧ r.1.nshape d = st.nshape d) ∧
    (prod shape ≠ prod (st.nshape d) → r.2 ≠ none ∧ r.1 = st) := by
  intro st r
  have hsz : st.ssize (st.arr d) = prod (st.nshape d) := (C127_size ops d hd).symm
  constructor
  · intro hp
    have : r = (addNd st (st.arr d) shape, none) := by
      show viewNd st d shape = _; unfold viewNd; rw [if_neg (by rw [hsz, hp]; simp)]
    rw [this]
    have hne : d ≠ st.nNd := hd.1.ne
    refine ⟨rfl, ⟨Nat.lt_succ_self _, put_same _ _ _⟩, ?_, put_other _ _ hne, put_same _ _ _, put_other _ _ hne⟩
    show put st.arr st.nNd (st.arr d) st.nNd = put st.arr st.nNd (st.arr d) d
    rw [put_same, put_other _ _ hne]
  · intro hp
    have : r = (st, some "The total size of array must be the same as the shape.") := by
      show viewNd st d shape = _; unfold viewNd; rw [if_pos (by rw [hsz]; exact Ne.symm hp)]
    rw [this]; exact ⟨by simp, rfl⟩

/-- Specification: the shape of a Variable is that of its data and of its grad. -/
def Agree (st : St) (v : Nat) : Prop := st.nshape (st.data v) = st.vshape v ∧ st.nshape (st.grad v) = st.vshape v

instance (st : St) (v : Nat) : Decidable (Agree st v) := by unfold Agree; infer_instance

/-- Specification: operation op, performed in st, changes the shape of the data or grad of v behind its back: a direct reshape of the
NdArray, or a reshape of another Variable that holds it. -/
def ReshapesBehind (st : St) (v : Nat) : Op → Prop
  | .reshapeNd d _ _ => d = st.data v ∨ d = st.grad v
  | .reshapeVar w _ _ => w ≠ v ∧ (st.data w = st.data v ∨ st.data w = st.grad v ∨ st.grad w = st.data v ∨ st.grad w = st.grad v)
  | _ => False

/-- Specification: op is a reshape of v that raises an exception. -/
def FailedReshape (st : St) (v : Nat) : Op → Prop
  | .reshapeVar w s f => w = v ∧ (reshapeVar st v s f).2 ≠ none
  | _ => False

theorem reshapeNd_nshape (st : St) (d : Nat) (shape : Shape) (force : Bool) :
    (∀ d', d' ≠ d → (reshapeNd st d shape force).1.nshape d' = st.nshape d') ∧
    ((reshapeNd st d shape force).2 = none → (reshapeNd st d shape force).1.nshape d = shape) := by
  unfold reshapeNd
  by_cases h1 : st.nshape d = shape
  · rw [if_pos h1]; exact ⟨fun _ _ => rfl, fun _ => h1⟩
  rw [if_neg h1]
  by_cases h2 : prod (st.nshape d) = prod shape
  · rw [if_pos h2]; exact ⟨fun _ h => put_other _ _ h, fun _ => put_same _ _ _⟩
  rw [if_neg h2]
  by_cases h3 : (!force) = true
  · rw [if_pos h3]; exact ⟨fun _ _ => rfl, fun h => by simp at h⟩
  rw [if_neg h3]
  by_cases h4 : (st.path (st.arr d)).length > 1
  · rw [if_pos h4]; exact ⟨fun _ _ => rfl, fun h => by simp at h⟩
  rw [if_neg h4]
  unfold setArray
  split
  · exact ⟨fun _ h => put_other _ _ h, fun h => by simp at h⟩
  · exact ⟨fun _ h => put_other _ _ h, fun _ => put_same _ _ _⟩

theorem reshapeVar_shapes (st : St) (w : Nat) (shape : Shape) (force : Bool) :
    (reshapeVar st w shape force).1.data = st.data ∧ (reshapeVar st w shape force).1.grad = st.grad ∧
    (∀ v, v ≠ w → (reshapeVar st w shape force).1.vshape v = st.vshape v) ∧
    (∀ d, d ≠ st.data w → d ≠ st.grad w → (reshapeVar st w shape force).1.nshape d = st.nshape d) ∧
    (Agree st w → (reshapeVar st w shape force).2 = none → (reshapeVar st w shape force).1.vshape w = shape ∧
      (reshapeVar st w shape force).1.nshape (st.data w) = shape ∧ (reshapeVar st w shape force).1.nshape (st.grad w) = shape) := by
  unfold reshapeVar
  by_cases h1 : st.vshape w = shape
  · rw [if_pos h1]
    exact ⟨rfl, rfl, fun _ _ => rfl, fun _ _ _ => rfl, fun ha _ => ⟨h1, ha.1.trans h1, ha.2.trans h1⟩⟩
  rw [if_neg h1]
  by_cases h2 : prod (st.vshape w) ≠ prod shape ∧ force = false
  · rw [if_pos h2]
    exact ⟨rfl, rfl, fun _ _ => rfl, fun _ _ _ => rfl, fun _ h => by simp at h⟩
  rw [if_neg h2]
  simp only
  generalize (if prod (st.vshape w) = prod shape then false else true) = f
  have hn := reshapeNd_nshape { st with vshape := put st.vshape w shape } (st.data w) shape f
  have hf := reshapeNd_fields { st with vshape := put st.vshape w shape } (st.data w) shape f
  generalize ho : reshapeNd { st with vshape := put st.vshape w shape } (st.data w) shape f = o at hn hf
  obtain ⟨st2, r2⟩ := o
  obtain ⟨_, f2, f3, _, f5, _, _⟩ := hf
  simp only at f2 f3 f5
  cases r2 with
  | some e =>
    simp only
    refine ⟨f2, f3, ?_, ?_, fun _ h => by simp at h⟩
    · intro v hv; rw [f5]; exact put_other _ _ hv
    · intro d hd _; exact hn.1 d hd
  | none =>
    simp only
    have hn2 := reshapeNd_nshape st2 (st2.grad w) shape f
    obtain ⟨_, g2, g3, _, g5, _, _⟩ := reshapeNd_fields st2 (st2.grad w) shape f
    refine ⟨g2.trans f2, g3.trans f3, ?_, ?_, ?_⟩
    · intro v hv; rw [g5, f5]; exact put_other _ _ hv
    · intro d hd hg
      rw [hn2.1 d (by rw [f3]; exact hg)]; exact hn.1 d hd
    · intro _ hok
      refine ⟨by rw [g5, f5]; exact put_same _ _ _, ?_, ?_⟩
      · by_cases hdg : st.data w = st.grad w
        · have := hn2.2 hok
          have f3w : st2.grad w = st.grad w := by rw [f3]
          rw [f3w] at this ⊢; rw [hdg]; exact this
        · rw [hn2.1 _ (by rw [f3]; exact hdg)]; exact hn.2 rfl
      · have := hn2.2 hok
        have f3w : st2.grad w = st.grad w := by rw [f3]
        rw [f3w] at this ⊢; exact this

theorem setData_agree {st : St} {v w d : Nat} (h : Agree st v) : Agree (setData st w d).1 v := by
  unfold setData
  by_cases hs : st.nshape d ≠ st.vshape w
  · rw [if_pos hs]; exact h
  rw [if_neg hs]; push Not at hs
  refine ⟨?_, h.2⟩
  show st.nshape (put st.data w d v) = st.vshape v
  by_cases hvw : v = w
  · subst hvw; rw [put_same]; exact hs
  · rw [put_other _ _ hvw]; exact h.1

theorem setGrad_agree {st : St} {v w d : Nat} (h : Agree st v) : Agree (setGrad st w d).1 v := by
  unfold setGrad
  by_cases hs : st.nshape d ≠ st.vshape w
  · rw [if_pos hs]; exact h
  rw [if_neg hs]; push Not at hs
  refine ⟨h.1, ?_⟩
  show st.nshape (put st.grad w d v) = st.vshape v
  by_cases hvw : v = w
  · subst hvw; rw [put_same]; exact hs
  · rw [put_other _ _ hvw]; exact h.2

theorem addNd_agree {st : St} (hI : Inv st) {v : Nat} (hv : liveVar st v) (h : Agree st v) (s : Nat) (shape : Shape) : Agree (addNd st s shape) v := by
  have h1 := (hI.nl _ (hI.data_l v hv.2)).ne
  have h2 := (hI.nl _ (hI.grad_l v hv.2)).ne
  exact ⟨(put_other _ _ h1).trans h.1, (put_other _ _ h2).trans h.2⟩

theorem newVar_agree {st : St} (hI : Inv st) {v : Nat} (hv : liveVar st v) (h : Agree st v) (shape : Shape) : Agree (newVar st shape) v := by
  have h1 := (hI.nl _ (hI.data_l v hv.2))
  have h2 := (hI.nl _ (hI.grad_l v hv.2))
  have hn := hv.1.ne
  constructor
  · show put (put st.nshape st.nNd shape) (st.nNd + 1) shape (put st.data st.nVar st.nNd v) = put st.vshape st.nVar shape v
    rw [put_other _ _ hn, put_other _ _ hn, put_other _ _ (by omega), put_other _ _ (by omega)]; exact h.1
  · show put (put st.nshape st.nNd shape) (st.nNd + 1) shape (put st.grad st.nVar (st.nNd + 1) v) = put st.vshape st.nVar shape v
    rw [put_other _ _ hn, put_other _ _ hn, put_other _ _ (by omega), put_other _ _ (by omega)]; exact h.2

/-- C127(d): a Variable whose shape is that of its data and grad keeps this through every operation of every history, unless its data or
grad are reshaped behind its back, or its own reshape raises an exception. -/
theorem C127_agree_partial (ops : List Op) (op : Op) (v : Nat) (hv : liveVar (run ops) v) (h : Agree (run ops) v)
    (hb : ¬ ReshapesBehind (run ops) v op) (hf : ¬ FailedReshape (run ops) v op) : Agree (step (run ops) op) v := by
  have hI := run_I ops
  generalize run ops = st at *
  cases op with
  | newNd shape => exact addNd_agree (newSyn_I hI _) hv h _ _
  | viewNd d shape =>
    show Agree (if _ then _ else _) v; split
    · unfold viewNd; split
      · exact h
      · exact addNd_agree hI hv h _ _
    · exact h
  | narrowNd d a b =>
    show Agree (if _ then _ else _) v; split
    · rename_i hd
      unfold narrowNd; split
      · exact h
      · split
        · exact addNd_agree (newChild_I hI (hI.arr_lt d hd.2) _) hv h _ _
        · exact h
    · exact h
  | setArray d d' =>
    show Agree (if _ then _ else _) v; split
    · unfold setArray; split <;> exact h
    · exact h
  | reshapeNd d shape force =>
    show Agree (if _ then _ else _) v; split
    · simp only [ReshapesBehind, not_or] at hb
      have hn := (reshapeNd_nshape st d shape force).1
      obtain ⟨_, f2, f3, _, f5, _, _⟩ := reshapeNd_fields st d shape force
      refine ⟨?_, ?_⟩
      · rw [f2, f5, hn _ (Ne.symm hb.1)]; exact h.1
      · rw [f3, f5, hn _ (Ne.symm hb.2)]; exact h.2
    · exact h
  | hold d b => show Agree (if _ then _ else _) v; split <;> exact h
  | freeNd d => show Agree (if _ then _ else _) v; split <;> exact h
  | newVar shape => exact newVar_agree hI hv h shape
  | varFrom d =>
    show Agree (if _ then _ else _) v; split
    · have h1 := (hI.nl _ (hI.data_l v hv.2))
      have h2 := (hI.nl _ (hI.grad_l v hv.2))
      have hn := hv.1.ne
      constructor
      · show put st.nshape st.nNd _ (put st.data st.nVar _ v) = put st.vshape st.nVar _ v
        rw [put_other _ _ hn, put_other _ _ hn, put_other _ _ (by omega)]; exact h.1
      · show put st.nshape st.nNd _ (put st.grad st.nVar _ v) = put st.vshape st.nVar _ v
        rw [put_other _ _ hn, put_other _ _ hn, put_other _ _ (by omega)]; exact h.2
    · exact h
  | setData w d =>
    show Agree (if _ then _ else _) v; split
    · exact setData_agree h
    · exact h
  | setGrad w d =>
    show Agree (if _ then _ else _) v; split
    · exact setGrad_agree h
    · exact h
  | reshapeVar w shape force =>
    show Agree (if _ then _ else _) v; split
    · obtain ⟨f1, f2, f3, f4, f5⟩ := reshapeVar_shapes st w shape force
      by_cases hvw : v = w
      · subst hvw
        have hok : (reshapeVar st v shape force).2 = none := by
          by_contra hne; exact hf ⟨rfl, hne⟩
        obtain ⟨g1, g2, g3⟩ := f5 h hok
        exact ⟨by rw [f1, g1, g2], by rw [f2, g1, g3]⟩
      · simp only [ReshapesBehind, not_and, not_or] at hb
        obtain ⟨b1, b2, b3, b4⟩ := hb (Ne.symm hvw)
        refine ⟨?_, ?_⟩
        · rw [f1, f3 v hvw, f4 _ (Ne.symm b1) (Ne.symm b3)]; exact h.1
        · rw [f2, f3 v hvw, f4 _ (Ne.symm b2) (Ne.symm b4)]; exact h.2
    · exact h
  | viewVar w =>
    show Agree (if _ then _ else _) v; split
    · have h0 := newVar_agree hI hv h (st.vshape w)
      have h1 := setData_agree (w := st.nVar) (d := (newVar st (st.vshape w)).data w) h0
      unfold viewVar
      simp only
      split
      · rename_i st2 e he; rw [he] at h1; exact h1
      · rename_i st2 he; rw [he] at h1; exact setGrad_agree h1
    · exact h
  | freeVar w => show Agree (if _ then _ else _) v; split <;> exact h
  | newCg w => show Agree (if _ then _ else _) v; split <;> exact h
  | setVariable c w => show Agree (if _ then _ else _) v; split <;> exact h
  | freeCg c => show Agree (if _ then _ else _) v; split <;> exact h
  | newPy c => show Agree (if _ then _ else _) v; split <;> exact h
  | setVar p c => show Agree (if _ then _ else _) v; split <;> exact h
  | delPy p e =>
    show Agree (if _ then _ else _) v; split
    · obtain ⟨_, _, c3, c4, c5, c6, _⟩ := clear_fields st p e
      unfold delPy
      simp only
      generalize (clearDuringAutoForward st p e).1 = st1 at *
      show st1.nshape (st1.data v) = st1.vshape v ∧ st1.nshape (st1.grad v) = st1.vshape v
      rw [c3, c4, c5, c6]; exact h
    · exact h

/-- C127(e): a Variable made from a shape, and one made from an NdArray, starts that way. -/
theorem C127_new_agree (ops : List Op) (shape : Shape) :
    liveVar (run (ops ++ [.newVar shape])) (run ops).nVar ∧ Agree (run (ops ++ [.newVar shape])) (run ops).nVar ∧
    (run (ops ++ [.newVar shape])).vshape (run ops).nVar = shape := by
  unfold run
  rw [List.foldl_append]
  generalize List.foldl step St.init ops = st
  show liveVar (newVar st shape) st.nVar ∧ Agree (newVar st shape) st.nVar ∧ (newVar st shape).vshape st.nVar = shape
  refine ⟨⟨Nat.lt_succ_self _, put_same _ _ _⟩, ⟨?_, ?_⟩, put_same _ _ _⟩
  · show put (put st.nshape st.nNd shape) (st.nNd + 1) shape (put st.data st.nVar st.nNd st.nVar) = put st.vshape st.nVar shape st.nVar
    rw [put_same, put_same, put_other _ _ (by omega), put_same]
  · show put (put st.nshape st.nNd shape) (st.nNd + 1) shape (put st.grad st.nVar (st.nNd + 1) st.nVar) = put st.vshape st.nVar shape st.nVar
    rw [put_same, put_same, put_same]

example : liveVar (run demo) 2 ∧ Agree (run demo) 2 ∧ ¬ ReshapesBehind (run demo) 2 (.reshapeVar 0 [6] false) := by
  refine ⟨by decide, by decide, ?_⟩
  simp only [ReshapesBehind]; decide

/-- C127, refuted part 1: view() of a Variable shares its NdArrays; reshaping the view leaves the original with a shape different from
that of its data. -/
theorem C127_refuted_view : ∃ (ops : List Op) (v : Nat), liveVar (run ops) v ∧ ¬ Agree (run ops) v ∧
    ∃ w, ops = [.newVar [2, 3], .viewVar v, .reshapeVar w [6] false] :=
  ⟨[.newVar [2, 3], .viewVar 0, .reshapeVar 1 [6] false], 0, by decide, by decide, 1, rfl⟩

/-- C127, refuted part 2: reset_shape(force) of a Variable with narrowed data raises an exception and leaves the Variable with the new
shape and the data with the old one. -/
theorem C127_refuted_failed_reshape : ∃ (ops : List Op) (v : Nat) (shape : Shape), liveVar (run ops) v ∧ Agree (run ops) v ∧
    (reshapeVar (run ops) v shape true).2 ≠ none ∧ (reshapeVar (run ops) v shape true).1.vshape v = shape ∧
    ¬ Agree (reshapeVar (run ops) v shape true).1 v :=
  ⟨[.newNd [2, 3], .narrowNd 0 0 1, .varFrom 1], 0, [5], by decide, by decide, by decide, by decide, by decide⟩

end Verif.Store
