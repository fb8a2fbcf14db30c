import Verif.Store.Model
import Verif.ND.Props
import Mathlib.Algebra.BigOperators.Ring.Finset
import Mathlib.Algebra.BigOperators.Group.Finset.Basic
import Mathlib.Algebra.BigOperators.Group.Finset.Sigma
import Mathlib.Tactic.Linarith
/-
Invariant of the storage objects: every counter equals the sum of the counters one level above.
-/
namespace Verif.Store
open Verif.Fn Verif.ND

theorem sum_upd {n j : Nat} (f g : Nat → Int) (hj : j < n) (h : ∀ i, i < n → i ≠ j → g i = f i) :
    (Finset.range n).sum g = (Finset.range n).sum f + (g j - f j) := by
  have hm : j ∈ Finset.range n := Finset.mem_range.2 hj
  rw [← Finset.add_sum_erase _ g hm, ← Finset.add_sum_erase _ f hm]
  have : ((Finset.range n).erase j).sum g = ((Finset.range n).erase j).sum f :=
    Finset.sum_congr rfl fun i hi => h i (Finset.mem_range.1 (Finset.mem_of_mem_erase hi)) (Finset.ne_of_mem_erase hi)
  rw [this]; ring

theorem sum_same {n : Nat} (f g : Nat → Int) (h : ∀ i, i < n → g i = f i) :
    (Finset.range n).sum g = (Finset.range n).sum f :=
  Finset.sum_congr rfl fun i hi => h i (Finset.mem_range.1 hi)

/-- The contribution of index i to a sum restricted to a condition. -/
def sel (p : Prop) [Decidable p] (x : Int) : Int := if p then x else 0

theorem sum_chain {n m : Nat} (L P : Nat → Prop) [DecidablePred L] [DecidablePred P] (M : Nat → Prop) [DecidablePred M]
    (f : Nat → Nat) (w c : Nat → Int) (hM : ∀ j, M j → f j < n ∧ L (f j))
    (hc : ∀ i, L i → c i = (Finset.range m).sum fun j => sel (M j ∧ f j = i) (w j)) :
    ((Finset.range n).sum fun i => sel (L i ∧ P i) (c i)) = (Finset.range m).sum fun j => sel (M j ∧ P (f j)) (w j) := by
  have h1 : ∀ i ∈ Finset.range n, sel (L i ∧ P i) (c i) = (Finset.range m).sum fun j => sel ((L i ∧ P i) ∧ M j ∧ f j = i) (w j) := by
    intro i _
    by_cases hi : L i ∧ P i
    · simp only [sel, hc i hi.1, hi, true_and, and_self, if_true]
    · simp only [sel, hi, if_false, false_and, Finset.sum_const_zero]
  rw [Finset.sum_congr rfl h1, Finset.sum_comm]
  apply Finset.sum_congr rfl
  intro j _
  by_cases hj : M j
  · rw [Finset.sum_eq_single (f j)]
    · by_cases hP : P (f j)
      · simp [sel, hj, hP, (hM j hj).2]
      · simp [sel, hP]
    · intro i _ hne
      have : ¬ ((L i ∧ P i) ∧ M j ∧ f j = i) := fun hh => hne hh.2.2.symm
      simp only [sel, if_neg this]
    · intro hn; exact absurd (Finset.mem_range.2 (hM j hj).1) hn
  · simp [sel, hj]

/-- Structural part of the invariant. -/
structure WF (st : St) : Prop where
  nl : ∀ d, st.nlive d = true → d < st.nNd
  vl : ∀ v, st.vlive v = true → v < st.nVar
  cl : ∀ c, st.clive c = true → c < st.nCg
  pl : ∀ p, st.plive p = true → p < st.nPy
  arr_lt : ∀ d, st.nlive d = true → st.arr d < st.nSyn
  data_l : ∀ v, st.vlive v = true → st.nlive (st.data v) = true
  grad_l : ∀ v, st.vlive v = true → st.nlive (st.grad v) = true
  var_l : ∀ c, st.clive c = true → st.vlive (st.var c) = true
  pvar_l : ∀ p, st.plive p = true → st.clive (st.pvar p) = true
  size : ∀ d, st.nlive d = true → prod (st.nshape d) = st.ssize (st.arr d)
  path_hd : ∀ s, s < st.nSyn → ∃ t, st.path s = s :: t
  path_lt : ∀ s, s < st.nSyn → ∀ a ∈ st.path s, a < st.nSyn
  path_suf : ∀ s, s < st.nSyn → ∀ a ∈ st.path s, st.path a <:+ st.path s

/-- The invariant with offsets. -/
structure I (st : St) (eN eV eC : Nat → Int) : Prop extends WF st where
  s : ∀ a, a < st.nSyn → st.scount a = (Finset.range st.nNd).sum fun d => sel (st.nlive d = true ∧ a ∈ st.path (st.arr d)) (st.ncount d)
  n : ∀ d, st.nlive d = true → st.ncount d = ((Finset.range st.nVar).sum fun v => sel (st.vlive v = true ∧ st.data v = d) (st.vcount v)) + eN d
  v : ∀ v, st.vlive v = true → st.vcount v = ((Finset.range st.nCg).sum fun c => sel (st.clive c = true ∧ st.var c = v) (st.ccount c)) + eV v
  c : ∀ c, st.clive c = true → st.ccount c = ((Finset.range st.nPy).sum fun p => sel (st.plive p = true ∧ st.pvar p = c) 1) + eC c

/-- Offset e changed by x at d. -/
def addAt (e : Nat → Int) (d : Nat) (x : Int) : Nat → Int := fun i => e i + if i = d then x else 0

theorem updNd_I {st eN eV eC} (h : I st eN eV eC) {d : Nat} (hd : st.nlive d = true) (x : Int) :
    I (updNd st d x) (addAt eN d x) eV eC := by
  refine { nl := h.nl, vl := h.vl, cl := h.cl, pl := h.pl, arr_lt := h.arr_lt, data_l := h.data_l, grad_l := h.grad_l, var_l := h.var_l,
           pvar_l := h.pvar_l, size := h.size, path_hd := h.path_hd, path_lt := h.path_lt, path_suf := h.path_suf, s := ?_, n := ?_, v := h.v, c := h.c }
  · intro a ha
    show (if a ∈ st.path (st.arr d) then st.scount a + x else st.scount a) = _
    show _ = (Finset.range st.nNd).sum fun i => sel (st.nlive i = true ∧ a ∈ st.path (st.arr i)) (put st.ncount d (st.ncount d + x) i)
    rw [sum_upd (fun i => sel (st.nlive i = true ∧ a ∈ st.path (st.arr i)) (st.ncount i)) _ (h.nl d hd) (by
        intro i _ hne
        rw [put_other _ _ hne]), ← h.s a ha, put_same]
    by_cases hm : a ∈ st.path (st.arr d)
    · simp [sel, hd, hm]
    · simp [sel, hm]
  · intro i hi
    show put st.ncount d (st.ncount d + x) i = _ + addAt eN d x i
    by_cases hid : i = d
    · subst hid
      rw [put_same, h.n i hi]; simp only [addAt, if_pos]
      rw [add_assoc]; rfl
    · rw [put_other _ _ hid, h.n i hi]; simp only [addAt, if_neg hid, add_zero]; rfl

theorem updVar_I {st eN eV eC} (h : I st eN eV eC) {v : Nat} (hv : st.vlive v = true) (x : Int) :
    I (updVar st v x) eN (addAt eV v x) eC := by
  have h1 : I { st with vcount := put st.vcount v (st.vcount v + x) } (addAt eN (st.data v) (-x)) (addAt eV v x) eC := by
    refine { nl := h.nl, vl := h.vl, cl := h.cl, pl := h.pl, arr_lt := h.arr_lt, data_l := h.data_l, grad_l := h.grad_l, var_l := h.var_l,
             pvar_l := h.pvar_l, size := h.size, path_hd := h.path_hd, path_lt := h.path_lt, path_suf := h.path_suf, s := h.s, n := ?_, v := ?_, c := h.c }
    · intro d hd
      show st.ncount d = ((Finset.range st.nVar).sum fun w => sel (st.vlive w = true ∧ st.data w = d) (put st.vcount v (st.vcount v + x) w)) + _
      rw [sum_upd (fun w => sel (st.vlive w = true ∧ st.data w = d) (st.vcount w)) _ (h.vl v hv) (by
        intro i _ hne; simp only [put_other _ _ hne]), h.n d hd, put_same]
      by_cases hdv : st.data v = d
      · simp only [sel, hv, hdv, addAt, true_and, if_true]; ring
      · simp only [sel, hv, hdv, addAt, and_false, if_false, if_neg (Ne.symm hdv)]; ring
    · intro w hw
      show put st.vcount v (st.vcount v + x) w = _ + addAt eV v x w
      by_cases hid : w = v
      · subst hid
        rw [put_same, h.v w hw]; simp only [addAt, if_pos]
        rw [add_assoc]
      · rw [put_other _ _ hid, h.v w hw]; simp only [addAt, if_neg hid, add_zero]
  have h2 := updNd_I h1 (d := st.data v) (h.data_l v hv) x
  have he : addAt (addAt eN (st.data v) (-x)) (st.data v) x = eN := by
    funext i; simp only [addAt]; split <;> ring
  rw [he] at h2; exact h2

theorem updCg_I {st eN eV eC} (h : I st eN eV eC) {c : Nat} (hc : st.clive c = true) (x : Int) :
    I (updCg st c x) eN eV (addAt eC c x) := by
  have h1 : I { st with ccount := put st.ccount c (st.ccount c + x) } eN (addAt eV (st.var c) (-x)) (addAt eC c x) := by
    refine { nl := h.nl, vl := h.vl, cl := h.cl, pl := h.pl, arr_lt := h.arr_lt, data_l := h.data_l, grad_l := h.grad_l, var_l := h.var_l,
             pvar_l := h.pvar_l, size := h.size, path_hd := h.path_hd, path_lt := h.path_lt, path_suf := h.path_suf, s := h.s, n := h.n, v := ?_, c := ?_ }
    · intro d hd
      show st.vcount d = ((Finset.range st.nCg).sum fun w => sel (st.clive w = true ∧ st.var w = d) (put st.ccount c (st.ccount c + x) w)) + _
      rw [sum_upd (fun w => sel (st.clive w = true ∧ st.var w = d) (st.ccount w)) _ (h.cl c hc) (by
        intro i _ hne; simp only [put_other _ _ hne]), h.v d hd, put_same]
      by_cases hdv : st.var c = d
      · simp only [sel, hc, hdv, addAt, true_and, if_true]; ring
      · simp only [sel, hc, hdv, addAt, and_false, if_false, if_neg (Ne.symm hdv)]; ring
    · intro w hw
      show put st.ccount c (st.ccount c + x) w = _ + addAt eC c x w
      by_cases hid : w = c
      · subst hid
        rw [put_same, h.c w hw]; simp only [addAt, if_pos]
        rw [add_assoc]
      · rw [put_other _ _ hid, h.c w hw]; simp only [addAt, if_neg hid, add_zero]
  have h2 := updVar_I h1 (v := st.var c) (h.var_l c hc) x
  have he : addAt (addAt eV (st.var c) (-x)) (st.var c) x = eV := by
    funext i; simp only [addAt]; split <;> ring
  rw [he] at h2; exact h2

/-! ### Relinking and dropping -/

theorem relinkData {st eN eV eC} (h : I st eN eV eC) {v d : Nat} (hv : st.vlive v = true) (hd : st.nlive d = true) :
    I { st with data := put st.data v d } (addAt (addAt eN (st.data v) (st.vcount v)) d (-st.vcount v)) eV eC := by
  refine { nl := h.nl, vl := h.vl, cl := h.cl, pl := h.pl, arr_lt := h.arr_lt, data_l := ?_, grad_l := h.grad_l, var_l := h.var_l,
           pvar_l := h.pvar_l, size := h.size, path_hd := h.path_hd, path_lt := h.path_lt, path_suf := h.path_suf, s := h.s, n := ?_, v := h.v, c := h.c }
  · intro w hw
    show st.nlive (put st.data v d w) = true
    by_cases hwv : w = v
    · subst hwv; rw [put_same]; exact hd
    · rw [put_other _ _ hwv]; exact h.data_l w hw
  · intro i hi
    show st.ncount i = ((Finset.range st.nVar).sum fun w => sel (st.vlive w = true ∧ put st.data v d w = i) (st.vcount w)) + _
    rw [sum_upd (fun w => sel (st.vlive w = true ∧ st.data w = i) (st.vcount w)) _ (h.vl v hv) (by
        intro j _ hne; simp only [put_other _ _ hne]), h.n i hi, put_same]
    simp only [sel, hv, true_and, addAt, eq_comm (a := i)]
    split <;> split <;> ring

theorem relinkVar {st eN eV eC} (h : I st eN eV eC) {c v : Nat} (hc : st.clive c = true) (hv : st.vlive v = true) :
    I { st with var := put st.var c v } eN (addAt (addAt eV (st.var c) (st.ccount c)) v (-st.ccount c)) eC := by
  refine { nl := h.nl, vl := h.vl, cl := h.cl, pl := h.pl, arr_lt := h.arr_lt, data_l := h.data_l, grad_l := h.grad_l, var_l := ?_,
           pvar_l := h.pvar_l, size := h.size, path_hd := h.path_hd, path_lt := h.path_lt, path_suf := h.path_suf, s := h.s, n := h.n, v := ?_, c := h.c }
  · intro w hw
    show st.vlive (put st.var c v w) = true
    by_cases hwv : w = c
    · subst hwv; rw [put_same]; exact hv
    · rw [put_other _ _ hwv]; exact h.var_l w hw
  · intro i hi
    show st.vcount i = ((Finset.range st.nCg).sum fun w => sel (st.clive w = true ∧ put st.var c v w = i) (st.ccount w)) + _
    rw [sum_upd (fun w => sel (st.clive w = true ∧ st.var w = i) (st.ccount w)) _ (h.cl c hc) (by
        intro j _ hne; simp only [put_other _ _ hne]), h.v i hi, put_same]
    simp only [sel, hc, true_and, addAt, eq_comm (a := i)]
    split <;> split <;> ring

theorem relinkPy {st eN eV eC} (h : I st eN eV eC) {p c : Nat} (hp : st.plive p = true) (hc : st.clive c = true) :
    I { st with pvar := put st.pvar p c } eN eV (addAt (addAt eC (st.pvar p) 1) c (-1)) := by
  refine { nl := h.nl, vl := h.vl, cl := h.cl, pl := h.pl, arr_lt := h.arr_lt, data_l := h.data_l, grad_l := h.grad_l, var_l := h.var_l,
           pvar_l := ?_, size := h.size, path_hd := h.path_hd, path_lt := h.path_lt, path_suf := h.path_suf, s := h.s, n := h.n, v := h.v, c := ?_ }
  · intro w hw
    show st.clive (put st.pvar p c w) = true
    by_cases hwv : w = p
    · subst hwv; rw [put_same]; exact hc
    · rw [put_other _ _ hwv]; exact h.pvar_l w hw
  · intro i hi
    show st.ccount i = ((Finset.range st.nPy).sum fun w => sel (st.plive w = true ∧ put st.pvar p c w = i) 1) + _
    rw [sum_upd (fun w => sel (st.plive w = true ∧ st.pvar w = i) 1) _ (h.pl p hp) (by
        intro j _ hne; simp only [put_other _ _ hne]), h.c i hi, put_same]
    simp only [sel, hp, true_and, addAt, eq_comm (a := i)]
    split <;> split <;> ring

theorem dropVar {st eN eV eC} (h : I st eN eV eC) {v : Nat} (hv : st.vlive v = true) (hn : ∀ c, st.clive c = true → st.var c ≠ v) :
    I { st with vlive := put st.vlive v false } (addAt eN (st.data v) (st.vcount v)) eV eC := by
  have hput : ∀ w, put st.vlive v false w = true → w ≠ v ∧ st.vlive w = true := by
    intro w hw
    by_cases hwv : w = v
    · subst hwv; rw [put_same] at hw; exact absurd hw (by decide)
    · rw [put_other _ _ hwv] at hw; exact ⟨hwv, hw⟩
  refine { nl := h.nl, vl := fun w hw => h.vl w (hput w hw).2, cl := h.cl, pl := h.pl, arr_lt := h.arr_lt,
           data_l := fun w hw => h.data_l w (hput w hw).2, grad_l := fun w hw => h.grad_l w (hput w hw).2, var_l := ?_,
           pvar_l := h.pvar_l, size := h.size, path_hd := h.path_hd, path_lt := h.path_lt, path_suf := h.path_suf, s := h.s, n := ?_,
           v := fun w hw => h.v w (hput w hw).2, c := h.c }
  · intro c hc
    show put st.vlive v false (st.var c) = true
    rw [put_other _ _ (hn c hc)]; exact h.var_l c hc
  · intro i hi
    show st.ncount i = ((Finset.range st.nVar).sum fun w => sel (put st.vlive v false w = true ∧ st.data w = i) (st.vcount w)) + _
    rw [sum_upd (fun w => sel (st.vlive w = true ∧ st.data w = i) (st.vcount w)) _ (h.vl v hv) (by
        intro j _ hne; simp only [put_other _ _ hne]), h.n i hi, put_same]
    simp only [sel, hv, true_and, addAt, eq_comm (a := i), Bool.false_eq_true, false_and, if_false]
    split <;> ring

theorem dropCg {st eN eV eC} (h : I st eN eV eC) {c : Nat} (hc : st.clive c = true) (hn : ∀ p, st.plive p = true → st.pvar p ≠ c) :
    I { st with clive := put st.clive c false } eN (addAt eV (st.var c) (st.ccount c)) eC := by
  have hput : ∀ w, put st.clive c false w = true → w ≠ c ∧ st.clive w = true := by
    intro w hw
    by_cases hwv : w = c
    · subst hwv; rw [put_same] at hw; exact absurd hw (by decide)
    · rw [put_other _ _ hwv] at hw; exact ⟨hwv, hw⟩
  refine { nl := h.nl, vl := h.vl, cl := fun w hw => h.cl w (hput w hw).2, pl := h.pl, arr_lt := h.arr_lt,
           data_l := h.data_l, grad_l := h.grad_l, var_l := fun w hw => h.var_l w (hput w hw).2,
           pvar_l := ?_, size := h.size, path_hd := h.path_hd, path_lt := h.path_lt, path_suf := h.path_suf, s := h.s, n := h.n,
           v := ?_, c := fun w hw => h.c w (hput w hw).2 }
  · intro p hp
    show put st.clive c false (st.pvar p) = true
    rw [put_other _ _ (hn p hp)]; exact h.pvar_l p hp
  · intro i hi
    show st.vcount i = ((Finset.range st.nCg).sum fun w => sel (put st.clive c false w = true ∧ st.var w = i) (st.ccount w)) + _
    rw [sum_upd (fun w => sel (st.clive w = true ∧ st.var w = i) (st.ccount w)) _ (h.cl c hc) (by
        intro j _ hne; simp only [put_other _ _ hne]), h.v i hi, put_same]
    simp only [sel, hc, true_and, addAt, eq_comm (a := i), Bool.false_eq_true, false_and, if_false]
    split <;> ring

theorem dropPy {st eN eV eC} (h : I st eN eV eC) {p : Nat} (hp : st.plive p = true) :
    I { st with plive := put st.plive p false } eN eV (addAt eC (st.pvar p) 1) := by
  have hput : ∀ w, put st.plive p false w = true → w ≠ p ∧ st.plive w = true := by
    intro w hw
    by_cases hwv : w = p
    · subst hwv; rw [put_same] at hw; exact absurd hw (by decide)
    · rw [put_other _ _ hwv] at hw; exact ⟨hwv, hw⟩
  refine { nl := h.nl, vl := h.vl, cl := h.cl, pl := fun w hw => h.pl w (hput w hw).2, arr_lt := h.arr_lt,
           data_l := h.data_l, grad_l := h.grad_l, var_l := h.var_l,
           pvar_l := fun w hw => h.pvar_l w (hput w hw).2, size := h.size, path_hd := h.path_hd, path_lt := h.path_lt, path_suf := h.path_suf,
           s := h.s, n := h.n, v := h.v, c := ?_ }
  intro i hi
  show st.ccount i = ((Finset.range st.nPy).sum fun w => sel (put st.plive p false w = true ∧ st.pvar w = i) 1) + _
  rw [sum_upd (fun w => sel (st.plive w = true ∧ st.pvar w = i) 1) _ (h.pl p hp) (by
      intro j _ hne; simp only [put_other _ _ hne]), h.c i hi, put_same]
  simp only [sel, hp, true_and, addAt, eq_comm (a := i), Bool.false_eq_true, false_and, if_false]
  split <;> ring

theorem dropNd {st eN eV eC} (h : I st eN eV eC) {d : Nat} (hd : st.nlive d = true)
    (hn : ∀ v, st.vlive v = true → st.data v ≠ d ∧ st.grad v ≠ d) : I (freeNd st d) eN eV eC := by
  have hput : ∀ w, put st.nlive d false w = true → w ≠ d ∧ st.nlive w = true := by
    intro w hw
    by_cases hwv : w = d
    · subst hwv; rw [put_same] at hw; exact absurd hw (by decide)
    · rw [put_other _ _ hwv] at hw; exact ⟨hwv, hw⟩
  refine { nl := fun w hw => h.nl w (hput w hw).2, vl := h.vl, cl := h.cl, pl := h.pl, arr_lt := fun w hw => h.arr_lt w (hput w hw).2,
           data_l := ?_, grad_l := ?_, var_l := h.var_l, pvar_l := h.pvar_l, size := fun w hw => h.size w (hput w hw).2,
           path_hd := h.path_hd, path_lt := h.path_lt, path_suf := h.path_suf,
           s := ?_, n := fun w hw => h.n w (hput w hw).2, v := h.v, c := h.c }
  · intro v hv
    show put st.nlive d false (st.data v) = true
    rw [put_other _ _ (hn v hv).1]; exact h.data_l v hv
  · intro v hv
    show put st.nlive d false (st.grad v) = true
    rw [put_other _ _ (hn v hv).2]; exact h.grad_l v hv
  · intro a ha
    show (if a ∈ st.path (st.arr d) then st.scount a + -st.ncount d else st.scount a) =
      (Finset.range st.nNd).sum fun w => sel (put st.nlive d false w = true ∧ a ∈ st.path (st.arr w)) (st.ncount w)
    rw [sum_upd (fun w => sel (st.nlive w = true ∧ a ∈ st.path (st.arr w)) (st.ncount w)) _ (h.nl d hd) (by
        intro j _ hne; simp only [put_other _ _ hne]), ← h.s a ha, put_same]
    simp only [sel, hd, true_and, Bool.false_eq_true, false_and, if_false]
    split <;> ring

theorem put_self (f : Nat → Shape) (d : Nat) : put f d (f d) = f := by
  funext i
  by_cases h : i = d
  · subst h; rw [put_same]
  · rw [put_other _ _ h]

/-- set_array after the shape of the NdArray was replaced. -/
theorem setArray_shape_I {st eN eV eC} (h : I st eN eV eC) {d s : Nat} (hd : st.nlive d = true) (hs : s < st.nSyn) (shape : Shape)
    (hsz : prod shape = st.ssize s) :
    I (setArray { st with nshape := put st.nshape d shape } d s).1 eN eV eC := by
  unfold setArray
  rw [if_neg (by show ¬ prod (put st.nshape d shape d) ≠ st.ssize s; rw [put_same]; exact not_not.2 hsz)]
  refine { nl := h.nl, vl := h.vl, cl := h.cl, pl := h.pl, arr_lt := ?_,
           data_l := h.data_l, grad_l := h.grad_l, var_l := h.var_l, pvar_l := h.pvar_l, size := ?_,
           path_hd := h.path_hd, path_lt := h.path_lt, path_suf := h.path_suf,
           s := ?_, n := h.n, v := h.v, c := h.c }
  · intro w hw
    show put st.arr d s w < st.nSyn
    by_cases hwd : w = d
    · subst hwd; rw [put_same]; exact hs
    · rw [put_other _ _ hwd]; exact h.arr_lt w hw
  · intro w hw
    show prod (put st.nshape d shape w) = st.ssize (put st.arr d s w)
    by_cases hwd : w = d
    · subst hwd; rw [put_same, put_same]; exact hsz
    · rw [put_other _ _ hwd, put_other _ _ hwd]; exact h.size w hw
  · intro a ha
    show (if a ∈ st.path (st.arr d) then (if a ∈ st.path s then st.scount a + st.ncount d else st.scount a) + -st.ncount d
        else (if a ∈ st.path s then st.scount a + st.ncount d else st.scount a)) =
      (Finset.range st.nNd).sum fun w => sel (st.nlive w = true ∧ a ∈ st.path (put st.arr d s w)) (st.ncount w)
    rw [sum_upd (fun w => sel (st.nlive w = true ∧ a ∈ st.path (st.arr w)) (st.ncount w)) _ (h.nl d hd) (by
        intro j _ hne; simp only [put_other _ _ hne]), ← h.s a ha, put_same]
    simp only [sel, hd, true_and]
    split <;> split <;> ring

theorem setArray_I {st eN eV eC} (h : I st eN eV eC) {d s : Nat} (hd : st.nlive d = true) (hs : s < st.nSyn) :
    I (setArray st d s).1 eN eV eC := by
  by_cases hsz : prod (st.nshape d) = st.ssize s
  · have := setArray_shape_I h hd hs (st.nshape d) hsz
    rw [put_self] at this; exact this
  · unfold setArray
    rw [if_pos hsz]; exact h

/-! ### New objects -/

theorem newSynP_I {st eN eV eC} (h : I st eN eV eC) (n : Nat) (tl : List Nat)
    (htl : tl = [] ∨ ∃ q, q < st.nSyn ∧ tl = st.path q) :
    I { st with nSyn := st.nSyn + 1, ssize := put st.ssize st.nSyn n, path := put st.path st.nSyn (st.nSyn :: tl),
                scount := put st.scount st.nSyn 0, cleared := put st.cleared st.nSyn false } eN eV eC := by
  have htlt : ∀ a ∈ tl, a < st.nSyn := by
    rcases htl with rfl | ⟨q, hq, rfl⟩
    · simp
    · exact h.path_lt q hq
  have hlt : ∀ d, st.nlive d = true → st.arr d ≠ st.nSyn := fun d hd => (h.arr_lt d hd).ne
  refine { nl := h.nl, vl := h.vl, cl := h.cl, pl := h.pl, arr_lt := fun d hd => Nat.lt_succ_of_lt (h.arr_lt d hd),
           data_l := h.data_l, grad_l := h.grad_l, var_l := h.var_l, pvar_l := h.pvar_l, size := ?_,
           path_hd := ?_, path_lt := ?_, path_suf := ?_, s := ?_, n := h.n, v := h.v, c := h.c }
  · intro d hd
    show prod (st.nshape d) = put st.ssize st.nSyn n (st.arr d)
    rw [put_other _ _ (hlt d hd)]; exact h.size d hd
  · intro s hs
    show ∃ t, put st.path st.nSyn (st.nSyn :: tl) s = s :: t
    by_cases hss : s = st.nSyn
    · subst hss; rw [put_same]; exact ⟨tl, rfl⟩
    · rw [put_other _ _ hss]; exact h.path_hd s (by have : s < st.nSyn + 1 := hs; omega)
  · intro s hs a ha
    have ha' : a ∈ put st.path st.nSyn (st.nSyn :: tl) s := ha
    show a < st.nSyn + 1
    by_cases hss : s = st.nSyn
    · subst hss; rw [put_same] at ha'
      rcases List.mem_cons.1 ha' with rfl | hm
      · omega
      · have := htlt a hm; omega
    · rw [put_other _ _ hss] at ha'
      have := h.path_lt s (by have : s < st.nSyn + 1 := hs; omega) a ha'; omega
  · intro s hs a ha
    have ha' : a ∈ put st.path st.nSyn (st.nSyn :: tl) s := ha
    show put st.path st.nSyn (st.nSyn :: tl) a <:+ put st.path st.nSyn (st.nSyn :: tl) s
    by_cases hss : s = st.nSyn
    · subst hss; rw [put_same] at ha' ⊢
      rcases List.mem_cons.1 ha' with rfl | hm
      · rw [put_same]
      · have hlt' := htlt a hm
        rw [put_other _ _ hlt'.ne]
        rcases htl with rfl | ⟨q, hq, rfl⟩
        · simp at hm
        · exact (h.path_suf q hq a hm).trans (List.suffix_cons _ _)
    · have hs' : s < st.nSyn := by have : s < st.nSyn + 1 := hs; omega
      rw [put_other _ _ hss] at ha' ⊢
      have hlt' := h.path_lt s hs' a ha'
      rw [put_other _ _ hlt'.ne]; exact h.path_suf s hs' a ha'
  · intro a ha
    show put st.scount st.nSyn 0 a = (Finset.range st.nNd).sum fun d => sel (st.nlive d = true ∧ a ∈ put st.path st.nSyn (st.nSyn :: tl) (st.arr d)) (st.ncount d)
    have hc : ∀ d, d < st.nNd → sel (st.nlive d = true ∧ a ∈ put st.path st.nSyn (st.nSyn :: tl) (st.arr d)) (st.ncount d)
        = sel (st.nlive d = true ∧ a ∈ st.path (st.arr d)) (st.ncount d) := by
      intro d _
      by_cases hd : st.nlive d = true
      · rw [put_other _ _ (hlt d hd)]
      · simp [sel, hd]
    rw [sum_same _ _ hc]
    by_cases has : a = st.nSyn
    · subst has
      rw [put_same, Finset.sum_eq_zero]
      intro d _
      by_cases hd : st.nlive d = true
      · have : ¬ st.nSyn ∈ st.path (st.arr d) := fun hm => absurd (h.path_lt _ (h.arr_lt d hd) _ hm) (lt_irrefl _)
        simp [sel, this]
      · simp [sel, hd]
    · rw [put_other _ _ has]; exact h.s a (by have : a < st.nSyn + 1 := ha; omega)

theorem newSyn_I {st eN eV eC} (h : I st eN eV eC) (n : Nat) : I (newSyn st n) eN eV eC :=
  newSynP_I h n [] (Or.inl rfl)

theorem newChild_I {st eN eV eC} (h : I st eN eV eC) {q : Nat} (hq : q < st.nSyn) (n : Nat) : I (newChild st q n) eN eV eC :=
  newSynP_I h n _ (Or.inr ⟨q, hq, rfl⟩)

theorem put_live {f : Nat → Bool} {n w : Nat} (h : put f n true w = true) : w = n ∨ (w ≠ n ∧ f w = true) := by
  by_cases hw : w = n
  · exact Or.inl hw
  · rw [put_other _ _ hw] at h; exact Or.inr ⟨hw, h⟩

theorem addNd_I {st eV eC} (h : I st (fun _ => 0) eV eC) {s : Nat} (hs : s < st.nSyn) (shape : Shape) (hsz : prod shape = st.ssize s) :
    I (addNd st s shape) (fun _ => 0) eV eC := by
  refine { nl := ?_, vl := h.vl, cl := h.cl, pl := h.pl, arr_lt := ?_,
           data_l := ?_, grad_l := ?_, var_l := h.var_l, pvar_l := h.pvar_l, size := ?_,
           path_hd := h.path_hd, path_lt := h.path_lt, path_suf := h.path_suf, s := ?_, n := ?_, v := h.v, c := h.c }
  · intro d hd
    show d < st.nNd + 1
    rcases put_live hd with rfl | ⟨_, hl⟩
    · omega
    · have := h.nl d hl; omega
  · intro d hd
    show put st.arr st.nNd s d < st.nSyn
    rcases put_live hd with rfl | ⟨hne, hl⟩
    · rw [put_same]; exact hs
    · rw [put_other _ _ hne]; exact h.arr_lt d hl
  · intro v hv
    have := h.data_l v hv
    show put st.nlive st.nNd true (st.data v) = true
    rw [put_other _ _ (h.nl _ this).ne]; exact this
  · intro v hv
    have := h.grad_l v hv
    show put st.nlive st.nNd true (st.grad v) = true
    rw [put_other _ _ (h.nl _ this).ne]; exact this
  · intro d hd
    show prod (put st.nshape st.nNd shape d) = st.ssize (put st.arr st.nNd s d)
    rcases put_live hd with rfl | ⟨hne, hl⟩
    · rw [put_same, put_same]; exact hsz
    · rw [put_other _ _ hne, put_other _ _ hne]; exact h.size d hl
  · intro a ha
    show st.scount a = (Finset.range (st.nNd + 1)).sum fun d => sel (put st.nlive st.nNd true d = true ∧ a ∈ st.path (put st.arr st.nNd s d)) (put st.ncount st.nNd 0 d)
    rw [Finset.sum_range_succ, sum_same (fun d => sel (st.nlive d = true ∧ a ∈ st.path (st.arr d)) (st.ncount d)) _ (by
      intro i hi; simp only [put_other _ _ hi.ne]), ← h.s a ha]
    simp [sel, put_same]
  · intro d hd
    show put st.ncount st.nNd 0 d = ((Finset.range st.nVar).sum fun v => sel (st.vlive v = true ∧ st.data v = d) (st.vcount v)) + 0
    rcases put_live hd with rfl | ⟨hne, hl⟩
    · rw [put_same, Finset.sum_eq_zero]
      · rfl
      · intro v _
        by_cases hv : st.vlive v = true
        · have : st.data v ≠ st.nNd := (h.nl _ (h.data_l v hv)).ne
          simp [sel, this]
        · simp [sel, hv]
    · rw [put_other _ _ hne]; exact h.n d hl

theorem newNd_I {st eV eC} (h : I st (fun _ => 0) eV eC) (shape : Shape) : I (newNd st shape) (fun _ => 0) eV eC := by
  refine addNd_I (newSyn_I h _) ?_ shape ?_
  · show st.nSyn < st.nSyn + 1; omega
  · show prod shape = put st.ssize st.nSyn (prod shape) st.nSyn
    rw [put_same]

theorem addVar_I {st eC} (h : I st (fun _ => 0) (fun _ => 0) eC) {d g : Nat} (hd : st.nlive d = true) (hg : st.nlive g = true) (shape : Shape) :
    I (addVar st d g shape) (fun _ => 0) (fun _ => 0) eC := by
  refine { nl := h.nl, vl := ?_, cl := h.cl, pl := h.pl, arr_lt := h.arr_lt,
           data_l := ?_, grad_l := ?_, var_l := ?_, pvar_l := h.pvar_l, size := h.size,
           path_hd := h.path_hd, path_lt := h.path_lt, path_suf := h.path_suf, s := h.s, n := ?_, v := ?_, c := h.c }
  · intro v hv
    show v < st.nVar + 1
    rcases put_live hv with rfl | ⟨_, hl⟩
    · omega
    · have := h.vl v hl; omega
  · intro v hv
    show st.nlive (put st.data st.nVar d v) = true
    rcases put_live hv with rfl | ⟨hne, hl⟩
    · rw [put_same]; exact hd
    · rw [put_other _ _ hne]; exact h.data_l v hl
  · intro v hv
    show st.nlive (put st.grad st.nVar g v) = true
    rcases put_live hv with rfl | ⟨hne, hl⟩
    · rw [put_same]; exact hg
    · rw [put_other _ _ hne]; exact h.grad_l v hl
  · intro c hc
    have := h.var_l c hc
    show put st.vlive st.nVar true (st.var c) = true
    rw [put_other _ _ (h.vl _ this).ne]; exact this
  · intro i hi
    show st.ncount i = ((Finset.range (st.nVar + 1)).sum fun v => sel (put st.vlive st.nVar true v = true ∧ put st.data st.nVar d v = i) (put st.vcount st.nVar 0 v)) + 0
    rw [Finset.sum_range_succ, sum_same (fun v => sel (st.vlive v = true ∧ st.data v = i) (st.vcount v)) _ (by
      intro j hj; simp only [put_other _ _ hj.ne]), h.n i hi]
    simp [sel, put_same]
  · intro v hv
    show put st.vcount st.nVar 0 v = ((Finset.range st.nCg).sum fun c => sel (st.clive c = true ∧ st.var c = v) (st.ccount c)) + 0
    rcases put_live hv with rfl | ⟨hne, hl⟩
    · rw [put_same, Finset.sum_eq_zero]
      · rfl
      · intro c _
        by_cases hc : st.clive c = true
        · have : st.var c ≠ st.nVar := (h.vl _ (h.var_l c hc)).ne
          simp [sel, this]
        · simp [sel, hc]
    · rw [put_other _ _ hne]; exact h.v v hl

theorem newCg_I {st} (h : I st (fun _ => 0) (fun _ => 0) (fun _ => 0)) {v : Nat} (hv : st.vlive v = true) :
    I (newCg st v) (fun _ => 0) (fun _ => 0) (fun _ => 0) := by
  refine { nl := h.nl, vl := h.vl, cl := ?_, pl := h.pl, arr_lt := h.arr_lt,
           data_l := h.data_l, grad_l := h.grad_l, var_l := ?_, pvar_l := ?_, size := h.size,
           path_hd := h.path_hd, path_lt := h.path_lt, path_suf := h.path_suf, s := h.s, n := h.n, v := ?_, c := ?_ }
  · intro c hc
    show c < st.nCg + 1
    rcases put_live hc with rfl | ⟨_, hl⟩
    · omega
    · have := h.cl c hl; omega
  · intro c hc
    show st.vlive (put st.var st.nCg v c) = true
    rcases put_live hc with rfl | ⟨hne, hl⟩
    · rw [put_same]; exact hv
    · rw [put_other _ _ hne]; exact h.var_l c hl
  · intro p hp
    have := h.pvar_l p hp
    show put st.clive st.nCg true (st.pvar p) = true
    rw [put_other _ _ (h.cl _ this).ne]; exact this
  · intro i hi
    show st.vcount i = ((Finset.range (st.nCg + 1)).sum fun c => sel (put st.clive st.nCg true c = true ∧ put st.var st.nCg v c = i) (put st.ccount st.nCg 0 c)) + 0
    rw [Finset.sum_range_succ, sum_same (fun c => sel (st.clive c = true ∧ st.var c = i) (st.ccount c)) _ (by
      intro j hj; simp only [put_other _ _ hj.ne]), h.v i hi]
    simp [sel, put_same]
  · intro c hc
    show put st.ccount st.nCg 0 c = ((Finset.range st.nPy).sum fun p => sel (st.plive p = true ∧ st.pvar p = c) 1) + 0
    rcases put_live hc with rfl | ⟨hne, hl⟩
    · rw [put_same, Finset.sum_eq_zero]
      · rfl
      · intro p _
        by_cases hp : st.plive p = true
        · have : st.pvar p ≠ st.nCg := (h.cl _ (h.pvar_l p hp)).ne
          simp [sel, this]
        · simp [sel, hp]
    · rw [put_other _ _ hne]; exact h.c c hl

theorem addPy {st eN eV eC} (h : I st eN eV eC) {c : Nat} (hc : st.clive c = true) :
    I { st with nPy := st.nPy + 1, pvar := put st.pvar st.nPy c, plive := put st.plive st.nPy true } eN eV (addAt eC c (-1)) := by
  refine { nl := h.nl, vl := h.vl, cl := h.cl, pl := ?_, arr_lt := h.arr_lt,
           data_l := h.data_l, grad_l := h.grad_l, var_l := h.var_l, pvar_l := ?_, size := h.size,
           path_hd := h.path_hd, path_lt := h.path_lt, path_suf := h.path_suf, s := h.s, n := h.n, v := h.v, c := ?_ }
  · intro p hp
    show p < st.nPy + 1
    rcases put_live hp with rfl | ⟨_, hl⟩
    · omega
    · have := h.pl p hl; omega
  · intro p hp
    show st.clive (put st.pvar st.nPy c p) = true
    rcases put_live hp with rfl | ⟨hne, hl⟩
    · rw [put_same]; exact hc
    · rw [put_other _ _ hne]; exact h.pvar_l p hl
  · intro i hi
    show st.ccount i = ((Finset.range (st.nPy + 1)).sum fun p => sel (put st.plive st.nPy true p = true ∧ put st.pvar st.nPy c p = i) 1) + _
    rw [Finset.sum_range_succ, sum_same (fun p => sel (st.plive p = true ∧ st.pvar p = i) 1) _ (by
      intro j hj; simp only [put_other _ _ hj.ne]), h.c i hi]
    simp only [sel, put_same, addAt, true_and, eq_comm (a := i)]
    split <;> ring

/-! ### Every operation keeps the invariant -/

/-- All counters correct. -/
abbrev Inv (st : St) : Prop := I st (fun _ => 0) (fun _ => 0) (fun _ => 0)

theorem viewNd_I {st} (h : Inv st) {d : Nat} (hd : st.nlive d = true) (shape : Shape) : Inv (viewNd st d shape).1 := by
  unfold viewNd
  by_cases hs : st.ssize (st.arr d) ≠ prod shape
  · rw [if_pos hs]; exact h
  · rw [if_neg hs]; push Not at hs
    exact addNd_I h (h.arr_lt d hd) shape hs.symm

theorem narrowNd_I {st} (h : Inv st) {d : Nat} (hd : st.nlive d = true) (start length : Nat) : Inv (narrowNd st d start length).1 := by
  unfold narrowNd
  split
  · exact h
  · rename_i hh t _
    by_cases hs : start + length ≤ hh
    · rw [if_pos hs]
      refine addNd_I (newChild_I h (h.arr_lt d hd) _) ?_ _ ?_
      · show st.nSyn < st.nSyn + 1; omega
      · show _ = put st.ssize st.nSyn _ st.nSyn
        rw [put_same]; simp [prod]
    · rw [if_neg hs]; exact h

theorem reshapeNd_I {st} (h : Inv st) {d : Nat} (hd : st.nlive d = true) (shape : Shape) (force : Bool) : Inv (reshapeNd st d shape force).1 := by
  unfold reshapeNd
  by_cases h1 : st.nshape d = shape
  · rw [if_pos h1]; exact h
  rw [if_neg h1]
  by_cases h2 : prod (st.nshape d) = prod shape
  · rw [if_pos h2]
    refine { nl := h.nl, vl := h.vl, cl := h.cl, pl := h.pl, arr_lt := h.arr_lt,
             data_l := h.data_l, grad_l := h.grad_l, var_l := h.var_l, pvar_l := h.pvar_l, size := ?_,
             path_hd := h.path_hd, path_lt := h.path_lt, path_suf := h.path_suf, s := h.s, n := h.n, v := h.v, c := h.c }
    intro w hw
    show prod (put st.nshape d shape w) = st.ssize (st.arr w)
    by_cases hwd : w = d
    · subst hwd; rw [put_same, ← h2]; exact h.size w hw
    · rw [put_other _ _ hwd]; exact h.size w hw
  rw [if_neg h2]
  by_cases h3 : (!force) = true
  · rw [if_pos h3]; exact h
  rw [if_neg h3]
  by_cases h4 : (st.path (st.arr d)).length > 1
  · rw [if_pos h4]; exact h
  rw [if_neg h4]
  have := setArray_shape_I (newSyn_I h (prod shape)) (d := d) (s := st.nSyn) hd (show st.nSyn < st.nSyn + 1 by omega) shape
    (by show _ = put st.ssize st.nSyn (prod shape) st.nSyn; rw [put_same])
  exact this

theorem newVar_I {st} (h : Inv st) (shape : Shape) : Inv (newVar st shape) := by
  have h2 := newNd_I (newNd_I h shape) shape
  refine addVar_I h2 ?_ ?_ shape
  · show put (put st.nlive st.nNd true) (st.nNd + 1) true st.nNd = true
    rw [put_other _ _ (by omega), put_same]
  · show put (put st.nlive st.nNd true) (st.nNd + 1) true (st.nNd + 1) = true
    rw [put_same]

theorem varFrom_I {st} (h : Inv st) {d : Nat} (hd : st.nlive d = true) : Inv (varFrom st d) := by
  refine addVar_I (newNd_I h _) ?_ ?_ _
  · show put st.nlive st.nNd true d = true
    rw [put_other _ _ (h.nl d hd).ne]; exact hd
  · show put st.nlive st.nNd true st.nNd = true
    rw [put_same]

theorem setData_I {st} (h : Inv st) {v d : Nat} (hv : st.vlive v = true) (hd : st.nlive d = true) : Inv (setData st v d).1 := by
  unfold setData
  by_cases hs : st.nshape d ≠ st.vshape v
  · rw [if_pos hs]; exact h
  rw [if_neg hs]
  have h1 := updNd_I h hd (st.vcount v)
  have h2 := updNd_I h1 (d := st.data v) (h.data_l v hv) (-st.vcount v)
  have h3 := relinkData h2 (v := v) (d := d) hv hd
  have he : addAt (addAt (addAt (addAt (fun _ => 0) d (st.vcount v)) (st.data v) (-st.vcount v)) (st.data v) (st.vcount v)) d (-st.vcount v) = fun _ => 0 := by
    funext i; simp only [addAt]; split <;> split <;> ring
  have h4 : addAt (addAt (addAt (addAt (fun _ => 0) d (st.vcount v)) (st.data v) (-st.vcount v))
      ((updNd (updNd st d (st.vcount v)) (st.data v) (-st.vcount v)).data v)
      ((updNd (updNd st d (st.vcount v)) (st.data v) (-st.vcount v)).vcount v)) d
      (-(updNd (updNd st d (st.vcount v)) (st.data v) (-st.vcount v)).vcount v) = fun _ => 0 := he
  rw [h4] at h3; exact h3

theorem setGrad_I {st} (h : Inv st) {v d : Nat} (hd : st.nlive d = true) : Inv (setGrad st v d).1 := by
  unfold setGrad
  by_cases hs : st.nshape d ≠ st.vshape v
  · rw [if_pos hs]; exact h
  rw [if_neg hs]
  refine { nl := h.nl, vl := h.vl, cl := h.cl, pl := h.pl, arr_lt := h.arr_lt,
           data_l := h.data_l, grad_l := ?_, var_l := h.var_l, pvar_l := h.pvar_l, size := h.size,
           path_hd := h.path_hd, path_lt := h.path_lt, path_suf := h.path_suf, s := h.s, n := h.n, v := h.v, c := h.c }
  intro w hw
  show st.nlive (put st.grad v d w) = true
  by_cases hwd : w = v
  · subst hwd; rw [put_same]; exact hd
  · rw [put_other _ _ hwd]; exact h.grad_l w hw

theorem reshapeNd_fields (st : St) (d : Nat) (shape : Shape) (force : Bool) :
    (reshapeNd st d shape force).1.nlive = st.nlive ∧ (reshapeNd st d shape force).1.data = st.data ∧
    (reshapeNd st d shape force).1.grad = st.grad ∧ (reshapeNd st d shape force).1.vlive = st.vlive ∧
    (reshapeNd st d shape force).1.vshape = st.vshape ∧ (reshapeNd st d shape force).1.var = st.var ∧
    (reshapeNd st d shape force).1.pvar = st.pvar := by
  unfold reshapeNd
  split
  · exact ⟨rfl, rfl, rfl, rfl, rfl, rfl, rfl⟩
  split
  · exact ⟨rfl, rfl, rfl, rfl, rfl, rfl, rfl⟩
  split
  · exact ⟨rfl, rfl, rfl, rfl, rfl, rfl, rfl⟩
  split
  · exact ⟨rfl, rfl, rfl, rfl, rfl, rfl, rfl⟩
  · unfold setArray
    split <;> exact ⟨rfl, rfl, rfl, rfl, rfl, rfl, rfl⟩

theorem reshapeVar_I {st} (h : Inv st) {v : Nat} (hv : st.vlive v = true) (shape : Shape) (force : Bool) : Inv (reshapeVar st v shape force).1 := by
  unfold reshapeVar
  by_cases h1 : st.vshape v = shape
  · rw [if_pos h1]; exact h
  rw [if_neg h1]
  by_cases h2 : prod (st.vshape v) ≠ prod shape ∧ force = false
  · rw [if_pos h2]; exact h
  rw [if_neg h2]
  have h0 : Inv { st with vshape := put st.vshape v shape } :=
    { nl := h.nl, vl := h.vl, cl := h.cl, pl := h.pl, arr_lt := h.arr_lt,
      data_l := h.data_l, grad_l := h.grad_l, var_l := h.var_l, pvar_l := h.pvar_l, size := h.size,
      path_hd := h.path_hd, path_lt := h.path_lt, path_suf := h.path_suf, s := h.s, n := h.n, v := h.v, c := h.c }
  have h3 := reshapeNd_I h0 (d := st.data v) (h.data_l v hv) shape (if prod (st.vshape v) = prod shape then false else true)
  have hf := reshapeNd_fields { st with vshape := put st.vshape v shape } (st.data v) shape (if prod (st.vshape v) = prod shape then false else true)
  simp only
  split
  · rename_i st2 e he; rw [he] at h3; exact h3
  · rename_i st2 he
    rw [he] at h3 hf
    refine reshapeNd_I h3 ?_ shape _
    rw [hf.1, hf.2.2.1]
    exact h.grad_l v hv

theorem setData_fields (st : St) (v d : Nat) :
    (setData st v d).1.nlive = st.nlive ∧ (setData st v d).1.grad = st.grad ∧ (setData st v d).1.vlive = st.vlive ∧
    (setData st v d).1.nshape = st.nshape ∧ (setData st v d).1.vshape = st.vshape := by
  unfold setData
  split <;> exact ⟨rfl, rfl, rfl, rfl, rfl⟩

theorem viewVar_I {st} (h : Inv st) {v : Nat} (hv : st.vlive v = true) : Inv (viewVar st v).1 := by
  have h1 := newVar_I h (st.vshape v)
  have hl : ∀ d, st.nlive d = true → (newVar st (st.vshape v)).nlive d = true := by
    intro d hd
    have := h.nl d hd
    show put (put st.nlive st.nNd true) (st.nNd + 1) true d = true
    rw [put_other _ _ (by omega), put_other _ _ (by omega)]; exact hd
  have hvv : v ≠ st.nVar := (h.vl v hv).ne
  have hd : (newVar st (st.vshape v)).data v = st.data v := by
    show put st.data st.nVar st.nNd v = _; rw [put_other _ _ hvv]
  have hg : (newVar st (st.vshape v)).grad v = st.grad v := by
    show put st.grad st.nVar (st.nNd + 1) v = _; rw [put_other _ _ hvv]
  have h2 := setData_I h1 (v := st.nVar) (d := (newVar st (st.vshape v)).data v)
    (by show put st.vlive st.nVar true st.nVar = true; rw [put_same]) (by rw [hd]; exact hl _ (h.data_l v hv))
  have hf := setData_fields (newVar st (st.vshape v)) st.nVar ((newVar st (st.vshape v)).data v)
  unfold viewVar
  simp only
  split
  · rename_i st2 e he; rw [he] at h2; exact h2
  · rename_i st2 he
    rw [he] at h2 hf
    refine setGrad_I h2 ?_
    rw [hf.1, hf.2.1, hg]; exact hl _ (h.grad_l v hv)

theorem freeVar_I {st} (h : Inv st) {v : Nat} (hv : st.vlive v = true) (hn : ∀ c, st.clive c = true → st.var c ≠ v) : Inv (freeVar st v) := by
  have h1 := updNd_I h (d := st.data v) (h.data_l v hv) (-st.vcount v)
  have h2 := dropVar h1 (v := v) hv hn
  have he : addAt (addAt (fun _ => 0) (st.data v) (-st.vcount v)) (st.data v) (st.vcount v) = fun _ => 0 := by
    funext i; simp only [addAt]; split <;> ring
  have he' : addAt (addAt (fun _ => 0) (st.data v) (-st.vcount v)) ((updNd st (st.data v) (-st.vcount v)).data v)
      ((updNd st (st.data v) (-st.vcount v)).vcount v) = fun _ => 0 := he
  rw [he'] at h2; exact h2

theorem setVariable_I {st} (h : Inv st) {c v : Nat} (hc : st.clive c = true) (hv : st.vlive v = true) : Inv (setVariable st c v) := by
  have h1 := updVar_I h hv (st.ccount c)
  have h2 := updVar_I h1 (v := st.var c) (h.var_l c hc) (-st.ccount c)
  have h3 := relinkVar h2 (c := c) (v := v) hc hv
  have he : addAt (addAt (addAt (addAt (fun _ => 0) v (st.ccount c)) (st.var c) (-st.ccount c)) (st.var c) (st.ccount c)) v (-st.ccount c) = fun _ => 0 := by
    funext i; simp only [addAt]; split <;> split <;> ring
  have h4 : addAt (addAt (addAt (addAt (fun _ => 0) v (st.ccount c)) (st.var c) (-st.ccount c))
      ((updVar (updVar st v (st.ccount c)) (st.var c) (-st.ccount c)).var c)
      ((updVar (updVar st v (st.ccount c)) (st.var c) (-st.ccount c)).ccount c)) v
      (-(updVar (updVar st v (st.ccount c)) (st.var c) (-st.ccount c)).ccount c) = fun _ => 0 := he
  rw [h4] at h3; exact h3

theorem freeCg_I {st} (h : Inv st) {c : Nat} (hc : st.clive c = true) (hn : ∀ p, st.plive p = true → st.pvar p ≠ c) : Inv (freeCg st c) := by
  have h1 := updVar_I h (v := st.var c) (h.var_l c hc) (-st.ccount c)
  have h2 := dropCg h1 (c := c) hc hn
  have he : addAt (addAt (fun _ => 0) (st.var c) (-st.ccount c)) (st.var c) (st.ccount c) = fun _ => 0 := by
    funext i; simp only [addAt]; split <;> ring
  have he' : addAt (addAt (fun _ => 0) (st.var c) (-st.ccount c)) ((updVar st (st.var c) (-st.ccount c)).var c)
      ((updVar st (st.var c) (-st.ccount c)).ccount c) = fun _ => 0 := he
  rw [he'] at h2; exact h2

theorem newPy_I {st} (h : Inv st) {c : Nat} (hc : st.clive c = true) : Inv (newPy st c) := by
  have h2 := addPy (updCg_I h hc 1) (c := c) hc
  have he : addAt (addAt (fun _ => 0) c 1) c (-1) = fun _ => (0 : Int) := by
    funext i; simp only [addAt]; split <;> ring
  rw [he] at h2; exact h2

theorem setVar_I {st} (h : Inv st) {p c : Nat} (hp : st.plive p = true) (hc : st.clive c = true) : Inv (setVar st p c) := by
  have h1 := updCg_I h hc 1
  have h2 := updCg_I h1 (c := st.pvar p) (h.pvar_l p hp) (-1)
  have h3 := relinkPy h2 (p := p) (c := c) hp hc
  have he : addAt (addAt (addAt (addAt (fun _ => 0) c 1) (st.pvar p) (-1)) (st.pvar p) 1) c (-1) = fun _ => (0 : Int) := by
    funext i; simp only [addAt]; split <;> split <;> ring
  have h4 : addAt (addAt (addAt (addAt (fun _ => 0) c 1) (st.pvar p) (-1))
      ((updCg (updCg st c 1) (st.pvar p) (-1)).pvar p) 1) c (-1) = fun _ => (0 : Int) := he
  rw [h4] at h3; exact h3

theorem clear_I {st} (h : Inv st) (p : Nat) (e : Env) : Inv (clearDuringAutoForward st p e).1 := by
  have hx : ∀ f, Inv { st with cleared := f } := fun f =>
    { nl := h.nl, vl := h.vl, cl := h.cl, pl := h.pl, arr_lt := h.arr_lt,
      data_l := h.data_l, grad_l := h.grad_l, var_l := h.var_l, pvar_l := h.pvar_l, size := h.size,
      path_hd := h.path_hd, path_lt := h.path_lt, path_suf := h.path_suf, s := h.s, n := h.n, v := h.v, c := h.c }
  unfold clearDuringAutoForward
  split
  · exact h
  split
  · split
    · exact h
    · exact hx _
  · exact h

theorem clear_fields (st : St) (p : Nat) (e : Env) :
    (clearDuringAutoForward st p e).1.plive = st.plive ∧ (clearDuringAutoForward st p e).1.pvar = st.pvar ∧
    (clearDuringAutoForward st p e).1.vshape = st.vshape ∧ (clearDuringAutoForward st p e).1.nshape = st.nshape ∧
    (clearDuringAutoForward st p e).1.data = st.data ∧ (clearDuringAutoForward st p e).1.grad = st.grad ∧
    (clearDuringAutoForward st p e).1.arr = st.arr := by
  unfold clearDuringAutoForward
  split
  · exact ⟨rfl, rfl, rfl, rfl, rfl, rfl, rfl⟩
  split
  · split <;> exact ⟨rfl, rfl, rfl, rfl, rfl, rfl, rfl⟩
  · exact ⟨rfl, rfl, rfl, rfl, rfl, rfl, rfl⟩

theorem delPy_I {st} (h : Inv st) {p : Nat} (hp : st.plive p = true) (e : Env) : Inv (delPy st p e) := by
  have h0 := clear_I h p e
  obtain ⟨f1, f2, _⟩ := clear_fields st p e
  unfold delPy
  simp only
  generalize (clearDuringAutoForward st p e).1 = st1 at h0 f1 f2
  have hp1 : st1.plive p = true := by rw [f1]; exact hp
  have h1 := updCg_I h0 (c := st1.pvar p) (h0.pvar_l p hp1) (-1)
  have h2 := dropPy h1 (p := p) hp1
  have he : addAt (addAt (fun _ => 0) (st1.pvar p) (-1)) (st1.pvar p) 1 = fun _ => (0 : Int) := by
    funext i; simp only [addAt]; split <;> ring
  have he' : addAt (addAt (fun _ => 0) (st1.pvar p) (-1)) ((updCg st1 (st1.pvar p) (-1)).pvar p) 1 = fun _ => (0 : Int) := he
  rw [he'] at h2; exact h2

theorem step_I {st} (h : Inv st) (op : Op) : Inv (step st op) := by
  cases op with
  | newNd shape => exact newNd_I h shape
  | viewNd d shape =>
    show Inv (if _ then _ else _); split
    · rename_i hh; exact viewNd_I h hh.2 shape
    · exact h
  | narrowNd d a b =>
    show Inv (if _ then _ else _); split
    · rename_i hh; exact narrowNd_I h hh.2 a b
    · exact h
  | setArray d d' =>
    show Inv (if _ then _ else _); split
    · rename_i hh; exact setArray_I h hh.1.2 (h.arr_lt d' hh.2.2)
    · exact h
  | reshapeNd d shape force =>
    show Inv (if _ then _ else _); split
    · rename_i hh; exact reshapeNd_I h hh.2 shape force
    · exact h
  | hold d b =>
    show Inv (if _ then _ else _); split
    · exact { nl := h.nl, vl := h.vl, cl := h.cl, pl := h.pl, arr_lt := h.arr_lt,
              data_l := h.data_l, grad_l := h.grad_l, var_l := h.var_l, pvar_l := h.pvar_l, size := h.size,
              path_hd := h.path_hd, path_lt := h.path_lt, path_suf := h.path_suf, s := h.s, n := h.n, v := h.v, c := h.c }
    · exact h
  | freeNd d =>
    show Inv (if _ then _ else _); split
    · rename_i hh
      exact dropNd h hh.1.2 fun v hv => hh.2.2 v (h.vl v hv) ⟨h.vl v hv, hv⟩
    · exact h
  | newVar shape => exact newVar_I h shape
  | varFrom d =>
    show Inv (if _ then _ else _); split
    · rename_i hh; exact varFrom_I h hh.2
    · exact h
  | setData v d =>
    show Inv (if _ then _ else _); split
    · rename_i hh; exact setData_I h hh.1.2 hh.2.2
    · exact h
  | setGrad v d =>
    show Inv (if _ then _ else _); split
    · rename_i hh; exact setGrad_I h hh.2.2
    · exact h
  | reshapeVar v shape force =>
    show Inv (if _ then _ else _); split
    · rename_i hh; exact reshapeVar_I h hh.2 shape force
    · exact h
  | viewVar v =>
    show Inv (if _ then _ else _); split
    · rename_i hh; exact viewVar_I h hh.2
    · exact h
  | freeVar v =>
    show Inv (if _ then _ else _); split
    · rename_i hh
      exact freeVar_I h hh.1.2 fun c hc => hh.2 c (h.cl c hc) ⟨h.cl c hc, hc⟩
    · exact h
  | newCg v =>
    show Inv (if _ then _ else _); split
    · rename_i hh; exact newCg_I h hh.2
    · exact h
  | setVariable c v =>
    show Inv (if _ then _ else _); split
    · rename_i hh; exact setVariable_I h hh.1.2 hh.2.2
    · exact h
  | freeCg c =>
    show Inv (if _ then _ else _); split
    · rename_i hh
      exact freeCg_I h hh.1.2 fun p hp => hh.2 p (h.pl p hp) ⟨h.pl p hp, hp⟩
    · exact h
  | newPy c =>
    show Inv (if _ then _ else _); split
    · rename_i hh; exact newPy_I h hh.2
    · exact h
  | setVar p c =>
    show Inv (if _ then _ else _); split
    · rename_i hh; exact setVar_I h hh.1.2 hh.2.2
    · exact h
  | delPy p e =>
    show Inv (if _ then _ else _); split
    · rename_i hh; exact delPy_I h hh.2 e
    · exact h

theorem init_I : Inv St.init := by
  constructor
  · constructor <;> simp [St.init]
  all_goals simp [St.init]

theorem run_I (ops : List Op) : Inv (run ops) := by
  unfold run
  have : ∀ (l : List Op) (st : St), Inv st → Inv (l.foldl step st) := by
    intro l
    induction l with
    | nil => intro st h; exact h
    | cons o l ih => intro st h; exact ih _ (step_I h o)
  exact this ops _ init_I

end Verif.Store
