/- get, cast and write, and what the user reads. -/
import Verif.Synced.Narrow

namespace Verif.Synced

variable {V : Type}

theorem C1.congr {env : Env V} {s : St V} {st val val' k B exc} (T : Tree s st) (h : C1 env s st val k B exc)
    (e : ∀ i, i < (s.node 0).size → val' i = val i) : C1 env s st val' k B exc := by
  refine ⟨h.blk, h.rootKey, h.head, h.keyOk, ?_, ?_⟩
  · intro i v hi hv; rw [e i hi] at hv; exact h.content i v hi hv
  · intro n key en hn hf hne hex
    obtain ⟨k', o1, o2, o3, o4, o5, o6, o7, o8, o9⟩ := h.others n key en hn hf hne hex
    refine ⟨k', o1, o2, o3, o4, o5, o6, o7, ?_, o9⟩
    intro j v hj hv
    rw [e _ (covers_lt T hn ⟨by omega, by omega⟩)] at hv
    exact o8 j v hj hv

/-- Marking the head array of `n` as up to date. -/
theorem C1_setHead {env : Env V} {s : St V} {st val k B exc} (h : C1 env s st val k B exc) {n : Nat} {dk : Key}
    (hh : (s.node n).head = some dk) (b : Bool) :
    C1 env (setArr s n dk ⟨B, st n, k.dt⟩ b) st val k B exc := by
  have hS := setArr_shape s n dk ⟨B, st n, k.dt⟩ b
  have nn : (setArr s n dk ⟨B, st n, k.dt⟩ b).node n =
      { s.node n with arrs := insert dk (⟨B, st n, k.dt⟩, b) (s.node n).arrs } := by
    unfold setArr; rw [upd_self]
  have nm : ∀ m, m ≠ n → (setArr s n dk ⟨B, st n, k.dt⟩ b).node m = s.node m := by
    intro m hm; unfold setArr; rw [upd_ne _ _ hm]
  have hm : (setArr s n dk ⟨B, st n, k.dt⟩ b).mem = s.mem := rfl
  have hb : (setArr s n dk ⟨B, st n, k.dt⟩ b).nextBlk = s.nextBlk := rfl
  generalize setArr s n dk ⟨B, st n, k.dt⟩ b = s' at *
  have sm : ∀ m, (s'.node m).head = (s.node m).head ∧ lazy (s'.node m) = lazy (s.node m) ∧
      lvraw env (s'.node m) = lvraw env (s.node m) := by
    intro m; by_cases hx : m = n
    · subst hx; rw [nn]; exact ⟨rfl, rfl, rfl⟩
    · rw [nm m hx]; exact ⟨rfl, rfl, rfl⟩
  have hNo : ∀ i, NoLazyAt s' st i ↔ NoLazyAt s st i := by
    intro i; unfold NoLazyAt
    constructor
    · intro g m a b c; exact g m (by rw [hS.alive]; exact a) (by rw [(sm m).2.1]; exact b) (by rw [hS.covers]; exact c)
    · intro g m a b c
      rw [hS.alive] at a; rw [(sm m).2.1] at b; rw [hS.covers] at c
      exact g m a b c
  refine ⟨by rw [hb]; exact h.blk, by rw [(sm 0).1]; exact h.rootKey, ?_, ?_, ?_, ?_⟩
  · intro m hma
    rw [hS.alive] at hma
    obtain ⟨l, e1, b', e2⟩ := (h.head m hma).key
    by_cases hx : m = n
    · subst hx
      rw [hh] at e1; cases e1
      refine ⟨l, by rw [(sm m).1]; exact hh, b, ?_⟩
      rw [nn]; simp only; rw [find_insert, if_pos rfl]
    · exact ⟨l, by rw [(sm m).1]; exact e1, b', by rw [nm m hx]; exact e2⟩
  · intro m hma p hp hk hhk
    rw [hS.alive] at hma; rw [hS.parent] at hp; rw [(sm p).1] at hhk
    rw [(sm m).1, hS.off, hS.size]; exact h.keyOk m hma p hp hk hhk
  · intro i v hi hv
    rw [hS.size] at hi
    obtain ⟨c1, c2, c3⟩ := h.content i v hi hv
    refine ⟨c1, ?_, ?_⟩
    · intro m ⟨d1, d2, d3, d4⟩
      rw [(sm m).2.2]
      apply c2 m
      rw [hS.alive] at d1; rw [(sm m).2.1] at d2; rw [hS.covers] at d3
      refine ⟨d1, d2, d3, ?_⟩
      intro m' a b c
      exact d4 m' (by rw [hS.alive]; exact a) (by rw [(sm m').2.1]; exact b) (by rw [hS.covers]; exact c)
    · intro hno; rw [hm]; exact c3 ((hNo i).1 hno)
  · intro m key e hma hf hne hex
    rw [hS.alive] at hma; rw [(sm m).1] at hne
    have hf' : find key (s.node m).arrs = some e := by
      by_cases hx : m = n
      · subst hx
        rw [nn] at hf
        simp only at hf
        rw [find_insert] at hf
        split at hf
        · rename_i hkk; subst hkk; exact absurd hh.symm hne
        · exact hf
      · rw [nm m hx] at hf; exact hf
    obtain ⟨k', o1, o2, o3, o4, o5, o6, o7, o8, o9⟩ := h.others m key e hma hf' hne hex
    refine ⟨k', o1, o2, o3, o4, by rw [hb]; exact o5, o6, o7, ?_, ?_⟩
    · intro j v hj hv; rw [hS.size] at hj; rw [hm]; exact o8 j v hj hv
    · intro i hc; rw [hS.covers] at hc; exact (hNo i).2 (o9 i hc)

/-- What get leaves behind. -/
structure GetPost (env : Env V) (s s' : St V) (st : Nat → Nat) (val : Nat → Option V) (kh : BaseKey) (B : Nat)
    (n : Nat) (k1 : BaseKey) (arr : Arr) : Prop where
  shape : SameShape s s'
  lazy0 : lazy (s'.node 0) = false
  noLazy : ∀ i, Covers s st n i → NoLazyAt s' st i
  lazym : ∀ m, lazy (s'.node m) = true → lazy (s.node m) = true
  zeroing : ∀ m, (s'.node m).zeroing = (s.node m).zeroing
  c1 : C1 env s' st val kh B (fun _ _ => False)
  read : ∀ j v, j < (s.node n).size → val (st n + j) = some v →
    readArr s' arr j = (if k1 = kh then v else env.conv k1.dt v)

theorem get_of_sync {env : Env V} {s s0 : St V} {st val kh B n} {k1 : BaseKey} (T : Tree s st) (hn : s.alive n = true)
    (hc : SameCore s s0) (hz : ∀ m, (s0.node m).zeroing = (s.node m).zeroing)
    (P : SyncAll env s0 (sync env s0 n k1 false).2 st val kh B n k1 false (sync env s0 n k1 false).1) :
    ∃ arr s', (match find (sync env s0 n k1 false).1 ((sync env s0 n k1 false).2.node n).arrs with
        | none => (none, (sync env s0 n k1 false).2)
        | some (a, _) => (some a, setArr (sync env s0 n k1 false).2 n (sync env s0 n k1 false).1 a true)) =
      ((some arr, s') : Option Arr × St V) ∧ GetPost env s s' st val kh B n k1 arr := by
  generalize (sync env s0 n k1 false).2 = s1 at *
  generalize (sync env s0 n k1 false).1 = dk at *
  obtain ⟨arr, b, f1, f2, f3⟩ := P.arr
  have T1 := T.shape (hc.shape.trans P.shape)
  have hn1 : s1.alive n = true := by rw [(hc.shape.trans P.shape).alive]; exact hn
  refine ⟨arr, setArr s1 n dk arr true, by rw [f1], ?_⟩
  have hS := setArr_shape s1 n dk arr true
  have sm : ∀ m, lazy ((setArr s1 n dk arr true).node m) = lazy (s1.node m) ∧
      ((setArr s1 n dk arr true).node m).zeroing = (s1.node m).zeroing := by
    intro m; unfold setArr
    by_cases hx : m = n
    · subst hx; rw [upd_self]; exact ⟨rfl, rfl⟩
    · rw [upd_ne _ _ hx]; exact ⟨rfl, rfl⟩
  have hNo : ∀ i, NoLazyAt s1 st i → NoLazyAt (setArr s1 n dk arr true) st i := by
    intro i g m a b c
    rw [hS.alive] at a; rw [(sm m).1] at b; rw [hS.covers] at c
    exact g m a b c
  have hcn : ∀ i, Covers s st n i → NoLazyAt s1 st i := by
    intro i hi; exact P.noLazy i (hc.shape.covers.2 hi)
  refine ⟨(hc.shape.trans P.shape).trans hS, by rw [(sm 0).1]; exact P.lazy0, fun i hi => hNo i (hcn i hi), ?_, ?_, ?_, ?_⟩
  · intro m hm; rw [(sm m).1] at hm
    have := P.lazym m hm
    rw [hc.lazy] at this; exact this
  · intro m; rw [(sm m).2, P.zeroing, hz]
  · by_cases hk : k1 = kh
    · subst hk
      have := f2 rfl; subst this
      have c1 : C1 env s1 st val k1 B (fun _ _ => False) := P.c1.mono (by intro _ _ hx; exact hx.2.2 rfl)
      exact C1_setHead c1 (P.same rfl) true
    · obtain ⟨o1, o2⟩ := P.other hk
      obtain ⟨g1, g2, g3, g4, g5⟩ := f3 hk
      have hdk : some dk ≠ (s1.node n).head := by
        obtain ⟨l, e1, _⟩ := (P.c1.head n hn1).key
        rw [e1, o1]
        intro hx; cases hx; exact hk rfl
      have c := C1_setOther P.c1 hdk arr true s1.nextBlk (Nat.le_refl _)
      have hsame : { setArr s1 n dk arr true with nextBlk := s1.nextBlk } = setArr s1 n dk arr true := rfl
      rw [hsame] at c
      apply c.close
      intro m key e hex _ hf hne
      have hmk : m = n ∧ key = dk := by
        rcases hex with hx | hx
        · exact ⟨hx.1, hx.2.1⟩
        · exact hx
      obtain ⟨rfl, rfl⟩ := hmk
      have he : e = (arr, true) := by
        have : find key ((setArr s1 m key arr true).node m).arrs = some (arr, true) := by
          unfold setArr; rw [upd_self]; simp only; rw [find_insert, if_pos rfl]
        rw [this] at hf; cases hf; rfl
      subst he
      refine ⟨k1, o1, hk, g1, g2, g3, g4, rfl, ?_, ?_⟩
      · intro j v hj hv
        rw [hS.size, (hc.shape.trans P.shape).size] at hj
        exact g5 rfl j v (by rw [hc.shape.size]; exact hj) hv
      · intro i hi
        rw [hS.covers, (hc.shape.trans P.shape).covers] at hi
        exact hNo i (hcn i hi)
  · intro j v hj hv
    by_cases hk : k1 = kh
    · rw [if_pos hk]
      have := f2 hk; subst this
      have hcov : Covers s st n (st n + j) := ⟨by omega, by omega⟩
      have hlt : st n + j < (s1.node 0).size := by
        have := covers_lt T hn hcov
        rw [(hc.shape.trans P.shape).size]; exact this
      exact (P.c1.content _ v hlt hv).2.2 (hcn _ hcov)
    · rw [if_neg hk]
      obtain ⟨g1, g2, g3, g4, g5⟩ := f3 hk
      unfold readArr
      rw [g2, Nat.zero_add]
      exact g5 rfl j v (by rw [hc.shape.size]; exact hj) hv

theorem get_C1 {env : Env V} (he : EnvOk env) {s : St V} {st val k B} (T : Tree s st)
    (h : C1 env s st val k B (fun _ _ => False)) (hl0 : lazy (s.node 0) = false) {n : Nat} (hn : s.alive n = true)
    (k1 : BaseKey) :
    ∃ arr s', get env s n k1 = (some arr, s') ∧ GetPost env s s' st val k B n k1 arr := by
  have hc : SameCore s (upd s n (fun d => { d with clearCalled := false })) :=
    sameCore_upd s n ⟨⟨fun _ => rfl, fun _ => rfl, fun _ => rfl, fun _ => rfl⟩, fun _ => rfl, fun _ => rfl, fun _ => rfl, fun _ => rfl, fun _ => rfl⟩
  have hz : ∀ m, ((upd s n (fun d => { d with clearCalled := false })).node m).zeroing = (s.node m).zeroing := by
    intro m; by_cases hx : m = n
    · subst hx; rw [upd_self]
    · rw [upd_ne _ _ hx]
  have P := sync_C1 he (T.shape hc.shape) (h.core hc) (by rw [hc.lazy]; exact hl0) (by rw [hc.shape.alive]; exact hn) k1 false
  exact get_of_sync T hn hc hz P

theorem get_C0 {env : Env V} (he : EnvOk env) {s : St V} {st val} (T : Tree s st)
    (h : C0 env s st val) {n : Nat} (hn : s.alive n = true) (k1 : BaseKey) :
    ∃ arr s', get env s n k1 = (some arr, s') ∧
      GetPost env s s' st (fun i => (val i).map (env.conv k1.dt)) k1 s.nextBlk n k1 arr := by
  have hc : SameCore s (upd s n (fun d => { d with clearCalled := false })) :=
    sameCore_upd s n ⟨⟨fun _ => rfl, fun _ => rfl, fun _ => rfl, fun _ => rfl⟩, fun _ => rfl, fun _ => rfl, fun _ => rfl, fun _ => rfl, fun _ => rfl⟩
  have hz : ∀ m, ((upd s n (fun d => { d with clearCalled := false })).node m).zeroing = (s.node m).zeroing := by
    intro m; by_cases hx : m = n
    · subst hx; rw [upd_self]
    · rw [upd_ne _ _ hx]
  have P := sync_C0 he (T.shape hc.shape) (h.core hc) (by rw [hc.shape.alive]; exact hn) k1 false (Or.inl rfl)
  exact get_of_sync T hn hc hz P

/-- The user's write after cast. -/
theorem CastPost.write {env : Env V} {s s' : St V} {st val k B n} (T : Tree s st)
    (P : CastPost env s s' st val k B n) (val' : Nat → Option V) (f : Nat → V)
    (hout : ∀ i, i < (s.node 0).size → ¬ Covers s st n i → val' i = val i)
    (hin : ∀ j v, j < (s.node n).size → val' (st n + j) = some v → f j = v ∧ env.conv k.dt v = v) :
    C1 env (writeArr s' ⟨B, st n, k.dt⟩ (s'.node n).size f) st val' k B (fun _ _ => False) := by
  have S := P.shape
  have T' := T.shape S
  have c := C1_writeB P.c1 (n := n) (fun i => if Covers s st n i then val' i else val i) f k.dt
    (fun i hi => P.noLazy i (S.covers.1 hi))
    (fun i hi => if_neg (fun hx => hi (S.covers.2 hx)))
    (by
      intro j v hj hv
      rw [S.size] at hj
      have hcov : Covers s st n (st n + j) := ⟨by omega, by omega⟩
      simp only [if_pos hcov] at hv
      exact hin j v hj hv)
    (by
      intro m key e hm hf hne _
      exact absurd (P.only m key e hm hf) hne)
  refine C1.congr (T'.shape (sameShape_writeArr _ _ _ _)) c ?_
  intro i hi
  have hi' : i < (s.node 0).size := by rw [← S.size]; exact hi
  by_cases hc : Covers s st n i
  · rw [if_pos hc]
  · rw [if_neg hc]; exact hout i hi' hc

/-- What the user reads from the array obtained by cast. -/
theorem CastPost.read {env : Env V} {s s' : St V} {st val k B n} (T : Tree s st) (hn : s.alive n = true)
    (P : CastPost env s s' st val k B n) {j : Nat} {v : V} (hj : j < (s.node n).size) (hv : val (st n + j) = some v) :
    readArr s' ⟨B, st n, k.dt⟩ j = v := by
  have hcov : Covers s st n (st n + j) := ⟨by omega, by omega⟩
  have hlt : st n + j < (s'.node 0).size := by rw [P.shape.size]; exact covers_lt T hn hcov
  exact (P.c1.content _ v hlt hv).2.2 (P.noLazy _ hcov)

end Verif.Synced
