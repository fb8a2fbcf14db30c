/- The implementation refines the specification, call by call. -/
import Verif.Synced.Spec
import Verif.Synced.Access

namespace Verif.Synced

variable {V : Type}

/-- The first element of window `n`. -/
def startOf (a : Abs V) (n : Nat) : Nat :=
  match a.win[n]? with
  | some w => w.start
  | none => 0

/-- Every array reporting `zeroing` holds zeros. -/
def ZeroOk (env : Env V) (s : St V) (st : Nat → Nat) (val : Nat → Option V) : Prop :=
  ∀ n, s.alive n = true → (s.node n).zeroing = true → ∀ i v, Covers s st n i → val i = some v → v = env.zero

/-- Windows and nodes correspond. -/
structure Link (s : St V) (a : Abs V) : Prop where
  len : a.win.length = s.count
  win : ∀ n w, a.win[n]? = some w → w.alive = s.alive n ∧ w.len = (s.node n).size ∧ w.parent = (s.node n).parent ∧
    w.off = (s.node n).off

def Held (env : Env V) (s : St V) (st : Nat → Nat) (key : Option BaseKey) (val : Nat → Option V) : Prop :=
  match key with
  | none => C0 env s st val
  | some k => ∃ B, C1 env s st val k B (fun _ _ => False) ∧ lazy (s.node 0) = false

structure Inv (env : Env V) (s : St V) (a : Abs V) (pend : Nat → Bool) : Prop where
  tree : Tree s (startOf a)
  link : Link s a
  held : Held env s (startOf a) a.key a.val
  pending : ∀ n, n ≠ 0 → s.alive n = true → lazy (s.node n) = true → pend n = true ∨ (s.node n).size = 0
  zeroing : ZeroOk env s (startOf a) a.val

theorem Inv.uniform {env : Env V} {s : St V} {a : Abs V} {pend} (I : Inv env s a pend) : Uniform s := by
  have := I.held
  unfold Held at this
  cases hk : a.key with
  | none => rw [hk] at this; exact this.uniform
  | some k => rw [hk] at this; obtain ⟨B, c, _⟩ := this; exact c.uniform

theorem Link.shape {s s' : St V} {a : Abs V} (L : Link s a) (e : SameShape s s') : Link s' a := by
  refine ⟨by rw [e.count]; exact L.len, ?_⟩
  intro n w h
  rw [e.alive, e.size, e.parent, e.off]; exact L.win n w h

/-- The windows decide who is alive. -/
theorem Link.window {s : St V} {st} {a : Abs V} (T : Tree s st) (L : Link s a) (n : Nat) :
    (s.alive n = false → window a n = none) ∧
    (s.alive n = true → ∃ w, window a n = some w ∧ a.win[n]? = some w ∧ w.start = startOf a n ∧
      w.len = (s.node n).size ∧ w.parent = (s.node n).parent ∧ w.off = (s.node n).off ∧ w.alive = true) := by
  unfold Synced.window startOf
  cases hw : a.win[n]? with
  | none =>
    refine ⟨fun _ => rfl, ?_⟩
    intro ha
    have : s.count ≤ n := by
      rw [← L.len]; simpa using hw
    rw [T.dead n this] at ha; cases ha
  | some w =>
    obtain ⟨e1, e2, e3, e4⟩ := L.win n w hw
    simp only
    constructor
    · intro ha; rw [e1, ha]; rfl
    · intro ha
      refine ⟨w, by rw [e1, ha]; rfl, rfl, rfl, e2, e3, e4, by rw [e1]; exact ha⟩

theorem inWin_covers {s : St V} {a : Abs V} {n : Nat} {w : Win} (h1 : w.start = startOf a n) (h2 : w.len = (s.node n).size)
    (i : Nat) : inWin w i = true ↔ Covers s (startOf a) n i := by
  unfold inWin Covers; rw [h1, h2]; simp

theorem put_val {s : St V} {a : Abs V} {n : Nat} {w : Win} (h1 : w.start = startOf a n) (h2 : w.len = (s.node n).size)
    (b : Abs V) (f : Nat → Option V) (i : Nat) :
    (put b w f).val i = if Covers s (startOf a) n i then f (i - startOf a n) else b.val i := by
  unfold put
  simp only
  by_cases hc : Covers s (startOf a) n i
  · rw [if_pos ((inWin_covers h1 h2 i).2 hc), if_pos hc, h1]
  · rw [if_neg (fun hx => hc ((inWin_covers h1 h2 i).1 hx)), if_neg hc]

/-- The result of one call. -/
structure StepOk (env : Env V) (s : St V) (a : Abs V) (pend : Nat → Bool) (op : Op V) : Prop where
  out : outOk (lenOf a op) ((step env s op).map (·.2)) ((absStep env a op).map (·.2))
  inv : Inv env (match step env s op with | some (s', _) => s' | none => s) (absNext env a op) (pendStep env a pend op)

/-- A call that raises on both sides. -/
theorem StepOk.raise {env : Env V} {s : St V} {a : Abs V} {pend op} (I : Inv env s a pend)
    (h1 : step env s op = none) (h2 : absStep env a op = none) : StepOk env s a pend op := by
  constructor
  · rw [h1, h2]; trivial
  · unfold absNext pendStep; rw [h1, h2]; exact I

/-- A call that succeeds on both sides. -/
theorem StepOk.ok {env : Env V} {s : St V} {a : Abs V} {pend op} {s' : St V} {a' : Abs V} {o : Out V} {o' : AOut V}
    {pend' : Nat → Bool}
    (h1 : step env s op = some (s', o)) (h2 : absStep env a op = some (a', o'))
    (ho : outOk (lenOf a op) (some o) (some o')) (hp : pendStep env a pend op = pend') (I : Inv env s' a' pend') :
    StepOk env s a pend op := by
  constructor
  · rw [h1, h2]; exact ho
  · unfold absNext; rw [h1, h2, hp]; exact I

theorem disjoint_of_not_nested {s : St V} {st} (T : Tree s st) {n m i : Nat} (hn : s.alive n = true) (hm : s.alive m = true)
    (h : ¬ (Sub s n m ∨ Sub s m n)) (hc : Covers s st m i) : ¬ Covers s st n i :=
  fun hx => h (chain T hn hm hx hc)

/-! ### zero and fill -/

theorem fill_inv {env : Env V} (he : EnvOk env) {s s' : St V} {a : Abs V} {pend} (I : Inv env s a pend) {n : Nat}
    (hn : s.alive n = true) {w : Win} (h1 : w.start = startOf a n) (h2 : w.len = (s.node n).size) {x stx : V}
    (hx : stx = stored env a x) (P : FillPost env s s' n x)
    (hz : ZeroOk env s' (startOf a) (absFill a n w x stx).val) :
    Inv env s' (absFill a n w x stx) (fun m => if m = n then true else pend m) := by
  have T := I.tree
  have hwin : (absFill a n w x stx).win = a.win := by unfold absFill put; split <;> rfl
  have hst : startOf (absFill a n w x stx) = startOf a := by unfold startOf; rw [hwin]
  refine ⟨by rw [hst]; exact T.shape P.shape, ?_, ?_, ?_, by rw [hst]; exact hz⟩
  · have := I.link.shape P.shape
    exact ⟨by rw [hwin]; exact this.len, by rw [hwin]; exact this.win⟩
  · rw [hst]
    by_cases h0 : n = 0
    · subst h0
      have e : absFill a 0 w x stx = { a with key := none, val := fun _ => some x } := by unfold absFill; rw [if_pos rfl]
      rw [e]; exact P.root T
    · have e : absFill a n w x stx = put a w (fun _ => some stx) := by unfold absFill; rw [if_neg h0]
      rw [e]
      have hk : (put a w (fun _ => some stx)).key = a.key := rfl
      have hv : (put a w (fun _ => some stx)).val = fun i => if Covers s (startOf a) n i then some stx else a.val i := by
        funext i; exact put_val h1 h2 a _ i
      rw [hk, hv, hx]
      have hh := I.held
      unfold Held at hh ⊢
      cases hkey : a.key with
      | none =>
        rw [hkey] at hh
        have : stored env a x = x := by unfold stored; rw [hkey]
        rw [this]
        exact P.child_C0 T hn h0 hh
      | some k =>
        rw [hkey] at hh
        obtain ⟨B, c, l0⟩ := hh
        have : stored env a x = env.conv k.dt x := by unfold stored; rw [hkey]
        rw [this]
        obtain ⟨c', l'⟩ := P.child_C1 he T hn h0 c l0
        exact ⟨B, c', l'⟩
  · intro m hm0 hm hl
    rw [P.shape.alive] at hm
    by_cases hmn : m = n
    · left; rw [if_pos hmn]
    · rw [if_neg hmn, P.shape.size]
      by_cases hs : Sub s n m
      · rw [P.below m ⟨hs, hmn, hm⟩] at hl; cases hl
      · rw [(P.out m hm hs).1] at hl; exact I.pending m hm0 hm hl

/-- The values after zero/fill of `n`. -/
theorem absFill_val {s : St V} {a : Abs V} {n : Nat} {w : Win} (T : Tree s (startOf a)) (h1 : w.start = startOf a n)
    (h2 : w.len = (s.node n).size) (x stx : V) (i : Nat) (hi : i < (s.node 0).size) :
    (absFill a n w x stx).val i = if Covers s (startOf a) n i then some (if n = 0 then x else stx) else a.val i := by
  unfold absFill
  by_cases h0 : n = 0
  · subst h0
    have := T.root.2.2.2.1
    simp only [if_true]
    rw [if_pos]
    exact ⟨by omega, by omega⟩
  · rw [if_neg h0, if_neg h0, put_val (s := s) h1 h2]

theorem step_zero {env : Env V} (he : EnvOk env) {s : St V} {a : Abs V} {pend} (I : Inv env s a pend) (n : Nat) :
    StepOk env s a pend (.zero n) := by
  have T := I.tree
  obtain ⟨w1, w2⟩ := I.link.window T n
  cases hn : s.alive n with
  | false =>
    apply StepOk.raise I
    · simp [step, hn]
    · simp [absStep, w1 hn]
  | true =>
    obtain ⟨w, e1, e2, e3, e4, e5, e6, e7⟩ := w2 hn
    obtain ⟨P, Z⟩ := zero_spec env T I.uniform hn
    have hz0 : env.zero = stored env a env.zero := by
      unfold stored; split
      · rfl
      · rw [he.zero]
    refine StepOk.ok (s' := zero n s) (o := none) (o' := none) (a' := absFill a n w env.zero env.zero)
      (by simp [step, hn]) (by simp [absStep, e1]) trivial
      (pend' := fun m => if m = n then true else pend m) (by simp [pendStep, absStep, e1]) ?_
    apply fill_inv he I hn e3 e4 hz0 P
    intro m hm hz i v hc hv
    rw [P.shape.alive] at hm; rw [P.shape.covers] at hc
    rw [absFill_val T e3 e4 _ _ i (covers_lt T hm hc), ite_self] at hv
    by_cases hci : Covers s (startOf a) n i
    · rw [if_pos hci] at hv; cases hv; rfl
    · rw [if_neg hci] at hv
      by_cases hs : Sub s n m
      · exact absurd (hs.covers T hm hc) hci
      · rw [(Z m hm).2 hs] at hz
        exact I.zeroing m hm hz i v hc hv

theorem step_fill {env : Env V} (he : EnvOk env) {s : St V} {a : Abs V} {pend} (I : Inv env s a pend) (n : Nat) (x : V) :
    StepOk env s a pend (.fill n x) := by
  have T := I.tree
  obtain ⟨w1, w2⟩ := I.link.window T n
  cases hn : s.alive n with
  | false =>
    apply StepOk.raise I
    · simp [step, hn]
    · simp [absStep, w1 hn]
  | true =>
    obtain ⟨w, e1, e2, e3, e4, e5, e6, e7⟩ := w2 hn
    obtain ⟨P, Z⟩ := fill_spec env T I.uniform hn x
    refine StepOk.ok (s' := fill n x s) (o := none) (o' := none) (a' := absFill a n w x (stored env a x))
      (by simp [step, hn]) (by simp [absStep, e1]) trivial
      (pend' := fun m => if m = n then true else pend m) (by simp [pendStep, absStep, e1]) ?_
    apply fill_inv he I hn e3 e4 rfl P
    intro m hm hz i v hc hv
    rw [P.shape.alive] at hm; rw [P.shape.covers] at hc
    rw [absFill_val T e3 e4 _ _ i (covers_lt T hm hc)] at hv
    by_cases hs : Sub s n m ∨ Sub s m n
    · rw [(Z m hm).1 hs] at hz; cases hz
    · rw [if_neg (disjoint_of_not_nested T hn hm hs hc)] at hv
      rw [(Z m hm).2 hs] at hz
      exact I.zeroing m hm hz i v hc hv

/-! ### get -/

theorem pend_access {s s' : St V} {a : Abs V} {pend : Nat → Bool} {n : Nat} (T : Tree s (startOf a)) (L : Link s a)
    (hS : SameShape s s')
    (hno : ∀ i, Covers s (startOf a) n i → NoLazyAt s' (startOf a) i)
    (hlm : ∀ m, s.alive m = true → lazy (s'.node m) = true → lazy (s.node m) = true)
    (hn : s.alive n = true)
    (hp : ∀ m, m ≠ 0 → s.alive m = true → lazy (s.node m) = true → pend m = true ∨ (s.node m).size = 0)
    (m : Nat) (hm0 : m ≠ 0) (hm : s'.alive m = true) (hl : lazy (s'.node m) = true) :
    (if within a m n then false else pend m) = true ∨ (s'.node m).size = 0 := by
  have hm' := hm
  rw [hS.alive] at hm
  rw [hS.size]
  obtain ⟨w, e1, e2, e3, e4, _⟩ := (L.window T n).2 hn
  obtain ⟨wm, f1, f2, f3, f4, _⟩ := (L.window T m).2 hm
  by_cases hw : within a m n = true
  · right
    unfold within at hw
    rw [f2, e2] at hw
    simp only [Bool.and_eq_true, decide_eq_true_eq] at hw
    rw [e3, f3, e4, f4] at hw
    cases hz : (s.node m).size with
    | zero => rfl
    | succ z =>
      exfalso
      have hcm : Covers s (startOf a) m (startOf a m) := ⟨Nat.le_refl _, by omega⟩
      have hcn : Covers s (startOf a) n (startOf a m) := ⟨by omega, by omega⟩
      exact hno _ hcn m hm' hl (hS.covers.2 hcm)
  · rw [if_neg hw]
    exact hp m hm0 hm (hlm m hm hl)

theorem lenOf_win {a : Abs V} {op : Op V} {n : Nat} {w : Win} (h : a.win[n]? = some w)
    (hop : match op with
      | .get m _ | .modify m _ _ | .write m _ _ | .zero m | .fill m _ | .clear m | .drop m | .narrow m _ _ => m = n) :
    lenOf a op = w.len := by
  cases op <;> (simp only at hop; subst hop; simp only [lenOf, h])

theorem map_zero {env : Env V} (he : EnvOk env) {s : St V} {st val d} (h : ZeroOk env s st val) :
    ZeroOk env s st (fun i => (val i).map (env.conv d)) := by
  intro n hn hz i v hc hv
  simp only [Option.map_eq_some_iff] at hv
  obtain ⟨u, hu, hv⟩ := hv
  rw [← hv, h n hn hz i u hc hu, he.zero]

theorem startOf_win {a b : Abs V} (h : b.win = a.win) : startOf b = startOf a := by unfold startOf; rw [h]

theorem holdIn_win (env : Env V) (a : Abs V) (k : BaseKey) : (holdIn env a k).win = a.win := by
  unfold holdIn; split <;> rfl

theorem step_get {env : Env V} (he : EnvOk env) {s : St V} {a : Abs V} {pend} (I : Inv env s a pend) (n : Nat) (k : BaseKey) :
    StepOk env s a pend (.get n k) := by
  have T := I.tree
  obtain ⟨w1, w2⟩ := I.link.window T n
  cases hn : s.alive n with
  | false =>
    apply StepOk.raise I
    · simp [step, hn]
    · simp [absStep, w1 hn]
  | true =>
    obtain ⟨w, e1, e2, e3, e4, e5, e6, e7⟩ := w2 hn
    have hlen : lenOf a (.get n k) = w.len := lenOf_win (op := .get n k) e2 rfl
    -- common part
    have fin : ∀ (kh : BaseKey) (B : Nat) (val : Nat → Option V) (a' : Abs V) (arr : Arr) (s' : St V),
        get env s n k = (some arr, s') → GetPost env s s' (startOf a) val kh B n k arr →
        a' = (if a.key = none then holdIn env a k else a) → a'.key = some kh → a'.val = val →
        ZeroOk env s (startOf a) val → StepOk env s a pend (.get n k) := by
      intro kh B val a' arr s' g P ea' hkey hval hzo
      have hwin : a'.win = a.win := by rw [ea']; split <;> simp [holdIn_win]
      refine StepOk.ok (s' := s') (o := some (readArr s' arr)) (a' := a')
        (o' := some (fun i => (holdIn env a' k).val (w.start + i)))
        (by simp [step, hn, g]) (by simp [absStep, e1, ← ea']) ?_
        (pend' := fun m => if within a m n then false else pend m) (by simp [pendStep, absStep, e1]) ?_
      · rw [hlen]
        intro i hi v hv
        rw [e4] at hi
        rw [e3] at hv
        unfold holdIn at hv
        rw [hkey, hval] at hv
        by_cases hk : kh = k
        · subst hk
          simp only [if_true] at hv
          rw [hval] at hv
          rw [P.read i v hi hv, if_pos rfl]
        · have hk' : ¬ (some kh = some k) := by intro hx; cases hx; exact hk rfl
          rw [if_neg hk'] at hv
          simp only [Option.map_eq_some_iff] at hv
          obtain ⟨u, hu, hv⟩ := hv
          rw [P.read i u hi hu, if_neg (Ne.symm hk), hv]
      · have hst := startOf_win hwin
        have L := I.link.shape P.shape
        refine ⟨by rw [hst]; exact T.shape P.shape, ⟨by rw [hwin]; exact L.len, by rw [hwin]; exact L.win⟩, ?_, ?_, ?_⟩
        · unfold Held; rw [hkey, hst, hval]; exact ⟨B, P.c1, P.lazy0⟩
        · exact pend_access T I.link P.shape P.noLazy (fun m _ hl => P.lazym m hl) hn I.pending
        · rw [hst, hval]
          intro m hm hz i v hc hv
          rw [P.shape.alive] at hm; rw [P.shape.covers] at hc; rw [P.zeroing] at hz
          exact hzo m hm hz i v hc hv
    have hh := I.held
    unfold Held at hh
    cases hkey : a.key with
    | none =>
      rw [hkey] at hh
      obtain ⟨arr, s', g, P⟩ := get_C0 he T hh hn k
      refine fin k _ _ (holdIn env a k) arr s' g P (by rw [hkey]; simp) ?_ ?_ (map_zero he I.zeroing)
      · unfold holdIn; rw [hkey]; simp
      · unfold holdIn; rw [hkey]; simp
    | some kh =>
      rw [hkey] at hh
      obtain ⟨B, c, l0⟩ := hh
      obtain ⟨arr, s', g, P⟩ := get_C1 he T c l0 hn k
      exact fin kh B a.val a arr s' g P (by rw [hkey]; simp) hkey rfl I.zeroing

/-! ### modify and write -/

theorem seenOf_some {env : Env V} {a : Abs V} {w : Win} {old : Nat → V} (h : seenOf env a w = some old) :
    (∀ i, i < w.len → ∃ v, a.val (w.start + i) = some v ∧ old i = v) ∧ (∀ i, ¬ i < w.len → old i = env.zero) := by
  unfold seenOf at h
  split at h
  · rename_i hall
    simp only [Option.some.injEq] at h
    subst h
    constructor
    · intro i hi
      simp only [List.all_eq_true, List.mem_range] at hall
      have := hall i hi
      cases hv : a.val (w.start + i) with
      | none => rw [hv] at this; cases this
      | some v => exact ⟨v, rfl, by simp [hi, hv]⟩
    · intro i hi; simp [hi]
  · cases h

/-- The state after a cast and the user's write. -/
theorem cast_inv {env : Env V} {s s' : St V} {a : Abs V} {pend} (I : Inv env s a pend) {n : Nat}
    (hn : s.alive n = true) {w : Win} (h1 : w.start = startOf a n) (h2 : w.len = (s.node n).size) {k : BaseKey} {B : Nat}
    {val : Nat → Option V} {g : Nat → Option V} {f : Nat → V} (b : Abs V) (hb : b.win = a.win) (hbk : b.key = some k)
    (P : CastPost env s s' (startOf a) val k B n)
    (hval : ∀ i, i < (s.node 0).size → ¬ Covers s (startOf a) n i → b.val i = val i)
    (hg : ∀ j v, j < (s.node n).size → g j = some v → f j = v ∧ env.conv k.dt v = v)
    (hzo : ZeroOk env s (startOf a) b.val) :
    Inv env (writeArr s' ⟨B, startOf a n, k.dt⟩ (s'.node n).size f) (put b w g)
      (fun m => if within a m n then false else pend m) := by
  have T := I.tree
  have hwin : (put b w g).win = a.win := hb
  have hst := startOf_win hwin
  have S2 := sameShape_writeArr s' ⟨B, startOf a n, k.dt⟩ (s'.node n).size f
  have SS := P.shape.trans S2
  have L := I.link.shape SS
  have hv : (put b w g).val = fun i => if Covers s (startOf a) n i then g (i - startOf a n) else b.val i := by
    funext i; exact put_val h1 h2 b g i
  have c := P.write T (put b w g).val f (by
      intro i hi hc
      rw [hv]; simp only; rw [if_neg hc]; exact hval i hi hc) (by
      intro j v hj hvj
      have hc : Covers s (startOf a) n (startOf a n + j) := ⟨by omega, by omega⟩
      rw [hv] at hvj
      simp only [if_pos hc, Nat.add_sub_cancel_left] at hvj
      exact hg j v hj hvj)
  refine ⟨by rw [hst]; exact T.shape SS, ⟨by rw [hwin]; exact L.len, by rw [hwin]; exact L.win⟩, ?_, ?_, ?_⟩
  · unfold Held
    rw [hst, show (put b w g).key = some k from hbk]
    exact ⟨B, c, P.lazy0⟩
  · exact pend_access T I.link SS P.noLazy (fun m hm hl => P.lazym m hm hl) hn I.pending
  · rw [hst, hv]
    intro m hm hz i v hc hvi
    rw [SS.alive] at hm; rw [SS.covers] at hc
    have hz' : (s'.node m).zeroing = true := hz
    by_cases hs : Sub s n m ∨ Sub s m n
    · rw [(P.zeroing m hm).1 hs] at hz'; cases hz'
    · rw [(P.zeroing m hm).2 hs] at hz'
      simp only [if_neg (disjoint_of_not_nested T hn hm hs hc)] at hvi
      exact hzo m hm hz' i v hc hvi

theorem holdIn_key (env : Env V) (a : Abs V) (k : BaseKey) : (holdIn env a k).key = some k := by
  unfold holdIn; split
  · assumption
  · rfl

theorem holdIn_zero {env : Env V} (he : EnvOk env) {s : St V} {a : Abs V} {st} (k : BaseKey) (h : ZeroOk env s st a.val) :
    ZeroOk env s st (holdIn env a k).val := by
  unfold holdIn; split
  · exact h
  · exact map_zero he h

/-- Cast succeeds exactly when the specification allows it. -/
theorem cast_held {env : Env V} (he : EnvOk env) {s : St V} {a : Abs V} {pend} (I : Inv env s a pend) {n : Nat}
    (hn : s.alive n = true) (k : BaseKey) (wo : Bool) :
    ((n ≠ 0 ∧ a.key ≠ none ∧ a.key ≠ some k) → cast env s n k wo = none) ∧
    (¬ (n ≠ 0 ∧ a.key ≠ none ∧ a.key ≠ some k) → ∃ B s' val, cast env s n k wo = some (some ⟨B, startOf a n, k.dt⟩, s') ∧
      CastPost env s s' (startOf a) val k B n ∧
      (wo = true → n = 0 ∨ val = (holdIn env a k).val) ∧ (wo = false → val = (holdIn env a k).val)) := by
  have T := I.tree
  have hh := I.held
  unfold Held at hh
  cases hkey : a.key with
  | none =>
    rw [hkey] at hh
    refine ⟨by rintro ⟨_, hx, _⟩; exact absurd rfl hx, ?_⟩
    intro _
    obtain ⟨B, s', g, P⟩ := cast_C0 he T hh hn k wo
    refine ⟨B, s', _, g, P, ?_, ?_⟩
    · intro hw
      by_cases h0 : n = 0
      · exact Or.inl h0
      · right; rw [if_neg (by simp [h0])]
        unfold holdIn; rw [hkey]; simp
    · intro hw; rw [if_neg (by simp [hw])]
      unfold holdIn; rw [hkey]; simp
  | some kh =>
    rw [hkey] at hh
    obtain ⟨B, c, l0⟩ := hh
    obtain ⟨c1, c2⟩ := cast_C1 he T c l0 hn k wo
    constructor
    · rintro ⟨h0, _, hk⟩
      exact c1 ⟨h0, by intro hx; subst hx; exact hk rfl⟩
    · intro hx
      have hx' : ¬ (n ≠ 0 ∧ k ≠ kh) := by
        rintro ⟨y1, y2⟩
        exact hx ⟨y1, by simp, by simp; exact fun h => y2 h.symm⟩
      obtain ⟨B', s', g, P⟩ := c2 hx'
      refine ⟨B', s', _, g, P, ?_, ?_⟩
      · intro hw
        by_cases h0 : n = 0
        · exact Or.inl h0
        · right
          have hk : k = kh := by
            by_cases hk : k = kh
            · exact hk
            · exact absurd ⟨h0, hk⟩ hx'
          rw [if_pos hk]; unfold holdIn; rw [hkey, hk]; simp
      · intro hw
        subst hw
        unfold holdIn; rw [hkey]
        by_cases hk : k = kh
        · subst hk; simp
        · rw [if_neg hk]
          have : ¬ (some kh = some k) := by intro hx; cases hx; exact hk rfl
          rw [if_neg this]; simp

theorem step_modify {env : Env V} (he : EnvOk env) {s : St V} {a : Abs V} {pend} (I : Inv env s a pend) (n : Nat)
    (k : BaseKey) (f : (Nat → V) → Nat → V) : StepOk env s a pend (.modify n k f) := by
  have T := I.tree
  obtain ⟨w1, w2⟩ := I.link.window T n
  cases hn : s.alive n with
  | false =>
    apply StepOk.raise I
    · simp [step, hn]
    · simp [absStep, w1 hn]
  | true =>
    obtain ⟨w, e1, e2, e3, e4, e5, e6, e7⟩ := w2 hn
    have hlen : lenOf a (.modify n k f) = w.len := lenOf_win (op := .modify n k f) e2 rfl
    obtain ⟨c1, c2⟩ := cast_held he I hn k false
    by_cases hx : n ≠ 0 ∧ a.key ≠ none ∧ a.key ≠ some k
    · apply StepOk.raise I
      · simp [step, hn, c1 hx]
      · simp only [absStep, e1]; rw [if_pos hx]
    · obtain ⟨B, s', val, g, P, _, hval⟩ := c2 hx
      have hval := hval rfl
      refine StepOk.ok (s' := writeArr s' ⟨B, startOf a n, k.dt⟩ (s'.node n).size
          (fun i => env.conv k.dt (f (fun i => if i < (s'.node n).size then readArr s' ⟨B, startOf a n, k.dt⟩ i else env.zero) i)))
        (o := some (readArr s' ⟨B, startOf a n, k.dt⟩))
        (a' := put (holdIn env a k) w (fun i => (seenOf env (holdIn env a k) w).map (fun old => env.conv k.dt (f old i))))
        (o' := some (fun i => (holdIn env a k).val (w.start + i)))
        (by simp [step, hn, g]) (by simp only [absStep, e1]; rw [if_neg hx]) ?_
        (pend' := fun m => if within a m n then false else pend m)
        (by simp only [pendStep, absStep, e1]; rw [if_neg hx]) ?_
      · rw [hlen]
        intro i hi v hv
        rw [e4] at hi; rw [e3, ← hval] at hv
        exact P.read T hn hi hv
      · refine cast_inv I hn e3 e4 (holdIn env a k) (holdIn_win env a k) (holdIn_key env a k) P ?_ ?_
          (holdIn_zero he k I.zeroing)
        · intro i _ _; rw [hval]
        · intro j v hj hv
          simp only [Option.map_eq_some_iff] at hv
          obtain ⟨old, ho, hv⟩ := hv
          obtain ⟨s1, s2⟩ := seenOf_some ho
          have hold : (fun i => if i < (s'.node n).size then readArr s' ⟨B, startOf a n, k.dt⟩ i else env.zero) = old := by
            funext i
            rw [P.shape.size, ← e4]
            by_cases hi : i < w.len
            · rw [if_pos hi]
              obtain ⟨u, u1, u2⟩ := s1 i hi
              rw [u2]
              rw [e4] at hi; rw [e3, ← hval] at u1
              exact P.read T hn hi u1
            · rw [if_neg hi, s2 i hi]
          rw [hold, hv]
          exact ⟨rfl, by rw [← hv, he.idem]⟩

theorem step_write {env : Env V} (he : EnvOk env) {s : St V} {a : Abs V} {pend} (I : Inv env s a pend) (n : Nat)
    (k : BaseKey) (f : Nat → V) : StepOk env s a pend (.write n k f) := by
  have T := I.tree
  obtain ⟨w1, w2⟩ := I.link.window T n
  cases hn : s.alive n with
  | false =>
    apply StepOk.raise I
    · simp [step, hn]
    · simp [absStep, w1 hn]
  | true =>
    obtain ⟨w, e1, e2, e3, e4, e5, e6, e7⟩ := w2 hn
    obtain ⟨c1, c2⟩ := cast_held he I hn k true
    by_cases hx : n ≠ 0 ∧ a.key ≠ none ∧ a.key ≠ some k
    · apply StepOk.raise I
      · simp [step, hn, c1 hx]
      · simp only [absStep, e1]; rw [if_pos hx]
    · obtain ⟨B, s', val, g, P, hval, _⟩ := c2 hx
      have hval := hval rfl
      refine StepOk.ok (s' := writeArr s' ⟨B, startOf a n, k.dt⟩ (s'.node n).size (fun i => env.conv k.dt (f i)))
        (o := none) (a' := put (holdIn env a k) w (fun i => some (env.conv k.dt (f i)))) (o' := none)
        (by simp [step, hn, g]) (by simp only [absStep, e1]; rw [if_neg hx]) trivial
        (pend' := fun m => if within a m n then false else pend m)
        (by simp only [pendStep, absStep, e1]; rw [if_neg hx]) ?_
      refine cast_inv I hn e3 e4 (holdIn env a k) (holdIn_win env a k) (holdIn_key env a k) P ?_ ?_
          (holdIn_zero he k I.zeroing)
      · intro i hi hc
        rcases hval with h0 | hv
        · subst h0
          exfalso; apply hc
          have := T.root.2.2.2.1
          exact ⟨by omega, by omega⟩
        · rw [hv]
      · intro j v _ hv; cases hv; exact ⟨rfl, he.idem _ _⟩

/-! ### narrow, drop, clear -/

theorem lt_count {s : St V} {st} (T : Tree s st) {m : Nat} (hm : s.alive m = true) : m < s.count := by
  cases Nat.lt_or_ge m s.count with
  | inl hx => exact hx
  | inr hx => rw [T.dead m hx] at hm; cases hm

/-- The children of `p` are the living windows narrowed from it. -/
theorem any_children {s : St V} {a : Abs V} (T : Tree s (startOf a)) (L : Link s a) {p : Nat} (hp : s.alive p = true)
    (q : Win → Bool) :
    a.win.any (fun c => c.alive && decide (c.parent = some p) && q c) = true ↔
      ∃ c w, c ∈ (s.node p).children ∧ a.win[c]? = some w ∧ q w = true := by
  rw [List.any_eq_true]
  constructor
  · rintro ⟨w, hw, h⟩
    obtain ⟨c, hc⟩ := List.mem_iff_getElem?.1 hw
    simp only [Bool.and_eq_true, decide_eq_true_eq] at h
    obtain ⟨⟨h1, h2⟩, h3⟩ := h
    obtain ⟨e1, _, e3, _⟩ := L.win c w hc
    exact ⟨c, w, (T.kids p c hp).2 ⟨by rw [← e1]; exact h1, by rw [← e3]; exact h2⟩, hc, h3⟩
  · rintro ⟨c, w, h1, h2, h3⟩
    refine ⟨w, List.mem_iff_getElem?.2 ⟨c, h2⟩, ?_⟩
    obtain ⟨e1, _, e3, _⟩ := L.win c w h2
    obtain ⟨k1, k2⟩ := (T.kids p c hp).1 h1
    simp [e1, e3, k1, k2, h3]

theorem step_narrow {env : Env V} {s : St V} {a : Abs V} {pend} (I : Inv env s a pend) (p off size : Nat)
    (hok : opOk a pend (.narrow p off size)) : StepOk env s a pend (.narrow p off size) := by
  have T := I.tree
  have L := I.link
  obtain ⟨w1, w2⟩ := L.window T p
  cases hp : s.alive p with
  | false =>
    apply StepOk.raise I
    · simp [step, hp]
    · simp [absStep, w1 hp]
  | true =>
    obtain ⟨w, e1, e2, e3, e4, e5, e6, e7⟩ := w2 hp
    have hst : startOf a p = (s.node p).off := by rw [← e3, ← e6]; exact hok w e2
    have hany := any_children T L hp (fun c => overlap c off size)
    have hfit : ((narrow env p off size s).isSome = true ↔
        ¬ (w.len < off + size) ∧ ¬ (a.win.any (fun c => c.alive && decide (c.parent = some p) && overlap c off size) = true)) := by
      rw [narrow_isSome, hany, e4]
      constructor
      · rintro ⟨x1, x2⟩
        refine ⟨by omega, ?_⟩
        rintro ⟨c, wc, y1, y2, y3⟩
        obtain ⟨_, f2, _, f4⟩ := L.win c wc y2
        have := x2 c y1
        unfold overlap at y3
        simp only [Bool.and_eq_true, decide_eq_true_eq] at y3
        rw [f2, f4] at y3
        omega
      · rintro ⟨x1, x2⟩
        refine ⟨by omega, ?_⟩
        intro c hc
        have hca := ((T.kids p c hp).1 hc).1
        obtain ⟨wc, _, y2, _, y4, _, y6, _⟩ := (L.window T c).2 hca
        have h3 : ¬ (overlap wc off size = true) := fun hx => x2 ⟨c, wc, hc, y2, hx⟩
        unfold overlap at h3
        simp only [Bool.and_eq_true, decide_eq_true_eq] at h3
        rw [y4, y6] at h3
        omega
    cases hnar : narrow env p off size s with
    | none =>
      rw [hnar] at hfit
      apply StepOk.raise I
      · simp [step, hp, hnar]
      · simp only [absStep, e1]
        by_cases h1 : w.len < off + size
        · rw [if_pos h1]
        · rw [if_neg h1]
          by_cases h2 : a.win.any (fun c => c.alive && decide (c.parent = some p) && overlap c off size) = true
          · rw [if_pos h2]
          · have := hfit.2 ⟨h1, h2⟩; cases this
    | some s' =>
      rw [hnar] at hfit
      obtain ⟨h1, h2⟩ := hfit.1 rfl
      have P := narrow_post T hp hnar
      have habs : absStep env a (.narrow p off size) =
          some ({ a with win := a.win ++ [⟨w.start + off, size, some p, off, true⟩] }, none) := by
        simp only [absStep, e1]; rw [if_neg h1, if_neg h2]
      refine StepOk.ok (s' := s') (o := none) (o' := none) (by simp [step, hp, hnar]) habs trivial
        (pend' := pend) (by unfold pendStep; rw [habs]) ?_
      have hget : ∀ m, m ≠ s.count → (a.win ++ [(⟨w.start + off, size, some p, off, true⟩ : Win)])[m]? = a.win[m]? := by
        intro m hm
        by_cases hlt : m < a.win.length
        · rw [List.getElem?_append_left hlt]
        · have : s.count < m := by have := L.len; omega
          rw [List.getElem?_eq_none (by simp; have := L.len; omega), List.getElem?_eq_none (by omega)]
      have hgetN : (a.win ++ [(⟨w.start + off, size, some p, off, true⟩ : Win)])[s.count]? =
          some ⟨w.start + off, size, some p, off, true⟩ := by
        rw [← L.len]; simp
      have hs1 : startOf { a with win := a.win ++ [(⟨w.start + off, size, some p, off, true⟩ : Win)] } s.count = startOf a p + off := by
        unfold startOf; simp only [hgetN]; rw [e3]; rfl
      have hs2 : ∀ m, m ≠ s.count →
          startOf { a with win := a.win ++ [(⟨w.start + off, size, some p, off, true⟩ : Win)] } m = startOf a m := by
        intro m hm; unfold startOf; simp only [hget m hm]
      have M := narrow_move T hp hnar hs2
      refine ⟨narrow_tree T hp hnar hst hs1 hs2, ⟨?_, ?_⟩, ?_, ?_, ?_⟩
      · rw [P.count, ← L.len]; simp
      · intro m wm hm
        by_cases hmc : m = s.count
        · subst hmc
          simp only [hgetN, Option.some.injEq] at hm
          subst hm
          rw [P.alive, if_pos rfl, P.new.1, P.new.2.1, P.new.2.2.1]
          exact ⟨rfl, rfl, rfl, rfl⟩
        · simp only [hget m hmc] at hm
          obtain ⟨_, _, _, _, _, f6, f7, f8, _⟩ := M.same m hmc
          rw [P.alive, if_neg hmc, f6, f7, f8]
          exact L.win m wm hm
      · have hh := I.held
        unfold Held at hh ⊢
        simp only
        cases hkey : a.key with
        | none =>
          rw [hkey] at hh
          simp only at hh ⊢
          apply M.C0 hh
          intro m _ hx
          subst hx
          exact P.bare (hh.noHead hp)
        | some k =>
          rw [hkey] at hh
          simp only at hh ⊢
          obtain ⟨B, c, l0⟩ := hh
          exact ⟨B, narrow_C1 T hp hnar hst hs1 hs2 c, by rw [M.lazy M.root]; exact l0⟩
      · intro m hm0 hm hl
        have hmc : m ≠ s.count := by
          intro hx; rw [M.new m hm hx] at hl; cases hl
        rw [(M.same m hmc).2.2.2.2.2.1]
        rw [M.lazy hmc] at hl
        exact I.pending m hm0 (M.old m hm hmc) hl
      · intro m hm hz i v hc hv
        by_cases hmc : m = s.count
        · subst hmc; rw [P.new.2.2.2.2.2.2] at hz; cases hz
        · rw [M.covers hmc] at hc
          have hz' : (s.node m).zeroing = true := by
            by_cases hmp : m = p
            · subst hmp; rw [P.par] at hz; exact hz
            · rw [P.old m hmc hmp] at hz; exact hz
          exact I.zeroing m (M.old m hm hmc) hz' i v hc hv

theorem step_drop {env : Env V} {s : St V} {a : Abs V} {pend} (I : Inv env s a pend) (n : Nat)
    (hok : opOk a pend (.drop n)) : StepOk env s a pend (.drop n) := by
  have T := I.tree
  have L := I.link
  obtain ⟨w1, w2⟩ := L.window T n
  cases hn : s.alive n with
  | false =>
    apply StepOk.raise I
    · simp [step, hn]
    · simp [absStep, w1 hn]
  | true =>
    obtain ⟨w, e1, e2, e3, e4, e5, e6, e7⟩ := w2 hn
    have hany := any_children T L hn (fun _ => true)
    simp only [Bool.and_true] at hany
    cases hd : drop n s with
    | none =>
      apply StepOk.raise I
      · simp [step, hn, hd]
      · simp only [absStep, e1]
        rw [if_pos]
        unfold drop at hd
        cases hp : (s.node n).parent with
        | none => left; rw [e5]; exact hp
        | some p =>
          rw [hp] at hd
          simp only at hd
          split at hd
          · rename_i hch
            right
            rw [hany]
            cases hl : (s.node n).children with
            | nil => exact absurd hl hch
            | cons c cs =>
              have hca := ((T.kids n c hn).1 (by rw [hl]; simp)).1
              obtain ⟨wc, _, y2, _⟩ := (L.window T c).2 hca
              exact ⟨c, wc, by simp, y2, trivial⟩
          · cases hd
    | some s' =>
      have hlz : lazy (s.node n) = true → (s.node n).size = 0 := by
        intro hl
        have h0 : n ≠ 0 := by
          intro hx; subst hx
          unfold drop at hd; rw [T.root.2.1] at hd; cases hd
        rcases I.pending n h0 hn hl with h | h
        · rw [show pend n = false from hok] at h; cases h
        · exact h
      obtain ⟨T', M, ct, al, zz, h0, hch⟩ := drop_spec T hn hd hlz
      have habs : absStep env a (.drop n) = some ({ a with win := a.win.set n { w with alive := false } }, none) := by
        simp only [absStep, e1]
        rw [if_neg]
        rintro (hx | hx)
        · rw [e5] at hx
          obtain ⟨p, hp, _⟩ := T.child n h0 hn
          rw [hp] at hx; cases hx
        · rw [hany, hch] at hx
          obtain ⟨c, _, hc, _⟩ := hx
          cases hc
      refine StepOk.ok (s' := s') (o := none) (o' := none) (by simp [step, hn, hd]) habs trivial
        (pend' := pend) (by unfold pendStep; rw [habs]) ?_
      have hlt : n < a.win.length := by rw [L.len]; exact lt_count T hn
      have hgm : ∀ m, m ≠ n → (a.win.set n { w with alive := false })[m]? = a.win[m]? := by
        intro m hm; rw [List.getElem?_set_ne (Ne.symm hm)]
      have hgn : (a.win.set n { w with alive := false })[n]? = some { w with alive := false } := by
        rw [List.getElem?_set_self hlt]
      have hst : startOf { a with win := a.win.set n { w with alive := false } } = startOf a := by
        funext m; unfold startOf; simp only
        by_cases hm : m = n
        · subst hm; rw [hgn, e2]
        · rw [hgm m hm]
      have nf : ∀ m, ¬ (fun _ => False : Nat → Prop) m := fun _ hx => hx
      refine ⟨by rw [hst]; exact T', ⟨?_, ?_⟩, ?_, ?_, ?_⟩
      · simp only [List.length_set]; rw [ct]; exact L.len
      · intro m wm hm
        simp only at hm
        obtain ⟨_, _, _, _, _, f6, f7, f8, _⟩ := M.same m (nf m)
        by_cases hmn : m = n
        · subst hmn
          rw [hgn, Option.some.injEq] at hm
          subst hm
          rw [al, if_pos rfl, f6, f7, f8]
          exact ⟨rfl, e4, e5, e6⟩
        · rw [hgm m hmn] at hm
          rw [al, if_neg hmn, f6, f7, f8]
          exact L.win m wm hm
      · have hh := I.held
        rw [hst]
        unfold Held at hh ⊢
        simp only
        cases hkey : a.key with
        | none =>
          rw [hkey] at hh
          simp only at hh ⊢
          exact M.C0 hh (fun m _ hx => absurd hx (nf m))
        | some k =>
          rw [hkey] at hh
          simp only at hh ⊢
          obtain ⟨B, c, l0⟩ := hh
          exact ⟨B, M.C1 c (fun m _ hx => absurd hx (nf m)), by rw [M.lazy (nf 0)]; exact l0⟩
      · intro m hm0 hm hl
        rw [(M.same m (nf m)).2.2.2.2.2.1]
        rw [M.lazy (nf m)] at hl
        exact I.pending m hm0 (M.old m hm (nf m)) hl
      · rw [hst]
        intro m hm hz i v hc hv
        rw [M.covers (nf m)] at hc
        rw [zz] at hz
        exact I.zeroing m (M.old m hm (nf m)) hz i v hc hv

theorem step_clear {env : Env V} {s : St V} {a : Abs V} {pend} (I : Inv env s a pend) (n : Nat)
    (hok : opOk a pend (.clear n)) : StepOk env s a pend (.clear n) := by
  have T := I.tree
  have L := I.link
  obtain ⟨w1, w2⟩ := L.window T n
  cases hn : s.alive n with
  | false =>
    apply StepOk.raise I
    · simp [step, hn]
    · simp [absStep, w1 hn]
  | true =>
    obtain ⟨w, e1, e2, e3, e4, e5, e6, e7⟩ := w2 hn
    by_cases h0 : n = 0
    · subst h0
      have halone : ∀ m, s.alive m = true → m = 0 := by
        intro m hm
        by_cases hm0 : m = 0
        · exact hm0
        · obtain ⟨wm, _, f2, _, _, f5, _, f7⟩ := (L.window T m).2 hm
          obtain ⟨p, hp, _⟩ := T.child m hm0 hm
          have := hok m wm f2 f7
          rw [f5, hp] at this; cases this
      have habs : absStep env a (.clear 0) = some ({ a with key := none, val := fun _ => none }, none) := by
        simp [absStep, e1]
      have S := sameShape_upd s 0 (keeps_clearAllArray (V := V))
      refine StepOk.ok (s' := upd s 0 clearAllArray) (o := none) (o' := none)
        (by simp [step, hn, clear, isChild_root T]) habs trivial
        (pend' := pend) (by unfold pendStep; rw [habs]) ?_
      have L' := L.shape S
      refine ⟨T.shape S, ⟨L'.len, L'.win⟩, clear_alone T halone, ?_, ?_⟩
      · intro m hm0 hm _
        exact absurd (halone m hm) hm0
      · intro m _ _ i v _ hv; cases hv
    · apply StepOk.raise I
      · simp [step, hn, clear, (hasFamily_child T hn h0).2]
      · simp [absStep, e1, h0]

/-- Every call. -/
theorem step_ok {env : Env V} (he : EnvOk env) {s : St V} {a : Abs V} {pend} (I : Inv env s a pend) (op : Op V)
    (hok : opOk a pend op) : StepOk env s a pend op := by
  cases op with
  | narrow p off size => exact step_narrow I p off size hok
  | drop n => exact step_drop I n hok
  | zero n => exact step_zero he I n
  | fill n x => exact step_fill he I n x
  | get n k => exact step_get he I n k
  | modify n k f => exact step_modify he I n k f
  | write n k w => exact step_write he I n k w
  | clear n => exact step_clear I n hok

theorem inv_init (env : Env V) (size : Nat) : Inv env (init env size) (absInit env size) (fun _ => false) := by
  have hst : ∀ n, startOf (absInit env size) n = 0 := by
    intro n; unfold startOf absInit; simp only
    cases n with
    | zero => rfl
    | succ n => rfl
  have hal : ∀ n, (init env size).alive n = true → n = 0 := by
    intro n hn; simpa [init] using hn
  refine ⟨⟨?_, ?_, ?_, ?_, ?_, ?_⟩, ⟨rfl, ?_⟩, ⟨?_, ?_, ?_⟩, ?_, ?_⟩
  · exact ⟨rfl, rfl, rfl, hst 0, Nat.one_pos⟩
  · intro n hn
    have : n ≠ 0 := by simp only [init] at hn; omega
    simp [init, this]
  · intro n h0 hn; exact absurd (hal n hn) h0
  · intro p c hp
    have e : ((init env size).node p).children = [] := rfl
    rw [e]
    constructor
    · intro hx; cases hx
    · rintro ⟨_, hx⟩; simp [init, newRoot] at hx
  · intro p _; exact List.nodup_nil
  · intro c1 c2 p a1 a2 _ _ hne
    exact absurd ((hal c1 a1).trans (hal c2 a2).symm) hne
  · intro n w h
    cases n with
    | zero => simp [absInit] at h; subst h; exact ⟨rfl, rfl, rfl, rfl⟩
    | succ n => simp [absInit] at h
  · intro n _; rfl
  · intro _; rfl
  · intro i v hi hv
    refine ⟨0, ⟨rfl, rfl, ?_, ?_⟩, ?_⟩
    · refine ⟨by rw [hst]; exact Nat.zero_le _, by rw [hst, Nat.zero_add]; exact hi⟩
    · intro m hm _ _; rw [hal m hm]; exact Nat.le_refl _
    · simp only [absInit, Option.some.injEq] at hv; exact hv
  · intro n h0 hn _; exact absurd (hal n hn) h0
  · intro n _ hz; simp [init, newRoot] at hz

theorem agrees_of_inv {env : Env V} (he : EnvOk env) (ops : List (Op V)) : ∀ {s : St V} {a : Abs V} {pend},
    Inv env s a pend → HistOk env a pend ops → Agrees env s a ops := by
  induction ops with
  | nil => intro _ _ _ _ _; trivial
  | cons op ops ih =>
    intro s a pend I h
    have S := step_ok he I op h.1
    exact ⟨S.out, ih S.inv h.2⟩

/-- The invariant holds after every history. -/
theorem inv_run {env : Env V} (he : EnvOk env) (ops : List (Op V)) : ∀ {s : St V} {a : Abs V} {pend},
    Inv env s a pend → HistOk env a pend ops → ∃ pend', Inv env (run env s ops).2 (absRun env a ops).2 pend' := by
  induction ops with
  | nil => intro s a pend I _; exact ⟨pend, I⟩
  | cons op ops ih =>
    intro s a pend I h
    have S := step_ok he I op h.1
    obtain ⟨p', J⟩ := ih S.inv h.2
    refine ⟨p', ?_⟩
    have e1 : (run env s (op :: ops)).2 = (run env (match step env s op with | some (s', _) => s' | none => s) ops).2 := by
      simp only [run]
      cases hs : step env s op with
      | none => rfl
      | some r => rfl
    have e2 : (absRun env a (op :: ops)).2 = (absRun env (absNext env a op) ops).2 := by
      simp only [absRun, absNext]
      cases hs : absStep env a op with
      | none => rfl
      | some r => rfl
    rw [e1, e2]; exact J

end Verif.Synced
