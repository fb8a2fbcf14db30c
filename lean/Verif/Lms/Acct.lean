/-
Invariant of the planner of `SwapInOutScheduler::schedule()` for recordings in which every array
is used with one dtype: the byte counters are exact, the plan stays within `max_bytes`.
-/
import Verif.Lms.Model
import Mathlib.Tactic.Linarith
import Mathlib.Tactic.Ring
import Mathlib.Algebra.Order.BigOperators.Group.Finset

namespace Verif.Lms

variable {S D : Type} [DecidableEq S] [DecidableEq D] [Fintype D] [Fintype S]

/-- A well-formed recording: the block ends are sorted, the last one is the number of records
(cpp:84, cpp:884: `func_block_ends.push_back(order_idx)`), and there is at least one function. -/
structure Cfg.WF (c : Cfg S D) : Prop where
  two : 2 ≤ c.fe.length
  mono : ∀ i j, i ≤ j → j < c.fe.length → c.fend i ≤ c.fend j
  last : c.fend (c.fe.length - 1) = c.order.length

/-- Every array is used with one dtype, which is also the dtype it has before the iteration. -/
structure Uni (c : Cfg S D) (dt : S → D) : Prop where
  recs : ∀ r ∈ c.order, r.tag ≠ .clear → r.dtype = dt r.said
  heads : ∀ s, (c.heads s).1 = true → (c.heads s).2 = dt s

/-- The record uses (get or cast) the array. -/
def Rec.uses (r : Rec S D) (s : S) : Prop := r.tag ≠ .clear ∧ r.said = s

instance (r : Rec S D) (s : S) : Decidable (r.uses s) := by unfold Rec.uses; infer_instance

/-- Number of uses of `s` among the first `b` records. -/
def cnt (c : Cfg S D) (s : S) (b : Nat) : Nat := (c.order.take b).countP fun r => decide (r.uses s)

/-- Bytes of an array in its dtype. -/
def B (c : Cfg S D) (dt : S → D) (s : S) : Nat := c.bytes s (dt s)

def view (dt : S → D) (st : S → D → AState) : S → AState := fun s => st s (dt s)

def Off (dt : S → D) (st : S → D → AState) : Prop :=
  ∀ s d, d ≠ dt s → (st s d).count = 0 ∧ (st s d).state = .cleared

/-- Bytes of all arrays whose state is in `t`. -/
def tot (c : Cfg S D) (dt : S → D) (v : S → AState) (t : List ATag) : Nat :=
  ∑ s : S, if (v s).state ∈ t then B c dt s else 0

theorem cnt_succ (c : Cfg S D) (s : S) (b : Nat) (r : Rec S D) (h : c.order[b]? = some r) :
    cnt c s (b + 1) = cnt c s b + if r.uses s then 1 else 0 := by
  unfold cnt
  rw [List.take_add_one, h, List.countP_append]
  simp [List.countP_cons]

theorem cnt_mono (c : Cfg S D) (s : S) {a b : Nat} (h : a ≤ b) : cnt c s a ≤ cnt c s b := by
  unfold cnt
  exact List.Sublist.countP_le (List.take_sublist_take_left h)

theorem cnt_lt (c : Cfg S D) (s : S) {a j b : Nat} (r : Rec S D) (ha : a ≤ j) (hb : j < b)
    (h : c.order[j]? = some r) (hu : r.uses s) : cnt c s a < cnt c s b := by
  have h1 := cnt_succ c s j r h
  have h2 := cnt_mono c s ha
  have h3 := cnt_mono c s (show j + 1 ≤ b from hb)
  rw [if_pos hu] at h1
  omega

omit [Fintype S] [Fintype D] in
theorem setSt_view {dt : S → D} {st : S → D → AState} (s : S) (a : AState) :
    view dt (setSt st s (dt s) a) = Function.update (view dt st) s a := by
  funext s'
  unfold view setSt
  by_cases h : s' = s
  · subst h; simp
  · simp [h]

omit [Fintype S] [Fintype D] in
theorem setSt_off {dt : S → D} {st : S → D → AState} (h : Off dt st) (s : S) (a : AState) :
    Off dt (setSt st s (dt s) a) := by
  intro s' d' hd
  unfold setSt
  have : ¬ (s' = s ∧ d' = dt s) := by rintro ⟨h1, h2⟩; subst h1; exact hd h2
  rw [if_neg this]; exact h s' d' hd

omit [Fintype S] [Fintype D] [DecidableEq D] in
theorem mapSt_view {dt : S → D} {st : S → D → AState} (s : S) (f : D → AState → AState) :
    view dt (mapSt st s f) = Function.update (view dt st) s (f (dt s) (view dt st s)) := by
  funext s'
  unfold view mapSt
  by_cases h : s' = s
  · subst h; simp
  · simp [h]

omit [Fintype S] [Fintype D] [DecidableEq D] in
theorem mapSt_off {dt : S → D} {st : S → D → AState} (h : Off dt st) (s : S) (f : D → AState → AState)
    (hf : ∀ d e, e.count = 0 → e.state = .cleared → (f d e).count = 0 ∧ (f d e).state = .cleared) :
    Off dt (mapSt st s f) := by
  intro s' d' hd
  unfold mapSt
  obtain ⟨h1, h2⟩ := h s' d' hd
  by_cases hs : s' = s
  · rw [if_pos hs]; exact hf _ _ h1 h2
  · rw [if_neg hs]; exact ⟨h1, h2⟩

omit [Fintype S] [DecidableEq S] in
theorem bytesIn_off {c : Cfg S D} {dt : S → D} {st : S → D → AState} (h : Off dt st) (s : S) (t : List ATag)
    (ht : .cleared ∉ t) : bytesIn c st s t = if (view dt st s).state ∈ t then B c dt s else 0 := by
  unfold bytesIn
  rw [Finset.sum_eq_single (dt s)]
  · rfl
  · intro d _ hd
    rw [(h s d hd).2, if_neg ht]
  · intro h; exact absurd (Finset.mem_univ _) h

omit [Fintype S] [DecidableEq S] in
theorem acc_off {dt : S → D} {st : S → D → AState} (h : Off dt st) (s : S) :
    acc st s = (view dt st s).count := by
  unfold acc
  rw [Finset.sum_eq_single (dt s)]
  · rfl
  · intro d _ hd; exact (h s d hd).1
  · intro h; exact absurd (Finset.mem_univ _) h

theorem tot_upd (c : Cfg S D) (dt : S → D) (v : S → AState) (t : List ATag) (s : S) (a : AState) :
    tot c dt (Function.update v s a) t + (if (v s).state ∈ t then B c dt s else 0)
      = tot c dt v t + (if a.state ∈ t then B c dt s else 0) := by
  unfold tot
  have h1 := Finset.add_sum_erase Finset.univ (fun x => if (v x).state ∈ t then B c dt x else 0) (Finset.mem_univ s)
  have h2 := Finset.add_sum_erase Finset.univ
    (fun x => if (Function.update v s a x).state ∈ t then B c dt x else 0) (Finset.mem_univ s)
  have h3 : ∑ x ∈ Finset.univ.erase s, (if (Function.update v s a x).state ∈ t then B c dt x else 0)
      = ∑ x ∈ Finset.univ.erase s, (if (v x).state ∈ t then B c dt x else 0) := by
    apply Finset.sum_congr rfl
    intro x hx
    rw [Function.update_of_ne (Finset.ne_of_mem_erase hx)]
  simp only [Function.update_self] at h2
  omega

theorem tot_ge (c : Cfg S D) (dt : S → D) (v : S → AState) (t : List ATag) (s : S) (h : (v s).state ∈ t) :
    B c dt s ≤ tot c dt v t := by
  unfold tot
  have := Finset.single_le_sum (f := fun x => if (v x).state ∈ t then B c dt x else 0)
    (fun _ _ => Nat.zero_le _) (Finset.mem_univ s)
  simp only [h, if_true] at this
  exact this

theorem tot_zero (c : Cfg S D) (dt : S → D) (v : S → AState) (t : List ATag) (h : ∀ s, (v s).state ∉ t) :
    tot c dt v t = 0 := by
  unfold tot
  exact Finset.sum_eq_zero fun s _ => if_neg (h s)

theorem wsub_eq {a b : Nat} (h : b ≤ a) : wsub a b = a - b := by unfold wsub; rw [if_pos h]

/-- The invariant of the planner while the queue is `order[q..head)`; no array used in
`order[q..z)` is still unprefetched. -/
structure Inv (c : Cfg S D) (dt : S → D) (p : P S D) (q z : Nat) : Prop where
  off : Off dt p.st
  count : ∀ s, (view dt p.st s).count = (cnt c s p.head : Int) - cnt c s q
  pos : ∀ s, 0 < (view dt p.st s).count ↔
    ((view dt p.st s).state = .in_ ∨ (view dt p.st s).state = .unprefetched)
  noOC : ∀ s, (view dt p.st s).state ≠ .outCleared
  out : ∀ s, (view dt p.st s).state = .out → ∃ j r, (view dt p.st s).outR = some j ∧ p.tail ≤ j ∧ j < q ∧
    c.order[j]? = some r ∧ r.uses s
  sin : p.sin = tot c dt (view dt p.st) [.in_]
  sout : p.sout = tot c dt (view dt p.st) [.out]
  pre : p.pre = tot c dt (view dt p.st) [.in_, .unprefetched]
  lim : p.sin + p.sout ≤ c.maxBytes
  tailq : p.tail ≤ q
  hq : q ≤ p.head
  hl : p.head ≤ c.order.length
  ht : ∀ s, (p.ht s).1 = true → (p.ht s).2 = dt s
  hz : q ≤ z ∧ z ≤ p.head
  unp : ∀ s, (view dt p.st s).state = .unprefetched → cnt c s z = cnt c s q
  gd : ∀ s, 0 < cnt c s z → (p.ht s).2 = dt s

variable {z : Nat}

/-- Fields the waiting loops leave alone. -/
structure SameBut (dt : S → D) (p p' : P S D) : Prop where
  head : p'.head = p.head
  fid : p'.fid = p.fid
  sin : p'.sin = p.sin
  pre : p'.pre = p.pre
  ht : p'.ht = p.ht
  en : p'.en = p.en
  st : ∀ s, (view dt p'.st s).count = (view dt p.st s).count ∧
    ((view dt p.st s).state ≠ .out → (view dt p'.st s).state = (view dt p.st s).state) ∧
    ((view dt p.st s).state = .out → (view dt p'.st s).state = .out ∨ (view dt p'.st s).state = .outWaited)

omit [DecidableEq S] [DecidableEq D] [Fintype D] [Fintype S] in
theorem SameBut.refl (dt : S → D) (p : P S D) : SameBut dt p p :=
  ⟨rfl, rfl, rfl, rfl, rfl, rfl, fun _ => ⟨rfl, fun _ => rfl, fun h => .inl h⟩⟩

omit [DecidableEq S] [DecidableEq D] [Fintype D] [Fintype S] in
theorem SameBut.trans {dt : S → D} {p p' p'' : P S D} (h : SameBut dt p p') (h' : SameBut dt p' p'') :
    SameBut dt p p'' := by
  refine ⟨h'.head.trans h.head, h'.fid.trans h.fid, h'.sin.trans h.sin, h'.pre.trans h.pre,
    h'.ht.trans h.ht, h'.en.trans h.en, fun s => ?_⟩
  obtain ⟨a1, a2, a3⟩ := h.st s
  obtain ⟨b1, b2, b3⟩ := h'.st s
  refine ⟨b1.trans a1, fun hn => ?_, fun ho => ?_⟩
  · have := a2 hn
    rw [b2 (by rw [this]; exact hn), this]
  · rcases a3 ho with h | h
    · exact b3 h
    · right; rw [b2 (by rw [h]; simp), h]

/-- What `schedule_wait_for_swap_out_impl` does. -/
theorem waitImpl_cases (c : Cfg S D) (dt : S → D) (u : Uni c dt) (p : P S D) (q : Nat) (h : Inv c dt p q z) :
    (waitImpl c p = { p with tail := p.tail + 1 } ∧
      ∀ s, (view dt p.st s).state = .out → (view dt p.st s).outR ≠ some p.tail) ∨
    (∃ r, c.order[p.tail]? = some r ∧ r.tag ≠ .clear ∧ r.dtype = dt r.said ∧
      (view dt p.st r.said).state = .out ∧ (view dt p.st r.said).outR = some p.tail ∧
      Off dt (waitImpl c p).st ∧
      view dt (waitImpl c p).st = Function.update (view dt p.st) r.said
        ⟨(view dt p.st r.said).count, .outWaited, none⟩ ∧
      waitImpl c p = { p.pushBeg ⟨.wait, p.tail⟩ with
        sout := wsub p.sout (B c dt r.said), st := (waitImpl c p).st, tail := p.tail + 1 }) := by
  unfold waitImpl
  cases ho : c.order[p.tail]? with
  | none =>
    left
    refine ⟨rfl, fun s hs => ?_⟩
    obtain ⟨j, r, h1, h2, h3, h4, h5⟩ := h.out s hs
    rw [h1]; rintro ⟨⟩; rw [ho] at h4; simp at h4
  | some r =>
    simp only
    by_cases hc : ((p.st r.said r.dtype).state = .out ∨ (p.st r.said r.dtype).state = .outCleared) ∧
        (p.st r.said r.dtype).outR = some p.tail
    · right
      have hd : r.dtype = dt r.said := by
        by_contra hd
        have := (h.off r.said r.dtype hd).2
        rw [this] at hc; simp at hc
      have hv : p.st r.said r.dtype = view dt p.st r.said := by unfold view; rw [hd]
      rw [hv] at hc
      have ho' : (view dt p.st r.said).state = .out := by
        rcases hc.1 with h1 | h1
        · exact h1
        · exact absurd h1 (h.noOC r.said)
      have hcl : r.tag ≠ .clear := by
        obtain ⟨j, r', h1, h2, h3, h4, h5⟩ := h.out _ ho'
        rw [h1] at hc
        have : j = p.tail := by simpa using hc.2
        rw [this, ho] at h4
        have : r = r' := by simpa using h4
        rw [this]; exact h5.1
      refine ⟨r, rfl, hcl, hd, ho', hc.2, ?_⟩
      rw [hv, if_pos hc]
      have hb : bytesIn c p.st r.said [.out] = B c dt r.said := by
        rw [bytesIn_off h.off r.said [.out] (by simp), ho', if_pos (by simp)]
      have hoff : Off dt (mapSt p.st r.said fun _ e =>
          if e.state = .out then { e with state := .outWaited }
          else if e.state = .outCleared then { e with state := .cleared } else e) := by
        apply mapSt_off h.off
        intro d e h1 h2
        rw [if_neg (by rw [h2]; simp), if_neg (by rw [h2]; simp)]
        exact ⟨h1, h2⟩
      refine ⟨?_, ?_, ?_⟩
      · simp only [hd]; exact setSt_off hoff _ _
      · simp only [hd]
        rw [setSt_view]
        conv_lhs => rw [mapSt_view]
        rw [Function.update_idem]
        congr 1
        change ({ view dt (mapSt _ _ _) r.said with outR := none } : AState) = _
        rw [mapSt_view, Function.update_self, if_pos ho']
      · simp only [hb]
    · left
      rw [if_neg hc]
      refine ⟨rfl, fun s hs hr => ?_⟩
      obtain ⟨j, r', h1, h2, h3, h4, h5⟩ := h.out s hs
      rw [hr] at h1
      have : p.tail = j := by simpa using h1
      rw [← this, ho] at h4
      have he : r = r' := by simpa using h4
      subst he
      apply hc
      have hm : r ∈ c.order := List.mem_of_getElem? ho
      rw [u.recs r hm h5.1, h5.2]
      exact ⟨.inl hs, hr⟩

theorem waitImpl_inv (c : Cfg S D) (dt : S → D) (u : Uni c dt) (p : P S D) (q : Nat) (h : Inv c dt p q z)
    (ht : p.tail < q) : Inv c dt (waitImpl c p) q z ∧ SameBut dt p (waitImpl c p) ∧ (waitImpl c p).tail = p.tail + 1 := by
  rcases waitImpl_cases c dt u p q h with ⟨he, hn⟩ | ⟨r, ho, hcl, hd, hs, hr, hoff, hv, he⟩
  · rw [he]
    refine ⟨⟨h.off, h.count, h.pos, h.noOC, fun s hs => ?_, h.sin, h.sout, h.pre, h.lim, ht, h.hq, h.hl, h.ht, h.hz, h.unp, h.gd⟩,
      ⟨rfl, rfl, rfl, rfl, rfl, rfl, fun s => ⟨rfl, fun _ => rfl, fun h => .inl h⟩⟩, rfl⟩
    obtain ⟨j, r, h1, h2, h3, h4, h5⟩ := h.out s hs
    have : j ≠ p.tail := fun e => hn s hs (by rw [h1, e])
    exact ⟨j, r, h1, by change p.tail + 1 ≤ j; omega, h3, h4, h5⟩
  · have hw : (waitImpl c p).sout = wsub p.sout (B c dt r.said) := by rw [he]
    have hti : (waitImpl c p).tail = p.tail + 1 := by rw [he]
    have hhe : (waitImpl c p).head = p.head := by rw [he]; rfl
    have hsi : (waitImpl c p).sin = p.sin := by rw [he]; rfl
    have hpr : (waitImpl c p).pre = p.pre := by rw [he]; rfl
    have hht : (waitImpl c p).ht = p.ht := by rw [he]; rfl
    have hge := tot_ge c dt (view dt p.st) [.out] r.said (by rw [hs]; simp)
    have hso := tot_upd c dt (view dt p.st) [.out] r.said ⟨(view dt p.st r.said).count, .outWaited, none⟩
    have hin := tot_upd c dt (view dt p.st) [.in_] r.said ⟨(view dt p.st r.said).count, .outWaited, none⟩
    have hpe := tot_upd c dt (view dt p.st) [.in_, .unprefetched] r.said ⟨(view dt p.st r.said).count, .outWaited, none⟩
    simp [hs] at hso hin hpe
    rw [← h.sout] at hso hge
    rw [wsub_eq hge] at hw
    have hlim := h.lim
    refine ⟨⟨hoff, ?_, ?_, ?_, ?_, ?_, ?_, ?_, ?_, by omega, by rw [hhe]; exact h.hq, by rw [hhe]; exact h.hl,
      by rw [hht]; exact h.ht, by rw [hhe]; exact h.hz, ?_, by rw [hht]; exact h.gd⟩, ⟨hhe, by rw [he]; rfl, hsi, hpr, hht, by rw [he]; rfl, ?_⟩, hti⟩
    · intro s
      rw [hhe, hv, ← h.count s]
      by_cases e : s = r.said
      · subst e; simp
      · rw [Function.update_of_ne e]
    · intro s
      rw [hv]
      by_cases e : s = r.said
      · subst e
        have := h.pos r.said
        rw [hs] at this
        simpa using this
      · rw [Function.update_of_ne e]; exact h.pos s
    · intro s
      rw [hv]
      by_cases e : s = r.said
      · subst e; simp
      · rw [Function.update_of_ne e]; exact h.noOC s
    · intro s
      rw [hv, hti]
      by_cases e : s = r.said
      · subst e; simp
      · rw [Function.update_of_ne e]
        intro hs'
        obtain ⟨j, r', h1, h2, h3, h4, h5⟩ := h.out s hs'
        refine ⟨j, r', h1, ?_, h3, h4, h5⟩
        by_contra hlt
        have : j = p.tail := by omega
        rw [this, ho] at h4
        have : r = r' := by simpa using h4
        exact e (by rw [this]; exact h5.2.symm)
    · rw [hsi, hv, h.sin]; omega
    · rw [hw, hv]; omega
    · rw [hpr, hv, h.pre]; omega
    · rw [hw, hsi]; omega
    · intro s
      rw [hv]
      by_cases e : s = r.said
      · subst e; simp
      · rw [Function.update_of_ne e]; exact h.unp s
    · intro s
      rw [hv]
      by_cases e : s = r.said
      · subst e; simp [hs]
      · rw [Function.update_of_ne e]; exact ⟨rfl, fun _ => rfl, fun h => .inl h⟩

/-- `free_memory_to_prefetch` always succeeds when the arrays in the queue leave room: its ignored
return value is always false. -/
theorem freeLoop_inv (c : Cfg S D) (dt : S → D) (u : Uni c dt) (q b : Nat) (n : Nat) :
    ∀ (p : P S D), Inv c dt p q z → q - p.tail ≤ n → p.sin + b ≤ c.maxBytes →
      Inv c dt (freeLoop c b n p) q z ∧ SameBut dt p (freeLoop c b n p) ∧
        (freeLoop c b n p).sin + (freeLoop c b n p).sout + b ≤ c.maxBytes := by
  have hz : ∀ p : P S D, Inv c dt p q z → q ≤ p.tail → p.sout = 0 := by
    intro p h hq
    rw [h.sout]
    apply tot_zero
    intro s hs
    obtain ⟨j, r, h1, h2, h3, h4, h5⟩ := h.out s (by simpa using hs)
    omega
  induction n with
  | zero =>
    intro p h hn hb
    have := hz p h (by omega)
    refine ⟨h, SameBut.refl dt p, ?_⟩
    change p.sin + p.sout + b ≤ _
    omega
  | succ n ih =>
    intro p h hn hb
    unfold freeLoop
    by_cases hc : p.sin + p.sout + b > c.maxBytes
    · rw [if_pos hc]
      have ht : p.tail < q := by
        by_contra ht
        have := hz p h (by omega)
        omega
      obtain ⟨h1, h2, h3⟩ := waitImpl_inv c dt u p q h ht
      obtain ⟨g1, g2, g3⟩ := ih (waitImpl c p) h1 (by omega) (by rw [h2.sin]; exact hb)
      exact ⟨g1, h2.trans g2, g3⟩
    · rw [if_neg hc]
      exact ⟨h, SameBut.refl dt p, by omega⟩

theorem enqueue_first (c : Cfg S D) (dt : S → D) (u : Uni c dt) (p p' : P S D) (q : Nat) (h : Inv c dt p q z)
    (r : Rec S D) (ho : c.order[p.head]? = some r) (hcl : r.tag ≠ .clear) (h0 : (view dt p.st r.said).count = 0)
    (hh : p'.head = p.head) (ht : p'.tail = p.tail) (hoff : Off dt p'.st) (a : AState)
    (hv : view dt p'.st = Function.update (view dt p.st) r.said a) (ha : a.count = 0)
    (has : a.state = .in_ ∨ a.state = .unprefetched)
    (hsin : p'.sin = p.sin + if a.state = .in_ then B c dt r.said else 0)
    (hpre : p'.pre = p.pre + B c dt r.said)
    (hsout : p'.sout + (if (view dt p.st r.said).state = .out then B c dt r.said else 0) = p.sout)
    (hlim : p'.sin + p'.sout ≤ c.maxBytes) (hht : ∀ s, (p'.ht s).1 = true → (p'.ht s).2 = dt s)
    (hgd : ∀ s, (p.ht s).2 = dt s → (p'.ht s).2 = dt s) :
    Inv c dt (enqueue r p') q z := by
  have hm : r ∈ c.order := List.mem_of_getElem? ho
  have hd : r.dtype = dt r.said := u.recs r hm hcl
  have hlt : p.head < c.order.length := (List.getElem?_eq_some_iff.mp ho).1
  have hni : (view dt p.st r.said).state ≠ .in_ ∧ (view dt p.st r.said).state ≠ .unprefetched := by
    have := (h.pos r.said).mpr.mt (by omega)
    push Not at this; exact this
  have hvs : p'.st r.said (dt r.said) = a := by
    have := congrFun hv r.said
    rw [Function.update_self] at this; exact this
  have hve : view dt (enqueue r p').st = Function.update (view dt p.st) r.said { a with count := a.count + 1 } := by
    unfold enqueue
    simp only [hd, hvs]
    rw [setSt_view, hv, Function.update_idem]
  have hoe : Off dt (enqueue r p').st := by
    unfold enqueue; simp only [hd]; exact setSt_off hoff _ _
  have hso := tot_upd c dt (view dt p.st) [.out] r.said { a with count := a.count + 1 }
  have hin := tot_upd c dt (view dt p.st) [.in_] r.said { a with count := a.count + 1 }
  have hpe := tot_upd c dt (view dt p.st) [.in_, .unprefetched] r.said { a with count := a.count + 1 }
  have hhe : (enqueue r p').head = p.head + 1 := by change p'.head + 1 = _; rw [hh]
  refine ⟨hoe, ?_, ?_, ?_, ?_, ?_, ?_, ?_, hlim, by change p'.tail ≤ q; rw [ht]; exact h.tailq,
    by rw [hhe]; have := h.hq; omega, by rw [hhe]; exact hlt, hht, by rw [hhe]; have := h.hz; omega, ?_,
    fun s hs => hgd s (h.gd s hs)⟩
  · intro s
    rw [hhe, hve, cnt_succ c s p.head r ho]
    have := h.count s
    by_cases e : s = r.said
    · subst e
      rw [Function.update_self, if_pos ⟨hcl, rfl⟩]
      rw [h0] at this
      simp only [ha]
      push_cast; omega
    · rw [Function.update_of_ne e, if_neg (fun hu => e hu.2.symm), this]; simp
  · intro s
    rw [hve]
    by_cases e : s = r.said
    · subst e; rw [Function.update_self]; simp only [ha]; simpa using has
    · rw [Function.update_of_ne e]; exact h.pos s
  · intro s
    rw [hve]
    by_cases e : s = r.said
    · subst e; rw [Function.update_self]
      rcases has with h' | h' <;> simp [h']
    · rw [Function.update_of_ne e]; exact h.noOC s
  · intro s
    rw [hve]
    by_cases e : s = r.said
    · subst e; rw [Function.update_self]
      rcases has with h' | h' <;> simp [h']
    · rw [Function.update_of_ne e]; change _ → ∃ j r', _ ∧ p'.tail ≤ j ∧ _; rw [ht]; exact h.out s
  · change p'.sin = _
    rw [hve, hsin, h.sin]
    simp [hni.1] at hin
    omega
  · change p'.sout = _
    rw [hve]
    rw [h.sout] at hsout
    have : a.state ≠ .out := by rcases has with h' | h' <;> simp [h']
    simp [this] at hso
    omega
  · change p'.pre = _
    rw [hve, hpre, h.pre]
    simp [hni.1, hni.2, has] at hpe
    omega
  · intro s
    rw [hve]
    by_cases e : s = r.said
    · subst e
      intro _
      have h1 := h.count r.said
      have h2 := cnt_mono c r.said h.hz.1
      have h3 := cnt_mono c r.said h.hz.2
      omega
    · rw [Function.update_of_ne e]; exact h.unp s

theorem enqueue_again (c : Cfg S D) (dt : S → D) (u : Uni c dt) (p : P S D) (q : Nat) (h : Inv c dt p q z)
    (r : Rec S D) (ho : c.order[p.head]? = some r) (hcl : r.tag ≠ .clear) (h0 : (view dt p.st r.said).count ≠ 0) :
    Inv c dt (enqueue r p) q z := by
  have hm : r ∈ c.order := List.mem_of_getElem? ho
  have hd : r.dtype = dt r.said := u.recs r hm hcl
  have hlt : p.head < c.order.length := (List.getElem?_eq_some_iff.mp ho).1
  have hge : 0 ≤ (view dt p.st r.said).count := by
    rw [h.count]; have := cnt_mono c r.said h.hq; omega
  have hve : view dt (enqueue r p).st = Function.update (view dt p.st) r.said
      { view dt p.st r.said with count := (view dt p.st r.said).count + 1 } := by
    unfold enqueue
    simp only [hd]
    rw [setSt_view]; rfl
  have hoe : Off dt (enqueue r p).st := by
    unfold enqueue; simp only [hd]; exact setSt_off h.off _ _
  have hso := tot_upd c dt (view dt p.st) [.out] r.said { view dt p.st r.said with count := (view dt p.st r.said).count + 1 }
  have hin := tot_upd c dt (view dt p.st) [.in_] r.said { view dt p.st r.said with count := (view dt p.st r.said).count + 1 }
  have hpe := tot_upd c dt (view dt p.st) [.in_, .unprefetched] r.said { view dt p.st r.said with count := (view dt p.st r.said).count + 1 }
  refine ⟨hoe, ?_, ?_, ?_, ?_, ?_, ?_, ?_, h.lim, h.tailq,
    by change q ≤ p.head + 1; have := h.hq; omega, hlt, h.ht,
    by change q ≤ z ∧ z ≤ p.head + 1; have := h.hz; omega, ?_, h.gd⟩
  · intro s
    change _ = (cnt c s (p.head + 1) : Int) - _
    rw [hve, cnt_succ c s p.head r ho]
    have := h.count s
    by_cases e : s = r.said
    · subst e
      rw [Function.update_self, if_pos ⟨hcl, rfl⟩]
      simp only [this]
      push_cast; omega
    · rw [Function.update_of_ne e, if_neg (fun hu => e hu.2.symm), this]; simp
  · intro s
    rw [hve]
    by_cases e : s = r.said
    · subst e; rw [Function.update_self]
      rw [← h.pos]; simp only; omega
    · rw [Function.update_of_ne e]; exact h.pos s
  · intro s
    rw [hve]
    by_cases e : s = r.said
    · subst e; rw [Function.update_self]; exact h.noOC r.said
    · rw [Function.update_of_ne e]; exact h.noOC s
  · intro s
    rw [hve]
    by_cases e : s = r.said
    · subst e; rw [Function.update_self]; exact h.out r.said
    · rw [Function.update_of_ne e]; exact h.out s
  · change p.sin = _; rw [hve, h.sin]; exact (Nat.add_right_cancel hin).symm
  · change p.sout = _; rw [hve, h.sout]; exact (Nat.add_right_cancel hso).symm
  · change p.pre = _; rw [hve, h.pre]; exact (Nat.add_right_cancel hpe).symm
  · intro s
    rw [hve]
    by_cases e : s = r.said
    · subst e; rw [Function.update_self]; exact h.unp r.said
    · rw [Function.update_of_ne e]; exact h.unp s

theorem freeMem_inv (c : Cfg S D) (dt : S → D) (u : Uni c dt) (p : P S D) (q b : Nat) (h : Inv c dt p q z)
    (hq : q ≤ c.fbegin p.fid) (hb : p.sin + b ≤ c.maxBytes) :
    Inv c dt (freeMem c p b) q z ∧ SameBut dt p (freeMem c p b) ∧
      (freeMem c p b).sin + (freeMem c p b).sout + b ≤ c.maxBytes := by
  unfold freeMem
  exact freeLoop_inv c dt u q b _ p h (by omega) hb

theorem fetch_enqueue (c : Cfg S D) (dt : S → D) (u : Uni c dt) (p p' : P S D) (q : Nat) (h : Inv c dt p q z)
    (hq : q ≤ c.fbegin p.fid) (r : Rec S D) (ho : c.order[p.head]? = some r) (hcl : r.tag ≠ .clear)
    (h0 : (view dt p.st r.said).count = 0) (hs : (view dt p.st r.said).state ≠ .out)
    (hb : p.sin + B c dt r.said ≤ c.maxBytes)
    (hh : p'.head = (freeMem c p (B c dt r.said)).head) (ht : p'.tail = (freeMem c p (B c dt r.said)).tail)
    (hst : p'.st = setSt (freeMem c p (B c dt r.said)).st r.said (dt r.said)
      { (freeMem c p (B c dt r.said)).st r.said (dt r.said) with state := .in_ })
    (hsin : p'.sin = (freeMem c p (B c dt r.said)).sin + B c dt r.said)
    (hpre : p'.pre = (freeMem c p (B c dt r.said)).pre + B c dt r.said)
    (hso : p'.sout = (freeMem c p (B c dt r.said)).sout)
    (hht : ∀ s, (p'.ht s).1 = true → (p'.ht s).2 = dt s)
    (hgd : ∀ s, (p.ht s).2 = dt s → (p'.ht s).2 = dt s) :
    Inv c dt (enqueue r p') q z := by
  obtain ⟨g1, g2, g3⟩ := freeMem_inv c dt u p q (B c dt r.said) h hq hb
  have g0 : (view dt (freeMem c p (B c dt r.said)).st r.said).count = 0 := by rw [(g2.st r.said).1]; exact h0
  have gs : (view dt (freeMem c p (B c dt r.said)).st r.said).state ≠ .out := by
    rw [(g2.st r.said).2.1 hs]; exact hs
  refine enqueue_first c dt u (freeMem c p (B c dt r.said)) p' q g1 r (by rw [g2.head]; exact ho) hcl g0 hh ht ?_
    { (freeMem c p (B c dt r.said)).st r.said (dt r.said) with state := .in_ } ?_ g0 (.inl rfl) ?_ hpre ?_ ?_ hht
    (by rw [g2.ht]; exact hgd)
  · rw [hst]; exact setSt_off g1.off _ _
  · rw [hst]; exact setSt_view _ _
  · rw [hsin]; simp
  · rw [hso, if_neg gs, Nat.add_zero]
  · rw [hsin, hso]; omega

theorem swapInFirst_inv (c : Cfg S D) (dt : S → D) (u : Uni c dt) (p p' : P S D) (q : Nat) (h : Inv c dt p q z)
    (hq : q ≤ c.fbegin p.fid) (r : Rec S D) (ho : c.order[p.head]? = some r) (hcl : r.tag ≠ .clear)
    (h0 : (p.st r.said r.dtype).count = 0) (hr : swapInFirst c p.head r p = some p') :
    Inv c dt (enqueue r p') q z ∧ p'.fid = p.fid ∧ p'.head = p.head := by
  have hm : r ∈ c.order := List.mem_of_getElem? ho
  have hd : r.dtype = dt r.said := u.recs r hm hcl
  have hva : p.st r.said r.dtype = view dt p.st r.said := by rw [hd]; rfl
  have hB : c.bytes r.said r.dtype = B c dt r.said := by rw [hd]; rfl
  unfold swapInFirst at hr
  simp only [hB] at hr
  rw [hva] at hr h0
  by_cases hlim : c.maxPre < p.pre + B c dt r.said ∨ c.maxBytes < p.sin + B c dt r.said
  · rw [if_pos hlim] at hr; cases hr
  rw [if_neg hlim] at hr
  push Not at hlim
  have hnoc := h.noOC r.said
  have hboth : bytesIn c p.st r.said [.out, .outCleared] =
      if (view dt p.st r.said).state = .out then B c dt r.said else 0 := by
    rw [bytesIn_off h.off _ _ (by simp)]; simp [hnoc]
  have hone : bytesIn c p.st r.said [.out] =
      if (view dt p.st r.said).state = .out then B c dt r.said else 0 := by
    rw [bytesIn_off h.off _ _ (by simp)]; simp
  have hL := h.lim
  by_cases hdev : r.dev = true
  · rw [if_pos hdev] at hr
    by_cases hout : (view dt p.st r.said).state = .out ∨ (view dt p.st r.said).state = .outCleared
    · rw [if_pos hout] at hr
      have hout : (view dt p.st r.said).state = .out := hout.resolve_right hnoc
      have hge := tot_ge c dt (view dt p.st) [.out] r.said (by rw [hout]; simp)
      rw [← h.sout] at hge
      have hp : p' = cancelSwapOut c r p := by simpa using hr.symm
      refine ⟨?_, by rw [hp]; rfl, by rw [hp]; rfl⟩
      refine enqueue_first c dt u p p' q h r ho hcl h0 (by rw [hp]; rfl) (by rw [hp]; rfl) ?_
        { view dt p.st r.said with state := .in_ } ?_ h0 (.inl rfl) ?_ ?_ ?_ ?_ (by rw [hp]; exact h.ht) (by rw [hp]; exact fun _ h => h)
      · rw [hp]; apply mapSt_off h.off
        intro d e h1 h2
        rw [if_neg (by rw [h2]; simp)]; exact ⟨h1, h2⟩
      · rw [hp]; unfold cancelSwapOut; simp only; rw [mapSt_view, if_pos (.inl hout)]
      · rw [hp]; unfold cancelSwapOut; simp only; rw [hboth, if_pos hout, if_pos trivial]
      · rw [hp]; unfold cancelSwapOut; simp only; rw [hboth, if_pos hout]
      · rw [hp]; unfold cancelSwapOut; simp only; rw [hone, if_pos hout, wsub_eq hge]; omega
      · rw [hp]; unfold cancelSwapOut; simp only; rw [hone, hboth, if_pos hout, wsub_eq hge]; omega
    · rw [if_neg hout] at hr
      have hout : (view dt p.st r.said).state ≠ .out := fun e => hout (.inl e)
      by_cases hnt : r.noTransfer = true
      · rw [if_pos hnt] at hr
        have hp := (Option.some.inj hr).symm
        refine ⟨?_, by rw [hp], by rw [hp]⟩
        refine enqueue_first c dt u p p' q h r ho hcl h0 (by rw [hp]) (by rw [hp]) ?_
          { view dt p.st r.said with state := .unprefetched } ?_ h0 (.inr rfl) ?_ ?_ ?_ ?_ (by rw [hp]; exact h.ht) (by rw [hp]; exact fun _ h => h)
        · rw [hp]; simp only [hd]; exact setSt_off h.off _ _
        · rw [hp]; simp only [hd]; exact setSt_view _ _
        · rw [hp]; simp
        · rw [hp]
        · rw [hp]; simp [hout]
        · rw [hp]; exact hL
      · rw [if_neg hnt] at hr
        unfold prefetch at hr
        have hex : ¬ ((p.ht r.said).1 = true ∧ (p.ht r.said).2 ≠ r.dtype) := by
          rintro ⟨h1, h2⟩; exact h2 (by rw [h.ht _ h1, hd])
        simp only [hB, if_neg hex, Nat.add_zero] at hr
        rw [if_neg (by omega)] at hr
        obtain ⟨g1, g2, g3⟩ := freeMem_inv c dt u p q (B c dt r.said) h hq (by omega)
        have hp := (Option.some.inj hr).symm
        by_cases hca : c.castPrefetch = true ∧ (typeConverted c r.said = false ∨
            (r.tag = .cast ∧ acc (freeMem c p (B c dt r.said)).st r.said = 0))
        · simp only [if_pos hca] at hp
          refine ⟨?_, by rw [hp]; exact g2.fid, by rw [hp]; exact g2.head⟩
          refine fetch_enqueue c dt u p p' q h hq r ho hcl h0 hout (by omega) (by rw [hp]; rfl) (by rw [hp]; rfl) ?_
            (by rw [hp]; rfl) (by rw [hp]; rfl) (by rw [hp]; rfl) ?_ ?_
          · rw [hp]; simp only [hd]; rfl
          · rw [hp]; intro s
            simp only
            by_cases e : s = r.said
            · rw [if_pos e]; intro _; rw [e, hd]
            · rw [if_neg e, g2.ht]; exact h.ht s
          · rw [hp]; intro s hs
            simp only
            by_cases e : s = r.said
            · rw [if_pos e, e, hd]
            · rw [if_neg e, g2.ht]; exact hs
        · simp only [if_neg hca] at hp
          refine ⟨?_, by rw [hp]; exact g2.fid, by rw [hp]; exact g2.head⟩
          refine fetch_enqueue c dt u p p' q h hq r ho hcl h0 hout (by omega) (by rw [hp]; rfl) (by rw [hp]; rfl) ?_
            (by rw [hp]; rfl) (by rw [hp]; rfl) (by rw [hp]; rfl) ?_ ?_
          · rw [hp]; simp only [hd]; rfl
          · rw [hp]; intro s
            simp only
            by_cases e : s = r.said ∧ ((freeMem c p (B c dt r.said)).ht s).1 = false
            · rw [if_pos e]; simp
            · rw [if_neg e, g2.ht]; exact h.ht s
          · rw [hp]; intro s hs
            simp only
            by_cases e : s = r.said ∧ ((freeMem c p (B c dt r.said)).ht s).1 = false
            · rw [if_pos e, e.1, hd]
            · rw [if_neg e, g2.ht]; exact hs
  · rw [if_neg hdev] at hr
    by_cases hout : (view dt p.st r.said).state = .out ∨ (view dt p.st r.said).state = .outCleared
    · rw [if_pos hout] at hr
      have hout : (view dt p.st r.said).state = .out := hout.resolve_right hnoc
      have hge := tot_ge c dt (view dt p.st) [.out] r.said (by rw [hout]; simp)
      rw [← h.sout] at hge
      have hp := (Option.some.inj hr).symm
      refine ⟨?_, by rw [hp], by rw [hp]⟩
      refine enqueue_first c dt u p p' q h r ho hcl h0 (by rw [hp]) (by rw [hp]) ?_
        { view dt p.st r.said with state := .in_ } ?_ h0 (.inl rfl) ?_ ?_ ?_ ?_ (by rw [hp]; exact h.ht) (by rw [hp]; exact fun _ h => h)
      · rw [hp]; apply mapSt_off h.off
        intro d e h1 h2
        rw [if_neg (by rw [h2]; simp), if_neg (by rw [h2]; simp)]; exact ⟨h1, h2⟩
      · rw [hp]; simp only; rw [mapSt_view, if_pos hout]
      · rw [hp]; simp only; rw [hone, if_pos hout, if_pos trivial]
      · rw [hp]; simp only; rw [hone, if_pos hout]
      · rw [hp]; simp only; rw [hone, if_pos hout, wsub_eq hge]; omega
      · rw [hp]; simp only; rw [hone, if_pos hout, wsub_eq hge]; omega
    · rw [if_neg hout] at hr
      have hout : (view dt p.st r.said).state ≠ .out := fun e => hout (.inl e)
      obtain ⟨g1, g2, g3⟩ := freeMem_inv c dt u p q (B c dt r.said) h hq (by omega)
      have hp := (Option.some.inj hr).symm
      refine ⟨?_, by rw [hp]; exact g2.fid, by rw [hp]; exact g2.head⟩
      refine fetch_enqueue c dt u p p' q h hq r ho hcl h0 hout (by omega) (by rw [hp]) (by rw [hp]) ?_
        (by rw [hp]) (by rw [hp]) (by rw [hp]) ?_ ?_
      · rw [hp]; simp only [hd]
      · rw [hp]; simp only; rw [g2.ht]; exact h.ht
      · rw [hp]; simp only; rw [g2.ht]; exact fun _ h => h

theorem swapIn_inv (c : Cfg S D) (dt : S → D) (u : Uni c dt) (stop : Nat → Nat) (q : Nat) (l : List (Rec S D)) :
    ∀ p : P S D, l = c.order.drop p.head → Inv c dt p q z → q ≤ c.fbegin p.fid →
      Inv c dt (swapIn c stop l p) q z ∧ (swapIn c stop l p).fid = p.fid := by
  induction l with
  | nil => intro p _ h _; exact ⟨h, rfl⟩
  | cons r rest ih =>
    intro p hl h hq
    have ho : c.order[p.head]? = some r := by
      have := congrArg (·[0]?) hl
      simpa using this.symm
    have hrest : rest = c.order.drop (p.head + 1) := by
      rw [← List.tail_drop, ← hl]; rfl
    have hlt : p.head < c.order.length := (List.getElem?_eq_some_iff.mp ho).1
    unfold swapIn
    by_cases hcl : r.tag = .clear
    · rw [if_pos hcl]
      refine ih { p with head := p.head + 1 } hrest ?_ hq
      refine ⟨h.off, fun s => ?_, h.pos, h.noOC, h.out, h.sin, h.sout, h.pre, h.lim, h.tailq,
        by have := h.hq; change q ≤ p.head + 1; omega, hlt, h.ht,
        by have := h.hz; change q ≤ z ∧ z ≤ p.head + 1; omega, h.unp, h.gd⟩
      change _ = (cnt c s (p.head + 1) : Int) - _
      rw [cnt_succ c s p.head r ho, if_neg (fun hu => hu.1 hcl)]
      exact h.count s
    · rw [if_neg hcl]
      by_cases hs : stop p.head > p.fid
      · rw [if_pos hs]; exact ⟨h, rfl⟩
      · rw [if_neg hs]
        have hd : r.dtype = dt r.said := u.recs r (List.mem_of_getElem? ho) hcl
        by_cases h0 : (p.st r.said r.dtype).count = 0
        · rw [if_pos h0]
          cases hf : swapInFirst c p.head r p with
          | none => exact ⟨h, rfl⟩
          | some p' =>
            obtain ⟨g1, g2, g3⟩ := swapInFirst_inv c dt u p p' q h hq r ho hcl h0 hf
            have := ih (enqueue r p') (by rw [hrest]; change _ = c.order.drop (p'.head + 1); rw [g3]) g1
              (by change q ≤ c.fbegin p'.fid; rw [g2]; exact hq)
            exact ⟨this.1, this.2.trans g2⟩
        · rw [if_neg h0]
          have h0' : (view dt p.st r.said).count ≠ 0 := by rw [hd] at h0; exact h0
          exact ih (enqueue r p) (by rw [hrest]; rfl) (enqueue_again c dt u p q h r ho hcl h0') hq

end Verif.Lms
