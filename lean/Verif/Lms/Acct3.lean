/-
Third part of the invariant proof: swap out, block 0, the whole attempt.
-/
import Verif.Lms.Acct2

namespace Verif.Lms

variable {S D : Type} [DecidableEq S] [DecidableEq D] [Fintype D] [Fintype S] {z : Nat}

/-- The effect of releasing an array that is in: it becomes CLEARED or OUT. -/
theorem release_spec (c : Cfg S D) (dt : S → D) (ci : ClearInfo) (i : Nat) (r : Rec S D) (p : P S D)
    (hoff : Off dt p.st) (hs : (view dt p.st r.said).state = .in_) (hg : (p.ht r.said).2 = dt r.said) :
    ∃ a : AState, (a = { view dt p.st r.said with state := .cleared } ∨
        a = { view dt p.st r.said with state := .out, outR := some i }) ∧
      Off dt (release c ci i r p).st ∧
      view dt (release c ci i r p).st = Function.update (view dt p.st) r.said a ∧
      (release c ci i r p).sin = wsub p.sin (B c dt r.said) ∧
      (release c ci i r p).pre = wsub p.pre (B c dt r.said) ∧
      (release c ci i r p).sout = p.sout + (if a.state = .out then B c dt r.said else 0) ∧
      (release c ci i r p).head = p.head ∧ (release c ci i r p).tail = p.tail ∧
      (release c ci i r p).fid = p.fid ∧ (release c ci i r p).beg = p.beg ∧
      (∀ s, ((release c ci i r p).ht s).2 = (p.ht s).2) ∧
      (∀ s, ((release c ci i r p).ht s).1 = true → (p.ht s).1 = true) := by
  have hb : bytesIn c p.st r.said [.in_] = B c dt r.said := by
    rw [bytesIn_off hoff _ _ (by simp), hs]; simp
  have hcoff : Off dt (mapSt p.st r.said fun _ e => { e with state := .cleared }) :=
    mapSt_off hoff _ _ (fun d e h1 h2 => ⟨h1, rfl⟩)
  have hcv : view dt (mapSt p.st r.said fun _ e => { e with state := .cleared }) =
      Function.update (view dt p.st) r.said { view dt p.st r.said with state := .cleared } := mapSt_view _ _
  have hdrop1 : ∀ s, ((if s = r.said then (false, (p.ht s).2) else p.ht s)).2 = (p.ht s).2 := by
    intro s; split <;> rfl
  have hdrop2 : ∀ s, ((if s = r.said then (false, (p.ht s).2) else p.ht s)).1 = true → (p.ht s).1 = true := by
    intro s; split
    · intro h; cases h
    · exact id
  unfold release
  split
  · refine ⟨_, .inl rfl, hcoff, hcv, ?_, ?_, ?_, rfl, rfl, rfl, rfl, hdrop1, hdrop2⟩
    · simp [dropHead, P.pushEnd, clearAll, hb]
    · simp [dropHead, P.pushEnd, clearAll, hb]
    · simp [dropHead, P.pushEnd, clearAll]
  · refine ⟨_, .inl rfl, hcoff, hcv, ?_, ?_, ?_, rfl, rfl, rfl, rfl, fun _ => rfl, fun _ h => h⟩
    · simp [clearAll, hb]
    · simp [clearAll, hb]
    · simp [clearAll]
  · by_cases ht : r.temp = true
    · rw [if_pos ht]
      refine ⟨_, .inl rfl, hcoff, hcv, ?_, ?_, ?_, rfl, rfl, rfl, rfl, hdrop1, hdrop2⟩
      · simp [dropHead, clearAll, hb]
      · simp [dropHead, clearAll, hb]
      · simp [dropHead, clearAll]
    · rw [if_neg ht]
      refine ⟨_, .inr rfl, ?_, ?_, ?_, ?_, ?_, rfl, rfl, rfl, rfl, fun _ => rfl, fun _ h => h⟩
      · apply mapSt_off hoff
        intro d e h1 h2
        rw [if_neg (by rw [h2]; simp)]; exact ⟨h1, h2⟩
      · unfold pushOut P.pushEnd
        simp only
        rw [mapSt_view, if_pos hs, hg, if_pos rfl]
      · simp [pushOut, hb]
      · simp [pushOut, hb]
      · have : (p.st r.said (dt r.said)).state = .in_ := hs
        simp [pushOut, hg, this, B]

theorem swapOutStep_inv (c : Cfg S D) (dt : S → D) (u : Uni c dt) (ci : ClearInfo) (p : P S D) (q : Nat)
    (h : Inv c dt p q z) (hq : q < z) :
    Inv c dt (swapOutStep c ci p q) (q + 1) z ∧ (swapOutStep c ci p q).fid = p.fid ∧
      (swapOutStep c ci p q).head = p.head ∧ (swapOutStep c ci p q).tail = p.tail := by
  have hz := h.hz
  have hlen : q < c.order.length := by have := h.hl; omega
  obtain ⟨r, ho⟩ : ∃ r, c.order[q]? = some r := ⟨_, List.getElem?_eq_getElem hlen⟩
  unfold swapOutStep
  rw [ho]
  simp only
  by_cases hcl : r.tag = .clear
  · rw [if_pos hcl]
    have hcnt : ∀ s, cnt c s (q + 1) = cnt c s q := by
      intro s; rw [cnt_succ c s q r ho, if_neg (fun hu => hu.1 hcl), Nat.add_zero]
    refine ⟨⟨h.off, fun s => by rw [hcnt]; exact h.count s, h.pos, h.noOC, fun s hs => ?_, h.sin, h.sout, h.pre,
      h.lim, by have := h.tailq; omega, by omega, h.hl, h.ht, by omega, fun s hs => by rw [hcnt]; exact h.unp s hs,
      h.gd⟩, rfl, rfl, rfl⟩
    obtain ⟨j, r', h1, h2, h3, h4, h5⟩ := h.out s hs
    exact ⟨j, r', h1, h2, by omega, h4, h5⟩
  · rw [if_neg hcl]
    have hm : r ∈ c.order := List.mem_of_getElem? ho
    have hd : r.dtype = dt r.said := u.recs r hm hcl
    have hlt := cnt_lt c r.said r (le_refl q) (show q < z by omega) ho ⟨hcl, rfl⟩
    have hmono := cnt_mono c r.said hz.2
    have hcount := h.count r.said
    have hin : (view dt p.st r.said).state = .in_ := by
      rcases (h.pos r.said).mp (by omega) with h1 | h1
      · exact h1
      · have := h.unp r.said h1; omega
    have hcs := cnt_succ c r.said q r ho
    rw [if_pos ⟨hcl, rfl⟩] at hcs
    have hco : ∀ s, s ≠ r.said → cnt c s (q + 1) = cnt c s q := by
      intro s e; rw [cnt_succ c s q r ho, if_neg (fun hu => e hu.2.symm), Nat.add_zero]
    rw [acc_off h.off r.said]
    by_cases h1 : (view dt p.st r.said).count = 1
    · rw [if_pos h1]
      obtain ⟨a, ha, hoff, hv, hsin, hpre, hsout, hhd, htl, hfd, hbg, hh2, hh1⟩ :=
        release_spec c dt ci q r p h.off hin (h.gd r.said (by omega))
      have hac : a.count = 1 := by rcases ha with e | e <;> rw [e] <;> exact h1
      have has : a.state = .cleared ∨ a.state = .out ∧ a.outR = some q := by
        rcases ha with e | e
        · left; rw [e]
        · right; rw [e]; exact ⟨rfl, rfl⟩
      have hvs : (release c ci q r p).st r.said (dt r.said) = a := by
        have := congrFun hv r.said; rw [Function.update_self] at this; exact this
      have hve : view dt (dequeue r (release c ci q r p)).st
          = Function.update (view dt p.st) r.said { a with count := 0 } := by
        unfold dequeue
        simp only [hd, hvs]
        rw [setSt_view, hv, Function.update_idem, hac]; rfl
      have hso := tot_upd c dt (view dt p.st) [.out] r.said { a with count := 0 }
      have hi := tot_upd c dt (view dt p.st) [.in_] r.said { a with count := 0 }
      have hpe := tot_upd c dt (view dt p.st) [.in_, .unprefetched] r.said { a with count := 0 }
      have hge1 := tot_ge c dt (view dt p.st) [.in_] r.said (by rw [hin]; simp)
      have hge2 := tot_ge c dt (view dt p.st) [.in_, .unprefetched] r.said (by rw [hin]; simp)
      rw [← h.sin] at hge1; rw [← h.pre] at hge2
      rw [wsub_eq hge1] at hsin; rw [wsub_eq hge2] at hpre
      have hni : a.state ≠ .in_ ∧ a.state ≠ .unprefetched := by
        rcases has with e | e
        · rw [e]; simp
        · rw [e.1]; simp
      have hlim := h.lim
      have h3 := h.sin
      have h4 := h.sout
      have h5 := h.pre
      simp [hin, hni.1, hni.2] at hso hi hpe
      have hsin' : (dequeue r (release c ci q r p)).sin = p.sin - B c dt r.said := hsin
      have hpre' : (dequeue r (release c ci q r p)).pre = p.pre - B c dt r.said := hpre
      have hsout' : (dequeue r (release c ci q r p)).sout = _ := hsout
      refine ⟨⟨?_, ?_, ?_, ?_, ?_, ?_, ?_, ?_, ?_, ?_, ?_, ?_, ?_, ?_, ?_, ?_⟩, hfd, hhd, htl⟩
      · unfold dequeue; simp only [hd]; exact setSt_off hoff _ _
      · intro s
        change _ = (cnt c s (release c ci q r p).head : Int) - _
        rw [hve, hhd]
        by_cases e : s = r.said
        · subst e; rw [Function.update_self]; simp only; omega
        · rw [Function.update_of_ne e, hco s e]; exact h.count s
      · intro s
        rw [hve]
        by_cases e : s = r.said
        · subst e; rw [Function.update_self]; simp [hni]
        · rw [Function.update_of_ne e]; exact h.pos s
      · intro s
        rw [hve]
        by_cases e : s = r.said
        · subst e; rw [Function.update_self]
          rcases has with e | e
          · simp [e]
          · simp [e.1]
        · rw [Function.update_of_ne e]; exact h.noOC s
      · intro s
        rw [hve]
        change _ → ∃ j r', _ ∧ (release c ci q r p).tail ≤ j ∧ _
        rw [htl]
        by_cases e : s = r.said
        · subst e; rw [Function.update_self]
          intro hs
          rcases has with e | e
          · rw [e] at hs; cases hs
          · exact ⟨q, r, e.2, h.tailq, by omega, ho, hcl, rfl⟩
        · rw [Function.update_of_ne e]
          intro hs
          obtain ⟨j, r', k1, k2, k3, k4, k5⟩ := h.out s hs
          exact ⟨j, r', k1, k2, by omega, k4, k5⟩
      · rw [hve, hsin']; omega
      · rw [hve, hsout']; omega
      · rw [hve, hpre']; omega
      · rw [hsin', hsout']; split <;> omega
      · change (release c ci q r p).tail ≤ _; rw [htl]; have := h.tailq; omega
      · change _ ≤ (release c ci q r p).head; rw [hhd]; omega
      · change (release c ci q r p).head ≤ _; rw [hhd]; exact h.hl
      · intro s hs
        change ((release c ci q r p).ht s).2 = _
        rw [hh2]; exact h.ht s (hh1 s hs)
      · change _ ∧ _ ≤ (release c ci q r p).head; rw [hhd]; omega
      · intro s
        rw [hve]
        by_cases e : s = r.said
        · subst e; rw [Function.update_self]; intro hs; exact absurd hs hni.2
        · rw [Function.update_of_ne e, hco s e]; exact h.unp s
      · intro s hs
        change ((release c ci q r p).ht s).2 = _
        rw [hh2]; exact h.gd s hs
    · rw [if_neg h1]
      have hve : view dt (dequeue r p).st = Function.update (view dt p.st) r.said
          { view dt p.st r.said with count := (view dt p.st r.said).count - 1 } := by
        unfold dequeue; simp only [hd]; rw [setSt_view]; rfl
      have hso := tot_upd c dt (view dt p.st) [.out] r.said { view dt p.st r.said with count := (view dt p.st r.said).count - 1 }
      have hi := tot_upd c dt (view dt p.st) [.in_] r.said { view dt p.st r.said with count := (view dt p.st r.said).count - 1 }
      have hpe := tot_upd c dt (view dt p.st) [.in_, .unprefetched] r.said { view dt p.st r.said with count := (view dt p.st r.said).count - 1 }
      refine ⟨⟨?_, ?_, ?_, ?_, ?_, ?_, ?_, ?_, h.lim, ?_, ?_, h.hl, h.ht, ?_, ?_, h.gd⟩, rfl, rfl, rfl⟩
      · unfold dequeue; simp only [hd]; exact setSt_off h.off _ _
      · intro s
        change _ = (cnt c s p.head : Int) - _
        rw [hve]
        by_cases e : s = r.said
        · subst e; rw [Function.update_self]; simp only; omega
        · rw [Function.update_of_ne e, hco s e]; exact h.count s
      · intro s
        rw [hve]
        by_cases e : s = r.said
        · subst e; rw [Function.update_self]; simp only [hin]; simp; omega
        · rw [Function.update_of_ne e]; exact h.pos s
      · intro s
        rw [hve]
        by_cases e : s = r.said
        · subst e; rw [Function.update_self]; exact h.noOC _
        · rw [Function.update_of_ne e]; exact h.noOC s
      · intro s
        rw [hve]
        by_cases e : s = r.said
        · subst e; rw [Function.update_self]; simp [hin]
        · rw [Function.update_of_ne e]
          intro hs
          obtain ⟨j, r', k1, k2, k3, k4, k5⟩ := h.out s hs
          exact ⟨j, r', k1, k2, by omega, k4, k5⟩
      · change p.sin = _; rw [hve, h.sin]; exact (Nat.add_right_cancel hi).symm
      · change p.sout = _; rw [hve, h.sout]; exact (Nat.add_right_cancel hso).symm
      · change p.pre = _; rw [hve, h.pre]; exact (Nat.add_right_cancel hpe).symm
      · change p.tail ≤ _; have := h.tailq; omega
      · change _ ≤ p.head; omega
      · change _ ∧ z ≤ p.head; omega
      · intro s
        rw [hve]
        by_cases e : s = r.said
        · subst e; rw [Function.update_self]; intro hs; rw [hin] at hs; cases hs
        · rw [Function.update_of_ne e, hco s e]; exact h.unp s

theorem swapOutFold_inv (c : Cfg S D) (dt : S → D) (u : Uni c dt) (ci : ClearInfo) (n : Nat) :
    ∀ (p : P S D) (q : Nat), Inv c dt p q z → q + n ≤ z →
      Inv c dt ((List.range' q n).foldl (swapOutStep c ci) p) (q + n) z ∧
      ((List.range' q n).foldl (swapOutStep c ci) p).fid = p.fid ∧
      ((List.range' q n).foldl (swapOutStep c ci) p).head = p.head ∧
      ((List.range' q n).foldl (swapOutStep c ci) p).tail = p.tail := by
  induction n with
  | zero => intro p q h _; exact ⟨h, rfl, rfl, rfl⟩
  | succ n ih =>
    intro p q h hn
    rw [List.range'_succ, List.foldl_cons]
    obtain ⟨h1, h2, h3, h4⟩ := swapOutStep_inv c dt u ci p q h (by omega)
    obtain ⟨g1, g2, g3, g4⟩ := ih _ (q + 1) h1 (by omega)
    exact ⟨by rw [show q + (n + 1) = q + 1 + n by omega]; exact g1, g2.trans h2, g3.trans h3, g4.trans h4⟩

theorem swapOut_inv (c : Cfg S D) (dt : S → D) (u : Uni c dt) (ci : ClearInfo) (p : P S D)
    (h : Inv c dt p (c.fbegin p.fid) z) (hb : c.fbegin p.fid ≤ c.fend p.fid) (hz : c.fend p.fid ≤ z) :
    Inv c dt (swapOut c ci p) (c.fend p.fid) z ∧ (swapOut c ci p).fid = p.fid ∧
      (swapOut c ci p).head = p.head ∧ (swapOut c ci p).tail = p.tail := by
  unfold swapOut Cfg.block
  have := swapOutFold_inv c dt u ci (c.fend p.fid - c.fbegin p.fid) p (c.fbegin p.fid) h (by omega)
  rw [show c.fbegin p.fid + (c.fend p.fid - c.fbegin p.fid) = c.fend p.fid by omega] at this
  exact this

/-- Setting the function index does not matter for the invariant. -/
theorem Inv.setFid {c : Cfg S D} {dt : S → D} {p : P S D} {q : Nat} (h : Inv c dt p q z) (f : Nat) :
    Inv c dt { p with fid := f } q z :=
  ⟨h.off, h.count, h.pos, h.noOC, h.out, h.sin, h.sout, h.pre, h.lim, h.tailq, h.hq, h.hl, h.ht, h.hz, h.unp, h.gd⟩

/-- Queue start when function `fid` is about to be planned: block 0 is released together with
block 1. -/
def qStart (c : Cfg S D) (fid : Nat) : Nat := if fid ≤ 1 then 0 else c.fbegin fid

theorem step_inv (c : Cfg S D) (dt : S → D) (w : c.WF) (u : Uni c dt) (ci : ClearInfo) (stop : Nat → Nat)
    (p p' : P S D) (fid : Nat) (hf : 1 ≤ fid) (hfl : fid < c.fe.length)
    (h : Inv c dt p (qStart c fid) (c.fbegin fid)) (hr : step c ci stop p fid = .ok p') :
    Inv c dt p' (c.fend fid) (c.fend fid) := by
  have hfb : c.fbegin fid = c.fend (fid - 1) := by unfold Cfg.fbegin; rw [if_neg (by omega)]
  have hbe : c.fbegin fid ≤ c.fend fid := by rw [hfb]; exact w.mono _ _ (by omega) hfl
  unfold step at hr
  simp only at hr
  have h1 := swapIn_inv c dt u stop (qStart c fid) (c.order.drop p.head) { p with fid := fid } rfl (h.setFid fid)
    (by unfold qStart; change _ ≤ c.fbegin fid; split <;> omega)
  obtain ⟨h1, h1f⟩ := h1
  change (swapIn c stop _ _).fid = fid at h1f
  cases hres : reserve c stop (swapIn c stop (c.order.drop p.head) { p with fid := fid }) with
  | ok p2 =>
    rw [hres] at hr
    simp only at hr
    by_cases hh : p2.head < c.fend fid
    · rw [if_pos hh] at hr; cases hr
    · rw [if_neg hh] at hr
      obtain ⟨h2, h2f⟩ := reserve_inv c dt u stop _ p2 (qStart c fid) (by rw [h1f]; exact h1) hres
        (by rw [h1f]; exact hbe) (by rw [h1f]; exact hh)
      rw [h1f] at h2 h2f
      have hr := Res.ok.inj hr
      by_cases hf1 : fid = 1
      · subst hf1
        rw [if_pos rfl] at hr
        have h3 := swapOut_inv c dt u ci { p2 with ht := headTypes c 1 p2.ht, fid := 0 }
          (z := c.fend 1) (by exact h2.setFid 0) (Nat.zero_le _) (by
            change c.fend 0 ≤ c.fend 1; exact w.mono _ _ (by omega) hfl)
        obtain ⟨h3, h3f, -, -⟩ := h3
        have h4 := swapOut_inv c dt u ci { swapOut c ci { p2 with ht := headTypes c 1 p2.ht, fid := 0 } with fid := 1 }
          (z := c.fend 1) (by exact h3.setFid 1) hbe (le_refl _)
        rw [← hr]
        exact h4.1
      · rw [if_neg hf1] at hr
        have hq : qStart c fid = c.fbegin fid := by unfold qStart; rw [if_neg (by omega)]
        rw [hq] at h2
        have h3 := swapOut_inv c dt u ci { p2 with ht := headTypes c fid p2.ht } (z := c.fend fid)
          (by change Inv c dt _ (c.fbegin p2.fid) _; rw [show c.fbegin p2.fid = c.fbegin fid by rw [h2f]]; exact h2)
          (by change c.fbegin p2.fid ≤ c.fend p2.fid; rw [h2f]; exact hbe)
          (by change c.fend p2.fid ≤ _; rw [h2f])
        rw [← hr]
        have := h3.1
        change Inv c dt _ (c.fend p2.fid) _ at this
        rw [show c.fend p2.fid = c.fend fid by rw [h2f]] at this; exact this
  | resched s => rw [hres] at hr; cases hr
  | outOfMemory => rw [hres] at hr; cases hr
  | notPrefetched => rw [hres] at hr; cases hr
  | stateError => rw [hres] at hr; cases hr
  | unclassified => rw [hres] at hr; cases hr

/-- Bytes of the arrays used before the first function. -/
def blk0 (c : Cfg S D) (dt : S → D) : Nat := ∑ s : S, if 0 < cnt c s (c.fend 0) then B c dt s else 0

/-- Invariant of `calc_mem_usage_before_forward`. -/
structure Inv0 (c : Cfg S D) (dt : S → D) (p : P S D) : Prop where
  inv : Inv c dt p 0 0
  st : ∀ s, (view dt p.st s).state = .in_ ∨ (view dt p.st s).state = .cleared
  ht : ∀ s, 0 < cnt c s p.head → (p.ht s).2 = dt s
  tail : p.tail = 0

theorem start_inv0 (c : Cfg S D) (dt : S → D) (u : Uni c dt) : Inv0 c dt (P.start c) := by
  have hz : ∀ s, cnt c s 0 = 0 := fun s => by unfold cnt; simp
  refine ⟨⟨fun s d _ => ⟨rfl, rfl⟩, fun s => ?_, fun s => ?_, fun s => by simp [view, P.start, AState.init],
    fun s h => by simp [view, P.start, AState.init] at h, ?_, ?_, ?_, Nat.zero_le _, le_refl _, le_refl _, Nat.zero_le _,
    u.heads, ⟨le_refl _, le_refl _⟩, fun s h => by simp [view, P.start, AState.init] at h, fun s h => by rw [hz] at h; omega⟩,
    fun s => .inr rfl, fun s h => ?_, rfl⟩
  · simp [view, P.start, AState.init]
  · simp [view, P.start, AState.init]
  · symm; apply tot_zero; intro s; simp [view, P.start, AState.init]
  · symm; apply tot_zero; intro s; simp [view, P.start, AState.init]
  · symm; apply tot_zero; intro s; simp [view, P.start, AState.init]
  · have : (P.start c).head = 0 := rfl
    rw [this, hz] at h; omega

theorem calcMem_inv (c : Cfg S D) (dt : S → D) (u : Uni c dt) (hb : blk0 c dt ≤ c.maxBytes) (n : Nat) :
    ∀ p : P S D, Inv0 c dt p → p.head + n = c.fend 0 → c.fend 0 ≤ c.order.length →
      ∃ p', calcMem c n p = some p' ∧ Inv0 c dt p' ∧ p'.head = c.fend 0 := by
  induction n with
  | zero => intro p h hn _; exact ⟨p, rfl, h, by omega⟩
  | succ n ih =>
    intro p h hn hl
    obtain ⟨r, ho⟩ : ∃ r, c.order[p.head]? = some r := ⟨_, List.getElem?_eq_getElem (by omega)⟩
    unfold calcMem
    rw [ho]
    simp only
    by_cases hcl : r.tag = .clear
    · rw [if_pos hcl]
      have hcnt : ∀ s, cnt c s (p.head + 1) = cnt c s p.head := fun s => by
        rw [cnt_succ c s p.head r ho, if_neg (fun hu => hu.1 hcl), Nat.add_zero]
      have hi := h.inv
      refine ih { p with head := p.head + 1 } ⟨⟨hi.off, fun s => ?_, hi.pos, hi.noOC, hi.out, hi.sin, hi.sout, hi.pre,
        hi.lim, hi.tailq, Nat.zero_le _, by change p.head + 1 ≤ _; omega, hi.ht, ⟨le_refl _, Nat.zero_le _⟩, hi.unp, hi.gd⟩,
        h.st, fun s hs => h.ht s (by change 0 < cnt c s (p.head + 1) at hs; rw [hcnt] at hs; exact hs), h.tail⟩
        (by change p.head + 1 + n = _; omega) hl
      change _ = (cnt c s (p.head + 1) : Int) - _
      rw [hcnt]; exact hi.count s
    · rw [if_neg hcl]
      have hi := h.inv
      have hm : r ∈ c.order := List.mem_of_getElem? ho
      have hd : r.dtype = dt r.said := u.recs r hm hcl
      have hvd : p.st r.said r.dtype = view dt p.st r.said := by rw [hd]; rfl
      have hht1 : ∀ s, ((if s = r.said then
            (if (p.ht s).1 then (if r.tag = .cast then (true, r.dtype) else p.ht s) else (true, r.dtype))
          else p.ht s)).1 = true → ((if s = r.said then
            (if (p.ht s).1 then (if r.tag = .cast then (true, r.dtype) else p.ht s) else (true, r.dtype))
          else p.ht s)).2 = dt s := by
        intro s
        by_cases e : s = r.said
        · subst e; rw [if_pos rfl]
          by_cases hb1 : (p.ht r.said).1 = true
          · rw [if_pos hb1]; split
            · exact fun _ => hd
            · exact hi.ht _
          · rw [if_neg hb1]; exact fun _ => hd
        · rw [if_neg e]; exact hi.ht s
      have hht2 : ∀ s, 0 < cnt c s (p.head + 1) → ((if s = r.said then
            (if (p.ht s).1 then (if r.tag = .cast then (true, r.dtype) else p.ht s) else (true, r.dtype))
          else p.ht s)).2 = dt s := by
        intro s hs
        by_cases e : s = r.said
        · subst e; rw [if_pos rfl]
          by_cases hb1 : (p.ht r.said).1 = true
          · rw [if_pos hb1]; split
            · exact hd
            · exact hi.ht _ hb1
          · rw [if_neg hb1]; exact hd
        · rw [if_neg e]
          rw [cnt_succ c s p.head r ho, if_neg (fun hu => e hu.2.symm), Nat.add_zero] at hs
          exact h.ht s hs
      by_cases h0 : (p.st r.said r.dtype).count = 0
      · rw [if_pos h0]
        rw [hvd] at h0
        have hcs : (view dt p.st r.said).state = .cleared := by
          rcases h.st r.said with e | e
          · have := (hi.pos r.said).mpr (.inl e); omega
          · exact e
        rw [hvd, if_neg (by rw [hcs]; simp)]
        have hlim : p.sin + c.bytes r.said r.dtype + p.sout ≤ c.maxBytes := by
          have e1 : p.sin + B c dt r.said = tot c dt (Function.update (view dt p.st) r.said
              { view dt p.st r.said with state := .in_ }) [.in_] := by
            have := tot_upd c dt (view dt p.st) [.in_] r.said { view dt p.st r.said with state := .in_ }
            rw [if_neg (by rw [hcs]; simp), if_pos (by simp)] at this
            rw [hi.sin]; omega
          have e2 : p.sout = 0 := by
            rw [hi.sout]; apply tot_zero; intro s
            rcases h.st s with e | e <;> rw [e] <;> simp
          have e3 : tot c dt (Function.update (view dt p.st) r.said
              { view dt p.st r.said with state := .in_ }) [.in_] ≤ blk0 c dt := by
            unfold tot blk0
            apply Finset.sum_le_sum
            intro s _
            by_cases e : s = r.said
            · subst e
              have : 0 < cnt c r.said (c.fend 0) :=
                Nat.lt_of_le_of_lt (Nat.zero_le _) (cnt_lt c r.said r (Nat.zero_le _) (show p.head < c.fend 0 by omega) ho ⟨hcl, rfl⟩)
              rw [if_pos this]; split <;> omega
            · rw [Function.update_of_ne e]
              by_cases hin : (view dt p.st s).state = .in_
              · have h1 := (hi.pos s).mpr (.inl hin)
                have h2 := hi.count s
                have h3 := cnt_mono c s (show p.head ≤ c.fend 0 by omega)
                have h4 : 0 < cnt c s (c.fend 0) := by omega
                rw [if_pos h4]; split <;> omega
              · rw [if_neg (by simpa using hin)]; exact Nat.zero_le _
          have e4 : c.bytes r.said r.dtype = B c dt r.said := by rw [hd]; rfl
          omega
        have hinv : Inv c dt (enqueue r { p with
              ht := fun s => if s = r.said then
                (if (p.ht s).1 then (if r.tag = .cast then (true, r.dtype) else p.ht s) else (true, r.dtype))
                else p.ht s
              sin := p.sin + c.bytes r.said r.dtype, pre := p.pre + c.bytes r.said r.dtype
              st := setSt p.st r.said r.dtype { view dt p.st r.said with state := .in_ } }) 0 0 := by
          refine enqueue_first c dt u p _ 0 hi r ho hcl h0 rfl rfl ?_ { view dt p.st r.said with state := .in_ } ?_ h0
            (.inl rfl) ?_ ?_ ?_ ?_ hht1 ?_
          · simp only [hd]; exact setSt_off hi.off _ _
          · simp only [hd]; exact setSt_view _ _
          · simp only [hd]; simp [B]
          · simp only [hd]; rfl
          · simp [hcs]
          · simp only; omega
          · intro s hs
            simp only
            by_cases e : s = r.said
            · subst e; rw [if_pos rfl]; split
              · split
                · exact hd
                · exact hs
              · exact hd
            · rw [if_neg e]; exact hs
        refine ih _ ⟨hinv, fun s => ?_, hht2, h.tail⟩ (by change p.head + 1 + n = _; omega) hl
        by_cases e : s = r.said
        · subst e; left; simp [enqueue, view, setSt, hd]
        · have := h.st s
          simpa [enqueue, view, setSt, e] using this
      · rw [if_neg h0]
        rw [hvd] at h0
        have hinv : Inv c dt { p with
              ht := fun s => if s = r.said then
                (if (p.ht s).1 then (if r.tag = .cast then (true, r.dtype) else p.ht s) else (true, r.dtype))
                else p.ht s } 0 0 :=
          ⟨hi.off, hi.count, hi.pos, hi.noOC, hi.out, hi.sin, hi.sout, hi.pre, hi.lim, hi.tailq, hi.hq, hi.hl, hht1,
            hi.hz, hi.unp, fun s hs => by unfold cnt at hs; simp at hs⟩
        refine ih _ ⟨enqueue_again c dt u _ 0 hinv r ho hcl h0, fun s => ?_, hht2, h.tail⟩
          (by change p.head + 1 + n = _; omega) hl
        by_cases e : s = r.said
        · subst e
          have := h.st r.said
          simpa [enqueue, view, setSt, hd] using this
        · have := h.st s
          simpa [enqueue, view, setSt, e] using this

/-- The state in which planning of the functions begins. -/
theorem calcMem_start (c : Cfg S D) (dt : S → D) (w : c.WF) (u : Uni c dt) (hb : blk0 c dt ≤ c.maxBytes) :
    ∃ p, calcMem c (c.fend 0) (P.start c) = some p ∧ Inv c dt p (qStart c 1) (c.fbegin 1) ∧ p.head = c.fend 0 ∧
      p.tail = 0 := by
  have hl : c.fend 0 ≤ c.order.length := by
    rw [← w.last]; exact w.mono _ _ (by omega) (by have := w.two; omega)
  obtain ⟨p, h1, h2, h3⟩ := calcMem_inv c dt u hb (c.fend 0) (P.start c) (start_inv0 c dt u) (Nat.zero_add _) hl
  refine ⟨p, h1, ?_, h3, h2.tail⟩
  have hi := h2.inv
  refine ⟨hi.off, hi.count, hi.pos, hi.noOC, hi.out, hi.sin, hi.sout, hi.pre, hi.lim, hi.tailq, hi.hq, hi.hl, hi.ht,
    ⟨Nat.zero_le _, by rw [h3]; exact le_refl _⟩, fun s hs => ?_, fun s hs => h2.ht s (by rw [h3]; exact hs)⟩
  rcases h2.st s with e | e <;> rw [e] at hs <;> cases hs

theorem steps_inv (c : Cfg S D) (dt : S → D) (w : c.WF) (u : Uni c dt) (ci : ClearInfo) (stop : Nat → Nat) (n : Nat) :
    ∀ (fid : Nat) (p p' : P S D), 1 ≤ fid → fid + n = c.fe.length →
      Inv c dt p (qStart c fid) (c.fbegin fid) → 0 < n →
      steps c ci stop (List.range' fid n) p = .ok p' →
      Inv c dt p' c.order.length c.order.length := by
  induction n with
  | zero => intro fid p p' _ _ _ h; omega
  | succ n ih =>
    intro fid p p' hf hn h _ hr
    rw [List.range'_succ] at hr
    unfold steps at hr
    cases hs : step c ci stop p fid with
    | ok p1 =>
      rw [hs] at hr
      have h1 := step_inv c dt w u ci stop p p1 fid hf (by omega) h hs
      by_cases h0 : n = 0
      · subst h0
        have : p1 = p' := by simpa [steps] using hr
        subst this
        rw [← w.last, show c.fe.length - 1 = fid by omega]; exact h1
      · refine ih (fid + 1) p1 p' (by omega) (by omega) ?_ (by omega) hr
        have : c.fbegin (fid + 1) = c.fend fid := by unfold Cfg.fbegin; rw [if_neg (by omega)]; rfl
        unfold qStart
        rw [if_neg (by omega), this]; exact h1
    | resched s => rw [hs] at hr; cases hr
    | outOfMemory => rw [hs] at hr; cases hr
    | notPrefetched => rw [hs] at hr; cases hr
    | stateError => rw [hs] at hr; cases hr
    | unclassified => rw [hs] at hr; cases hr

theorem waitAll_inv (c : Cfg S D) (dt : S → D) (u : Uni c dt) (q : Nat) (n : Nat) : ∀ p : P S D,
    Inv c dt p q z → p.tail + n = q → Inv c dt (waitAll c n p) q z ∧ (waitAll c n p).tail = q ∧
      SameBut dt p (waitAll c n p) := by
  induction n with
  | zero => intro p h hn; exact ⟨h, by change p.tail = q; omega, SameBut.refl dt p⟩
  | succ n ih =>
    intro p h hn
    obtain ⟨h1, h2, h3⟩ := waitImpl_inv c dt u p q h (by omega)
    obtain ⟨g1, g2, g3⟩ := ih (waitImpl c p) h1 (by omega)
    exact ⟨g1, g2, h2.trans g3⟩

/-- The checks at the end of `schedule()` succeed. -/
theorem endOk_of_inv (c : Cfg S D) (dt : S → D) (p : P S D) (h : Inv c dt p c.order.length c.order.length)
    (ht : p.tail = c.order.length) : endOk c p = true := by
  have hh : p.head = c.order.length := Nat.le_antisymm h.hl h.hq
  have hcount : ∀ s, (view dt p.st s).count = 0 := fun s => by rw [h.count, hh]; omega
  have hst : ∀ s, (view dt p.st s).state = .cleared ∨ (view dt p.st s).state = .outWaited := by
    intro s
    have h1 := (h.pos s).mpr.mt (by have := hcount s; omega)
    push Not at h1
    have h2 := h.noOC s
    have h3 : (view dt p.st s).state ≠ .out := by
      intro ho
      obtain ⟨j, r, k1, k2, k3, _⟩ := h.out s ho
      omega
    cases hs : (view dt p.st s).state with
    | cleared => exact .inl rfl
    | outWaited => exact .inr rfl
    | in_ => exact absurd hs h1.1
    | unprefetched => exact absurd hs h1.2
    | out => exact absurd hs h3
    | outCleared => exact absurd hs h2
  have hz : ∀ t : List ATag, .cleared ∉ t → .outWaited ∉ t → tot c dt (view dt p.st) t = 0 := by
    intro t h1 h2
    apply tot_zero
    intro s
    rcases hst s with e | e <;> rw [e] <;> assumption
  unfold endOk
  rw [h.pre, h.sin, h.sout, hz _ (by simp) (by simp), hz _ (by simp) (by simp), hz _ (by simp) (by simp), hh, ht]
  simp only [Bool.and_eq_true, decide_eq_true_eq, beq_self_eq_true, and_true]
  intro s d
  by_cases hd : d = dt s
  · subst hd; exact hst s
  · left; exact (h.off s d hd).2

end Verif.Lms
