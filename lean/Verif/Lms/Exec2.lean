/-
The planner's simulation of the device memory: planning of the beginning of a function.
-/
import Verif.Lms.Exec

namespace Verif.Lms

variable {S D : Type} [DecidableEq S] [DecidableEq D] [Fintype D] [Fintype S] {z : Nat}

/-- The simulation while the beginning of function `f` is planned. -/
structure XP (c : Cfg S D) (dt : S → D) (p : P S D) (q f : Nat) : Prop where
  x : XInv c dt (view dt p.st) (E1 c p f)
  s : SInv c p f f
  fb : ∀ x ∈ p.beg f, x.tag ≠ .wait → c.fbegin f ≤ x.r ∧ x.r < p.head ∧ ∃ r, c.order[x.r]? = some r ∧ r.tag ≠ .clear
  nw : q = 0 → ∀ x ∈ p.beg f, x.tag ≠ .wait

theorem Inv.lim' {c : Cfg S D} {dt : S → D} {p : P S D} {q : Nat} (h : Inv c dt p q z) :
    tot c dt (view dt p.st) [.in_] + tot c dt (view dt p.st) [.out] ≤ c.maxBytes := by
  rw [← h.sin, ← h.sout]; exact h.lim

theorem E1_push (c : Cfg S D) (p p' : P S D) (f : Nat) (x : Sched) (hf : p.fid = f)
    (hb : p'.beg = (p.pushBeg x).beg) (he : p'.en = p.en) : E1 c p' f = E1 c p f ++ [.cmd x] := by
  subst hf
  unfold E1
  have h1 : flat c p'.beg p'.en p.fid = flat c p.beg p.en p.fid := by
    apply flat_congr
    · intro k hk; rw [hb]; simp [P.pushBeg, Nat.ne_of_lt hk]
    · intro k _; rw [he]
  have h2 : p'.beg p.fid = p.beg p.fid ++ [x] := by rw [hb]; simp [P.pushBeg]
  rw [h1, h2]; simp

theorem E1_same (c : Cfg S D) (p p' : P S D) (f : Nat) (hb : p'.beg = p.beg) (he : p'.en = p.en) :
    E1 c p' f = E1 c p f := by
  unfold E1; rw [hb, he]

theorem SInv.push {c : Cfg S D} {p p' : P S D} {f : Nat} {x : Sched} (h : SInv c p f f) (hf : p.fid = f)
    (hb : p'.beg = (p.pushBeg x).beg) (he : p'.en = p.en) (hx : x.tag ≠ .swapOut) : SInv c p' f f := by
  subst hf
  refine ⟨by rw [he]; exact h.len, by rw [he]; exact h.enE, fun k hk => ?_, fun k y hy => ?_, by rw [he]; exact h.enOk⟩
  · rw [hb]; simp only [P.pushBeg]; rw [if_neg (by omega)]; exact h.begE k hk
  · rw [hb] at hy; simp only [P.pushBeg] at hy
    by_cases e : k = p.fid
    · rw [if_pos e] at hy
      rcases List.mem_append.mp hy with m | m
      · exact h.begOk k y m
      · have : y = x := by simpa using m
        rw [this]; exact hx
    · rw [if_neg e] at hy; exact h.begOk k y hy

theorem SInv.same {c : Cfg S D} {p p' : P S D} {f : Nat} (h : SInv c p f f) (hb : p'.beg = p.beg) (he : p'.en = p.en) :
    SInv c p' f f :=
  ⟨by rw [he]; exact h.len, by rw [he]; exact h.enE, by rw [hb]; exact h.begE, by rw [hb]; exact h.begOk, by rw [he]; exact h.enOk⟩

/-- The planner state changes without commands; the head may advance. -/
theorem XP.silent {c : Cfg S D} {dt : S → D} {p p' : P S D} {q f : Nat} (h : XP c dt p q f) (hb : p'.beg = p.beg)
    (he : p'.en = p.en) (hh : p.head ≤ p'.head)
    (hdev : ∀ s, (devAt c s (E1 c p f)).1 = true → (view dt p.st s).state = .in_ ∨ (view dt p.st s).state = .out →
      (view dt p'.st s).state = .in_ ∨ (view dt p'.st s).state = .out)
    (hout : ∀ s, (view dt p'.st s).state = .out → (view dt p.st s).state = .out) : XP c dt p' q f := by
  refine ⟨?_, h.s.same hb he, fun x hx hw => ?_, by rw [hb]; exact h.nw⟩
  · rw [E1_same c p p' f hb he]; exact h.x.silent hdev hout
  · rw [hb] at hx
    obtain ⟨h1, h2, h3⟩ := h.fb x hx hw
    exact ⟨h1, by omega, h3⟩

theorem waitImpl_x (c : Cfg S D) (dt : S → D) (u : Uni c dt) (p : P S D) (q f : Nat) (h : Inv c dt p q z)
    (ht : p.tail < q) (hf : p.fid = f) (hx : XP c dt p q f) : XP c dt (waitImpl c p) q f := by
  have hi := (waitImpl_inv c dt u p q h ht).1
  rcases waitImpl_cases c dt u p q h with ⟨he, hn⟩ | ⟨r, ho, hcl, hd, hs, hr, hoff, hv, he⟩
  · rw [he]
    exact hx.silent rfl rfl (le_refl _) (fun _ _ h => h) (fun _ h => h)
  · have hbeg : (waitImpl c p).beg = (p.pushBeg ⟨.wait, p.tail⟩).beg := by rw [he]
    have hen : (waitImpl c p).en = p.en := by rw [he]; rfl
    have hhd : (waitImpl c p).head = p.head := by rw [he]; rfl
    have hon : cmdOn c r.said ⟨.wait, p.tail⟩ := ⟨r, ho, rfl⟩
    refine ⟨?_, hx.s.push hf hbeg hen (by simp), fun x hm hw => ?_, fun hq => by omega⟩
    · rw [E1_push c p _ f ⟨.wait, p.tail⟩ hf hbeg hen]
      refine hx.x.cmd ⟨.wait, p.tail⟩ r.said _ hv hon hi.lim' (fun hdv => ?_) (by simp)
      exfalso
      rw [devAt_snoc] at hdv
      unfold stepDev at hdv
      simp only [ho, if_true] at hdv
      by_cases h2 : (devAt c r.said (E1 c p f)).2 = true
      · rw [if_pos h2] at hdv; cases hdv
      · rw [if_neg h2] at hdv
        exact h2 (hx.x.fl r.said hs hdv)
    · rw [hbeg] at hm
      have hm : x ∈ p.beg f ++ [⟨.wait, p.tail⟩] := by simpa [P.pushBeg, hf] using hm
      rcases List.mem_append.mp hm with m | m
      · rw [hhd]; exact hx.fb x m hw
      · have : x = ⟨.wait, p.tail⟩ := by simpa using m
        rw [this] at hw; exact absurd rfl hw

theorem freeLoop_x (c : Cfg S D) (dt : S → D) (u : Uni c dt) (q b f : Nat) (n : Nat) :
    ∀ (p : P S D), Inv c dt p q z → p.sin + b ≤ c.maxBytes → p.fid = f → XP c dt p q f →
      XP c dt (freeLoop c b n p) q f := by
  have hz : ∀ p : P S D, Inv c dt p q z → q ≤ p.tail → p.sout = 0 := by
    intro p h hq
    rw [h.sout]
    apply tot_zero
    intro s hs
    obtain ⟨j, r, h1, h2, h3, h4, h5⟩ := h.out s (by simpa using hs)
    omega
  induction n with
  | zero => intro p _ _ _ hx; exact hx
  | succ n ih =>
    intro p h hb hf hx
    unfold freeLoop
    by_cases hc : p.sin + p.sout + b > c.maxBytes
    · rw [if_pos hc]
      have ht : p.tail < q := by
        by_contra ht
        have := hz p h (by omega)
        omega
      obtain ⟨h1, h2, h3⟩ := waitImpl_inv c dt u p q h ht
      exact ih (waitImpl c p) h1 (by rw [h2.sin]; exact hb) (by rw [h2.fid]; exact hf) (waitImpl_x c dt u p q f h ht hf hx)
    · rw [if_neg hc]; exact hx

theorem freeMem_x (c : Cfg S D) (dt : S → D) (u : Uni c dt) (p : P S D) (q b f : Nat) (h : Inv c dt p q z)
    (hb : p.sin + b ≤ c.maxBytes) (hf : p.fid = f) (hx : XP c dt p q f) : XP c dt (freeMem c p b) q f :=
  freeLoop_x c dt u q b f _ p h hb hf hx

theorem reserveLoop_x (c : Cfg S D) (dt : S → D) (u : Uni c dt) (q need f : Nat) (n : Nat) :
    ∀ (p p' : P S D), Inv c dt p q z → p.fid = f → XP c dt p q f → reserveLoop c need n p = .inl p' →
      XP c dt p' q f := by
  induction n with
  | zero =>
    intro p p' h hf hx he
    unfold reserveLoop at he
    by_cases hc : wsub (wsub c.maxBytes p.sin) p.sout < need
    · rw [if_pos hc] at he; cases he
    · rw [if_neg hc] at he
      have : p = p' := by simpa using he
      subst this; exact hx
  | succ n ih =>
    intro p p' h hf hx he
    unfold reserveLoop at he
    by_cases hc : wsub (wsub c.maxBytes p.sin) p.sout < need
    · rw [if_pos hc] at he
      by_cases ht : p.tail < q
      · obtain ⟨h1, h2, h3⟩ := waitImpl_inv c dt u p q h ht
        exact ih _ p' h1 (by rw [h2.fid]; exact hf) (waitImpl_x c dt u p q f h ht hf hx) he
      · exfalso
        have hno : ∀ s d, (p.st s d).state ≠ .out ∧ (p.st s d).state ≠ .outCleared := by
          intro s d
          by_cases hd : d = dt s
          · subst hd
            refine ⟨fun ho => ?_, h.noOC s⟩
            obtain ⟨j, r, h1, h2, h3, h4, h5⟩ := h.out s ho
            omega
          · rw [(h.off s d hd).2]; simp
        rw [waitImpl_idle c p hno] at he
        exact reserveLoop_idle c need n { p with tail := p.tail + 1 } hno hc p' he
    · rw [if_neg hc] at he
      have : p = p' := by simpa using he
      subst this; exact hx

theorem XP.enqueue {c : Cfg S D} {dt : S → D} {p : P S D} {q f : Nat} (h : XP c dt p q f) (r : Rec S D)
    (hd : r.dtype = dt r.said) : XP c dt (enqueue r p) q f := by
  have hst : ∀ s, (view dt (Verif.Lms.enqueue r p).st s).state = (view dt p.st s).state := by
    intro s
    unfold Verif.Lms.enqueue
    simp only [hd]
    rw [setSt_view]
    by_cases e : s = r.said
    · subst e; rw [Function.update_self]; rfl
    · rw [Function.update_of_ne e]
  refine h.silent rfl rfl (Nat.le_succ _) (fun s _ hs => by rw [hst]; exact hs) (fun s hs => by rw [hst] at hs; exact hs)

/-- A prefetch command is pushed, the array is in. -/
theorem XP.fetch {c : Cfg S D} {dt : S → D} {p p' : P S D} {q f : Nat} (h : XP c dt p q f) (hf : p.fid = f) (r : Rec S D)
    (x : Sched) (hxr : x.r = p.head) (hxt : x.tag = .swapInGet ∨ x.tag = .swapInCast)
    (ho : c.order[p.head]? = some r) (hcl : r.tag ≠ .clear) (hfb : c.fbegin f ≤ p.head) (a : AState) (ha : a.state = .in_)
    (hv : view dt p'.st = Function.update (view dt p.st) r.said a) (hb : p'.beg = (p.pushBeg x).beg) (he : p'.en = p.en)
    (hh : p'.head = p.head)
    (hlim : tot c dt (view dt p'.st) [.in_] + tot c dt (view dt p'.st) [.out] ≤ c.maxBytes) :
    XInv c dt (view dt p'.st) (E1 c p' f) ∧ SInv c p' f f ∧
    (∀ y ∈ p'.beg f, y.tag ≠ .wait → c.fbegin f ≤ y.r ∧ y.r < p'.head + 1 ∧ ∃ r, c.order[y.r]? = some r ∧ r.tag ≠ .clear) ∧
    (q = 0 → ∀ y ∈ p'.beg f, y.tag ≠ .wait) := by
  have hmem : ∀ y, y ∈ p'.beg f → y ∈ p.beg f ∨ y = x := by
    intro y hy
    rw [hb] at hy
    have hy : y ∈ p.beg f ++ [x] := by simpa [P.pushBeg, hf] using hy
    rcases List.mem_append.mp hy with m | m
    · exact .inl m
    · exact .inr (by simpa using m)
  refine ⟨?_, h.s.push hf hb he (by rcases hxt with e | e <;> rw [e] <;> simp), fun y hy hw => ?_, fun hq y hy => ?_⟩
  · rw [E1_push c p p' f x hf hb he]
    refine h.x.cmd x r.said a hv ⟨r, by rw [hxr]; exact ho, rfl⟩ hlim (fun _ => .inl ha) (by rw [ha]; simp)
  · rcases hmem y hy with m | m
    · obtain ⟨h1, h2, h3⟩ := h.fb y m hw
      exact ⟨h1, by omega, h3⟩
    · rw [m, hxr]; exact ⟨hfb, by omega, r, ho, hcl⟩
  · rcases hmem y hy with m | m
    · exact h.nw hq y m
    · rw [m]; rcases hxt with e | e <;> rw [e] <;> simp

/-- As `XP` but the head is advanced with `enqueue` only. -/
theorem XP.enqueue' {c : Cfg S D} {dt : S → D} {p : P S D} {q f : Nat} (r : Rec S D) (hd : r.dtype = dt r.said)
    (hx : XInv c dt (view dt p.st) (E1 c p f) ∧ SInv c p f f ∧
    (∀ y ∈ p.beg f, y.tag ≠ .wait → c.fbegin f ≤ y.r ∧ y.r < p.head + 1 ∧ ∃ r, c.order[y.r]? = some r ∧ r.tag ≠ .clear) ∧
    (q = 0 → ∀ y ∈ p.beg f, y.tag ≠ .wait)) : XP c dt (Verif.Lms.enqueue r p) q f := by
  obtain ⟨h1, h2, h3, h4⟩ := hx
  have : XP c dt { p with head := p.head + 1 } q f := ⟨h1, h2.same rfl rfl, h3, h4⟩
  have h5 := this.enqueue r hd
  have hst : (Verif.Lms.enqueue r { p with head := p.head + 1 }).st = (Verif.Lms.enqueue r p).st := rfl
  refine ⟨?_, h5.s.same rfl rfl, h3, h4⟩
  have := h5.x
  rw [hst] at this; exact this

theorem swapInFirst_x (c : Cfg S D) (dt : S → D) (u : Uni c dt) (p p' : P S D) (q f : Nat) (h : Inv c dt p q z)
    (hq : q ≤ c.fbegin p.fid) (hf : p.fid = f) (hfb : c.fbegin f ≤ p.head) (hx : XP c dt p q f)
    (r : Rec S D) (ho : c.order[p.head]? = some r) (hcl : r.tag ≠ .clear)
    (h0 : (p.st r.said r.dtype).count = 0) (hr : swapInFirst c p.head r p = some p') :
    XP c dt (enqueue r p') q f := by
  have hInv := (swapInFirst_inv c dt u p p' q h hq r ho hcl h0 hr).1
  have hm : r ∈ c.order := List.mem_of_getElem? ho
  have hd : r.dtype = dt r.said := u.recs r hm hcl
  have hst : ∀ s, (view dt (enqueue r p').st s).state = (view dt p'.st s).state := by
    intro s
    unfold enqueue
    simp only [hd]
    rw [setSt_view]
    by_cases e : s = r.said
    · subst e; rw [Function.update_self]; rfl
    · rw [Function.update_of_ne e]
  have hlimE : tot c dt (view dt p'.st) [.in_] + tot c dt (view dt p'.st) [.out] ≤ c.maxBytes := by
    have := hInv.lim'
    unfold tot at this ⊢
    simp only [hst] at this
    exact this
  have hva : p.st r.said r.dtype = view dt p.st r.said := by rw [hd]; rfl
  have hB : c.bytes r.said r.dtype = B c dt r.said := by rw [hd]; rfl
  unfold swapInFirst at hr
  simp only [hB] at hr
  rw [hva] at hr h0
  have hni : (view dt p.st r.said).state ≠ .in_ := by
    intro e
    have := (h.pos r.said).mpr (.inl e)
    omega
  by_cases hlim : c.maxPre < p.pre + B c dt r.said ∨ c.maxBytes < p.sin + B c dt r.said
  · rw [if_pos hlim] at hr; cases hr
  rw [if_neg hlim] at hr
  push Not at hlim
  have hnoc := h.noOC r.said
  by_cases hdev : r.dev = true
  · rw [if_pos hdev] at hr
    by_cases hout : (view dt p.st r.said).state = .out ∨ (view dt p.st r.said).state = .outCleared
    · rw [if_pos hout] at hr
      have hout : (view dt p.st r.said).state = .out := hout.resolve_right hnoc
      have hp : p' = cancelSwapOut c r p := by simpa using hr.symm
      have hv : view dt p'.st = Function.update (view dt p.st) r.said { view dt p.st r.said with state := .in_ } := by
        rw [hp]; unfold cancelSwapOut; simp only; rw [mapSt_view, if_pos (.inl hout)]
      have he : p'.en = (cancelL (isSwapOutOf c r.said) p.en).getD p.en := by rw [hp]; rfl
      have hbg : p'.beg = p.beg := by rw [hp]; rfl
      have hhd : p'.head = p.head := by rw [hp]; rfl
      obtain ⟨k1, k2, k3, k4⟩ := cancel_x c dt p f r _ (view dt p'.st) hx.s hx.x hout hv rfl p'.en he
      apply XP.enqueue _ r hd
      refine ⟨?_, ⟨k2, k3, by rw [hbg]; exact hx.s.begE, by rw [hbg]; exact hx.s.begOk, k4⟩, ?_, by rw [hbg]; exact hx.nw⟩
      · unfold E1; rw [hbg]; exact k1
      · rw [hbg, hhd]; exact hx.fb
    · rw [if_neg hout] at hr
      have hout : (view dt p.st r.said).state ≠ .out := fun e => hout (.inl e)
      by_cases hnt : r.noTransfer = true
      · rw [if_pos hnt] at hr
        have hp := (Option.some.inj hr).symm
        have hv : view dt p'.st = Function.update (view dt p.st) r.said { view dt p.st r.said with state := .unprefetched } := by
          rw [hp]; simp only [hd]; exact setSt_view _ _
        apply XP.enqueue _ r hd
        refine hx.silent (by rw [hp]) (by rw [hp]) (by rw [hp]) (fun s hdv hs => ?_) (fun s hs => ?_)
        · by_cases e : s = r.said
          · subst e
            rcases hs with hs | hs
            · exact absurd hs hni
            · exact absurd hs hout
          · rw [hv, Function.update_of_ne e]; exact hs
        · by_cases e : s = r.said
          · subst e; rw [hv, Function.update_self] at hs; cases hs
          · rw [hv, Function.update_of_ne e] at hs; exact hs
      · rw [if_neg hnt] at hr
        unfold prefetch at hr
        have hex : ¬ ((p.ht r.said).1 = true ∧ (p.ht r.said).2 ≠ r.dtype) := by
          rintro ⟨h1, h2⟩; exact h2 (by rw [h.ht _ h1, hd])
        simp only [hB, if_neg hex, Nat.add_zero] at hr
        rw [if_neg (by omega)] at hr
        obtain ⟨g1, g2, g3⟩ := freeMem_inv c dt u p q (B c dt r.said) h hq (by omega)
        have gx := freeMem_x c dt u p q (B c dt r.said) f h (by omega) hf hx
        have hp := (Option.some.inj hr).symm
        have ho' : c.order[(freeMem c p (B c dt r.said)).head]? = some r := by rw [g2.head]; exact ho
        by_cases hca : c.castPrefetch = true ∧ (typeConverted c r.said = false ∨
            (r.tag = .cast ∧ acc (freeMem c p (B c dt r.said)).st r.said = 0))
        · simp only [if_pos hca] at hp
          apply XP.enqueue' r hd
          refine gx.fetch (by rw [g2.fid]; exact hf) r ⟨.swapInCast, p.head⟩ (by rw [g2.head]) (.inr rfl) ho' hcl
            (by rw [g2.head]; exact hfb) { (freeMem c p (B c dt r.said)).st r.said (dt r.said) with state := .in_ } rfl ?_
            (by rw [hp]) (by rw [hp]; rfl) (by rw [hp]; rfl) hlimE
          rw [hp]; simp only [hd]; exact setSt_view _ _
        · simp only [if_neg hca] at hp
          apply XP.enqueue' r hd
          refine gx.fetch (by rw [g2.fid]; exact hf) r ⟨.swapInGet, p.head⟩ (by rw [g2.head]) (.inl rfl) ho' hcl
            (by rw [g2.head]; exact hfb) { (freeMem c p (B c dt r.said)).st r.said (dt r.said) with state := .in_ } rfl ?_
            (by rw [hp]) (by rw [hp]; rfl) (by rw [hp]; rfl) hlimE
          rw [hp]; simp only [hd]; exact setSt_view _ _
  · rw [if_neg hdev] at hr
    by_cases hout : (view dt p.st r.said).state = .out ∨ (view dt p.st r.said).state = .outCleared
    · rw [if_pos hout] at hr
      have hout : (view dt p.st r.said).state = .out := hout.resolve_right hnoc
      have hp := (Option.some.inj hr).symm
      have hv : view dt p'.st = Function.update (view dt p.st) r.said { view dt p.st r.said with state := .in_ } := by
        rw [hp]; simp only; rw [mapSt_view, if_pos hout]
      apply XP.enqueue _ r hd
      refine hx.silent (by rw [hp]) (by rw [hp]) (by rw [hp]) (fun s hdv hs => ?_) (fun s hs => ?_)
      · by_cases e : s = r.said
        · subst e; left; rw [hv, Function.update_self]
        · rw [hv, Function.update_of_ne e]; exact hs
      · by_cases e : s = r.said
        · subst e; exact hout
        · rw [hv, Function.update_of_ne e] at hs; exact hs
    · rw [if_neg hout] at hr
      obtain ⟨g1, g2, g3⟩ := freeMem_inv c dt u p q (B c dt r.said) h hq (by omega)
      have gx := freeMem_x c dt u p q (B c dt r.said) f h (by omega) hf hx
      have hp := (Option.some.inj hr).symm
      have hv : view dt p'.st = Function.update (view dt (freeMem c p (B c dt r.said)).st) r.said
          { (freeMem c p (B c dt r.said)).st r.said (dt r.said) with state := .in_ } := by
        rw [hp]; simp only [hd]; exact setSt_view _ _
      apply XP.enqueue _ r hd
      refine gx.silent (by rw [hp]) (by rw [hp]) (by rw [hp]) (fun s hdv hs => ?_) (fun s hs => ?_)
      · by_cases e : s = r.said
        · subst e; left; rw [hv, Function.update_self]
        · rw [hv, Function.update_of_ne e]; exact hs
      · by_cases e : s = r.said
        · subst e; rw [hv, Function.update_self] at hs; cases hs
        · rw [hv, Function.update_of_ne e] at hs; exact hs

theorem swapIn_x (c : Cfg S D) (dt : S → D) (u : Uni c dt) (stop : Nat → Nat) (q f : Nat) (l : List (Rec S D)) :
    ∀ p : P S D, l = c.order.drop p.head → Inv c dt p q z → q ≤ c.fbegin p.fid → p.fid = f → c.fbegin f ≤ p.head →
      XP c dt p q f → XP c dt (swapIn c stop l p) q f := by
  induction l with
  | nil => intro p _ h _ _ _ hx; exact hx
  | cons r rest ih =>
    intro p hl h hq hf hfb hx
    have ho : c.order[p.head]? = some r := by
      have := congrArg (·[0]?) hl
      simpa using this.symm
    have hrest : rest = c.order.drop (p.head + 1) := by
      rw [← List.tail_drop, ← hl]; rfl
    have hlt : p.head < c.order.length := (List.getElem?_eq_some_iff.mp ho).1
    unfold swapIn
    by_cases hcl : r.tag = .clear
    · rw [if_pos hcl]
      refine ih { p with head := p.head + 1 } hrest ?_ hq hf (by change _ ≤ p.head + 1; omega)
        (hx.silent rfl rfl (Nat.le_succ _) (fun _ _ h => h) (fun _ h => h))
      refine ⟨h.off, fun s => ?_, h.pos, h.noOC, h.out, h.sin, h.sout, h.pre, h.lim, h.tailq,
        by have := h.hq; change q ≤ p.head + 1; omega, hlt, h.ht,
        by have := h.hz; change q ≤ z ∧ z ≤ p.head + 1; omega, h.unp, h.gd⟩
      change _ = (cnt c s (p.head + 1) : Int) - _
      rw [cnt_succ c s p.head r ho, if_neg (fun hu => hu.1 hcl)]
      exact h.count s
    · rw [if_neg hcl]
      by_cases hs : stop p.head > p.fid
      · rw [if_pos hs]; exact hx
      · rw [if_neg hs]
        have hd : r.dtype = dt r.said := u.recs r (List.mem_of_getElem? ho) hcl
        by_cases h0 : (p.st r.said r.dtype).count = 0
        · rw [if_pos h0]
          cases hfi : swapInFirst c p.head r p with
          | none => exact hx
          | some p' =>
            obtain ⟨g1, g2, g3⟩ := swapInFirst_inv c dt u p p' q h hq r ho hcl h0 hfi
            exact ih (enqueue r p') (by rw [hrest]; change _ = c.order.drop (p'.head + 1); rw [g3]) g1
              (by change q ≤ c.fbegin p'.fid; rw [g2]; exact hq) (g2.trans hf) (by change _ ≤ p'.head + 1; omega)
              (swapInFirst_x c dt u p p' q f h hq hf hfb hx r ho hcl h0 hfi)
        · rw [if_neg h0]
          have h0' : (view dt p.st r.said).count ≠ 0 := by rw [hd] at h0; exact h0
          exact ih (enqueue r p) (by rw [hrest]; rfl) (enqueue_again c dt u p q h r ho hcl h0') hq hf
            (by change _ ≤ p.head + 1; omega) (hx.enqueue r hd)

theorem reserve_x (c : Cfg S D) (dt : S → D) (u : Uni c dt) (stop : Nat → Nat) (p p' : P S D) (q f : Nat)
    (h : Inv c dt p q z) (hf : p.fid = f) (hx : XP c dt p q f) (hr : reserve c stop p = .ok p') :
    XP c dt p' q f := by
  obtain ⟨q1, hl, hp⟩ := reserve_ok c stop p p' hr
  have hx1 := reserveLoop_x c dt u q _ f _ p q1 h hf hx hl
  obtain ⟨g1, g2, g3⟩ := reserveLoop_inv c dt u q _ _ p q1 h hl
  generalize ((unprefetchedKeys c p).map fun k => c.bytes k.1 k.2).sum = need at *
  have ht := toIn_spec c (c.block q1.fid) { q1 with sin := q1.sin + need }
  have hpd : p' = (c.block q1.fid).foldl (toInStep c) { q1 with sin := q1.sin + need } := hp
  rw [← hpd] at ht
  obtain ⟨he, hst⟩ := ht
  refine hx1.silent (by rw [he]) (by rw [he]) (by rw [he]) (fun s _ hs => ?_) (fun s hs => ?_)
  · by_cases hc : (view dt q1.st s).state = .unprefetched ∧ ∃ i ∈ c.block q1.fid, usesAt c s (dt s) i
    · rw [hc.1] at hs; simp at hs
    · have : view dt p'.st s = view dt q1.st s := (hst s (dt s)).2 hc
      rw [this]; exact hs
  · by_cases hc : (view dt q1.st s).state = .unprefetched ∧ ∃ i ∈ c.block q1.fid, usesAt c s (dt s) i
    · have : view dt p'.st s = { view dt q1.st s with state := .in_ } := (hst s (dt s)).1 hc.1 hc.2
      rw [this] at hs; cases hs
    · have : view dt p'.st s = view dt q1.st s := (hst s (dt s)).2 hc
      rw [this] at hs; exact hs

end Verif.Lms
