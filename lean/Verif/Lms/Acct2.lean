/-
Second half of the invariant proof: reservation, head types, swap out, the whole attempt.
-/
import Verif.Lms.Acct

namespace Verif.Lms

variable {S D : Type} [DecidableEq S] [DecidableEq D] [Fintype D] [Fintype S] {z : Nat}

theorem wsub2 {m a b n : Nat} (h : a + b ≤ m) : wsub (wsub m a) b < n ↔ m < a + b + n := by
  rw [wsub_eq (show a ≤ m by omega), wsub_eq (show b ≤ m - a by omega)]; omega

omit [Fintype S] in
theorem waitImpl_idle (c : Cfg S D) (p : P S D)
    (h : ∀ s d, (p.st s d).state ≠ .out ∧ (p.st s d).state ≠ .outCleared) :
    waitImpl c p = { p with tail := p.tail + 1 } := by
  unfold waitImpl
  cases c.order[p.tail]? with
  | none => rfl
  | some r =>
    simp only
    rw [if_neg]
    rintro ⟨h1, _⟩
    rcases h1 with h1 | h1
    · exact (h _ _).1 h1
    · exact (h _ _).2 h1

omit [Fintype S] in
theorem reserveLoop_idle (c : Cfg S D) (need n : Nat) : ∀ p : P S D,
    (∀ s d, (p.st s d).state ≠ .out ∧ (p.st s d).state ≠ .outCleared) →
    wsub (wsub c.maxBytes p.sin) p.sout < need → ∀ p', reserveLoop c need n p ≠ .inl p' := by
  induction n with
  | zero => intro p h hn p'; unfold reserveLoop; rw [if_pos hn]; simp
  | succ n ih =>
    intro p h hn p'
    unfold reserveLoop
    rw [if_pos hn, waitImpl_idle c p h]
    exact ih { p with tail := p.tail + 1 } h hn p'

theorem reserveLoop_inv (c : Cfg S D) (dt : S → D) (u : Uni c dt) (q need : Nat) (n : Nat) :
    ∀ (p p' : P S D), Inv c dt p q z → reserveLoop c need n p = .inl p' →
      Inv c dt p' q z ∧ SameBut dt p p' ∧ p'.sin + p'.sout + need ≤ c.maxBytes := by
  induction n with
  | zero =>
    intro p p' h he
    unfold reserveLoop at he
    by_cases hc : wsub (wsub c.maxBytes p.sin) p.sout < need
    · rw [if_pos hc] at he; cases he
    · rw [if_neg hc] at he
      have : p = p' := by simpa using he
      subst this
      rw [wsub2 h.lim] at hc
      exact ⟨h, SameBut.refl dt p, by omega⟩
  | succ n ih =>
    intro p p' h he
    unfold reserveLoop at he
    by_cases hc : wsub (wsub c.maxBytes p.sin) p.sout < need
    · rw [if_pos hc] at he
      by_cases ht : p.tail < q
      · obtain ⟨h1, h2, h3⟩ := waitImpl_inv c dt u p q h ht
        obtain ⟨g1, g2, g3⟩ := ih _ p' h1 he
        exact ⟨g1, h2.trans g2, g3⟩
      · exfalso
        have hno : ∀ s d, (p.st s d).state ≠ .out ∧ (p.st s d).state ≠ .outCleared := by
          intro s d
          by_cases hd : d = dt s
          · subst hd
            refine ⟨fun ho => ?_, h.noOC s⟩
            obtain ⟨j, r, h1, h2, h3, h4, h5⟩ := h.out s ho
            omega
          · rw [(h.off s d hd).2]; simp
        rw [waitImpl_idle c p hno] at he
        exact reserveLoop_idle c need n { p with tail := p.tail + 1 } hno hc p' he
    · rw [if_neg hc] at he
      have : p = p' := by simpa using he
      subst this
      rw [wsub2 h.lim] at hc
      exact ⟨h, SameBut.refl dt p, by omega⟩

/-- Record `i` uses the array with the dtype. -/
def usesAt (c : Cfg S D) (s : S) (d : D) (i : Nat) : Prop :=
  ∃ r, c.order[i]? = some r ∧ r.uses s ∧ r.dtype = d

omit [Fintype S] [Fintype D] in
theorem toIn_spec (c : Cfg S D) (l : List Nat) : ∀ p : P S D,
    (l.foldl (toInStep c) p) = { p with st := (l.foldl (toInStep c) p).st } ∧
    ∀ s d, ((p.st s d).state = .unprefetched → (∃ i ∈ l, usesAt c s d i) → (l.foldl (toInStep c) p).st s d = { p.st s d with state := .in_ }) ∧
      (¬ ((p.st s d).state = .unprefetched ∧ ∃ i ∈ l, usesAt c s d i) → (l.foldl (toInStep c) p).st s d = p.st s d) := by
  induction l with
  | nil => intro p; exact ⟨rfl, fun s d => ⟨fun _ h => by simp at h, fun _ => rfl⟩⟩
  | cons i l ih =>
    intro p
    simp only [List.foldl_cons]
    cases ho : c.order[i]? with
    | none =>
      rw [show toInStep c p i = p by unfold toInStep; rw [ho]]
      obtain ⟨h1, h2⟩ := ih p
      refine ⟨h1, fun s d => ?_⟩
      have : (∃ j ∈ i :: l, usesAt c s d j) ↔ ∃ j ∈ l, usesAt c s d j := by
        simp only [List.mem_cons, exists_eq_or_imp]
        constructor
        · rintro (⟨r, h, _⟩ | h)
          · rw [ho] at h; cases h
          · exact h
        · exact .inr
      rw [this]; exact h2 s d
    | some r =>
      by_cases hc : r.tag = .clear
      · rw [show toInStep c p i = p by unfold toInStep; rw [ho]; simp only; rw [if_pos hc]]
        obtain ⟨h1, h2⟩ := ih p
        refine ⟨h1, fun s d => ?_⟩
        have : (∃ j ∈ i :: l, usesAt c s d j) ↔ ∃ j ∈ l, usesAt c s d j := by
          simp only [List.mem_cons, exists_eq_or_imp]
          constructor
          · rintro (⟨r', h, h', _⟩ | h)
            · rw [ho] at h; cases h; exact absurd hc h'.1
            · exact h
          · exact .inr
        rw [this]; exact h2 s d
      · by_cases hu : (p.st r.said r.dtype).state = .unprefetched
        · rw [show toInStep c p i = { p with st := setSt p.st r.said r.dtype { p.st r.said r.dtype with state := .in_ } } by
            unfold toInStep; rw [ho]; simp only; rw [if_neg hc, if_pos hu]]
          obtain ⟨h1, h2⟩ := ih { p with st := setSt p.st r.said r.dtype { p.st r.said r.dtype with state := .in_ } }
          refine ⟨h1, fun s d => ?_⟩
          by_cases hsd : s = r.said ∧ d = r.dtype
          · obtain ⟨e1, e2⟩ := hsd
            subst e1; subst e2
            have h3 := (h2 r.said r.dtype).2 (by simp [setSt])
            refine ⟨fun _ _ => ?_, fun hn => ?_⟩
            · rw [h3]; simp [setSt]
            · exact absurd ⟨hu, i, by simp, r, ho, ⟨hc, rfl⟩, rfl⟩ hn
          · have he : setSt p.st r.said r.dtype { p.st r.said r.dtype with state := .in_ } s d = p.st s d := by
              unfold setSt; rw [if_neg hsd]
            have h3 := h2 s d
            simp only [he] at h3
            have : (∃ j ∈ i :: l, usesAt c s d j) ↔ ∃ j ∈ l, usesAt c s d j := by
              simp only [List.mem_cons, exists_eq_or_imp]
              constructor
              · rintro (⟨r', h, h', h''⟩ | h)
                · rw [ho] at h; cases h; exact absurd ⟨h'.2.symm, h''.symm⟩ hsd
                · exact h
              · exact .inr
            rw [this]; exact h3
        · rw [show toInStep c p i = p by unfold toInStep; rw [ho]; simp only; rw [if_neg hc, if_neg hu]]
          obtain ⟨h1, h2⟩ := ih p
          refine ⟨h1, fun s d => ?_⟩
          by_cases hsd : s = r.said ∧ d = r.dtype
          · obtain ⟨e1, e2⟩ := hsd
            subst e1; subst e2
            exact ⟨fun h => absurd h hu, fun _ => (h2 _ _).2 fun h => hu h.1⟩
          · have : (∃ j ∈ i :: l, usesAt c s d j) ↔ ∃ j ∈ l, usesAt c s d j := by
              simp only [List.mem_cons, exists_eq_or_imp]
              constructor
              · rintro (⟨r', h, h', h''⟩ | h)
                · rw [ho] at h; cases h; exact absurd ⟨h'.2.symm, h''.symm⟩ hsd
                · exact h
              · exact .inr
            rw [this]; exact h2 s d

omit [Fintype S] [Fintype D] in
theorem mem_keys (c : Cfg S D) (p : P S D) (s : S) (d : D) :
    (s, d) ∈ unprefetchedKeys c p ↔ (p.st s d).state = .unprefetched ∧ ∃ i ∈ c.block p.fid, usesAt c s d i := by
  unfold unprefetchedKeys
  rw [List.mem_dedup, List.mem_filterMap]
  constructor
  · rintro ⟨i, hi, h⟩
    cases ho : c.order[i]? with
    | none => rw [ho] at h; cases h
    | some r =>
      rw [ho] at h
      simp only at h
      by_cases hc : r.tag = .clear
      · rw [if_pos hc] at h; cases h
      · rw [if_neg hc] at h
        by_cases hu : (p.st r.said r.dtype).state = .unprefetched
        · rw [if_pos hu] at h
          cases h
          exact ⟨hu, i, hi, r, ho, ⟨hc, rfl⟩, rfl⟩
        · rw [if_neg hu] at h; cases h
  · rintro ⟨hu, i, hi, r, ho, ⟨hc, rfl⟩, rfl⟩
    refine ⟨i, hi, ?_⟩
    rw [ho]; simp only; rw [if_neg hc, if_pos hu]

theorem keys_sum (c : Cfg S D) (dt : S → D) (u : Uni c dt) (p : P S D) :
    ((unprefetchedKeys c p).map fun k => c.bytes k.1 k.2).sum =
      ∑ s : S, if (s, dt s) ∈ unprefetchedKeys c p then B c dt s else 0 := by
  have hnd : (unprefetchedKeys c p).Nodup := List.nodup_dedup _
  rw [← List.sum_toFinset _ hnd, ← Finset.sum_filter]
  symm
  apply Finset.sum_nbij (fun s => (s, dt s))
  · intro s hs; rw [Finset.mem_filter] at hs; rw [List.mem_toFinset]; exact hs.2
  · intro a _ b _ hab; exact (Prod.mk.inj hab).1
  · rintro ⟨s, d⟩ hk
    have hk' : (s, d) ∈ unprefetchedKeys c p := by simpa using hk
    obtain ⟨_, i, _, r, ho, hu, hd⟩ := (mem_keys c p s d).mp hk'
    have : d = dt s := by rw [← hd, ← hu.2]; exact u.recs r (List.mem_of_getElem? ho) hu.1
    subst this
    refine ⟨s, ?_, rfl⟩
    simpa using hk'
  · intro s _; rfl

omit [Fintype S] [Fintype D] [DecidableEq D] in
theorem mem_block (c : Cfg S D) (fid i : Nat) : i ∈ c.block fid ↔ c.fbegin fid ≤ i ∧ i < c.fend fid := by
  unfold Cfg.block; rw [List.mem_range']; constructor
  · rintro ⟨k, h1, h2⟩; omega
  · rintro ⟨h1, h2⟩; exact ⟨i - c.fbegin fid, by omega, by omega⟩

/-- Head types after a block: every used array has its dtype as head. -/
theorem headFold_spec (c : Cfg S D) (dt : S → D) (u : Uni c dt) (l : List Nat) : ∀ ht : S → Bool × D,
    (∀ s, (ht s).1 = true → (ht s).2 = dt s) →
    let ht' := l.foldl (fun ht i => match c.order[i]? with
      | none => ht
      | some r => fun s =>
        if s = r.said then
          if r.tag = .clear then (false, (ht s).2)
          else if (ht s).1 then (if r.tag = .cast then (true, r.dtype) else ht s)
          else (true, r.dtype)
        else ht s) ht
    (∀ s, (ht' s).1 = true → (ht' s).2 = dt s) ∧
    (∀ s, (ht s).2 = dt s → (ht' s).2 = dt s) ∧
    (∀ s, (∃ i ∈ l, usesAt c s (dt s) i) → (ht' s).2 = dt s) := by
  induction l with
  | nil => intro ht h; exact ⟨h, fun _ h => h, fun s h => by simp at h⟩
  | cons i l ih =>
    intro ht h
    simp only [List.foldl_cons]
    cases ho : c.order[i]? with
    | none =>
      obtain ⟨h1, h2, h3⟩ := ih ht h
      refine ⟨h1, h2, fun s hs => h3 s ?_⟩
      obtain ⟨j, hj, hu⟩ := hs
      rcases List.mem_cons.mp hj with e | e
      · subst e; obtain ⟨r, hr, _⟩ := hu; rw [ho] at hr; cases hr
      · exact ⟨j, e, hu⟩
    | some r =>
      simp only
      have hm : r ∈ c.order := List.mem_of_getElem? ho
      obtain ⟨h1, h2, h3⟩ := ih (fun s =>
        if s = r.said then
          if r.tag = .clear then (false, (ht s).2)
          else if (ht s).1 then (if r.tag = .cast then (true, r.dtype) else ht s)
          else (true, r.dtype)
        else ht s) (by
          intro s
          by_cases e : s = r.said
          · subst e
            rw [if_pos rfl]
            by_cases hc : r.tag = .clear
            · rw [if_pos hc]; simp
            · rw [if_neg hc]
              split
              · split
                · intro _; exact u.recs r hm hc
                · exact h _
              · intro _; exact u.recs r hm hc
          · rw [if_neg e]; exact h s)
      refine ⟨h1, fun s hs => h2 s ?_, fun s hs => ?_⟩
      · by_cases e : s = r.said
        · subst e
          rw [if_pos rfl]
          by_cases hc : r.tag = .clear
          · rw [if_pos hc]; exact hs
          · rw [if_neg hc]
            split
            · split
              · exact u.recs r hm hc
              · exact hs
            · exact u.recs r hm hc
        · rw [if_neg e]; exact hs
      · obtain ⟨j, hj, hu⟩ := hs
        rcases List.mem_cons.mp hj with e | e
        · subst e
          obtain ⟨r', hr, hu, _⟩ := hu
          rw [ho] at hr; cases hr
          refine h2 s ?_
          rw [if_pos hu.2.symm, if_neg hu.1]
          have hd := u.recs r hm hu.1
          rw [hu.2] at hd
          by_cases hb : (ht s).1 = true
          · rw [if_pos hb]
            split
            · exact hd
            · exact h s hb
          · rw [if_neg hb]; exact hd
        · exact h3 s ⟨j, e, hu⟩

theorem cnt_exists (c : Cfg S D) (s : S) (a b : Nat) (h : cnt c s a < cnt c s b) :
    ∃ i r, a ≤ i ∧ i < b ∧ c.order[i]? = some r ∧ r.uses s := by
  induction b with
  | zero => unfold cnt at h; simp at h
  | succ b ih =>
    cases ho : c.order[b]? with
    | none =>
      have : cnt c s (b + 1) = cnt c s b := by
        unfold cnt; rw [List.take_add_one, ho]; simp
      rw [this] at h
      obtain ⟨i, r, h1, h2, h3⟩ := ih h
      exact ⟨i, r, h1, by omega, h3⟩
    | some r =>
      by_cases hu : r.uses s
      · by_cases hab : a ≤ b
        · exact ⟨b, r, hab, by omega, ho, hu⟩
        · have := cnt_mono c s (show b + 1 ≤ a by omega); omega
      · rw [cnt_succ c s b r ho, if_neg hu] at h
        obtain ⟨i, r, h1, h2, h3⟩ := ih h
        exact ⟨i, r, h1, by omega, h3⟩

omit [Fintype S] in
theorem reserve_ok (c : Cfg S D) (stop : Nat → Nat) (p p' : P S D) (h : reserve c stop p = .ok p') :
    ∃ q, reserveLoop c ((unprefetchedKeys c p).map fun k => c.bytes k.1 k.2).sum (c.fbegin p.fid - p.tail) p = .inl q ∧
      p' = unprefetchedToIn c { q with sin := q.sin + ((unprefetchedKeys c p).map fun k => c.bytes k.1 k.2).sum } := by
  unfold reserve at h
  simp only at h
  cases hl : reserveLoop c ((unprefetchedKeys c p).map fun k => c.bytes k.1 k.2).sum (c.fbegin p.fid - p.tail) p with
  | inl q => rw [hl] at h; exact ⟨q, rfl, by simpa using h.symm⟩
  | inr q =>
    rw [hl] at h
    simp only at h
    split at h <;> cases h

theorem reserve_inv (c : Cfg S D) (dt : S → D) (u : Uni c dt) (stop : Nat → Nat) (p p' : P S D) (q : Nat)
    (h : Inv c dt p q (c.fbegin p.fid)) (hr : reserve c stop p = .ok p') (hf : c.fbegin p.fid ≤ c.fend p.fid)
    (hh : ¬ p'.head < c.fend p.fid) :
    Inv c dt { p' with ht := headTypes c p.fid p'.ht } q (c.fend p.fid) ∧ p'.fid = p.fid := by
  obtain ⟨q1, hl, hp⟩ := reserve_ok c stop p p' hr
  obtain ⟨g1, g2, g3⟩ := reserveLoop_inv c dt u q _ _ p q1 h hl
  generalize hneed : ((unprefetchedKeys c p).map fun k => c.bytes k.1 k.2).sum = need at *
  have hkeys := keys_sum c dt u p
  rw [hneed] at hkeys
  have ht := toIn_spec c (c.block p.fid) { q1 with sin := q1.sin + need }
  have hpd : p' = (c.block q1.fid).foldl (toInStep c) { q1 with sin := q1.sin + need } := hp
  have hfb : c.block q1.fid = c.block p.fid := by rw [g2.fid]
  rw [hfb] at hpd
  rw [← hpd] at ht
  obtain ⟨he, hst⟩ := ht
  have hhead : p'.head = q1.head := by rw [he]
  have hsin : p'.sin = q1.sin + need := by rw [he]
  have hsout : p'.sout = q1.sout := by rw [he]
  have hpre : p'.pre = q1.pre := by rw [he]
  have htail : p'.tail = q1.tail := by rw [he]
  have hht : p'.ht = q1.ht := by rw [he]
  have hfid : p'.fid = p.fid := by rw [he]; exact g2.fid
  -- states of `p` and `q1` agree on "unprefetched"
  have hun : ∀ s, (view dt q1.st s).state = .unprefetched ↔ (view dt p.st s).state = .unprefetched := by
    intro s
    obtain ⟨_, a2, a3⟩ := g2.st s
    by_cases ho : (view dt p.st s).state = .out
    · rcases a3 ho with h' | h' <;> rw [h', ho] <;> simp
    · rw [a2 ho]
  have hkey : ∀ s, (s, dt s) ∈ unprefetchedKeys c p ↔
      ((view dt q1.st s).state = .unprefetched ∧ ∃ i ∈ c.block p.fid, usesAt c s (dt s) i) := by
    intro s; rw [mem_keys, hun]; rfl
  have hvin : ∀ s, (s, dt s) ∈ unprefetchedKeys c p → view dt p'.st s = { view dt q1.st s with state := .in_ } := by
    intro s hs
    obtain ⟨h1, h2⟩ := (hkey s).mp hs
    exact (hst s (dt s)).1 h1 h2
  have hvno : ∀ s, (s, dt s) ∉ unprefetchedKeys c p → view dt p'.st s = view dt q1.st s := by
    intro s hs
    exact (hst s (dt s)).2 fun h => hs ((hkey s).mpr h)
  have hoff : Off dt p'.st := by
    intro s d hd
    have h1 := g1.off s d hd
    have := (hst s d).2 (fun hh => by rw [h1.2] at hh; simp at hh)
    rw [this]; exact h1
  obtain ⟨k1, k2, k3⟩ := headFold_spec c dt u (c.block p.fid) p'.ht (by rw [hht]; exact g1.ht)
  have hz := g1.hz
  refine ⟨⟨hoff, ?_, ?_, ?_, ?_, ?_, ?_, ?_, ?_, by change p'.tail ≤ q; rw [htail]; exact g1.tailq,
    by change q ≤ p'.head; rw [hhead]; exact g1.hq, by change p'.head ≤ _; rw [hhead]; exact g1.hl, k1,
    by change q ≤ c.fend p.fid ∧ c.fend p.fid ≤ p'.head; omega, ?_, ?_⟩, hfid⟩
  · intro s
    change (view dt p'.st s).count = (cnt c s p'.head : Int) - _
    rw [hhead, ← g1.count s]
    by_cases hs : (s, dt s) ∈ unprefetchedKeys c p
    · rw [hvin s hs]
    · rw [hvno s hs]
  · intro s
    change 0 < (view dt p'.st s).count ↔ ((view dt p'.st s).state = _ ∨ (view dt p'.st s).state = _)
    by_cases hs : (s, dt s) ∈ unprefetchedKeys c p
    · rw [hvin s hs]
      have := (g1.pos s).mpr (.inr ((hkey s).mp hs).1)
      simpa using this
    · rw [hvno s hs]; exact g1.pos s
  · intro s
    change (view dt p'.st s).state ≠ _
    by_cases hs : (s, dt s) ∈ unprefetchedKeys c p
    · rw [hvin s hs]; simp
    · rw [hvno s hs]; exact g1.noOC s
  · intro s
    change (view dt p'.st s).state = _ → ∃ j r, (view dt p'.st s).outR = _ ∧ p'.tail ≤ j ∧ _
    by_cases hs : (s, dt s) ∈ unprefetchedKeys c p
    · rw [hvin s hs]; simp
    · rw [hvno s hs, htail]; exact g1.out s
  · change p'.sin = tot c dt (view dt p'.st) _
    rw [hsin, g1.sin, hkeys]
    unfold tot
    rw [← Finset.sum_add_distrib]
    apply Finset.sum_congr rfl
    intro s _
    by_cases hs : (s, dt s) ∈ unprefetchedKeys c p
    · rw [hvin s hs, if_pos hs, ((hkey s).mp hs).1]; simp
    · rw [hvno s hs, if_neg hs, Nat.add_zero]
  · change p'.sout = tot c dt (view dt p'.st) _
    rw [hsout, g1.sout]
    unfold tot
    apply Finset.sum_congr rfl
    intro s _
    by_cases hs : (s, dt s) ∈ unprefetchedKeys c p
    · rw [hvin s hs, ((hkey s).mp hs).1]; simp
    · rw [hvno s hs]
  · change p'.pre = tot c dt (view dt p'.st) _
    rw [hpre, g1.pre]
    unfold tot
    apply Finset.sum_congr rfl
    intro s _
    by_cases hs : (s, dt s) ∈ unprefetchedKeys c p
    · rw [hvin s hs, ((hkey s).mp hs).1]; simp
    · rw [hvno s hs]
  · change p'.sin + p'.sout ≤ _
    rw [hsin, hsout]; omega
  · intro s
    change (view dt p'.st s).state = _ → _
    by_cases hs : (s, dt s) ∈ unprefetchedKeys c p
    · rw [hvin s hs]; simp
    · rw [hvno s hs]
      intro hu
      have h1 := g1.unp s hu
      have h2 := cnt_mono c s hf
      by_contra hne
      obtain ⟨i, r, i1, i2, i3, i4⟩ := cnt_exists c s (c.fbegin p.fid) (c.fend p.fid) (by omega)
      apply hs
      rw [hkey]
      refine ⟨hu, i, (mem_block c p.fid i).mpr ⟨i1, i2⟩, r, i3, i4, ?_⟩
      rw [u.recs r (List.mem_of_getElem? i3) i4.1, i4.2]
  · intro s hs
    by_cases hlt : 0 < cnt c s (c.fbegin p.fid)
    · exact k2 s (by rw [hht]; exact g1.gd s hlt)
    · obtain ⟨i, r, i1, i2, i3, i4⟩ := cnt_exists c s (c.fbegin p.fid) (c.fend p.fid) (by omega)
      refine k3 s ⟨i, (mem_block c p.fid i).mpr ⟨i1, i2⟩, r, i3, i4, ?_⟩
      rw [u.recs r (List.mem_of_getElem? i3) i4.1, i4.2]

end Verif.Lms
