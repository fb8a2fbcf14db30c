/- Splitting, merging, obtaining and returning memory keep the structural invariant. -/
import Verif.Alloc.Struct

namespace Verif.Alloc

/-- A free block's neighbours are in use. -/
theorem Struct.neighbours {s lay} (h : Struct s lay none) {c m A B} (hc : lay c = A ++ m :: B)
    (hm : (s.mem m).locked = false) :
    (∀ a, A.getLast? = some a → (s.mem a).locked = true) ∧ (∀ b, B.head? = some b → (s.mem b).locked = true) := by
  have ch := h.nofree c
  rw [hc, List.isChain_append, List.isChain_cons] at ch
  constructor
  · intro a ha
    rcases ch.2.2 a ha m rfl with (h1 | h1) | (h1 | h1)
    · exact h1
    · cases h1
    · rw [hm] at h1; cases h1
    · cases h1
  · intro b hb
    rcases ch.2.1.1 b hb with (h1 | h1) | (h1 | h1)
    · rw [hm] at h1; cases h1
    · cases h1
    · exact h1
    · cases h1

theorem assoc_mem (s : St) (l r : Option Nat) (y : Nat) (h : ∀ i, l = some i → r ≠ some i) :
    (assoc s l r).mem y = if l = some y then { s.mem y with next := r }
      else if r = some y then { s.mem y with prev := l } else s.mem y := by
  unfold assoc
  cases l with
  | none =>
    cases r with
    | none => simp
    | some r =>
      simp only [updM, reduceCtorEq, if_false, Option.some.injEq]
      by_cases hy : y = r
      · subst hy; simp
      · rw [if_neg hy, if_neg (fun hx => hy hx.symm)]
  | some l =>
    cases r with
    | none =>
      simp only [updM, reduceCtorEq, if_false, Option.some.injEq]
      by_cases hy : y = l
      · subst hy; simp
      · rw [if_neg hy, if_neg (fun hx => hy hx.symm)]
    | some r =>
      have hlr : l ≠ r := fun hx => h l rfl (by rw [hx])
      simp only [updM, Option.some.injEq]
      by_cases h1 : y = r
      · subst h1
        rw [if_pos rfl, if_neg (fun hx => hlr hx.symm), if_neg hlr, if_pos rfl]
      · rw [if_neg h1]
        by_cases h2 : y = l
        · subst h2; simp
        · rw [if_neg h2, if_neg (fun hx => h2 hx.symm), if_neg (fun hx => h1 hx.symm)]

theorem divide_mem (s : St) (m start : Nat) (hm : m ≠ s.count)
    (hh : ∀ h, (s.mem m).next = some h → h ≠ s.count ∧ h ≠ m) (y : Nat) :
    (divide s m start).mem y =
      if y = s.count then ⟨(s.mem m).dev, (s.mem m).chunk, (s.mem m).off + start, (s.mem m).bytes - start, false, false,
        (s.mem m).next, some m⟩
      else if y = m then { s.mem m with bytes := start, next := some s.count }
      else if (s.mem m).next = some y then { s.mem y with prev := some s.count } else s.mem y := by
  unfold divide
  simp only
  rw [assoc_mem _ _ _ _ (by intro i hi hx; cases hi; cases hx; exact hm rfl)]
  rw [assoc_mem _ _ _ _ (by intro i hi hx; cases hi; exact (hh _ hx).1 rfl)]
  simp only [updM, Option.some.injEq]
  by_cases h1 : y = s.count
  · subst h1
    have : ¬ m = s.count := hm
    simp [this, Ne.symm hm]
  · rw [if_neg h1]
    by_cases h2 : y = m
    · subst h2
      have : (s.mem y).next ≠ some y := fun hx => (hh y hx).2 rfl
      have h1' : ¬ s.count = y := fun hx => h1 hx.symm
      simp [h1, h1', this]
    · have h1' : ¬ s.count = y := fun hx => h1 hx.symm
      have h2' : ¬ m = y := fun hx => h2 hx.symm
      simp [h1, h1', h2, h2']

theorem divide_rest (s : St) (m start : Nat) :
    (divide s m start).count = s.count + 1 ∧ (divide s m start).chunkSize = s.chunkSize ∧
    (divide s m start).chunkDev = s.chunkDev ∧ (divide s m start).cache = s.cache ∧
    (divide s m start).chunks = s.chunks ∧ (divide s m start).returned = s.returned ∧
    (divide s m start).live = s.live ∧ (divide s m start).cnt = s.cnt ∧ (divide s m start).used = s.used ∧
    (divide s m start).known = s.known := by
  unfold divide assoc updM
  simp only
  cases (s.mem m).next <;> exact ⟨rfl, rfl, rfl, rfl, rfl, rfl, rfl, rfl, rfl, rfl⟩

/-- Elements of the list around a block. -/
theorem split_facts {A B : List Nat} {m : Nat} (nd : (A ++ m :: B).Nodup) :
    m ∉ A ∧ m ∉ B ∧ A.Nodup ∧ B.Nodup ∧ (∀ y ∈ A, y ∉ B) := by
  rw [List.nodup_append, List.nodup_cons] at nd
  exact ⟨fun hx => nd.2.2 m hx m (by simp) rfl, nd.2.1.1, nd.1, nd.2.1.2,
    fun y hy hz => nd.2.2 y hy y (by simp [hz]) rfl⟩

/-- Split the block in hand and put the rest into the pool. -/
theorem Struct.split {s lay m} (h : Struct s lay (some m)) {c A B} (hc : lay c = A ++ m :: B)
    (hB : ∀ b, B.head? = some b → (s.mem b).locked = true) {start : Nat} (h0 : 0 < start) (h1 : start < (s.mem m).bytes)
    (hl : smallAlloc < s.chunkSize c → smallAlloc < start ∧ smallAlloc < (s.mem m).bytes - start)
    {b d} (hb : b = decide ((s.mem m).bytes ≤ smallAlloc)) (hd : (s.mem m).dev = d) :
    Struct (setCache (divide s m start) b d
        (erase ((s.mem m).bytes - start, s.count) (s.cache b d) ++ [((s.mem m).bytes - start, s.count)]))
      (setLay lay c (A ++ m :: s.count :: B)) (some m) := by
  have L := h.layout c
  have nx : (s.mem m).next = B.head? := by rw [hc] at L; exact L.next_eq
  have pv : (s.mem m).prev = A.getLast? := by rw [hc] at L; exact L.prev_eq
  have lt : ∀ c' y, y ∈ lay c' → y < s.count := fun c' y hy => ((h.layout c').each y hy).lt
  have fresh : ∀ c', s.count ∉ lay c' := fun c' hx => Nat.lt_irrefl _ (lt c' _ hx)
  have nd := L.nodup
  rw [hc] at nd
  obtain ⟨mA, mB, ndA, ndB, AB⟩ := split_facts nd
  have mc : m ∈ lay c := by rw [hc]; simp
  have gm := L.each m mc
  have mlt := lt c m mc
  have hBmem : ∀ y, B.head? = some y → y ∈ B := fun y hy => List.mem_of_mem_head? hy
  have lcA : ∀ y ∈ A, y ∈ lay c := fun y hy => by rw [hc]; simp [hy]
  have lcB : ∀ y ∈ B, y ∈ lay c := fun y hy => by rw [hc]; simp [hy]
  have M := divide_mem s m start (by omega) (by
    intro y hy
    rw [nx] at hy
    have := hBmem y hy
    exact ⟨by have := lt c y (lcB y this); omega, fun hx => mB (hx ▸ this)⟩)
  obtain ⟨r1, r2, r3, r4, r5, r6, _⟩ := divide_rest s m start
  generalize hs1 : divide s m start = s1 at *
  have hs' : ∀ y, (setCache s1 b d (erase ((s.mem m).bytes - start, s.count) (s.cache b d) ++
      [((s.mem m).bytes - start, s.count)])).mem y = s1.mem y := fun _ => rfl
  have Mn : s1.mem s.count = ⟨(s.mem m).dev, (s.mem m).chunk, (s.mem m).off + start, (s.mem m).bytes - start, false, false,
      (s.mem m).next, some m⟩ := by rw [M, if_pos rfl]
  have Mm : s1.mem m = { s.mem m with bytes := start, next := some s.count } := by
    rw [M, if_neg (by omega), if_pos rfl]
  have Mo : ∀ y, y < s.count → y ≠ m → s1.mem y = if B.head? = some y then { s.mem y with prev := some s.count } else s.mem y := by
    intro y hy hym
    rw [M, if_neg (by omega), if_neg hym, nx]
  have Mlk : ∀ y, y < s.count → (s1.mem y).locked = (s.mem y).locked := by
    intro y hy
    by_cases hym : y = m
    · subst hym; rw [Mm]
    · rw [Mo y hy hym]; split <;> rfl
  have Mby : ∀ y, y < s.count → y ≠ m → (s1.mem y).bytes = (s.mem y).bytes ∧ (s1.mem y).dev = (s.mem y).dev := by
    intro y hy hym
    rw [Mo y hy hym]; split <;> exact ⟨rfl, rfl⟩
  have Mfar : ∀ c', c' ≠ c → ∀ y ∈ lay c', s1.mem y = s.mem y := by
    intro c' hcc y hy
    have hyc : y ∉ lay c := fun hx => hcc (h.unique hy hx)
    rw [Mo y (lt c' y hy) (fun hx => hyc (hx ▸ mc)), if_neg]
    intro hx; exact hyc (lcB y (hBmem y hx))
  have clsc : ∀ y ∈ lay c, decide ((s.mem y).bytes ≤ smallAlloc) = b := by
    intro y hy; rw [h.cls hy, hb, h.cls mc]
  have inl : ∀ y, InLay (setLay lay c (A ++ m :: s.count :: B)) y ↔ InLay lay y ∨ y = s.count := by
    intro y
    constructor
    · rintro ⟨c', hy⟩
      by_cases hcc : c' = c
      · subst hcc
        rw [setLay_self] at hy
        simp only [List.mem_append, List.mem_cons] at hy
        rcases hy with hy | hy | hy | hy
        · exact Or.inl ⟨c', lcA y hy⟩
        · exact Or.inl ⟨c', hy ▸ mc⟩
        · exact Or.inr hy
        · exact Or.inl ⟨c', lcB y hy⟩
      · rw [setLay_ne _ _ hcc] at hy; exact Or.inl ⟨c', hy⟩
    · rintro (⟨c', hy⟩ | hy)
      · by_cases hcc : c' = c
        · subst hcc
          refine ⟨c', ?_⟩
          rw [setLay_self]
          rw [hc] at hy
          simp only [List.mem_append, List.mem_cons] at hy ⊢
          rcases hy with hy | hy | hy
          · exact Or.inl hy
          · exact Or.inr (Or.inl hy)
          · exact Or.inr (Or.inr (Or.inr hy))
        · exact ⟨c', by rw [setLay_ne _ _ hcc]; exact hy⟩
      · exact ⟨c, by rw [setLay_self]; simp [hy]⟩
  constructor
  · intro c'
    by_cases hcc : c' = c
    · subst hcc
      rw [setLay_self]
      have L1 : Layout s1 c' (A ++ [m, s.count] ++ B) := by
        refine Layout.replace (s := s) (M := [m]) (by rw [hc] at L; simpa using L) m m m s.count rfl rfl rfl rfl (by rw [r2])
          ?_ ?_ ?_ ?_ ?_ ?_
        · intro y hy
          have hym : y ≠ m := fun hx => mA (hx ▸ hy)
          rw [Mo y (lt c' y (lcA y hy)) hym, if_neg (fun hx => AB y hy (hBmem y hx))]
          refine ⟨rfl, rfl, rfl, ?_⟩
          split
          · rename_i hl
            obtain ⟨A', rfl⟩ : ∃ A', A = A' ++ [y] := by
              obtain ⟨A', hA'⟩ := List.getLast?_eq_some_iff.1 hl
              exact ⟨A', hA'⟩
            have L2 := L
            rw [hc, List.append_assoc] at L2
            exact L2.next_eq
          · rfl
        · intro y hy
          have hym : y ≠ m := fun hx => mB (hx ▸ hy)
          rw [Mo y (lt c' y (lcB y hy)) hym]
          split
          · exact ⟨rfl, rfl, rfl, rfl⟩
          · exact ⟨rfl, rfl, rfl, rfl⟩
        · rw [List.isChain_pair]
          exact ⟨by rw [Mm], by rw [Mn], by rw [Mm, Mn]⟩
        · rw [Mm]; exact ⟨rfl, pv⟩
        · rw [Mn]
          refine ⟨?_, nx⟩
          simp only
          omega
        · intro y hy
          simp only [List.mem_append, List.mem_cons, List.not_mem_nil, or_false] at hy
          have old : y ∈ lay c' → y ≠ m → Good s1 c' y := by
            intro hyc hym
            have g := L.each y hyc
            have e := Mo y g.lt hym
            refine ⟨?_, ?_, ?_, by rw [r1]; have := g.lt; omega, ?_, ?_⟩
            · rw [e]; split <;> exact g.chunk
            · rw [e]; split <;> exact g.null
            · rw [e]; split <;> exact g.pos
            · rw [e, r3]; split <;> exact g.dev
            · rw [e, r2]; split <;> exact g.large
          rcases hy with (hy | hy | hy) | hy
          · exact old (lcA y hy) (fun hx => mA (hx ▸ hy))
          · subst hy
            refine ⟨by rw [Mm]; exact gm.chunk, by rw [Mm]; exact gm.null, by rw [Mm]; exact h0, by rw [r1]; omega,
              by rw [Mm, r3]; exact gm.dev, ?_⟩
            rw [Mm, r2]; intro hx; exact (hl hx).1
          · subst hy
            refine ⟨by rw [Mn]; exact gm.chunk, by rw [Mn], by rw [Mn]; simp only; omega, by rw [r1]; omega,
              by rw [Mn, r3]; exact gm.dev, ?_⟩
            rw [Mn, r2]; intro hx; exact (hl hx).2
          · exact old (lcB y hy) (fun hx => mB (hx ▸ hy))
      have L2 : Layout s1 c' (A ++ m :: s.count :: B) := by simpa using L1
      exact layout_setCache L2
    · rw [setLay_ne _ _ hcc]
      exact (h.layout c').congr (fun y hy => by rw [hs']; exact Mfar c' hcc y hy) (by show s1.chunkSize c' = _; rw [r2])
        (by show s1.chunkDev c' = _; rw [r3]) (by show s.count ≤ s1.count; omega)
  · intro c'
    show _ ↔ c' < s1.chunks ∧ s1.returned c' = false
    rw [r5, r6, ← h.alive c']
    by_cases hcc : c' = c
    · subst hcc; rw [setLay_self, hc]; simp
    · rw [setLay_ne _ _ hcc]
  · intro c' hc'
    show s1.returned c' = false
    rw [r6]; exact h.fate c' (by rw [← r5]; exact hc')
  · intro c'
    have bz : ∀ y, y < s.count → busy s (some m) y → busy (setCache s1 b d (erase ((s.mem m).bytes - start, s.count) (s.cache b d) ++
      [((s.mem m).bytes - start, s.count)])) (some m) y := by
      intro y hy hb
      rcases hb with hb | hb
      · left; rw [hs', Mlk y hy]; exact hb
      · exact Or.inr hb
    by_cases hcc : c' = c
    · subst hcc
      rw [setLay_self]
      have ch := h.nofree c'
      rw [hc, List.isChain_append, List.isChain_cons] at ch
      rw [List.isChain_append, List.isChain_cons, List.isChain_cons]
      refine ⟨?_, ⟨?_, ?_, ?_⟩, ?_⟩
      · refine List.IsChain.imp_of_mem_imp ?_ ch.1
        intro a a' ha ha' hh
        exact hh.imp (bz a (lt _ a (lcA a ha))) (bz a' (lt _ a' (lcA a' ha')))
      · intro y hy; exact Or.inl (Or.inr rfl)
      · intro y hy
        refine Or.inr (Or.inl ?_)
        rw [hs', Mlk y (lt _ y (lcB y (hBmem y hy)))]; exact hB y hy
      · refine List.IsChain.imp_of_mem_imp ?_ ch.2.1.2
        intro a a' ha ha' hh
        exact hh.imp (bz a (lt _ a (lcB a ha))) (bz a' (lt _ a' (lcB a' ha')))
      · intro a ha y hy
        cases hy
        exact Or.inr (Or.inr rfl)
    · rw [setLay_ne _ _ hcc]
      refine List.IsChain.imp_of_mem_imp ?_ (h.nofree c')
      intro a a' ha ha' hh
      exact hh.imp (bz a (lt _ a ha)) (bz a' (lt _ a' ha'))
  · intro b' d'
    rw [setCache_cache]
    split
    · rw [List.nodup_append]
      refine ⟨nodup_erase (h.nodup b d), by simp, ?_⟩
      intro a ha y hy
      rw [List.mem_singleton] at hy
      rw [hy]; exact (mem_erase.1 ha).2
    · rw [r4]; exact h.nodup b' d'
  · intro b' d' k
    have frk : ∀ b' d', k ∈ s.cache b' d' → k.2 ≠ s.count := by
      intro b' d' hk hx
      obtain ⟨⟨c', hc'⟩, _⟩ := (h.cache b' d' k).1 hk
      exact fresh c' (hx ▸ hc')
    have kmain : k.2 ≠ s.count → ((InLay (setLay lay c (A ++ m :: s.count :: B)) k.2 ∧ ¬ busy (setCache s1 b d
        (erase ((s.mem m).bytes - start, s.count) (s.cache b d) ++ [((s.mem m).bytes - start, s.count)])) (some m) k.2 ∧
        k.1 = (s1.mem k.2).bytes ∧ (s1.mem k.2).dev = d' ∧ b' = decide ((s1.mem k.2).bytes ≤ smallAlloc)) ↔
        k ∈ s.cache b' d') := by
      intro hk
      rw [h.cache b' d' k, inl]
      constructor
      · rintro ⟨a1 | a1, a2, a3, a4, a5⟩
        · obtain ⟨c', hc'⟩ := a1
          have hkm : k.2 ≠ m := fun hx => a2 (Or.inr (by rw [hx]))
          have kl := lt c' _ hc'
          obtain ⟨e1, e2⟩ := Mby k.2 kl hkm
          rw [e1] at a3 a5; rw [e2] at a4
          refine ⟨⟨c', hc'⟩, ?_, a3, a4, a5⟩
          rintro (hx | hx)
          · exact a2 (Or.inl (by rw [hs', Mlk _ kl]; exact hx))
          · exact a2 (Or.inr hx)
        · exact absurd a1 hk
      · rintro ⟨⟨c', hc'⟩, a2, a3, a4, a5⟩
        have hkm : k.2 ≠ m := fun hx => a2 (Or.inr (by rw [hx]))
        have kl := lt c' _ hc'
        obtain ⟨e1, e2⟩ := Mby k.2 kl hkm
        rw [e1, e2]
        refine ⟨Or.inl ⟨c', hc'⟩, ?_, a3, a4, a5⟩
        rintro (hx | hx)
        · exact a2 (Or.inl (by rw [hs', Mlk _ kl] at hx; exact hx))
        · exact a2 (Or.inr hx)
    have new : InLay (setLay lay c (A ++ m :: s.count :: B)) s.count ∧ ¬ busy (setCache s1 b d
        (erase ((s.mem m).bytes - start, s.count) (s.cache b d) ++ [((s.mem m).bytes - start, s.count)])) (some m) s.count := by
      refine ⟨(inl _).2 (Or.inr rfl), ?_⟩
      rintro (hx | hx)
      · rw [hs', Mn] at hx; cases hx
      · simp only [Option.some.injEq] at hx; omega
    have cn : decide ((s.mem m).bytes - start ≤ smallAlloc) = b := by
      rw [hb, decide_eq_decide, ]
      constructor
      · intro hx
        by_contra hy
        have e := L.end_le mc
        have := hl (by omega)
        omega
      · intro hx; omega
    rw [setCache_cache, hs']
    by_cases hk : k.2 = s.count
    · split
      · rename_i hbd
        rw [List.mem_append, mem_erase, List.mem_singleton]
        constructor
        · rintro (hx | hx)
          · exact absurd hk (frk _ _ hx.1)
          · rw [hx]
            refine ⟨new.1, new.2, ?_, ?_, ?_⟩
            · rw [Mn]
            · rw [Mn, hbd.2]; exact hd
            · rw [Mn, hbd.1]; exact cn.symm
        · rintro ⟨_, _, a3, _⟩
          refine Or.inr (Prod.ext ?_ hk)
          rw [a3, hk, Mn]
      · rename_i hbd
        constructor
        · intro hx
          rw [r4] at hx
          exact absurd hk (frk _ _ hx)
        · rintro ⟨_, _, _, a4, a5⟩
          refine absurd ?_ hbd
          rw [hk, Mn] at a4 a5
          exact ⟨by rw [a5]; exact cn, by rw [← a4]; exact hd⟩
    · rw [kmain hk]
      split
      · rename_i hbd
        rw [List.mem_append, mem_erase, List.mem_singleton, hbd.1, hbd.2]
        constructor
        · rintro (hx | hx)
          · exact hx.1
          · rw [hx] at hk; exact absurd rfl hk
        · intro hx
          exact Or.inl ⟨hx, fun hy => hk (by rw [hy])⟩
      · rw [r4]
  · intro y hy
    cases hy
    refine ⟨(inl m).2 (Or.inl ⟨c, mc⟩), ?_⟩
    rw [hs', Mlk m mlt]; exact (h.hand m rfl).2

end Verif.Alloc
