/- Merging free neighbours. -/
import Verif.Alloc.Ops

namespace Verif.Alloc

/-- Everything but the Memory objects. -/
def SameRest (s s' : St) : Prop :=
  s'.count = s.count ∧ s'.chunkSize = s.chunkSize ∧ s'.chunkDev = s.chunkDev ∧ s'.cache = s.cache ∧
    s'.chunks = s.chunks ∧ s'.returned = s.returned ∧ s'.live = s.live ∧ s'.cnt = s.cnt ∧ s'.used = s.used ∧
    s'.known = s.known

theorem SameRest.refl (s : St) : SameRest s s := ⟨rfl, rfl, rfl, rfl, rfl, rfl, rfl, rfl, rfl, rfl⟩

theorem SameRest.trans {s s' s'' : St} (h : SameRest s s') (h' : SameRest s' s'') : SameRest s s'' := by
  obtain ⟨a1, a2, a3, a4, a5, a6, a7, a8, a9, a10⟩ := h
  obtain ⟨b1, b2, b3, b4, b5, b6, b7, b8, b9, b10⟩ := h'
  exact ⟨b1.trans a1, b2.trans a2, b3.trans a3, b4.trans a4, b5.trans a5, b6.trans a6, b7.trans a7, b8.trans a8,
    b9.trans a9, b10.trans a10⟩

theorem updM_rest (s : St) (m : Nat) (f : Mem → Mem) : SameRest s (updM s m f) :=
  ⟨rfl, rfl, rfl, rfl, rfl, rfl, rfl, rfl, rfl, rfl⟩

theorem assoc_rest (s : St) (l r : Option Nat) : SameRest s (assoc s l r) := by
  unfold assoc
  cases l <;> cases r <;> exact ⟨rfl, rfl, rfl, rfl, rfl, rfl, rfl, rfl, rfl, rfl⟩

theorem tryMerge_rest (s : St) (m : Nat) (o : Option Nat) : SameRest s (tryMerge s m o) := by
  unfold tryMerge
  cases o with
  | none => exact SameRest.refl s
  | some f =>
    simp only
    split
    · exact SameRest.refl s
    · refine SameRest.trans ?_ ((updM_rest _ _ _).trans (updM_rest _ _ _))
      split
      · exact assoc_rest _ _ _
      · split
        · exact (updM_rest _ _ _).trans (assoc_rest _ _ _)
        · exact SameRest.refl s

theorem tryMerge_next_mem (s : St) (m f : Nat) (hl : (s.mem f).locked = false) (hn : (s.mem m).next = some f)
    (hfm : f ≠ m) (hh : ∀ h, (s.mem f).next = some h → h ≠ m ∧ h ≠ f) (y : Nat) :
    (tryMerge s m (some f)).mem y =
      if y = m then { s.mem m with next := (s.mem f).next, bytes := (s.mem m).bytes + (s.mem f).bytes }
      else if y = f then { s.mem f with null := true }
      else if (s.mem f).next = some y then { s.mem y with prev := some m } else s.mem y := by
  unfold tryMerge
  simp only [hl, Bool.false_eq_true, if_false, hn, if_true, updM]
  rw [assoc_mem _ _ _ _ (by intro i hi hx; cases hi; exact (hh _ hx).1 rfl)]
  simp only [Option.some.injEq]
  by_cases h1 : y = m
  · subst h1
    simp [Ne.symm hfm]
  · have h1' : ¬ m = y := fun h => h1 h.symm
    by_cases h2 : y = f
    · subst h2
      have : ¬ (s.mem y).next = some y := fun hx => (hh _ hx).2 rfl
      simp [h1, h1', this, hl]
    · simp [h1, h1', h2]

theorem tryMerge_prev_mem (s : St) (m f : Nat) (hl : (s.mem f).locked = false) (hn : (s.mem m).next ≠ some f)
    (hp : (s.mem m).prev = some f) (hfm : f ≠ m) (hh : ∀ h, (s.mem f).prev = some h → h ≠ m ∧ h ≠ f) (y : Nat) :
    (tryMerge s m (some f)).mem y =
      if y = m then { s.mem m with off := (s.mem f).off, chunk := (s.mem f).chunk, prev := (s.mem f).prev,
                                   bytes := (s.mem m).bytes + (s.mem f).bytes }
      else if y = f then { s.mem f with null := true }
      else if (s.mem f).prev = some y then { s.mem y with next := some m } else s.mem y := by
  unfold tryMerge
  simp only [hl, Bool.false_eq_true, if_false, hn, hp, if_true, updM]
  rw [assoc_mem _ _ _ _ (by intro i hi hx; cases hx; exact (hh _ hi).1 rfl)]
  simp only [Option.some.injEq]
  by_cases h1 : y = m
  · subst h1
    have : ¬ (s.mem f).prev = some y := fun hx => (hh _ hx).1 rfl
    simp [Ne.symm hfm, this]
  · have h1' : ¬ m = y := fun h => h1 h.symm
    by_cases h2 : y = f
    · subst h2
      have : ¬ (s.mem y).prev = some y := fun hx => (hh _ hx).2 rfl
      simp [h1, h1', this, hl]
    · simp [h1, h1', h2]

/-- Forget block `f`, merged into the block in hand. -/
theorem Struct.forget {s lay m} (h : Struct s lay (some m)) {c f A B} {s1 : St}
    (mc : m ∈ lay c) (hfm : f ≠ m) (hl : (s.mem f).locked = false)
    (hel : ∀ y, y ∈ lay c ↔ y ∈ A ++ m :: B ∨ y = f) (hfn : f ∉ A ++ m :: B)
    (hA : A.IsChain (fun a b => busy s (some m) a ∨ busy s (some m) b))
    (hB : B.IsChain (fun a b => busy s (some m) a ∨ busy s (some m) b))
    (L1 : Layout s1 c (A ++ m :: B))
    (Mo : ∀ y, y ≠ m → y ≠ f → (s1.mem y).locked = (s.mem y).locked ∧ (s1.mem y).bytes = (s.mem y).bytes ∧
      (s1.mem y).dev = (s.mem y).dev)
    (Mm : (s1.mem m).locked = false)
    (Mfar : ∀ y, y ∉ lay c → s1.mem y = s.mem y)
    (r1 : s1.count = s.count) (r2 : s1.chunkSize = s.chunkSize) (r3 : s1.chunkDev = s.chunkDev) (r4 : s1.cache = s.cache)
    (r5 : s1.chunks = s.chunks) (r6 : s1.returned = s.returned)
    {b d} (hb : b = decide ((s.mem m).bytes ≤ smallAlloc)) (hd : (s.mem m).dev = d) :
    Struct (setCache s1 b d (erase ((s.mem f).bytes, f) (s.cache b d))) (setLay lay c (A ++ m :: B)) (some m) := by
  have fc : f ∈ lay c := (hel f).2 (Or.inr rfl)
  have mem' : ∀ y, (setCache s1 b d (erase ((s.mem f).bytes, f) (s.cache b d))).mem y = s1.mem y := fun _ => rfl
  have bz : ∀ y, y ≠ f → (busy (setCache s1 b d (erase ((s.mem f).bytes, f) (s.cache b d))) (some m) y ↔ busy s (some m) y) := by
    intro y hy
    unfold busy
    rw [mem']
    by_cases hym : y = m
    · subst hym; simp
    · rw [(Mo y hym hy).1]
  have inl : ∀ y, InLay (setLay lay c (A ++ m :: B)) y ↔ InLay lay y ∧ y ≠ f := by
    intro y
    constructor
    · rintro ⟨c', hy⟩
      by_cases hcc : c' = c
      · subst hcc
        rw [setLay_self] at hy
        exact ⟨⟨c', (hel y).2 (Or.inl hy)⟩, fun hx => hfn (hx ▸ hy)⟩
      · rw [setLay_ne _ _ hcc] at hy
        exact ⟨⟨c', hy⟩, fun hx => hcc (h.unique (hx ▸ hy) fc)⟩
    · rintro ⟨⟨c', hy⟩, hf⟩
      by_cases hcc : c' = c
      · subst hcc
        refine ⟨c', ?_⟩
        rw [setLay_self]
        rcases (hel y).1 hy with hy | hy
        · exact hy
        · exact absurd hy hf
      · exact ⟨c', by rw [setLay_ne _ _ hcc]; exact hy⟩
  constructor
  · intro c'
    by_cases hcc : c' = c
    · subst hcc; rw [setLay_self]; exact layout_setCache L1
    · rw [setLay_ne _ _ hcc]
      exact (h.layout c').congr (fun y hy => Mfar y (fun hx => hcc (h.unique hy hx))) (by show s1.chunkSize c' = _; rw [r2])
        (by show s1.chunkDev c' = _; rw [r3]) (by show s.count ≤ s1.count; omega)
  · intro c'
    show _ ↔ c' < s1.chunks ∧ s1.returned c' = false
    rw [r5, r6, ← h.alive c']
    by_cases hcc : c' = c
    · subst hcc
      rw [setLay_self]
      constructor
      · intro _ hx; rw [hx] at mc; cases mc
      · intro _ hx; simp at hx
    · rw [setLay_ne _ _ hcc]
  · intro c' hc'
    show s1.returned c' = false
    rw [r6]; exact h.fate c' (by rw [← r5]; exact hc')
  · intro c'
    by_cases hcc : c' = c
    · subst hcc
      rw [setLay_self, List.isChain_append, List.isChain_cons]
      refine ⟨?_, ⟨?_, ?_⟩, ?_⟩
      · refine List.IsChain.imp_of_mem_imp ?_ hA
        intro a a' ha ha' hh
        rw [bz a (fun hx => hfn (hx ▸ by simp [ha])), bz a' (fun hx => hfn (hx ▸ by simp [ha']))]; exact hh
      · intro y hy; exact Or.inl (Or.inr rfl)
      · refine List.IsChain.imp_of_mem_imp ?_ hB
        intro a a' ha ha' hh
        rw [bz a (fun hx => hfn (hx ▸ by simp [ha])), bz a' (fun hx => hfn (hx ▸ by simp [ha']))]; exact hh
      · intro a ha y hy; cases hy; exact Or.inr (Or.inr rfl)
    · rw [setLay_ne _ _ hcc]
      have nf : ∀ y ∈ lay c', y ≠ f := fun y hy hx => hcc (h.unique (hx ▸ hy) fc)
      refine List.IsChain.imp_of_mem_imp ?_ (h.nofree c')
      intro a a' ha ha' hh
      rw [bz a (nf a ha), bz a' (nf a' ha')]; exact hh
  · intro b' d'
    rw [setCache_cache]
    split
    · exact nodup_erase (h.nodup b d)
    · rw [r4]; exact h.nodup b' d'
  · intro b' d' k
    rw [setCache_cache, inl, mem']
    have main : k.2 ≠ f → (k ∈ s.cache b' d' ↔ (InLay lay k.2 ∧ k.2 ≠ f) ∧
        ¬ busy (setCache s1 b d (erase ((s.mem f).bytes, f) (s.cache b d))) (some m) k.2 ∧ k.1 = (s1.mem k.2).bytes ∧
        (s1.mem k.2).dev = d' ∧ b' = decide ((s1.mem k.2).bytes ≤ smallAlloc)) := by
      intro hk
      rw [h.cache b' d' k, bz _ hk]
      by_cases hkm : k.2 = m
      · constructor
        · intro hx; exact absurd (Or.inr (by rw [hkm])) hx.2.1
        · intro hx; exact absurd (Or.inr (by rw [hkm])) hx.2.1
      · obtain ⟨_, e2, e3⟩ := Mo k.2 hkm hk
        rw [e2, e3]
        constructor
        · rintro ⟨a1, a2⟩; exact ⟨⟨a1, hk⟩, a2⟩
        · rintro ⟨⟨a1, _⟩, a2⟩; exact ⟨a1, a2⟩
    by_cases hk : k.2 = f
    · constructor
      · intro hx
        exfalso
        have hin : k ∈ s.cache b' d' := by
          split at hx
          · rename_i hbd; rw [hbd.1, hbd.2]; exact (mem_erase.1 hx).1
          · rw [r4] at hx; exact hx
        have hc := (h.cache b' d' k).1 hin
        rw [hk] at hc
        have b1 : b' = b := by rw [hc.2.2.2.2, h.cls fc, hb, h.cls mc]
        have d1 : d' = d := by
          rw [← hc.2.2.2.1, ((h.layout c).each f fc).dev, ← hd, ((h.layout c).each m mc).dev]
        rw [if_pos ⟨b1, d1⟩] at hx
        exact (mem_erase.1 hx).2 (Prod.ext hc.2.2.1 hk)
      · rintro ⟨⟨_, hx⟩, _⟩; exact absurd hk hx
    · rw [← main hk]
      split
      · rename_i hbd
        rw [mem_erase, hbd.1, hbd.2]
        constructor
        · intro hx; exact hx.1
        · intro hx; exact ⟨hx, fun hy => hk (by rw [hy])⟩
      · rw [r4]
  · intro y hy
    cases hy
    exact ⟨(inl m).2 ⟨⟨c, mc⟩, Ne.symm hfm⟩, by rw [mem']; exact Mm⟩

/-- Merge with the free next block. -/
theorem Struct.mergeNext {s lay m} (h : Struct s lay (some m)) {c f A B} (hc : lay c = A ++ m :: f :: B)
    (hl : (s.mem f).locked = false)
    {b d} (hb : b = decide ((s.mem m).bytes ≤ smallAlloc)) (hd : (s.mem m).dev = d) :
    Struct (setCache (tryMerge s m (some f)) b d (erase ((s.mem f).bytes, f) (s.cache b d)))
        (setLay lay c (A ++ m :: B)) (some m) ∧
      (tryMerge s m (some f)).mem m =
        { s.mem m with next := (s.mem f).next, bytes := (s.mem m).bytes + (s.mem f).bytes } ∧
      (tryMerge s m (some f)).mem f = { s.mem f with null := true } ∧
      ∀ y, (tryMerge s m (some f)).mem y = s.mem y ∨
        (∃ p, (tryMerge s m (some f)).mem y = { s.mem y with prev := p }) ∨ y = m ∨ y = f := by
  have L := h.layout c
  rw [hc] at L
  have nd := L.nodup
  obtain ⟨mA, mfB, ndA, ndfB, AfB⟩ := split_facts nd
  have fB : f ∉ B := (List.nodup_cons.1 ndfB).1
  have mB : m ∉ B := fun hx => mfB (by simp [hx])
  have hfm : f ≠ m := fun hx => mfB (by simp [hx])
  have fA : f ∉ A := fun hx => AfB f hx (by simp)
  have AB : ∀ y ∈ A, y ∉ B := fun y hy hx => AfB y hy (by simp [hx])
  have nm : (s.mem m).next = some f := L.next_eq
  have nf : (s.mem f).next = B.head? := by
    have : Layout s c ((A ++ [m]) ++ f :: B) := by simpa using L
    exact this.next_eq
  have pm : (s.mem m).prev = A.getLast? := L.prev_eq
  have hBmem : ∀ y, B.head? = some y → y ∈ B := fun y hy => List.mem_of_mem_head? hy
  have M := tryMerge_next_mem s m f hl nm hfm (by
    intro y hy
    rw [nf] at hy
    have := hBmem y hy
    exact ⟨fun hx => mB (hx ▸ this), fun hx => fB (hx ▸ this)⟩)
  obtain ⟨r1, r2, r3, r4, r5, r6, _⟩ := tryMerge_rest s m (some f)
  generalize tryMerge s m (some f) = s1 at *
  have Mm : s1.mem m = { s.mem m with next := (s.mem f).next, bytes := (s.mem m).bytes + (s.mem f).bytes } := by
    rw [M, if_pos rfl]
  have Mf : s1.mem f = { s.mem f with null := true } := by rw [M, if_neg hfm, if_pos rfl]
  have Mo : ∀ y, y ≠ m → y ≠ f → s1.mem y = if B.head? = some y then { s.mem y with prev := some m } else s.mem y := by
    intro y h1 h2; rw [M, if_neg h1, if_neg h2, nf]
  refine ⟨?_, Mm, Mf, ?_⟩
  · have mc : m ∈ lay c := by rw [hc]; simp
    have fc : f ∈ lay c := by rw [hc]; simp
    have ch := h.nofree c
    rw [hc, List.isChain_append, List.isChain_cons, List.isChain_cons] at ch
    refine h.forget mc hfm hl ?_ ?_ ch.1 ch.2.1.2.2 ?_ ?_ ?_ ?_ r1 r2 r3 r4 r5 r6 hb hd
    · intro y
      rw [hc]
      simp only [List.mem_append, List.mem_cons]
      constructor
      · rintro (h1 | h1 | h1 | h1)
        · exact Or.inl (Or.inl h1)
        · exact Or.inl (Or.inr (Or.inl h1))
        · exact Or.inr h1
        · exact Or.inl (Or.inr (Or.inr h1))
      · rintro ((h1 | h1 | h1) | h1)
        · exact Or.inl h1
        · exact Or.inr (Or.inl h1)
        · exact Or.inr (Or.inr (Or.inr h1))
        · exact Or.inr (Or.inr (Or.inl h1))
    · simp only [List.mem_append, List.mem_cons, not_or]
      exact ⟨fA, hfm, fB⟩
    · have L1 : Layout s1 c (A ++ [m] ++ B) := by
        have L0 : Layout s c (A ++ [m, f] ++ B) := by simpa using L
        have off : (s.mem f).off = (s.mem m).off + (s.mem m).bytes := by
          have := L.adj
          rw [List.isChain_append, List.isChain_cons] at this
          exact (this.2.1.1 f rfl).2.2
        refine L0.replace m f m m rfl rfl rfl rfl (by rw [r2]) ?_ ?_ ?_ ?_ ?_ ?_
        · intro y hy
          rw [Mo y (fun hx => mA (hx ▸ hy)) (fun hx => fA (hx ▸ hy)), if_neg (fun hx => AB y hy (hBmem y hx))]
          refine ⟨rfl, rfl, rfl, ?_⟩
          split
          · rename_i hla
            obtain ⟨A', rfl⟩ : ∃ A', A = A' ++ [y] := List.getLast?_eq_some_iff.1 hla
            have L2 := L
            rw [List.append_assoc] at L2
            exact L2.next_eq
          · rfl
        · intro y hy
          rw [Mo y (fun hx => mB (hx ▸ hy)) (fun hx => fB (hx ▸ hy))]
          split <;> exact ⟨rfl, rfl, rfl, rfl⟩
        · exact List.isChain_singleton m
        · rw [Mm]; exact ⟨rfl, pm⟩
        · rw [Mm]
          refine ⟨?_, nf⟩
          simp only
          omega
        · intro y hy
          simp only [List.mem_append, List.mem_cons, List.not_mem_nil, or_false] at hy
          have old : y ∈ A ++ m :: f :: B → y ≠ m → y ≠ f → Good s1 c y := by
            intro hyc h1 h2
            have g := L.each y hyc
            have e := Mo y h1 h2
            refine ⟨?_, ?_, ?_, by rw [r1]; exact g.lt, ?_, ?_⟩
            · rw [e]; split <;> exact g.chunk
            · rw [e]; split <;> exact g.null
            · rw [e]; split <;> exact g.pos
            · rw [e, r3]; split <;> exact g.dev
            · rw [e, r2]; split <;> exact g.large
          rcases hy with (hy | hy) | hy
          · exact old (by simp [hy]) (fun hx => mA (hx ▸ hy)) (fun hx => fA (hx ▸ hy))
          · subst hy
            have g := L.each y (by simp)
            refine ⟨by rw [Mm]; exact g.chunk, by rw [Mm]; exact g.null, by rw [Mm]; have := g.pos; simp only; omega,
              by rw [r1]; exact g.lt, by rw [Mm, r3]; exact g.dev, ?_⟩
            rw [Mm, r2]; intro hx; have := g.large hx; simp only; omega
          · exact old (by simp [hy]) (fun hx => mB (hx ▸ hy)) (fun hx => fB (hx ▸ hy))
      simpa using L1
    · intro y h1 h2
      rw [Mo y h1 h2]; split <;> exact ⟨rfl, rfl, rfl⟩
    · rw [Mm]; exact (h.hand m rfl).2
    · intro y hy
      rw [Mo y (fun hx => hy (hx ▸ mc)) (fun hx => hy (hx ▸ fc)), if_neg]
      intro hx
      exact hy (by rw [hc]; simp [hBmem y hx])
  · intro y
    by_cases h1 : y = m
    · exact Or.inr (Or.inr (Or.inl h1))
    · by_cases h2 : y = f
      · exact Or.inr (Or.inr (Or.inr h2))
      · rw [Mo y h1 h2]
        split
        · exact Or.inr (Or.inl ⟨_, rfl⟩)
        · exact Or.inl rfl

/-- Merge with the free previous block. -/
theorem Struct.mergePrev {s lay m} (h : Struct s lay (some m)) {c f A B} (hc : lay c = A ++ f :: m :: B)
    (hl : (s.mem f).locked = false)
    {b d} (hb : b = decide ((s.mem m).bytes ≤ smallAlloc)) (hd : (s.mem m).dev = d) :
    Struct (setCache (tryMerge s m (some f)) b d (erase ((s.mem f).bytes, f) (s.cache b d)))
        (setLay lay c (A ++ m :: B)) (some m) ∧
      (tryMerge s m (some f)).mem m =
        { s.mem m with off := (s.mem f).off, chunk := (s.mem f).chunk, prev := (s.mem f).prev,
                       bytes := (s.mem m).bytes + (s.mem f).bytes } ∧
      (tryMerge s m (some f)).mem f = { s.mem f with null := true } ∧
      ∀ y, (tryMerge s m (some f)).mem y = s.mem y ∨
        (∃ p, (tryMerge s m (some f)).mem y = { s.mem y with next := p }) ∨ y = m ∨ y = f := by
  have L := h.layout c
  rw [hc] at L
  have nd := L.nodup
  obtain ⟨fA, fmB, ndA, ndmB, AmB⟩ := split_facts nd
  have mB : m ∉ B := (List.nodup_cons.1 ndmB).1
  have fB : f ∉ B := fun hx => fmB (by simp [hx])
  have hfm : f ≠ m := fun hx => fmB (by simp [hx])
  have mA : m ∉ A := fun hx => AmB m hx (by simp)
  have AB : ∀ y ∈ A, y ∉ B := fun y hy hx => AmB y hy (by simp [hx])
  have L' : Layout s c ((A ++ [f]) ++ m :: B) := by simpa using L
  have pm : (s.mem m).prev = some f := by rw [L'.prev_eq]; simp
  have nm : (s.mem m).next = B.head? := L'.next_eq
  have pf : (s.mem f).prev = A.getLast? := L.prev_eq
  have hAmem : ∀ y, A.getLast? = some y → y ∈ A := fun y hy => List.mem_of_getLast? hy
  have hBmem : ∀ y, B.head? = some y → y ∈ B := fun y hy => List.mem_of_mem_head? hy
  have M := tryMerge_prev_mem s m f hl (by rw [nm]; intro hx; exact fB (hBmem f hx)) pm hfm (by
    intro y hy
    rw [pf] at hy
    have := hAmem y hy
    exact ⟨fun hx => mA (hx ▸ this), fun hx => fA (hx ▸ this)⟩)
  obtain ⟨r1, r2, r3, r4, r5, r6, _⟩ := tryMerge_rest s m (some f)
  generalize tryMerge s m (some f) = s1 at *
  have Mm : s1.mem m = { s.mem m with off := (s.mem f).off, chunk := (s.mem f).chunk, prev := (s.mem f).prev,
                                      bytes := (s.mem m).bytes + (s.mem f).bytes } := by
    rw [M, if_pos rfl]
  have Mf : s1.mem f = { s.mem f with null := true } := by rw [M, if_neg hfm, if_pos rfl]
  have Mo : ∀ y, y ≠ m → y ≠ f → s1.mem y = if A.getLast? = some y then { s.mem y with next := some m } else s.mem y := by
    intro y h1 h2; rw [M, if_neg h1, if_neg h2, pf]
  refine ⟨?_, Mm, Mf, ?_⟩
  · have mc : m ∈ lay c := by rw [hc]; simp
    have fc : f ∈ lay c := by rw [hc]; simp
    have ch := h.nofree c
    rw [hc, List.isChain_append, List.isChain_cons, List.isChain_cons] at ch
    refine h.forget mc hfm hl ?_ ?_ ch.1 ch.2.1.2.2 ?_ ?_ ?_ ?_ r1 r2 r3 r4 r5 r6 hb hd
    · intro y
      rw [hc]
      simp only [List.mem_append, List.mem_cons]
      constructor
      · rintro (h1 | h1 | h1 | h1)
        · exact Or.inl (Or.inl h1)
        · exact Or.inr h1
        · exact Or.inl (Or.inr (Or.inl h1))
        · exact Or.inl (Or.inr (Or.inr h1))
      · rintro ((h1 | h1 | h1) | h1)
        · exact Or.inl h1
        · exact Or.inr (Or.inr (Or.inl h1))
        · exact Or.inr (Or.inr (Or.inr h1))
        · exact Or.inr (Or.inl h1)
    · simp only [List.mem_append, List.mem_cons, not_or]
      exact ⟨fA, hfm, fB⟩
    · have L1 : Layout s1 c (A ++ [m] ++ B) := by
        have L0 : Layout s c (A ++ [f, m] ++ B) := by simpa using L
        have off : (s.mem m).off = (s.mem f).off + (s.mem f).bytes := by
          have := L.adj
          rw [List.isChain_append, List.isChain_cons] at this
          exact (this.2.1.1 m rfl).2.2
        refine L0.replace f m m m rfl rfl rfl rfl (by rw [r2]) ?_ ?_ ?_ ?_ ?_ ?_
        · intro y hy
          rw [Mo y (fun hx => mA (hx ▸ hy)) (fun hx => fA (hx ▸ hy))]
          split <;> exact ⟨rfl, rfl, rfl, rfl⟩
        · intro y hy
          rw [Mo y (fun hx => mB (hx ▸ hy)) (fun hx => fB (hx ▸ hy)), if_neg (fun hx => AB y (hAmem y hx) hy)]
          refine ⟨rfl, rfl, rfl, ?_⟩
          split
          · rename_i hla
            obtain ⟨B', rfl⟩ : ∃ B', B = y :: B' := by
              cases B with
              | nil => cases hla
              | cons z B' => simp at hla; subst hla; exact ⟨B', rfl⟩
            have L2 : Layout s c ((A ++ [f, m]) ++ y :: B') := by simpa using L
            rw [L2.prev_eq]; simp
          · rfl
        · exact List.isChain_singleton m
        · rw [Mm]; exact ⟨rfl, pf⟩
        · rw [Mm]
          refine ⟨?_, nm⟩
          simp only
          omega
        · intro y hy
          simp only [List.mem_append, List.mem_cons, List.not_mem_nil, or_false] at hy
          have old : y ∈ A ++ f :: m :: B → y ≠ m → y ≠ f → Good s1 c y := by
            intro hyc h1 h2
            have g := L.each y hyc
            have e := Mo y h1 h2
            refine ⟨?_, ?_, ?_, by rw [r1]; exact g.lt, ?_, ?_⟩
            · rw [e]; split <;> exact g.chunk
            · rw [e]; split <;> exact g.null
            · rw [e]; split <;> exact g.pos
            · rw [e, r3]; split <;> exact g.dev
            · rw [e, r2]; split <;> exact g.large
          rcases hy with (hy | hy) | hy
          · exact old (by simp [hy]) (fun hx => mA (hx ▸ hy)) (fun hx => fA (hx ▸ hy))
          · subst hy
            have g := L.each y (by simp)
            have gf := L.each f (by simp)
            refine ⟨by rw [Mm]; exact gf.chunk, by rw [Mm]; exact g.null, by rw [Mm]; have := g.pos; simp only; omega,
              by rw [r1]; exact g.lt, by rw [Mm, r3]; exact g.dev, ?_⟩
            rw [Mm, r2]; intro hx; have := g.large hx; simp only; omega
          · exact old (by simp [hy]) (fun hx => mB (hx ▸ hy)) (fun hx => fB (hx ▸ hy))
      simpa using L1
    · intro y h1 h2
      rw [Mo y h1 h2]; split <;> exact ⟨rfl, rfl, rfl⟩
    · rw [Mm]; exact (h.hand m rfl).2
    · intro y hy
      rw [Mo y (fun hx => hy (hx ▸ mc)) (fun hx => hy (hx ▸ fc)), if_neg]
      intro hx
      exact hy (by rw [hc]; simp [hAmem y hx])
  · intro y
    by_cases h1 : y = m
    · exact Or.inr (Or.inr (Or.inl h1))
    · by_cases h2 : y = f
      · exact Or.inr (Or.inr (Or.inr h2))
      · rw [Mo y h1 h2]
        split
        · exact Or.inr (Or.inl ⟨_, rfl⟩)
        · exact Or.inl rfl

/-- New memory from the device. -/
theorem Struct.fresh {s lay} (h : Struct s lay none) (bytes d : Nat) (hb : 0 < bytes) (known : List Nat) (used : Nat → Int) :
    Struct { s with
      mem := fun j => if j = s.count then ⟨d, s.chunks, 0, bytes, false, false, none, none⟩ else s.mem j
      count := s.count + 1
      chunks := s.chunks + 1
      chunkSize := fun c => if c = s.chunks then bytes else s.chunkSize c
      chunkDev := fun c => if c = s.chunks then d else s.chunkDev c
      used := used
      known := known } (setLay lay s.chunks [s.count]) (some s.count) := by
  have lt : ∀ c' y, y ∈ lay c' → y < s.count := fun c' y hy => ((h.layout c').each y hy).lt
  have gone : lay s.chunks = [] := by
    by_contra hx
    exact absurd ((h.alive s.chunks).1 hx).1 (Nat.lt_irrefl _)
  have ne : ∀ c' y, y ∈ lay c' → y ≠ s.count := fun c' y hy => by have := lt c' y hy; omega
  have cne : ∀ c' y, y ∈ lay c' → c' ≠ s.chunks := fun c' y hy hx => by rw [hx, gone] at hy; cases hy
  generalize hs' : (St.mk _ _ _ _ _ _ _ _ _ _ _) = s'
  have Mn : s'.mem s.count = ⟨d, s.chunks, 0, bytes, false, false, none, none⟩ := by rw [← hs']; simp
  have Mo : ∀ y, y ≠ s.count → s'.mem y = s.mem y := by intro y hy; rw [← hs']; simp [hy]
  have r1 : s'.count = s.count + 1 := by rw [← hs']
  have r2 : ∀ c, s'.chunkSize c = if c = s.chunks then bytes else s.chunkSize c := by intro c; rw [← hs']
  have r3 : ∀ c, s'.chunkDev c = if c = s.chunks then d else s.chunkDev c := by intro c; rw [← hs']
  have r4 : s'.cache = s.cache := by rw [← hs']
  have r5 : s'.chunks = s.chunks + 1 := by rw [← hs']
  have r6 : s'.returned = s.returned := by rw [← hs']
  clear hs'
  have inl : ∀ y, InLay (setLay lay s.chunks [s.count]) y ↔ InLay lay y ∨ y = s.count := by
    intro y
    constructor
    · rintro ⟨c, hy⟩
      by_cases hcc : c = s.chunks
      · subst hcc; rw [setLay_self] at hy; exact Or.inr (by simpa using hy)
      · rw [setLay_ne _ _ hcc] at hy; exact Or.inl ⟨c, hy⟩
    · rintro (⟨c, hy⟩ | hy)
      · exact ⟨c, by rw [setLay_ne _ _ (cne c y hy)]; exact hy⟩
      · exact ⟨s.chunks, by rw [setLay_self]; simp [hy]⟩
  have bz : ∀ y, y ≠ s.count → (busy s' (some s.count) y ↔ busy s none y) := by
    intro y hy
    unfold busy
    rw [Mo y hy]
    have : ¬ s.count = y := fun hx => hy hx.symm
    simp [this]
  constructor
  · intro c
    by_cases hcc : c = s.chunks
    · subst hcc
      rw [setLay_self]
      refine ⟨List.isChain_singleton _, ?_, ?_, ?_⟩
      · intro a ha; simp at ha; subst ha; rw [Mn]; exact ⟨rfl, rfl⟩
      · intro a ha; simp at ha; subst ha; rw [Mn, r2, if_pos rfl]; exact ⟨rfl, Nat.zero_add _⟩
      · intro a ha
        simp at ha; subst ha
        exact ⟨by rw [Mn], by rw [Mn], by rw [Mn]; exact hb, by rw [r1]; omega, by rw [Mn, r3, if_pos rfl],
          by rw [Mn, r2, if_pos rfl]; exact id⟩
    · rw [setLay_ne _ _ hcc]
      exact (h.layout c).congr (fun y hy => Mo y (ne c y hy)) (by rw [r2, if_neg hcc]) (by rw [r3, if_neg hcc]) (by omega)
  · intro c
    rw [r5, r6]
    by_cases hcc : c = s.chunks
    · subst hcc
      rw [setLay_self, h.fate _ (Nat.le_refl _)]; simp
    · rw [setLay_ne _ _ hcc, h.alive c]
      constructor
      · rintro ⟨h1, h2⟩; exact ⟨by omega, h2⟩
      · rintro ⟨h1, h2⟩; exact ⟨by omega, h2⟩
  · intro c hc; rw [r6]; exact h.fate c (by omega)
  · intro c
    by_cases hcc : c = s.chunks
    · subst hcc; rw [setLay_self]; exact List.isChain_singleton _
    · rw [setLay_ne _ _ hcc]
      refine List.IsChain.imp_of_mem_imp ?_ (h.nofree c)
      intro a a' ha ha' hh
      rw [bz a (ne c a ha), bz a' (ne c a' ha')]; exact hh
  · rw [r4]; exact h.nodup
  · intro b' d' k
    rw [r4, inl]
    by_cases hk : k.2 = s.count
    · constructor
      · intro hx
        obtain ⟨⟨c, hc⟩, _⟩ := (h.cache b' d' k).1 hx
        exact absurd hk (ne c _ hc)
      · rintro ⟨_, hx, _⟩; exact absurd (Or.inr (by rw [hk])) hx
    · rw [bz _ hk, Mo _ hk, h.cache b' d' k]
      constructor
      · rintro ⟨a1, a2⟩; exact ⟨Or.inl a1, a2⟩
      · rintro ⟨a1 | a1, a2⟩
        · exact ⟨a1, a2⟩
        · exact absurd a1 hk
  · intro y hy
    cases hy
    exact ⟨(inl _).2 (Or.inr rfl), by rw [Mn]⟩

/-- A cached block without neighbours is a whole chunk; return it to the device. -/
theorem Struct.giveBack {s lay} (h : Struct s lay none) {b d k} (hk : k ∈ s.cache b d)
    (hn : (s.mem k.2).next = none) (hp : (s.mem k.2).prev = none) :
    lay (s.mem k.2).chunk = [k.2] ∧ (s.mem k.2).bytes = s.chunkSize (s.mem k.2).chunk ∧
    Struct (giveBack (setCache s b d (erase k (s.cache b d))) k.2) (setLay lay (s.mem k.2).chunk []) none := by
  have hk' := (h.cache b d k).1 hk
  obtain ⟨kc, g⟩ := h.good hk'.1
  generalize hcc : (s.mem k.2).chunk = c at kc g
  have L := h.layout c
  have hl : lay c = [k.2] := by
    obtain ⟨A, B, e⟩ := List.mem_iff_append.1 kc
    rw [e] at L
    have h1 := L.prev_eq
    have h2 := L.next_eq
    rw [hp] at h1; rw [hn] at h2
    have hA : A = [] := by
      cases A with
      | nil => rfl
      | cons a A => rw [List.getLast?_eq_some_getLast (by simp)] at h1; cases h1
    have hB : B = [] := by
      cases B with
      | nil => rfl
      | cons a B => cases h2
    rw [e, hA, hB]; rfl
  refine ⟨hl, ?_, ?_⟩
  · have h1 := (L.first k.2 (by rw [hl]; rfl)).2
    have h2 := (L.last k.2 (by rw [hl]; rfl)).2
    omega
  · have mem' : ∀ y, (Alloc.giveBack (setCache s b d (erase k (s.cache b d))) k.2).mem y = s.mem y := fun _ => rfl
    have inl : ∀ y, InLay (setLay lay c []) y ↔ InLay lay y ∧ y ≠ k.2 := by
      intro y
      constructor
      · rintro ⟨c', hy⟩
        by_cases hx : c' = c
        · subst hx; rw [setLay_self] at hy; cases hy
        · rw [setLay_ne _ _ hx] at hy
          exact ⟨⟨c', hy⟩, fun hz => hx (h.unique (hz ▸ hy) kc)⟩
      · rintro ⟨⟨c', hy⟩, hz⟩
        refine ⟨c', ?_⟩
        rw [setLay_ne]
        · exact hy
        · intro hx
          rw [hx, hl, List.mem_singleton] at hy
          exact hz hy
    constructor
    · intro c'
      by_cases hx : c' = c
      · subst hx
        rw [setLay_self]
        exact ⟨List.isChain_nil, (by intro a ha; cases ha), (by intro a ha; cases ha), (by intro a ha; cases ha)⟩
      · rw [setLay_ne _ _ hx]
        exact (h.layout c').congr (fun y _ => rfl) rfl rfl (Nat.le_refl _)
    · intro c'
      show _ ↔ c' < s.chunks ∧ (if c' = (s.mem k.2).chunk then true else s.returned c') = false
      rw [hcc]
      by_cases hx : c' = c
      · subst hx; rw [setLay_self]; simp
      · rw [setLay_ne _ _ hx, if_neg hx]; exact h.alive c'
    · intro c' hc'
      show (if c' = (s.mem k.2).chunk then true else s.returned c') = false
      rw [hcc, if_neg]
      · exact h.fate c' hc'
      · intro hx
        have := ((h.alive c).1 (by rw [hl]; simp)).1
        have hc2 : s.chunks ≤ c' := hc'
        omega
    · intro c'
      by_cases hx : c' = c
      · subst hx; rw [setLay_self]; exact List.isChain_nil
      · rw [setLay_ne _ _ hx]; exact h.nofree c'
    · intro b' d'
      show ((setCache s b d (erase k (s.cache b d))).cache b' d').Nodup
      rw [setCache_cache]
      split
      · exact nodup_erase (h.nodup b d)
      · exact h.nodup b' d'
    · intro b' d' j
      show j ∈ (setCache s b d (erase k (s.cache b d))).cache b' d' ↔ _
      rw [setCache_cache, inl, mem']
      have bz : ∀ y, busy (Alloc.giveBack (setCache s b d (erase k (s.cache b d))) k.2) none y ↔ busy s none y := fun _ => Iff.rfl
      rw [bz]
      split
      · rename_i hbd
        rw [mem_erase, hbd.1, hbd.2, h.cache b d j]
        constructor
        · rintro ⟨⟨a1, a2, a3⟩, a4⟩
          refine ⟨⟨a1, ?_⟩, a2, a3⟩
          intro hx
          exact a4 (Prod.ext (by rw [a3.1, hk'.2.2.1, hx]) hx)
        · rintro ⟨⟨a1, a4⟩, a2, a3⟩
          exact ⟨⟨a1, a2, a3⟩, fun hx => a4 (by rw [hx])⟩
      · rename_i hbd
        rw [h.cache b' d' j]
        constructor
        · rintro ⟨a1, a2, a3⟩
          refine ⟨⟨a1, ?_⟩, a2, a3⟩
          intro hx
          refine hbd ?_
          rw [hx] at a3
          exact ⟨by rw [a3.2.2, ← hk'.2.2.2.2], by rw [← a3.2.1, hk'.2.2.2.1]⟩
        · rintro ⟨⟨a1, _⟩, a2, a3⟩
          exact ⟨a1, a2, a3⟩
    · intro y hy; cases hy

end Verif.Alloc
