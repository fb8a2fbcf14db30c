/- The structural invariant: chunks are tiled by blocks, free blocks are exactly the cached ones and have
no free neighbour. `x` is a block in the hands of the allocator (neither cached nor handed out). -/
import Verif.Alloc.Layout

namespace Verif.Alloc

def busy (s : St) (x : Option Nat) (m : Nat) : Prop := (s.mem m).locked = true ∨ x = some m

def InLay (lay : Nat → List Nat) (m : Nat) : Prop := ∃ c, m ∈ lay c

def setLay (lay : Nat → List Nat) (c : Nat) (l : List Nat) : Nat → List Nat := fun c' => if c' = c then l else lay c'

theorem setLay_self (lay c l) : setLay lay c l c = l := by simp [setLay]
theorem setLay_ne (lay l) {c c'} (h : c' ≠ c) : setLay lay c l c' = lay c' := by simp [setLay, h]

structure Struct (s : St) (lay : Nat → List Nat) (x : Option Nat) : Prop where
  layout : ∀ c, Layout s c (lay c)
  alive : ∀ c, lay c ≠ [] ↔ c < s.chunks ∧ s.returned c = false
  fate : ∀ c, s.chunks ≤ c → s.returned c = false
  nofree : ∀ c, (lay c).IsChain (fun a b => busy s x a ∨ busy s x b)
  nodup : ∀ b d, (s.cache b d).Nodup
  cache : ∀ b d k, k ∈ s.cache b d ↔ InLay lay k.2 ∧ ¬ busy s x k.2 ∧ k.1 = (s.mem k.2).bytes ∧
    (s.mem k.2).dev = d ∧ b = decide ((s.mem k.2).bytes ≤ smallAlloc)
  hand : ∀ m, x = some m → InLay lay m ∧ (s.mem m).locked = false

theorem Struct.unique {s lay x} (h : Struct s lay x) {m c c'} (h1 : m ∈ lay c) (h2 : m ∈ lay c') : c = c' := by
  rw [← ((h.layout c).each m h1).chunk, ((h.layout c').each m h2).chunk]

theorem Struct.good {s lay x} (h : Struct s lay x) {m} (h1 : InLay lay m) :
    m ∈ lay (s.mem m).chunk ∧ Good s (s.mem m).chunk m := by
  obtain ⟨c, hc⟩ := h1
  have g := (h.layout c).each m hc
  rw [g.chunk]; exact ⟨hc, g⟩

/-- Blocks of one chunk are all small or all large. -/
theorem Struct.cls {s lay x} (h : Struct s lay x) {c m} (hm : m ∈ lay c) :
    decide ((s.mem m).bytes ≤ smallAlloc) = decide (s.chunkSize c ≤ smallAlloc) := by
  have g := (h.layout c).each m hm
  have e := (h.layout c).end_le hm
  rw [decide_eq_decide]
  constructor
  · intro h1
    by_contra h2
    have := g.large (by omega)
    omega
  · intro h1; omega

theorem Struct.key {s lay x} (h : Struct s lay x) {b d k} (hk : k ∈ s.cache b d) : k = ((s.mem k.2).bytes, k.2) := by
  have := ((h.cache b d k).1 hk).2.2.1
  exact Prod.ext this rfl

theorem mem_erase {k j : Nat × Nat} {l} : j ∈ erase k l ↔ j ∈ l ∧ j ≠ k := by simp [erase]

theorem nodup_erase {k : Nat × Nat} {l} (h : l.Nodup) : (erase k l).Nodup := h.filter _

theorem setCache_cache (s : St) (b : Bool) (d : Nat) (l b' d') :
    (setCache s b d l).cache b' d' = if b' = b ∧ d' = d then l else s.cache b' d' := rfl

/-- The layout after changing a pool. -/
theorem layout_setCache {s : St} {b d p c l} (h : Layout s c l) : Layout (setCache s b d p) c l :=
  h.congr (fun _ _ => rfl) rfl rfl (Nat.le_refl _)

/-- Take a block out of a pool. -/
theorem Struct.take {s lay} (h : Struct s lay none) {b d k} (hk : k ∈ s.cache b d) :
    Struct (setCache s b d (erase k (s.cache b d))) lay (some k.2) := by
  have hk' := (h.cache b d k).1 hk
  constructor
  · intro c; exact layout_setCache (h.layout c)
  · exact h.alive
  · exact h.fate
  · intro c
    refine (h.nofree c).imp ?_
    rintro a a' (h1 | h1)
    · rcases h1 with h1 | h1
      · exact Or.inl (Or.inl h1)
      · cases h1
    · rcases h1 with h1 | h1
      · exact Or.inr (Or.inl h1)
      · cases h1
  · intro b' d'
    rw [setCache_cache]
    split
    · exact nodup_erase (h.nodup b d)
    · exact h.nodup b' d'
  · intro b' d' j
    rw [setCache_cache]
    have e : ∀ m, (setCache s b d (erase k (s.cache b d))).mem m = s.mem m := fun _ => rfl
    have nb : ∀ m, ¬ busy (setCache s b d (erase k (s.cache b d))) (some k.2) m ↔ ¬ busy s none m ∧ m ≠ k.2 := by
      intro m
      unfold busy
      rw [e]
      simp only [Option.some.injEq, not_or, reduceCtorEq, not_false_eq_true, and_true]
      exact and_congr_right (fun _ => ⟨fun hx hy => hx hy.symm, fun hx hy => hx hy.symm⟩)
    rw [nb, e]
    split
    · rename_i hbd
      rw [mem_erase, hbd.1, hbd.2, h.cache b d j]
      constructor
      · rintro ⟨⟨a1, a2, a3⟩, a4⟩
        refine ⟨a1, ⟨a2, ?_⟩, a3⟩
        intro hx
        exact a4 (Prod.ext (by rw [a3.1, hk'.2.2.1, hx]) hx)
      · rintro ⟨a1, ⟨a2, a4⟩, a3⟩
        exact ⟨⟨a1, a2, a3⟩, fun hx => a4 (by rw [hx])⟩
    · rename_i hbd
      rw [h.cache b' d' j]
      constructor
      · rintro ⟨a1, a2, a3⟩
        refine ⟨a1, ⟨a2, ?_⟩, a3⟩
        intro hx
        refine hbd ?_
        rw [hx] at a3
        exact ⟨by rw [a3.2.2, ← hk'.2.2.2.2], by rw [← a3.2.1, hk'.2.2.2.1]⟩
      · rintro ⟨a1, ⟨a2, a4⟩, a3⟩
        exact ⟨a1, a2, a3⟩
  · intro m hm
    cases hm
    exact ⟨hk'.1, by
      have := hk'.2.1
      unfold busy at this
      simp only [reduceCtorEq, or_false, Bool.not_eq_true] at this
      exact this⟩

/-- Put the block in hand into a pool; its neighbours are in use. -/
theorem Struct.put {s lay m} (h : Struct s lay (some m)) {c A B} (hc : lay c = A ++ m :: B)
    (hA : ∀ a, A.getLast? = some a → (s.mem a).locked = true) (hB : ∀ b, B.head? = some b → (s.mem b).locked = true)
    {b d} (hb : b = decide ((s.mem m).bytes ≤ smallAlloc)) (hd : (s.mem m).dev = d) (l : List (Nat × Nat))
    (hl : ∀ j, j ∈ l ↔ j ∈ s.cache b d) (hn : l.Nodup) :
    Struct (setCache s b d (erase ((s.mem m).bytes, m) l ++ [((s.mem m).bytes, m)])) lay none := by
  have hm := h.hand m rfl
  have hnot : ((s.mem m).bytes, m) ∉ s.cache b d := by
    intro hx
    have := (h.cache b d _).1 hx
    exact this.2.1 (Or.inr rfl)
  have bz : ∀ y, y ≠ m → busy s (some m) y → (s.mem y).locked = true := by
    intro y hy hb
    rcases hb with hb | hb
    · exact hb
    · cases hb; exact absurd rfl hy
  constructor
  · intro c; exact layout_setCache (h.layout c)
  · exact h.alive
  · exact h.fate
  · intro c'
    show (lay c').IsChain (fun a b => busy s none a ∨ busy s none b)
    by_cases hcc : c' = c
    · subst hcc
      have ch := h.nofree c'
      have nd := (h.layout c').nodup
      rw [hc] at ch nd ⊢
      rw [List.isChain_append] at ch ⊢
      obtain ⟨cA, cB, cAB⟩ := ch
      rw [List.isChain_cons] at cB
      have mA : m ∉ A := by
        intro hx; exact (List.nodup_append.1 nd).2.2 m hx m (by simp) rfl
      have mB : m ∉ B := (List.nodup_cons.1 (List.nodup_append.1 nd).2.1).1
      refine ⟨?_, ?_, ?_⟩
      · refine List.IsChain.imp_of_mem_imp ?_ cA
        intro a a' ha ha' hh
        rcases hh with hh | hh
        · exact Or.inl (Or.inl (bz a (fun hx => mA (hx ▸ ha)) hh))
        · exact Or.inr (Or.inl (bz a' (fun hx => mA (hx ▸ ha')) hh))
      · rw [List.isChain_cons]
        refine ⟨?_, ?_⟩
        · intro y hy; exact Or.inr (Or.inl (hB y hy))
        · refine List.IsChain.imp_of_mem_imp ?_ cB.2
          intro a a' ha ha' hh
          rcases hh with hh | hh
          · exact Or.inl (Or.inl (bz a (fun hx => mB (hx ▸ ha)) hh))
          · exact Or.inr (Or.inl (bz a' (fun hx => mB (hx ▸ ha')) hh))
      · intro a ha y hy
        exact Or.inl (Or.inl (hA a ha))
    · have mc : m ∉ lay c' := by
        intro hx
        exact hcc (h.unique hx (by rw [hc]; simp))
      refine List.IsChain.imp_of_mem_imp ?_ (h.nofree c')
      intro a a' ha ha' hh
      rcases hh with hh | hh
      · exact Or.inl (Or.inl (bz a (fun hx => mc (hx ▸ ha)) hh))
      · exact Or.inr (Or.inl (bz a' (fun hx => mc (hx ▸ ha')) hh))
  · intro b' d'
    rw [setCache_cache]
    split
    · rw [List.nodup_append]
      refine ⟨nodup_erase hn, by simp, ?_⟩
      intro a ha y hy
      rw [List.mem_singleton] at hy
      rw [hy]; exact (mem_erase.1 ha).2
    · exact h.nodup b' d'
  · intro b' d' j
    have e : ∀ m', (setCache s b d (erase ((s.mem m).bytes, m) l ++ [((s.mem m).bytes, m)])).mem m' = s.mem m' := fun _ => rfl
    have nb : ∀ y, ¬ busy (setCache s b d (erase ((s.mem m).bytes, m) l ++ [((s.mem m).bytes, m)])) none y ↔
        (¬ busy s (some m) y ∨ y = m) := by
      intro y
      unfold busy
      rw [e]
      simp only [reduceCtorEq, or_false, Option.some.injEq, not_or]
      constructor
      · intro h1
        by_cases hy : y = m
        · exact Or.inr hy
        · exact Or.inl ⟨h1, fun hx => hy hx.symm⟩
      · rintro (h1 | h1)
        · exact h1.1
        · rw [h1, hm.2]; simp
    rw [nb, e, setCache_cache]
    split
    · rename_i hbd
      rw [List.mem_append, mem_erase, hl, hbd.1, hbd.2, h.cache b d j, List.mem_singleton]
      constructor
      · rintro (⟨⟨a1, a2, a3⟩, _⟩ | rfl)
        · exact ⟨a1, Or.inl a2, a3⟩
        · exact ⟨hm.1, Or.inr rfl, rfl, hd, hb⟩
      · rintro ⟨a1, a2 | a2, a3⟩
        · refine Or.inl ⟨⟨a1, a2, a3⟩, ?_⟩
          rintro rfl
          exact a2 (Or.inr rfl)
        · refine Or.inr (Prod.ext ?_ a2)
          rw [a3.1, a2]
    · rename_i hbd
      rw [h.cache b' d' j]
      constructor
      · rintro ⟨a1, a2, a3⟩; exact ⟨a1, Or.inl a2, a3⟩
      · rintro ⟨a1, a2 | a2, a3⟩
        · exact ⟨a1, a2, a3⟩
        · refine absurd ?_ hbd
          rw [a2] at a3
          exact ⟨by rw [a3.2.2, hb], by rw [← a3.2.1, hd]⟩
  · intro y hy; cases hy

/-- Hand the block in hand out / take a handed out block back. -/
theorem Struct.relock {s lay x x'} (h : Struct s lay x) (m : Nat) (v : Bool) (hm : InLay lay m)
    (hx : (v = true ∧ x = some m ∧ x' = none) ∨ (v = false ∧ x = none ∧ x' = some m ∧ (s.mem m).locked = true)) :
    Struct (updM s m (fun d => { d with locked := v })) lay x' := by
  have e : ∀ y, (updM s m (fun d => { d with locked := v })).mem y =
      if y = m then { s.mem y with locked := v } else s.mem y := fun _ => rfl
  have eq : ∀ y, ∃ lk, (updM s m (fun d => { d with locked := v })).mem y = { s.mem y with locked := lk } := by
    intro y; rw [e]; split
    · exact ⟨v, rfl⟩
    · exact ⟨(s.mem y).locked, rfl⟩
  have bz : ∀ y, busy (updM s m (fun d => { d with locked := v })) x' y ↔ busy s x y := by
    intro y
    unfold busy
    rw [e]
    by_cases hy : y = m
    · subst hy
      rw [if_pos rfl]
      rcases hx with ⟨h1, h2, h3⟩ | ⟨h1, h2, h3, h4⟩
      · simp [h1, h2]
      · simp [h1, h2, h3, h4]
    · rw [if_neg hy]
      have hy' : ¬ m = y := fun h => hy h.symm
      rcases hx with ⟨h1, h2, h3⟩ | ⟨h1, h2, h3, h4⟩
      · simp [h2, h3, hy']
      · simp [h2, h3, hy']
  constructor
  · intro c
    have L := h.layout c
    constructor
    · refine L.adj.imp ?_
      intro a b hab
      obtain ⟨l1, e1⟩ := eq a
      obtain ⟨l2, e2⟩ := eq b
      unfold Adj; rw [e1, e2]; exact hab
    · intro a ha; obtain ⟨l1, e1⟩ := eq a; rw [e1]; exact L.first a ha
    · intro a ha; obtain ⟨l1, e1⟩ := eq a; rw [e1]; exact L.last a ha
    · intro a ha
      obtain ⟨l1, e1⟩ := eq a
      have g := L.each a ha
      exact ⟨by rw [e1]; exact g.chunk, by rw [e1]; exact g.null, by rw [e1]; exact g.pos, g.lt, by rw [e1]; exact g.dev,
        by rw [e1]; exact g.large⟩
  · exact h.alive
  · exact h.fate
  · intro c; refine (h.nofree c).imp ?_
    intro a b hab; rw [bz, bz]; exact hab
  · exact h.nodup
  · intro b d k
    rw [bz]
    obtain ⟨l1, e1⟩ := eq k.2
    rw [e1]; exact h.cache b d k
  · intro y hy
    rcases hx with ⟨h1, h2, h3⟩ | ⟨h1, h2, h3, h4⟩
    · rw [h3] at hy; cases hy
    · rw [h3] at hy; cases hy
      exact ⟨hm, by rw [e, if_pos rfl]; exact h1⟩

end Verif.Alloc
