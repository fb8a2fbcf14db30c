/- Obtaining and returning device memory. -/
import Verif.Alloc.Handle

namespace Verif.Alloc

theorem liveB_congr {s s' : St} (hl : s'.live = s.live)
    (hm : ∀ m ∈ s.live.map (·.1), (s'.mem m).bytes = (s.mem m).bytes ∧ (s'.mem m).dev = (s.mem m).dev) (d : Nat) :
    liveB s' d = liveB s d := by
  unfold liveB
  rw [hl]
  congr 1
  apply List.map_congr_left
  intro k hk
  have := hm k.1 (List.mem_map_of_mem hk)
  rw [this.1, this.2]

/-- make_memory's effect. -/
def freshSt (s : St) (b d : Nat) : St :=
  { s with
      mem := fun j => if j = s.count then ⟨d, s.chunks, 0, b, false, false, none, none⟩ else s.mem j
      count := s.count + 1
      chunks := s.chunks + 1
      chunkSize := fun c => if c = s.chunks then b else s.chunkSize c
      chunkDev := fun c => if c = s.chunks then d else s.chunkDev c
      used := fun e => if e = d then s.used e + b else s.used e
      known := if d ∈ s.known then s.known else s.known ++ [d] }

theorem Full.fresh {s lay ρ} (h : Full s lay none ρ) (b d : Nat) (hb : 0 < b) :
    Full (freshSt s b d) (setLay lay s.chunks [s.count]) (some s.count) ρ := by
  have st := h.st.fresh b d hb (if d ∈ s.known then s.known else s.known ++ [d]) (fun e => if e = d then s.used e + b else s.used e)
  have lt : ∀ y, InLay lay y → y < s.count := fun y ⟨c', hy⟩ => ((h.st.layout c').each y hy).lt
  have Mo : ∀ y, y < s.count → (freshSt s b d).mem y = s.mem y := by
    intro y hy; show (if y = s.count then _ else s.mem y) = _; rw [if_neg (by omega)]
  have Mn : (freshSt s b d).mem s.count = ⟨d, s.chunks, 0, b, false, false, none, none⟩ := by
    show (if s.count = s.count then _ else s.mem s.count) = _; rw [if_pos rfl]
  have llt : ∀ m ∈ s.live.map (·.1), m < s.count := fun m hm => lt m ((h.live m).1 hm).1
  have gone : lay s.chunks = [] := by
    by_contra hx
    exact absurd ((h.st.alive s.chunks).1 hx).1 (Nat.lt_irrefl _)
  have inl : ∀ y, InLay (setLay lay s.chunks [s.count]) y ↔ InLay lay y ∨ y = s.count := by
    intro y
    constructor
    · rintro ⟨c, hy⟩
      by_cases hcc : c = s.chunks
      · subst hcc; rw [setLay_self] at hy; exact Or.inr (by simpa using hy)
      · rw [setLay_ne _ _ hcc] at hy; exact Or.inl ⟨c, hy⟩
    · rintro (⟨c, hy⟩ | hy)
      · refine ⟨c, ?_⟩
        rw [setLay_ne]
        · exact hy
        · intro hx; rw [hx, gone] at hy; cases hy
      · exact ⟨s.chunks, by rw [setLay_self]; simp [hy]⟩
  refine ⟨st, h.ids, ?_, ?_, ?_, ?_, ?_, ?_⟩
  · intro y
    show y ∈ s.live.map (·.1) ↔ _
    rw [h.live y, inl y]
    by_cases hy : y = s.count
    · subst hy
      rw [Mn]
      constructor
      · rintro ⟨h1, _⟩; exact absurd (lt _ h1) (Nat.lt_irrefl _)
      · rintro ⟨_, h2⟩; cases h2
    · constructor
      · rintro ⟨h1, h2⟩; exact ⟨Or.inl h1, by rw [Mo y (lt y h1)]; exact h2⟩
      · rintro ⟨h1 | h1, h2⟩
        · exact ⟨h1, by rw [Mo y (lt y h1)] at h2; exact h2⟩
        · exact absurd h1 hy
  · intro k hk
    rw [Mo k.1 (llt k.1 (List.mem_map_of_mem hk))]; exact h.req k hk
  · intro b' e
    show s.cnt b' e = _
    rw [h.cnt b' e]
    congr 1
    refine List.countP_congr (fun k hk => ?_)
    have := Mo k.1 (llt k.1 (List.mem_map_of_mem hk))
    rw [isCls_congr (s := s) (s' := freshSt s b d) (by rw [this]) (by rw [this])]
  · intro e
    show (if e = d then s.used e + b else s.used e) = _
    have e1 : liveB (freshSt s b d) e = liveB s e :=
      liveB_congr (s := s) (s' := freshSt s b d) rfl (fun m hm => by rw [Mo m (llt m hm)]; exact ⟨rfl, rfl⟩) e
    rw [e1, handB_some, Mn, h.acct e, handB_none]
    show _ = ((liveB s e + cs s e + (if d = e then b else 0) + ρ e : Nat) : Int)
    by_cases hde : e = d
    · rw [if_pos hde, if_pos hde.symm]; push_cast; omega
    · rw [if_neg hde, if_neg (fun hx => hde hx.symm)]
  · intro e
    show (if e = d then s.used e + b else s.used e) = _
    have e1 : devB (freshSt s b d) e = devB s e + (if d = e then b else 0) := by
      unfold devB
      show ((List.range (s.chunks + 1)).map _).sum = _
      rw [List.range_succ, List.map_append, List.sum_append]
      congr 1
      · congr 1
        apply List.map_congr_left
        intro c hc
        have hc' : c ≠ s.chunks := by have := List.mem_range.1 hc; omega
        show (if s.returned c = false ∧ (if c = s.chunks then d else s.chunkDev c) = e then (if c = s.chunks then b else s.chunkSize c) else 0) = _
        rw [if_neg hc', if_neg hc']
      · simp only [List.map_cons, List.map_nil, List.sum_cons, List.sum_nil, Nat.add_zero]
        show (if s.returned s.chunks = false ∧ (if s.chunks = s.chunks then d else s.chunkDev s.chunks) = e then (if s.chunks = s.chunks then b else s.chunkSize s.chunks) else 0) = _
        rw [if_pos rfl, if_pos rfl, h.st.fate _ (Nat.le_refl _)]
        simp
    rw [e1, h.dev e]
    by_cases hde : e = d
    · rw [if_pos hde, if_pos hde.symm]; push_cast; omega
    · rw [if_neg hde, if_neg (fun hx => hde hx.symm), Nat.add_zero]
  · intro c hc
    have hc' : c < s.chunks + 1 := hc
    show (if c = s.chunks then d else s.chunkDev c) ∈ (if d ∈ s.known then s.known else s.known ++ [d])
    by_cases hcc : c = s.chunks
    · rw [if_pos hcc]; split
      · assumption
      · simp
    · rw [if_neg hcc]
      have := h.known c (by omega)
      split
      · exact this
      · simp [this]

theorem sum_range_update (n c : Nat) (f : Nat → Nat) (hc : c < n) :
    ((List.range n).map f).sum = ((List.range n).map (fun i => if i = c then 0 else f i)).sum + f c := by
  induction n with
  | zero => omega
  | succ n ih =>
    rw [List.range_succ]
    simp only [List.map_append, List.sum_append, List.map_cons, List.map_nil, List.sum_cons, List.sum_nil, Nat.add_zero]
    by_cases h : c = n
    · subst h
      rw [if_pos rfl]
      have : (List.range c).map (fun i => if i = c then 0 else f i) = (List.range c).map f := by
        apply List.map_congr_left
        intro i hi
        rw [if_neg (by have := List.mem_range.1 hi; omega)]
      rw [this]; omega
    · rw [if_neg (fun hx => h hx.symm), ih (by omega)]; omega

theorem Full.giveBack {s lay ρ} (h : Full s lay none ρ) {b d k} (hk : k ∈ s.cache b d)
    (hn : (s.mem k.2).next = none) (hp : (s.mem k.2).prev = none) :
    Full (giveBack (setCache s b d (erase k (s.cache b d))) k.2) (setLay lay (s.mem k.2).chunk []) none
      (fun e => if e = d then ρ e + (s.mem k.2).bytes else ρ e) := by
  obtain ⟨hl, hsz, st⟩ := h.st.giveBack hk hn hp
  have hk' := (h.st.cache b d k).1 hk
  obtain ⟨kc, g⟩ := h.st.good hk'.1
  have al := (h.st.alive (s.mem k.2).chunk).1 (by rw [hl]; simp)
  have kl : (s.mem k.2).locked = false := by
    have := hk'.2.1
    unfold busy at this
    simpa using this
  refine ⟨st, h.ids, ?_, h.req, h.cnt, ?_, ?_, h.known⟩
  · intro y
    show y ∈ s.live.map (·.1) ↔ _ ∧ (s.mem y).locked = true
    rw [h.live y]
    constructor
    · rintro ⟨⟨c, hy⟩, h2⟩
      refine ⟨⟨c, ?_⟩, h2⟩
      rw [setLay_ne]
      · exact hy
      · intro hx
        rw [hx, hl, List.mem_singleton] at hy
        rw [hy, kl] at h2; cases h2
    · rintro ⟨⟨c, hy⟩, h2⟩
      by_cases hx : c = (s.mem k.2).chunk
      · rw [hx, setLay_self] at hy; cases hy
      · rw [setLay_ne _ _ hx] at hy; exact ⟨⟨c, hy⟩, h2⟩
  · intro e
    show s.used e = ((liveB s e + cs (setCache s b d (erase k (s.cache b d))) e + 0 + _ : Nat) : Int)
    rw [h.acct e, handB_none]
    have h1 := cs_setCache s b d (erase k (s.cache b d)) e
    have h2 := csum_erase (h.st.nodup b d) hk
    rw [hk'.2.2.1] at h2
    congr 1
    by_cases he : e = d
    · subst he; simp only [if_true] at *; omega
    · rw [if_neg he] at *; rw [if_neg he] at h1; omega
  · intro e
    show s.used e = _
    rw [h.dev e]
    congr 1
    have e1 : devB (Alloc.giveBack (setCache s b d (erase k (s.cache b d))) k.2) e =
        ((List.range s.chunks).map (fun i => if i = (s.mem k.2).chunk then 0 else
          if s.returned i = false ∧ s.chunkDev i = e then s.chunkSize i else 0)).sum := by
      unfold devB
      congr 1
      apply List.map_congr_left
      intro i _
      show (if (if i = (s.mem k.2).chunk then true else s.returned i) = false ∧ s.chunkDev i = e then s.chunkSize i else 0) = _
      by_cases hi : i = (s.mem k.2).chunk
      · rw [if_pos hi, if_pos hi]; simp
      · rw [if_neg hi, if_neg hi]
    have e2 : devB s e = ((List.range s.chunks).map (fun i => if i = (s.mem k.2).chunk then 0 else
          if s.returned i = false ∧ s.chunkDev i = e then s.chunkSize i else 0)).sum +
          (if s.returned (s.mem k.2).chunk = false ∧ s.chunkDev (s.mem k.2).chunk = e then s.chunkSize (s.mem k.2).chunk else 0) :=
      sum_range_update s.chunks _ _ al.1
    rw [e1, e2, ← g.dev, hk'.2.2.2.1, ← hsz]
    by_cases he : e = d
    · rw [if_pos he, if_pos ⟨al.2, he.symm⟩]; omega
    · rw [if_neg he, if_neg (fun hx => he hx.2.symm)]; omega

/-- The blocks of pool `b`, `d` that are whole chunks. -/
def whole (s : St) (k : Nat × Nat) : Prop := (s.mem k.2).next = none ∧ (s.mem k.2).prev = none

instance (s : St) (k) : Decidable (whole s k) := by unfold whole; infer_instance

/-- What returning unused chunks leaves alone. -/
structure Kept (s s' : St) : Prop where
  mem : s'.mem = s.mem
  count : s'.count = s.count
  chunks : s'.chunks = s.chunks
  chunkSize : s'.chunkSize = s.chunkSize
  chunkDev : s'.chunkDev = s.chunkDev
  live : s'.live = s.live
  cnt : s'.cnt = s.cnt

theorem Kept.refl (s : St) : Kept s s := ⟨rfl, rfl, rfl, rfl, rfl, rfl, rfl⟩
theorem Kept.trans {s s' s'' : St} (h : Kept s s') (h' : Kept s' s'') : Kept s s'' :=
  ⟨h'.mem.trans h.mem, h'.count.trans h.count, h'.chunks.trans h.chunks, h'.chunkSize.trans h.chunkSize,
   h'.chunkDev.trans h.chunkDev, h'.live.trans h.live, h'.cnt.trans h.cnt⟩

theorem freeUnusedMap_go {d : Nat} {b : Bool} (ks : List (Nat × Nat)) :
    ∀ (acc : Nat) (s : St) (lay : Nat → List Nat) (ρ : Nat → Nat), Full s lay none ρ → ks.Nodup → (∀ k ∈ ks, k ∈ s.cache b d) →
    ∃ (s' : St) (lay' : Nat → List Nat) (f : Nat),
      ks.foldl (fun (r : Nat × St) k =>
        let f := bytesActive (r.2.mem k.2)
        if f ≠ 0 then (r.1 + f, giveBack (setCache r.2 b d (erase k (r.2.cache b d))) k.2) else r) (acc, s) = (acc + f, s') ∧
      Full s' lay' none (fun e => if e = d then ρ e + f else ρ e) ∧ Kept s s' ∧ s'.used = s.used ∧ s'.known = s.known ∧
      (∀ b' d', (b', d') ≠ (b, d) → s'.cache b' d' = s.cache b' d') ∧
      (∀ k, k ∈ s'.cache b d ↔ k ∈ s.cache b d ∧ ¬ (k ∈ ks ∧ whole s k)) ∧
      (∀ c, s'.returned c = true ↔ s.returned c = true ∨ ∃ k ∈ ks, whole s k ∧ (s.mem k.2).chunk = c) := by
  induction ks with
  | nil =>
    intro acc s lay ρ h _ _
    refine ⟨s, lay, 0, rfl, ?_, Kept.refl s, rfl, rfl, fun _ _ _ => rfl, by simp, by simp⟩
    have : (fun e => if e = d then ρ e + 0 else ρ e) = ρ := by funext e; split <;> rfl
    rw [this]; exact h
  | cons k ks ih =>
    intro acc s lay ρ h nd hk
    rw [List.nodup_cons] at nd
    have hkc := hk k (by simp)
    have hk' := (h.st.cache b d k).1 hkc
    obtain ⟨_, g⟩ := h.st.good hk'.1
    rw [List.foldl_cons]
    by_cases hw : whole s k
    · have ba : bytesActive (s.mem k.2) = (s.mem k.2).bytes := by
        unfold bytesActive; rw [g.null, hw.1, hw.2]; rfl
      have hpos := g.pos
      have step : (if bytesActive (s.mem k.2) ≠ 0 then (acc + bytesActive (s.mem k.2), giveBack (setCache s b d (erase k (s.cache b d))) k.2) else (acc, s)) =
          (acc + (s.mem k.2).bytes, giveBack (setCache s b d (erase k (s.cache b d))) k.2) := by
        rw [ba, if_pos (by omega)]
      have h1 := h.giveBack hkc hw.1 hw.2
      have cs1 : (giveBack (setCache s b d (erase k (s.cache b d))) k.2).cache b d = erase k (s.cache b d) := by
        show (setCache s b d (erase k (s.cache b d))).cache b d = _
        rw [setCache_cache, if_pos ⟨rfl, rfl⟩]
      obtain ⟨s', lay', f, e1, f1, k1, u1, n1, c1, c2, c3⟩ := ih (acc + (s.mem k.2).bytes) _ _ _ h1 nd.2 (by
        intro j hj
        rw [cs1, mem_erase]
        exact ⟨hk j (by simp [hj]), fun hx => nd.1 (hx ▸ hj)⟩)
      have wh : ∀ j, whole (giveBack (setCache s b d (erase k (s.cache b d))) k.2) j ↔ whole s j := fun _ => Iff.rfl
      refine ⟨s', lay', (s.mem k.2).bytes + f, ?_, ?_, ?_, u1, n1, ?_, ?_, ?_⟩
      · refine Eq.trans (congrArg (fun z => List.foldl _ z ks) step) (e1.trans ?_)
        rw [Nat.add_assoc]
      · have : (fun e => if e = d then (if e = d then ρ e + (s.mem k.2).bytes else ρ e) + f else (if e = d then ρ e + (s.mem k.2).bytes else ρ e)) =
            (fun e => if e = d then ρ e + ((s.mem k.2).bytes + f) else ρ e) := by
          funext e; by_cases he : e = d
          · simp only [he, if_true]; omega
          · simp only [he, if_false]
        rw [← this]; exact f1
      · exact Kept.trans (s' := Alloc.giveBack (setCache s b d (erase k (s.cache b d))) k.2) ⟨rfl, rfl, rfl, rfl, rfl, rfl, rfl⟩ k1
      · intro b' d' hne
        rw [c1 b' d' hne]
        show (setCache s b d (erase k (s.cache b d))).cache b' d' = _
        rw [setCache_cache, if_neg (fun hx => hne (by rw [hx.1, hx.2]))]
      · intro j
        rw [c2 j, cs1, mem_erase, wh]
        constructor
        · rintro ⟨⟨a1, a2⟩, a3⟩
          refine ⟨a1, ?_⟩
          rintro ⟨a4, a5⟩
          rcases List.mem_cons.1 a4 with a4 | a4
          · exact a2 a4
          · exact a3 ⟨a4, a5⟩
        · rintro ⟨a1, a2⟩
          refine ⟨⟨a1, ?_⟩, fun a3 => a2 ⟨by simp [a3.1], a3.2⟩⟩
          rintro rfl
          exact a2 ⟨by simp, hw⟩
      · intro c
        rw [c3 c]
        show ((if c = (s.mem k.2).chunk then true else s.returned c) = true ∨ _) ↔ _
        constructor
        · rintro (a | ⟨j, a1, a2, a3⟩)
          · by_cases hc : c = (s.mem k.2).chunk
            · exact Or.inr ⟨k, by simp, hw, hc.symm⟩
            · rw [if_neg hc] at a; exact Or.inl a
          · exact Or.inr ⟨j, by simp [a1], a2, a3⟩
        · rintro (a | ⟨j, a1, a2, a3⟩)
          · left; split
            · rfl
            · exact a
          · rcases List.mem_cons.1 a1 with a1 | a1
            · subst a1; left; rw [if_pos a3.symm]
            · exact Or.inr ⟨j, a1, a2, a3⟩
    · have ba : bytesActive (s.mem k.2) = 0 := by
        unfold bytesActive
        rw [if_pos]
        unfold whole at hw
        cases hn : (s.mem k.2).next with
        | some _ => simp
        | none =>
          cases hp : (s.mem k.2).prev with
          | some _ => simp
          | none => exact absurd ⟨hn, hp⟩ hw
      have step : (if bytesActive (s.mem k.2) ≠ 0 then (acc + bytesActive (s.mem k.2), giveBack (setCache s b d (erase k (s.cache b d))) k.2) else (acc, s)) =
          (acc, s) := by rw [ba]; rfl
      obtain ⟨s', lay', f, e1, f1, k1, u1, n1, c1, c2, c3⟩ := ih acc s lay ρ h nd.2 (fun j hj => hk j (by simp [hj]))
      refine ⟨s', lay', f, (congrArg (fun z => List.foldl _ z ks) step).trans e1, f1, k1, u1, n1, c1, ?_, ?_⟩
      · intro j
        rw [c2 j]
        constructor
        · rintro ⟨a1, a2⟩
          refine ⟨a1, ?_⟩
          rintro ⟨a4, a5⟩
          rcases List.mem_cons.1 a4 with a4 | a4
          · subst a4; exact hw a5
          · exact a2 ⟨a4, a5⟩
        · rintro ⟨a1, a2⟩
          exact ⟨a1, fun a3 => a2 ⟨by simp [a3.1], a3.2⟩⟩
      · intro c
        rw [c3 c]
        constructor
        · rintro (a | ⟨j, a1, a2, a3⟩)
          · exact Or.inl a
          · exact Or.inr ⟨j, by simp [a1], a2, a3⟩
        · rintro (a | ⟨j, a1, a2, a3⟩)
          · exact Or.inl a
          · rcases List.mem_cons.1 a1 with a1 | a1
            · subst a1; exact absurd a2 hw
            · exact Or.inr ⟨j, a1, a2, a3⟩

/-- free_unused_device_caches returns exactly the cached blocks that are whole chunks. -/
theorem Full.freeUnused {s lay} (h : Full s lay none (fun _ => 0)) (d : Nat) :
    ∃ lay', Full (freeUnused s d) lay' none (fun _ => 0) ∧ Kept s (freeUnused s d) ∧
      (∀ b e k, k ∈ (freeUnused s d).cache b e ↔ k ∈ s.cache b e ∧ ¬ (e = d ∧ whole s k)) ∧
      (∀ c, (freeUnused s d).returned c = true ↔ s.returned c = true ∨
        ∃ b, ∃ k ∈ s.cache b d, whole s k ∧ (s.mem k.2).chunk = c) ∧
      (∀ e, e ∈ s.known ∨ e = d ↔ e ∈ (freeUnused s d).known) := by
  obtain ⟨s1, lay1, f1, e1, F1, k1, u1, n1, c1, c1', r1⟩ :=
    freeUnusedMap_go (d := d) (b := true) (s.cache true d) 0 s lay _ h (h.st.nodup true d) (fun _ hk => hk)
  obtain ⟨s2, lay2, f2, e2, F2, k2, u2, n2, c2, c2', r2⟩ :=
    freeUnusedMap_go (d := d) (b := false) (s1.cache false d) 0 s1 lay1 _ F1 (F1.st.nodup false d) (fun _ hk => hk)
  have m1 : freeUnusedMap s true d = (0 + f1, s1) := e1
  have m2 : freeUnusedMap s1 false d = (0 + f2, s2) := e2
  have eq : Alloc.freeUnused s d = { s2 with
      used := fun e => if e = d then s2.used e - ((f1 + f2 : Nat) : Int) else s2.used e
      known := if d ∈ s2.known then s2.known else s2.known ++ [d] } := by
    unfold Alloc.freeUnused
    simp only
    rw [m1]
    simp only
    rw [m2]
    simp only [Nat.zero_add]
  rw [eq]
  have wh : ∀ k, whole s1 k ↔ whole s k := by intro k; unfold whole; rw [k1.mem]
  have fs : s1.cache false d = s.cache false d := c1 false d (by simp)
  refine ⟨lay2, ?_, ?_, ?_, ?_, ?_⟩
  · refine ⟨F2.st.frame rfl rfl rfl rfl rfl rfl rfl, F2.ids, F2.live, F2.req, F2.cnt, ?_, ?_, ?_⟩
    · intro e
      have := F2.acct e
      show (if e = d then s2.used e - ((f1 + f2 : Nat) : Int) else s2.used e) = ((liveB s2 e + cs s2 e + 0 + 0 : Nat) : Int)
      rw [handB_none] at this
      by_cases he : e = d
      · rw [if_pos he, this]; simp only [he, if_true]; push_cast; omega
      · rw [if_neg he, this]; simp only [he, if_false]
    · intro e
      have := F2.dev e
      show (if e = d then s2.used e - ((f1 + f2 : Nat) : Int) else s2.used e) = ((devB s2 e + 0 : Nat) : Int)
      by_cases he : e = d
      · rw [if_pos he, this]; simp only [he, if_true]; push_cast; omega
      · rw [if_neg he, this]; simp only [he, if_false]
    · intro c hc
      have := F2.known c hc
      show s2.chunkDev c ∈ (if d ∈ s2.known then s2.known else s2.known ++ [d])
      split
      · exact this
      · simp [this]
  · have := k1.trans k2
    exact ⟨this.mem, this.count, this.chunks, this.chunkSize, this.chunkDev, this.live, this.cnt⟩
  · intro b e k
    show k ∈ s2.cache b e ↔ _
    by_cases he : e = d
    · subst he
      cases b with
      | false =>
        rw [c2' k, fs, wh]
        constructor
        · rintro ⟨a1, a2⟩; exact ⟨a1, fun a3 => a2 ⟨a1, a3.2⟩⟩
        · rintro ⟨a1, a2⟩; exact ⟨a1, fun a3 => a2 ⟨rfl, a3.2⟩⟩
      | true =>
        rw [c2 true e (by simp), c1' k]
        constructor
        · rintro ⟨a1, a2⟩; exact ⟨a1, fun a3 => a2 ⟨a1, a3.2⟩⟩
        · rintro ⟨a1, a2⟩; exact ⟨a1, fun a3 => a2 ⟨rfl, a3.2⟩⟩
    · rw [c2 b e (by simp [he]), c1 b e (by simp [he])]
      exact ⟨fun a => ⟨a, fun x => he x.1⟩, fun a => a.1⟩
  · intro c
    show s2.returned c = true ↔ _
    rw [r2 c, r1 c, fs]
    constructor
    · rintro ((a | ⟨k, a1, a2, a3⟩) | ⟨k, a1, a2, a3⟩)
      · exact Or.inl a
      · exact Or.inr ⟨true, k, a1, a2, a3⟩
      · refine Or.inr ⟨false, k, a1, (wh k).1 a2, ?_⟩
        rw [k1.mem] at a3; exact a3
    · rintro (a | ⟨b, k, a1, a2, a3⟩)
      · exact Or.inl (Or.inl a)
      · cases b with
        | true => exact Or.inl (Or.inr ⟨k, a1, a2, a3⟩)
        | false => exact Or.inr ⟨k, a1, (wh k).2 a2, by rw [k1.mem]; exact a3⟩
  · intro e
    show _ ↔ e ∈ (if d ∈ s2.known then s2.known else s2.known ++ [d])
    rw [n2, n1]
    split
    · rename_i hd
      exact ⟨fun a => a.elim id (fun x => x ▸ hd), Or.inl⟩
    · simp

end Verif.Alloc
