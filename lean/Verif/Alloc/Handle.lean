/- Handing a block out and taking it back. -/
import Verif.Alloc.Full

namespace Verif.Alloc

theorem handB_some (s : St) (m d : Nat) : handB s (some m) d = if (s.mem m).dev = d then (s.mem m).bytes else 0 := rfl
theorem handB_none (s : St) (d : Nat) : handB s none d = 0 := rfl

/-- The state `alloc` ends with. -/
def lockSt (s : St) (m req d : Nat) : St :=
  updM { s with
      cnt := fun b e => if b = decide ((s.mem m).bytes ≤ smallAlloc) ∧ e = d then s.cnt b e + 1 else s.cnt b e
      known := if d ∈ s.known then s.known else s.known ++ [d]
      live := s.live ++ [(m, req)] } m (fun x => { x with locked := true })

theorem Struct.frame {s s' : St} {lay x} (h : Struct s lay x) (h1 : s'.mem = s.mem) (h2 : s'.count = s.count)
    (h3 : s'.cache = s.cache) (h4 : s'.chunks = s.chunks) (h5 : s'.chunkSize = s.chunkSize)
    (h6 : s'.chunkDev = s.chunkDev) (h7 : s'.returned = s.returned) : Struct s' lay x := by
  have bz : ∀ y, busy s' x y ↔ busy s x y := by intro y; unfold busy; rw [h1]
  constructor
  · intro c; exact (h.layout c).congr (fun _ _ => by rw [h1]) (by rw [h5]) (by rw [h6]) (by omega)
  · intro c; rw [h4, h7]; exact h.alive c
  · intro c hc; rw [h7]; exact h.fate c (by omega)
  · intro c; refine (h.nofree c).imp ?_; intro a b hab; rw [bz, bz]; exact hab
  · intro b d; rw [h3]; exact h.nodup b d
  · intro b d k; rw [h3, bz, h1]; exact h.cache b d k
  · intro m hm; rw [h1]; exact h.hand m hm

theorem updM_locked_mem (s : St) (m : Nat) (v : Bool) (y : Nat) :
    (updM s m (fun x => { x with locked := v })).mem y = { s.mem y with locked := if y = m then v else (s.mem y).locked } := by
  unfold updM
  simp only
  by_cases hy : y = m
  · subst hy; simp
  · simp [hy]

theorem isCls_congr {s s' : St} {b d h} (h1 : (s'.mem h.1).bytes = (s.mem h.1).bytes) (h2 : (s'.mem h.1).dev = (s.mem h.1).dev) :
    isCls s' b d h = isCls s b d h := by unfold isCls; rw [h1, h2]

theorem Full.lock {s lay m ρ} (h : Full s lay (some m) ρ) {req d : Nat} (hr : req ≤ (s.mem m).bytes)
    (hd : (s.mem m).dev = d) : Full (lockSt s m req d) lay none ρ := by
  have hm := h.st.hand m rfl
  have mem : ∀ y, (lockSt s m req d).mem y = { s.mem y with locked := if y = m then true else (s.mem y).locked } :=
    fun y => updM_locked_mem _ m true y
  have hb : ∀ y, ((lockSt s m req d).mem y).bytes = (s.mem y).bytes := fun y => by rw [mem]
  have hdv : ∀ y, ((lockSt s m req d).mem y).dev = (s.mem y).dev := fun y => by rw [mem]
  have hnot : m ∉ s.live.map (·.1) := by
    intro hx
    have := ((h.live m).1 hx).2
    rw [hm.2] at this; cases this
  have hl : (lockSt s m req d).live = s.live ++ [(m, req)] := rfl
  have eL : ∀ e, liveB (lockSt s m req d) e = liveB s e + handB s (some m) e := by
    intro e
    unfold liveB
    rw [hl, List.map_append, List.sum_append, handB_some]
    simp only [hb, hdv, List.map_cons, List.map_nil, List.sum_cons, List.sum_nil, Nat.add_zero]
  refine ⟨?_, ?_, ?_, ?_, ?_, ?_, ?_, ?_⟩
  · refine Struct.relock (x := some m) ?_ m true hm.1 (Or.inl ⟨rfl, rfl, rfl⟩)
    exact h.st.frame rfl rfl rfl rfl rfl rfl rfl
  · rw [hl, List.map_append, List.nodup_append]
    refine ⟨h.ids, by simp, ?_⟩
    intro a ha b hb hx
    simp at hb
    exact hnot (hb ▸ hx ▸ ha)
  · intro y
    rw [hl, List.map_append, List.mem_append, h.live y, mem]
    simp only [List.map_cons, List.map_nil, List.mem_singleton]
    by_cases hy : y = m
    · subst hy; simp [hm.1]
    · simp [hy]
  · intro k hk
    rw [hl, List.mem_append, List.mem_singleton] at hk
    rw [hb]
    rcases hk with hk | rfl
    · exact h.req k hk
    · exact hr
  · intro b e
    show (if b = decide ((s.mem m).bytes ≤ smallAlloc) ∧ e = d then s.cnt b e + 1 else s.cnt b e) = _
    rw [hl, List.countP_append, h.cnt b e]
    have e1 : List.countP (isCls (lockSt s m req d) b e) s.live = List.countP (isCls s b e) s.live :=
      List.countP_congr (fun k _ => by rw [isCls_congr (hb _) (hdv _)])
    rw [e1, List.countP_cons, List.countP_nil, isCls_congr (s := s) (hb _) (hdv _)]
    unfold isCls
    simp only [hd]
    by_cases hx : b = decide ((s.mem m).bytes ≤ smallAlloc) ∧ e = d
    · rw [if_pos hx, hx.1, hx.2]; simp
    · rw [if_neg hx]
      have : ¬ ((decide (d = e) && decide ((s.mem m).bytes ≤ smallAlloc) == b) = true) := by
        intro hy
        rw [Bool.and_eq_true, decide_eq_true_eq, beq_iff_eq] at hy
        exact hx ⟨hy.2.symm, hy.1.symm⟩
      rw [if_neg this]; simp
  · intro e
    have := h.acct e
    show s.used e = _
    rw [this, eL, handB_none]
    show _ = ((liveB s e + handB s (some m) e + cs s e + 0 + ρ e : Nat) : Int)
    congr 1; omega
  · exact h.dev
  · intro c hc
    have := h.known c hc
    show s.chunkDev c ∈ (if d ∈ s.known then s.known else s.known ++ [d])
    split
    · exact this
    · simp [this]

/-- The state of `free` before merging, with handles and counters already updated. -/
def unlockSt (s : St) (m : Nat) : St :=
  let s0 := updM s m (fun x => { x with locked := false })
  { s0 with
    cnt := fun b e => if b = decide ((s.mem m).bytes ≤ smallAlloc) ∧ e = (s.mem m).dev then s.cnt b e - 1 else s.cnt b e
    live := s.live.filter (fun h => h.1 ≠ m) }

theorem sum_filter_add {α} (l : List α) (p : α → Bool) (f : α → Nat) :
    (l.map f).sum = ((l.filter p).map f).sum + ((l.filter (fun x => !p x)).map f).sum := by
  induction l with
  | nil => rfl
  | cons a l ih =>
    by_cases ha : p a = true
    · simp [ha, ih]; omega
    · simp [ha, ih]; omega

theorem filter_eq_single {l : List (Nat × Nat)} {m : Nat} (nd : (l.map (·.1)).Nodup) (hm : m ∈ l.map (·.1)) :
    ∃ r, l.filter (fun h => !decide (h.1 ≠ m)) = [(m, r)] := by
  induction l with
  | nil => cases hm
  | cons a l ih =>
    rw [List.map_cons, List.nodup_cons] at nd
    by_cases ha : a.1 = m
    · refine ⟨a.2, ?_⟩
      have : l.filter (fun h => !decide (h.1 ≠ m)) = [] := by
        rw [List.filter_eq_nil_iff]
        intro k hk hx
        simp at hx
        exact nd.1 (List.mem_map.2 ⟨k, hk, by rw [hx, ha]⟩)
      simp only [List.filter_cons, ha, ne_eq, not_true_eq_false, decide_false, Bool.not_false, if_true]
      rw [this]
      simp [← ha]
    · have hm' : m ∈ l.map (·.1) := by
        rw [List.map_cons, List.mem_cons] at hm
        rcases hm with hm | hm
        · exact absurd hm.symm ha
        · exact hm
      obtain ⟨r, hr⟩ := ih nd.2 hm'
      refine ⟨r, ?_⟩
      simp only [List.filter_cons, ne_eq, ha, not_false_eq_true, decide_true, Bool.not_true]
      exact hr

theorem Full.unlock {s lay ρ} (h : Full s lay none ρ) {m : Nat} (hm : m ∈ s.live.map (·.1)) :
    Full (unlockSt s m) lay (some m) ρ := by
  have hm' := (h.live m).1 hm
  have mem : ∀ y, (unlockSt s m).mem y = { s.mem y with locked := if y = m then false else (s.mem y).locked } :=
    fun y => updM_locked_mem _ m false y
  have hb : ∀ y, ((unlockSt s m).mem y).bytes = (s.mem y).bytes := fun y => by rw [mem]
  have hdv : ∀ y, ((unlockSt s m).mem y).dev = (s.mem y).dev := fun y => by rw [mem]
  obtain ⟨r, hr⟩ := filter_eq_single h.ids hm
  have hl : (unlockSt s m).live = s.live.filter (fun h => decide (h.1 ≠ m)) := rfl
  refine ⟨?_, ?_, ?_, ?_, ?_, ?_, ?_, ?_⟩
  · have := h.st.relock m false hm'.1 (x' := some m) (Or.inr ⟨rfl, rfl, rfl, hm'.2⟩)
    exact this.frame rfl rfl rfl rfl rfl rfl rfl
  · rw [hl]; exact h.ids.sublist (List.filter_sublist.map _)
  · intro y
    rw [hl, mem]
    have : y ∈ (s.live.filter (fun h => decide (h.1 ≠ m))).map (·.1) ↔ y ∈ s.live.map (·.1) ∧ y ≠ m := by
      simp only [List.mem_map, List.mem_filter, decide_eq_true_eq]
      constructor
      · rintro ⟨k, ⟨h1, h2⟩, rfl⟩; exact ⟨⟨k, h1, rfl⟩, h2⟩
      · rintro ⟨⟨k, h1, rfl⟩, h2⟩; exact ⟨k, ⟨h1, h2⟩, rfl⟩
    rw [this, h.live y]
    by_cases hy : y = m
    · simp [hy]
    · simp [hy]
  · intro k hk
    rw [hl] at hk
    rw [hb]; exact h.req k (List.mem_filter.1 hk).1
  · intro b e
    show (if b = decide ((s.mem m).bytes ≤ smallAlloc) ∧ e = (s.mem m).dev then s.cnt b e - 1 else s.cnt b e) = _
    rw [h.cnt b e, hl]
    have e1 : List.countP (isCls (unlockSt s m) b e) (s.live.filter (fun h => decide (h.1 ≠ m))) =
        List.countP (isCls s b e) (s.live.filter (fun h => decide (h.1 ≠ m))) :=
      List.countP_congr (fun k _ => by rw [isCls_congr (hb _) (hdv _)])
    rw [e1]
    have e2 := List.countP_eq_countP_filter_add s.live (isCls s b e) (fun h => decide (h.1 ≠ m))
    rw [hr, List.countP_cons, List.countP_nil] at e2
    have e4 : isCls s b e (m, r) = decide (b = decide ((s.mem m).bytes ≤ smallAlloc) ∧ e = (s.mem m).dev) := by
      unfold isCls
      rw [Bool.eq_iff_iff, Bool.and_eq_true, decide_eq_true_eq, beq_iff_eq, decide_eq_true_eq]
      exact ⟨fun ⟨a, b⟩ => ⟨b.symm, a.symm⟩, fun ⟨a, b⟩ => ⟨b.symm, a.symm⟩⟩
    rw [e4] at e2
    by_cases hx : b = decide ((s.mem m).bytes ≤ smallAlloc) ∧ e = (s.mem m).dev
    · rw [if_pos hx, e2]; simp [hx]
    · rw [if_neg hx, e2]; simp [hx]
  · intro e
    have := h.acct e
    show s.used e = _
    rw [this, handB_none, handB_some, hb, hdv]
    have e1 : liveB s e = liveB (unlockSt s m) e + (if (s.mem m).dev = e then (s.mem m).bytes else 0) := by
      unfold liveB
      rw [hl, sum_filter_add s.live (fun h => decide (h.1 ≠ m)), hr]
      simp only [hb, hdv, List.map_cons, List.map_nil, List.sum_cons, List.sum_nil, Nat.add_zero]
    rw [e1]
    show _ = ((liveB (unlockSt s m) e + cs s e + _ + ρ e : Nat) : Int)
    congr 1; omega
  · exact h.dev
  · exact h.known

end Verif.Alloc
