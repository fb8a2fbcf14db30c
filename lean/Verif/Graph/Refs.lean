import Mathlib.Tactic.ByContra
import Verif.Graph.Clear
/-
C46: `function_reference_count`.  Model of CgVariable::insert_function_reference /
remove_function_reference (variable.cpp L1028-1043), the constructor part of `connect`
(computation_graph.cpp L25-37) and ~CgFunction (function.cpp L44-48).
-/
namespace Verif.Graph

/-- Per variable: `function_references_` (function and `FunctionReferenceInfo::count`, which starts
at 0, variable.hpp L107-110) and `function_reference_count_`. -/
structure Refs where
  entries : List (FnId × Nat) := []
  total : Nat := 0

/-- `insert_function_reference`. -/
def Refs.insert (r : Refs) (f : FnId) : Refs :=
  if f ∈ r.entries.map Prod.fst then
    { total := r.total + 1
      entries := r.entries.map (fun e => if e.1 = f then (e.1, e.2 + 1) else e) }
  else { total := r.total + 1, entries := (f, 0) :: r.entries }

/-- `remove_function_reference`. -/
def Refs.remove (r : Refs) (f : FnId) : Refs :=
  match r.entries.find? (fun e => e.1 == f) with
  | none => r
  | some e => { total := r.total - e.2, entries := r.entries.filter (fun e => e.1 ≠ f) }

/-- The program state: reference information of every variable and the inputs of the functions that
exist; `used` records the functions ever created (ghost; addresses are not reused). -/
structure RSt where
  refs : VarId → Refs := fun _ => {}
  live : List (FnId × List VarId) := []
  used : List FnId := []
  /-- ghost: functions destroyed, with their inputs -/
  dead : List (FnId × List VarId) := []

inductive ROp
  /-- a function applied to inputs (`connect`) -/
  | apply (f : FnId) (ins : List VarId)
  /-- a function object destroyed -/
  | destroy (f : FnId)

def rstep (s : RSt) : ROp → RSt
  | .apply f ins =>
    if f ∈ s.used then s
    else
      { s with refs := ins.foldl (fun m v => upd m v ((m v).insert f)) s.refs
               live := (f, ins) :: s.live
               used := f :: s.used }
  | .destroy f =>
    match s.live.find? (fun x => x.1 == f) with
    | none => s
    | some x =>
      { s with refs := x.2.foldl (fun m v => upd m v ((m v).remove f)) s.refs
               live := s.live.filter (fun y => y.1 ≠ f)
               dead := x :: s.dead }

def rrun (ops : List ROp) : RSt := ops.foldl rstep {}

/-! ### Specification -/

/-- Number of times `v` is used as an input by existing functions. -/
def liveUses (s : RSt) (v : VarId) : Nat := (s.live.map (fun x => x.2.count v)).sum

/-- Number of destroyed functions that used `v`. -/
def deadUsers (s : RSt) (v : VarId) : Nat := (s.dead.filter (fun x => decide (v ∈ x.2))).length

/-! ### Proof -/

theorem foldl_upd_other {β : Type} (g : β → β) : ∀ (l : List VarId) (m : VarId → β) (v : VarId),
    v ∉ l → l.foldl (fun m v => upd m v (g (m v))) m v = m v := by
  intro l
  induction l with
  | nil => intro m v _; rfl
  | cons a l ih =>
    intro m v hv
    simp only [List.mem_cons, not_or] at hv
    rw [List.foldl_cons, ih _ _ hv.2]
    simp [upd, hv.1]

theorem foldl_upd_iter {β : Type} (g : β → β) : ∀ (l : List VarId) (m : VarId → β) (v : VarId),
    l.foldl (fun m v => upd m v (g (m v))) m v = (List.replicate (l.count v) ()).foldl (fun b _ => g b) (m v) := by
  intro l
  induction l with
  | nil => intro m v; rfl
  | cons a l ih =>
    intro m v
    rw [List.foldl_cons, ih]
    by_cases h : a = v
    · subst h
      rw [List.count_cons_self, List.replicate_succ, List.foldl_cons]
      simp [upd]
    · rw [List.count_cons_of_ne h]
      congr 1
      simp only [upd]
      rw [if_neg (fun h' => h h'.symm)]

/-- entries of a variable describe the live functions using it -/
structure RInv (s : RSt) : Prop where
  live_nodup : (s.live.map Prod.fst).Nodup
  live_used : ∀ f, f ∈ s.live.map Prod.fst → f ∈ s.used
  keys_nodup : ∀ v, ((s.refs v).entries.map Prod.fst).Nodup
  entry : ∀ v f c, (f, c) ∈ (s.refs v).entries ↔
    ∃ ins, (f, ins) ∈ s.live ∧ ins.count v = c + 1
  total : ∀ v, (s.refs v).total = liveUses s v + deadUsers s v

theorem insert_iter (f : FnId) : ∀ (n : Nat) (r : Refs), f ∉ r.entries.map Prod.fst →
    (List.replicate n ()).foldl (fun r _ => r.insert f) r =
      if n = 0 then r else { total := r.total + n, entries := (f, n - 1) :: r.entries } := by
  intro n
  induction n with
  | zero => intro r _; rfl
  | succ n ih =>
    intro r hf
    have h1 : (List.replicate (n + 1) ()).foldl (fun (r : Refs) _ => r.insert f) r =
        ((List.replicate n ()).foldl (fun r _ => r.insert f) r).insert f := by
      rw [List.replicate_succ', List.foldl_append]
      rfl
    rw [h1, ih r hf]
    by_cases hn : n = 0
    · subst hn; simp [Refs.insert, hf]
    · rw [if_neg hn]
      simp only [Refs.insert, List.map_cons, List.mem_cons, true_or, if_true]
      have hmap : r.entries.map (fun e => if e.1 = f then (e.1, e.2 + 1) else e) = r.entries := by
        conv => rhs; rw [← List.map_id r.entries]
        apply List.map_congr_left
        intro e he
        rw [if_neg]; rfl
        rintro rfl
        exact hf (List.mem_map.mpr ⟨e, he, rfl⟩)
      rw [hmap]
      simp
      omega

theorem find_entry {l : List (FnId × Nat)} {f : FnId} {c : Nat} (hn : (l.map Prod.fst).Nodup)
    (h : (f, c) ∈ l) : l.find? (fun e => e.1 == f) = some (f, c) := by
  induction l with
  | nil => simp at h
  | cons e l ih =>
    simp only [List.map_cons, List.nodup_cons] at hn
    rcases List.mem_cons.mp h with rfl | h
    · simp
    · have : e.1 ≠ f := by
        rintro rfl; exact hn.1 (List.mem_map.mpr ⟨_, h, rfl⟩)
      rw [List.find?_cons_of_neg (by simpa using this)]
      exact ih hn.2 h

theorem remove_absent {r : Refs} {f : FnId} (h : f ∉ r.entries.map Prod.fst) : r.remove f = r := by
  unfold Refs.remove
  have : r.entries.find? (fun e => e.1 == f) = none := by
    rw [List.find?_eq_none]
    intro e he hef
    simp only [beq_iff_eq] at hef
    exact h (List.mem_map.mpr ⟨e, he, hef⟩)
  rw [this]

theorem remove_keys {r : Refs} {f : FnId} : f ∉ (r.remove f).entries.map Prod.fst := by
  by_cases h : f ∈ r.entries.map Prod.fst
  · unfold Refs.remove
    cases hf : r.entries.find? (fun e => e.1 == f) with
    | none =>
      rw [List.find?_eq_none] at hf
      obtain ⟨e, he, rfl⟩ := List.mem_map.mp h
      exact absurd (by simp) (hf e he)
    | some e =>
      simp only
      intro h
      obtain ⟨e', he', h'⟩ := List.mem_map.mp h
      rw [List.mem_filter] at he'
      simp at he'
      exact he'.2 h'
  · rw [remove_absent h]; exact h

theorem remove_iter (f : FnId) : ∀ (n : Nat) (r : Refs),
    (List.replicate n ()).foldl (fun r _ => r.remove f) r = if n = 0 then r else r.remove f := by
  intro n
  induction n with
  | zero => intro r; rfl
  | succ n ih =>
    intro r
    rw [List.replicate_succ', List.foldl_append, ih]
    simp only [List.foldl_cons, List.foldl_nil]
    by_cases hn : n = 0
    · simp [hn]
    · simp only [hn, if_false, Nat.add_eq_zero_iff, false_and]
      exact remove_absent remove_keys

theorem sum_filter_ne {l : List (FnId × List VarId)} {f : FnId} {ins : List VarId} {v : VarId}
    (hn : (l.map Prod.fst).Nodup) (h : (f, ins) ∈ l) :
    (l.map (fun x => x.2.count v)).sum =
      ins.count v + ((l.filter (fun y => y.1 ≠ f)).map (fun x => x.2.count v)).sum := by
  induction l with
  | nil => simp at h
  | cons e l ih =>
    simp only [List.map_cons, List.nodup_cons] at hn
    rcases List.mem_cons.mp h with rfl | h
    · have : l.filter (fun y => y.1 ≠ f) = l := by
        rw [List.filter_eq_self]
        intro y hy
        simp only [ne_eq, decide_not, Bool.not_eq_true', decide_eq_false_iff_not]
        rintro rfl
        exact hn.1 (List.mem_map.mpr ⟨y, hy, rfl⟩)
      rw [List.filter_cons_of_neg (by simp), this]
      simp
    · have hne : e.1 ≠ f := by
        rintro rfl; exact hn.1 (List.mem_map.mpr ⟨_, h, rfl⟩)
      rw [List.filter_cons_of_pos (by simpa using hne)]
      simp only [List.map_cons, List.sum_cons]
      rw [ih hn.2 h]
      omega

theorem live_unique {l : List (FnId × List VarId)} (hn : (l.map Prod.fst).Nodup) {f : FnId}
    {a b : List VarId} (ha : (f, a) ∈ l) (hb : (f, b) ∈ l) : a = b := by
  induction l with
  | nil => simp at ha
  | cons e l ih =>
    simp only [List.map_cons, List.nodup_cons] at hn
    rcases List.mem_cons.mp ha with rfl | ha'
    · rcases List.mem_cons.mp hb with hb | hb
      · exact (Prod.mk.inj hb).2.symm
      · exact absurd (List.mem_map.mpr ⟨_, hb, rfl⟩) hn.1
    · rcases List.mem_cons.mp hb with rfl | hb
      · exact absurd (List.mem_map.mpr ⟨(f, a), ha', rfl⟩ : f ∈ l.map Prod.fst) hn.1
      · exact ih hn.2 ha' hb

theorem rinv_step {s : RSt} (h : RInv s) (op : ROp) : RInv (rstep s op) := by
  cases op with
  | apply f ins =>
    simp only [rstep]
    split
    · exact h
    · rename_i hfu
      have hfl : f ∉ s.live.map Prod.fst := fun hf => hfu (h.live_used f hf)
      have hfe : ∀ v, f ∉ (s.refs v).entries.map Prod.fst := by
        intro v hf
        obtain ⟨⟨g, c⟩, he, hg⟩ := List.mem_map.mp hf
        simp only at hg; subst hg
        obtain ⟨ins', hl, _⟩ := (h.entry v g c).mp he
        exact hfl (List.mem_map.mpr ⟨_, hl, rfl⟩)
      have hval : ∀ v, (ins.foldl (fun m v => upd m v ((m v).insert f)) s.refs) v =
          if ins.count v = 0 then s.refs v else
            { total := (s.refs v).total + ins.count v
              entries := (f, ins.count v - 1) :: (s.refs v).entries } := by
        intro v
        rw [foldl_upd_iter (fun r : Refs => r.insert f), insert_iter f _ _ (hfe v)]
      constructor
      · simpa using ⟨by simpa using hfl, h.live_nodup⟩
      · intro g hg
        simp only [List.map_cons, List.mem_cons] at hg ⊢
        rcases hg with h' | h'
        · exact Or.inl h'
        · exact Or.inr (h.live_used g h')
      · intro v
        simp only
        rw [hval v]
        split
        · exact h.keys_nodup v
        · simp only [List.map_cons, List.nodup_cons]
          exact ⟨hfe v, h.keys_nodup v⟩
      · intro v g c
        simp only
        rw [hval v]
        constructor
        · intro hm
          split at hm
          · obtain ⟨i', hl, hc⟩ := (h.entry v g c).mp hm
            exact ⟨i', by simp [hl], hc⟩
          · rename_i hc0
            rcases List.mem_cons.mp hm with hm | hm
            · obtain ⟨rfl, rfl⟩ := Prod.mk.inj hm
              exact ⟨ins, by simp, by omega⟩
            · obtain ⟨i', hl, hc⟩ := (h.entry v g c).mp hm
              exact ⟨i', by simp [hl], hc⟩
        · rintro ⟨i', hl, hc⟩
          rcases List.mem_cons.mp hl with hl | hl
          · obtain ⟨rfl, rfl⟩ := Prod.mk.inj hl
            rw [if_neg (by omega), hc]
            simp
          · have := (h.entry v g c).mpr ⟨i', hl, hc⟩
            split
            · exact this
            · simp [this]
      · intro v
        have := h.total v
        simp only [liveUses, deadUsers, List.map_cons, List.sum_cons] at this ⊢
        rw [hval v]
        split
        · omega
        · simp only; omega
  | destroy f =>
    simp only [rstep]
    split
    · exact h
    · rename_i x hx
      have hxm := List.mem_of_find?_eq_some hx
      have hxf : x.1 = f := by simpa using List.find?_some hx
      obtain ⟨g, ins⟩ := x
      simp only at hxf
      subst hxf
      have hval : ∀ v, (ins.foldl (fun m v => upd m v ((m v).remove g)) s.refs) v =
          if ins.count v = 0 then s.refs v else (s.refs v).remove g := by
        intro v
        rw [foldl_upd_iter (fun r : Refs => r.remove g), remove_iter]
      have hrem : ∀ v, ins.count v ≠ 0 → (s.refs v).remove g =
          { total := (s.refs v).total - (ins.count v - 1)
            entries := (s.refs v).entries.filter (fun e => e.1 ≠ g) } := by
        intro v hv
        have he := (h.entry v g (ins.count v - 1)).mpr ⟨ins, hxm, by omega⟩
        unfold Refs.remove
        rw [find_entry (h.keys_nodup v) he]
      constructor
      · exact h.live_nodup.sublist (List.Sublist.map _ List.filter_sublist)
      · intro f' hf'
        apply h.live_used
        obtain ⟨y, hy, rfl⟩ := List.mem_map.mp hf'
        exact List.mem_map.mpr ⟨y, (List.mem_filter.mp hy).1, rfl⟩
      · intro v
        simp only
        rw [hval v]
        split
        · exact h.keys_nodup v
        · rename_i hv
          rw [hrem v hv]
          exact (h.keys_nodup v).sublist (List.Sublist.map _ List.filter_sublist)
      · intro v f' c
        simp only
        rw [hval v]
        have hfilt : ∀ i', (f', i') ∈ s.live.filter (fun y => y.1 ≠ g) ↔
            (f', i') ∈ s.live ∧ f' ≠ g := by
          intro i'; rw [List.mem_filter]; simp
        constructor
        · intro hm
          split at hm
          · rename_i hc0
            obtain ⟨i', hl, hc⟩ := (h.entry v f' c).mp hm
            refine ⟨i', (hfilt i').mpr ⟨hl, ?_⟩, hc⟩
            rintro rfl
            have := live_unique h.live_nodup hl hxm
            rw [this] at hc; omega
          · rename_i hv
            rw [hrem v hv] at hm
            rw [List.mem_filter] at hm
            obtain ⟨i', hl, hc⟩ := (h.entry v f' c).mp hm.1
            exact ⟨i', (hfilt i').mpr ⟨hl, by simpa using hm.2⟩, hc⟩
        · rintro ⟨i', hl, hc⟩
          obtain ⟨hl, hne⟩ := (hfilt i').mp hl
          have := (h.entry v f' c).mpr ⟨i', hl, hc⟩
          split
          · exact this
          · rename_i hv
            rw [hrem v hv, List.mem_filter]
            exact ⟨this, by simpa using hne⟩
      · intro v
        have ht := h.total v
        simp only [liveUses, deadUsers] at ht ⊢
        rw [sum_filter_ne h.live_nodup hxm] at ht
        rw [hval v]
        by_cases hv : ins.count v = 0
        · rw [if_pos hv]
          have : v ∉ ins := List.count_eq_zero.mp hv
          rw [List.filter_cons_of_neg (by simpa using this)]
          omega
        · rw [if_neg hv, hrem v hv]
          have : v ∈ ins := by
            by_contra hn; exact hv (List.count_eq_zero.mpr hn)
          rw [List.filter_cons_of_pos (by simpa using this)]
          simp only [List.length_cons]
          omega

theorem rinv_run (ops : List ROp) : RInv (rrun ops) := by
  have : ∀ s, RInv s → RInv (ops.foldl rstep s) := by
    induction ops with
    | nil => intro s h; exact h
    | cons op ops ih => intro s h; exact ih _ (rinv_step h op)
  apply this
  constructor <;> simp [liveUses, deadUsers]

/-- C46 (the part that holds). After any history of applying and destroying functions,
`function_reference_count` of a variable is the number of uses by existing functions plus the
number of destroyed functions that used it; in particular it is never below the number of uses
(which is what `forward` needs to clear buffers safely, C26), and it is exact as long as no function
using the variable was destroyed. -/
theorem refcount_partial (ops : List ROp) (v : VarId) :
    ((rrun ops).refs v).total = liveUses (rrun ops) v + deadUsers (rrun ops) v :=
  (rinv_run ops).total v

theorem refcount_lower (ops : List ROp) (v : VarId) :
    liveUses (rrun ops) v ≤ ((rrun ops).refs v).total := by
  rw [refcount_partial]; omega

/-- C46 refuted: every destroyed function leaves one reference behind, so a variable used by one
existing function has a count of 2 (and in-placing it is refused, function.cpp L81-84, and
`clear_buffer` never clears it). -/
theorem refcount_refuted :
    ((rrun [.apply 0 [7], .destroy 0, .apply 1 [7]]).refs 7).total = 2 ∧
      liveUses (rrun [.apply 0 [7], .destroy 0, .apply 1 [7]]) 7 = 1 := by decide

example : ((rrun [.apply 0 [7, 7, 3], .apply 1 [3], .destroy 0, .apply 2 [7, 3]]).refs 7).total = 2 ∧
    ((rrun [.apply 0 [7, 7, 3], .apply 1 [3], .destroy 0, .apply 2 [7, 3]]).refs 3).total = 3 := by
  decide

/-- The graphs of a program satisfy the hypothesis `RefsOk` of C26: when the functions of the graph
with inputs are the existing ones and the counts are those of the program. -/
theorem refsOk_of_run (ops : List ROp) (G : Graph)
    (hfn : ∀ f, (G.fn f).inputs ≠ [] → ((f, (G.fn f).inputs.map Prod.fst) ∈ (rrun ops).live))
    (hcnt : ∀ v, G.refCount v = ((rrun ops).refs v).total) : RefsOk G := by
  intro F v hn
  rw [hcnt, refcount_partial]
  have h := rinv_run ops
  have key : ∀ (F : List FnId) (l : List (FnId × List VarId)), F.Nodup → (l.map Prod.fst).Nodup →
      (∀ f, f ∈ F → (G.fn f).inputs ≠ [] → (f, (G.fn f).inputs.map Prod.fst) ∈ l) →
      uses G F v ≤ (l.map (fun x => x.2.count v)).sum := by
    intro F
    induction F with
    | nil => intro l _ _ _; simp [uses]
    | cons a F ih =>
      intro l hF hl hin
      rw [List.nodup_cons] at hF
      rw [uses_cons]
      by_cases ha : (G.fn a).inputs = []
      · have := ih l hF.2 hl (fun f hf => hin f (by simp [hf]))
        rw [ha]; simpa using this
      · have hal := hin a (by simp) ha
        rw [sum_filter_ne hl hal]
        have := ih (l.filter (fun y => y.1 ≠ a)) hF.2
          (hl.sublist (List.Sublist.map _ List.filter_sublist)) (by
            intro f hf hne
            rw [List.mem_filter]
            refine ⟨hin f (by simp [hf]) hne, ?_⟩
            simp only [ne_eq, decide_not, Bool.not_eq_true', decide_eq_false_iff_not]
            rintro rfl; exact hF.1 hf)
        omega
  have := key F (rrun ops).live hn h.live_nodup (fun f _ hne => hfn f hne)
  unfold liveUses
  omega

end Verif.Graph
