import Verif.Params.Lemmas3
namespace Verif.Params

/-! ### registering a list of paths one after the other -/

def putPath : List Str → Nat → Dict → Dict
  | [], _, d => d
  | [k], v, d => dset d k (.var v)
  | k :: k' :: ks, v, d => dset d k (.dict (putPath (k' :: ks) v (childDict d k)))

theorem graft_putPath {ns : List Str} {l : Str} {v : Nat} {d e : Dict} (hs : sub ns d = some e) :
    graft ns (dset e l (.var v)) d = putPath (ns ++ [l]) v d := by
  induction ns generalizing d with
  | nil => simp [sub] at hs; subst hs; rfl
  | cons n ns ih =>
    have := ih (sub_cons_child hs)
    rw [graft, this]
    cases ns <;> rfl

def putAllPaths (acc : Dict) (l : List (List Str × Nat)) : Dict :=
  l.foldl (fun acc e => putPath e.1 e.2 acc) acc

theorem dset_new {d : Dict} {k : Str} (n : Node) (h : dget d k = none) : dset d k n = d ++ [(k, n)] := by
  induction d with
  | nil => rfl
  | cons a t ih =>
    obtain ⟨a, m⟩ := a
    simp only [dget] at h
    split at h
    · simp at h
    · next e => simp [dset, e, ih h]

theorem dget_append (a b : Dict) (k : Str) : dget (a ++ b) k = (dget a k).or (dget b k) := by
  induction a with
  | nil => simp [dget]
  | cons x t ih =>
    obtain ⟨x, m⟩ := x
    simp only [List.cons_append, dget]
    split <;> simp_all

theorem dset_append_last {a : Dict} {k : Str} {n m : Node} (h : dget a k = none) :
    dset (a ++ [(k, n)]) k m = a ++ [(k, m)] := by
  induction a with
  | nil => simp [dset]
  | cons x t ih =>
    obtain ⟨x, y⟩ := x
    simp only [dget] at h
    split at h
    · simp at h
    · next e => simp [dset, e, ih h]

/-- Registering paths that all start with the new scope name `k`. -/
theorem putAllPaths_scope {acc : Dict} {k : Str} (h : dget acc k = none) (c : Dict)
    (l : List (List Str × Nat)) (hl : ∀ e ∈ l, e.1 ≠ []) :
    putAllPaths (acc ++ [(k, .dict c)]) (l.map (fun e => (k :: e.1, e.2))) =
      acc ++ [(k, .dict (putAllPaths c l))] := by
  induction l generalizing c with
  | nil => rfl
  | cons e t ih =>
    have he := hl e (by simp)
    have ih := ih (putPath e.1 e.2 c) (fun x hx => hl x (by simp [hx]))
    simp only [putAllPaths, List.map_cons, List.foldl_cons] at ih ⊢
    rw [← ih]
    congr 1
    obtain ⟨p, v⟩ := e
    cases p with
    | nil => exact absurd rfl he
    | cons a p =>
      simp only [putPath]
      rw [dset_append_last h]
      congr 4
      simp [childDict, dget_append, h, dget]

theorem putAllPaths_scope_new {acc : Dict} {k : Str} (h : dget acc k = none)
    (l : List (List Str × Nat)) (hl : ∀ e ∈ l, e.1 ≠ []) (hne : l ≠ []) :
    putAllPaths acc (l.map (fun e => (k :: e.1, e.2))) =
      acc ++ [(k, .dict (putAllPaths [] l))] := by
  cases l with
  | nil => exact absurd rfl hne
  | cons e t =>
    have he := hl e (by simp)
    have h1 := putAllPaths_scope h (putPath e.1 e.2 []) t (fun x hx => hl x (by simp [hx]))
    simp only [putAllPaths, List.map_cons, List.foldl_cons] at h1 ⊢
    rw [← h1]
    congr 1
    obtain ⟨p, v⟩ := e
    cases p with
    | nil => exact absurd rfl he
    | cons a p =>
      simp only [putPath]
      rw [dset_new _ h]
      congr 4
      simp [childDict, h]

theorem putAllPaths_append (acc : Dict) (a b) :
    putAllPaths acc (a ++ b) = putAllPaths (putAllPaths acc a) b := by
  simp [putAllPaths, List.foldl_append]

theorem strip_heads (k : Str) (E : List (List Str × Nat)) (l1 : List (List Str × Nat))
    (hl1 : l1.map Prod.fst = E.map (Prod.fst ∘ fun e => (k :: e.1, e.2))) :
    ∃ m : List (List Str × Nat), l1 = m.map (fun e => (k :: e.1, e.2)) ∧
      m.map Prod.fst = E.map Prod.fst := by
  induction E generalizing l1 with
  | nil => simp at hl1; subst hl1; exact ⟨[], rfl, rfl⟩
  | cons e E ih =>
    cases l1 with
    | nil => simp at hl1
    | cons x t =>
      simp only [List.map_cons, List.cons.injEq] at hl1
      obtain ⟨m, h1, h2⟩ := ih t hl1.2
      refine ⟨(e.1, x.2) :: m, ?_, by simp [h2]⟩
      have := hl1.1
      simp only [Function.comp] at this
      simp only [List.map_cons, ← h1, ← this]

theorem rebuild : ∀ (es : List (Str × Node)) (acc : Dict) (l : List (List Str × Nat)), WF es →
    (∀ k, dget es k ≠ none → dget acc k = none) →
    l.map Prod.fst = (entries es).map Prod.fst →
    ∃ rel, putAllPaths acc l = acc ++ rel ∧ entries rel = l ∧
      (∀ k, dget rel k ≠ none → dget es k ≠ none)
  | [], acc, l, _, _, hl => by
    simp [entries] at hl
    subst hl
    exact ⟨[], by simp [putAllPaths], by simp [entries], by simp [dget]⟩
  | (k, .var w) :: rest, acc, l, hw, hd, hl => by
    rw [WF] at hw
    cases l with
    | nil => simp [entries] at hl
    | cons e t =>
      obtain ⟨p, v⟩ := e
      simp only [entries, List.map_cons, List.cons.injEq] at hl
      obtain ⟨rfl, hl⟩ := hl
      have hk : dget acc k = none := hd k (by simp [dget])
      obtain ⟨rel, h1, h2, h3⟩ := rebuild rest (acc ++ [(k, .var v)]) t hw.2.2 (by
        intro k' hk'
        have hne : k ≠ k' := by rintro rfl; exact hk' hw.2.1
        rw [dget_append, hd k' (by simpa [dget, hne] using hk')]
        simp [dget, hne]) hl
      refine ⟨(k, .var v) :: rel, ?_, by simp [entries, h2], ?_⟩
      · simp only [putAllPaths, List.foldl_cons, putPath] at h1 ⊢
        rw [dset_new _ hk, h1]
        simp
      · intro k' hk'
        simp only [dget] at hk' ⊢
        split
        · simp
        · next hne => rw [if_neg hne] at hk'; exact h3 _ hk'
  | (k, .dict es) :: rest, acc, l, hw, hd, hl => by
    rw [WF] at hw
    obtain ⟨_, _, hes, hkr, hrest⟩ := hw
    simp only [entries, List.map_append, List.map_map] at hl
    obtain ⟨l1, l2, rfl, hl1, hl2⟩ := List.map_eq_append_iff.mp hl
    have hk : dget acc k = none := hd k (by simp [dget])
    -- strip the common head from l1
    obtain ⟨m, hm1, hm2⟩ := strip_heads k (entries es) l1 hl1
    subst hm1
    obtain ⟨rel1, r1, r2, r3⟩ := rebuild es [] m hes (by simp [dget]) hm2
    have hmne : ∀ e ∈ m, e.1 ≠ [] := by
      intro e he
      have : e.1 ∈ (entries es).map Prod.fst := by rw [← hm2]; exact List.mem_map_of_mem he
      obtain ⟨x, hx, hx'⟩ := List.mem_map.mp this
      rw [← hx']
      exact entries_ne_nil es x hx
    by_cases hm0 : m = []
    · subst hm0
      obtain ⟨rel, h1, h2, h3⟩ := rebuild rest acc l2 hrest (by
        intro k' hk'
        refine hd k' ?_
        simp only [dget]
        split
        · simp
        · exact hk') hl2
      refine ⟨rel, by simpa using h1, by simpa using h2, ?_⟩
      intro k' hk'
      simp only [dget]
      split
      · simp
      · exact h3 _ hk'
    · obtain ⟨rel, h1, h2, h3⟩ := rebuild rest (acc ++ [(k, .dict rel1)]) l2 hrest (by
        intro k' hk'
        have hne : k ≠ k' := by rintro rfl; exact hk' hkr
        rw [dget_append, hd k' (by simpa [dget, hne] using hk')]
        simp [dget, hne]) hl2
      refine ⟨(k, .dict rel1) :: rel, ?_, by simp [entries, h2, r2], ?_⟩
      · rw [putAllPaths_append, putAllPaths_scope_new hk m hmne hm0, r1, List.nil_append, h1]
        simp
      · intro k' hk'
        simp only [dget] at hk' ⊢
        split
        · simp
        · next hne => rw [if_neg hne] at hk'; exact h3 _ hk'

/-- Two registered paths are never one inside the other. -/
theorem entries_incomparable {d : Dict} (hw : WF d) :
    ((entries d).map Prod.fst).Pairwise (fun p q => ¬ p <+: q ∧ ¬ q <+: p) := by
  have hnd := entries_nodup d hw
  refine List.Pairwise.imp_of_mem ?_ hnd
  intro p q hp hq hne
  obtain ⟨⟨p', v⟩, hp', hpe⟩ := List.mem_map.mp hp
  obtain ⟨⟨q', w⟩, hq', hqe⟩ := List.mem_map.mp hq
  simp only at hpe hqe
  subst hpe hqe
  have hp := (mem_entries d hw _ _).mp hp'
  have hq := (mem_entries d hw _ _).mp hq'
  have aux : ∀ {p q : List Str} {v w : Nat}, varAt d p = some v → varAt d q = some w → p ≠ q → ¬ p <+: q := by
    intro p q v w hp hq hne
    rintro ⟨t, rfl⟩
    have : t ≠ [] := by rintro rfl; simp at hne
    rw [varAt_below hp this] at hq
    simp at hq
  exact ⟨aux hp hq hne, aux hq hp (Ne.symm hne)⟩

theorem lookup_putPath_dict {p q : List Str} {v : Nat} {d s : Dict}
    (h : lookup q (putPath p v d) = some (.dict s)) :
    q <+: p ∨ ∃ s', lookup q d = some (.dict s') := by
  induction p generalizing d q with
  | nil => exact .inr ⟨_, h⟩
  | cons a p ih =>
    cases q with
    | nil => exact .inl List.nil_prefix
    | cons b q =>
      by_cases hab : b = a
      · subst hab
        cases p with
        | nil =>
          simp only [putPath, lookup, dget_dset_self] at h
          split at h <;> simp at h
        | cons c p =>
          simp only [putPath, lookup, dget_dset_self] at h
          rcases ih h with h | ⟨s', h⟩
          · exact .inl (List.cons_prefix_cons.mpr ⟨rfl, h⟩)
          · unfold childDict at h
            split at h
            · next es hes => exact .inr ⟨s', by simp [lookup, hes, h]⟩
            · cases q with
              | nil => exact .inl (by simp)
              | cons => simp [lookup, dget] at h
      · right
        refine ⟨s, ?_⟩
        rw [← h]
        cases p with
        | nil => exact lookup_cons_congr _ (dget_dset_ne _ _ hab).symm
        | cons => exact lookup_cons_congr _ (dget_dset_ne _ _ hab).symm

/-! ### order of registration -/

theorem entries_append : ∀ (a b : List (Str × Node)), entries (a ++ b) = entries a ++ entries b
  | [], b => by simp [entries]
  | (k, .var v) :: t, b => by
    rw [List.cons_append, entries, entries, entries_append t b, List.cons_append]
  | (k, .dict es) :: t, b => by
    rw [List.cons_append, entries, entries, entries_append t b, List.append_assoc]

theorem dget_split {d : Dict} {k : Str} {n : Node} (h : dget d k = some n) :
    ∃ a b, d = a ++ (k, n) :: b ∧ (∀ m, dset d k m = a ++ (k, m) :: b) ∧ dget a k = none := by
  induction d with
  | nil => simp [dget] at h
  | cons x t ih =>
    obtain ⟨x, y⟩ := x
    simp only [dget] at h
    split at h
    · next e =>
      simp at h
      subst e h
      exact ⟨[], t, rfl, fun m => by simp [dset], rfl⟩
    · next e =>
      obtain ⟨a, b, h1, h2, h3⟩ := ih h
      refine ⟨(x, y) :: a, b, by simp [h1], fun m => by simp [dset, e, h2], by simp [dget, e, h3]⟩

theorem WF_append_right {a b : Dict} (h : WF (a ++ b)) : WF b := by
  induction a with
  | nil => exact h
  | cons x t ih =>
    obtain ⟨x, y⟩ := x
    rw [List.cons_append, WF_cons] at h
    exact ih h.2.2

theorem entries_not_under {b : Dict} {k : Str} (h : dget b k = none) :
    ∀ e ∈ entries b, ∀ q, ¬ (k :: q) <+: e.1 := by
  intro e he q hq
  obtain ⟨a, t, n, h1, h2⟩ := entries_head b e he
  rw [h1, List.cons_prefix_cons] at hq
  rw [← hq.1, h] at h2
  simp at h2

theorem entries_putPath_new {p : List Str} {v : Nat} {d : Dict} (hp : p ≠ []) (hw : WF d)
    (hnb : ¬ Blocked d p) (hl : lookup p d = none) :
    ∃ l1 l2, entries d = l1 ++ l2 ∧ entries (putPath p v d) = l1 ++ (p, v) :: l2 ∧
      ∀ e ∈ l2, ¬ p.dropLast <+: e.1 := by
  induction p generalizing d with
  | nil => exact absurd rfl hp
  | cons k p ih =>
    cases p with
    | nil =>
      rw [lookup_singleton] at hl
      refine ⟨entries d, [], by simp, ?_, by simp⟩
      simp [putPath, dset_new _ hl, entries_append, entries]
    | cons k' p =>
      have hnb' : ¬ Blocked (childDict d k) (k' :: p) := by
        rintro ⟨q, w, h1, h2, h3⟩
        apply hnb
        refine ⟨k :: q, w, by simpa [List.cons_prefix_cons] using h1, by simpa using h2, ?_⟩
        unfold childDict at h3
        split at h3
        · next es hes => simpa [varAt, lookup, hes] using h3
        · cases q <;> simp [varAt, lookup, dget] at h3
      have hl' : lookup (k' :: p) (childDict d k) = none := by
        unfold childDict
        split
        · next es hes => simpa [lookup, hes] using hl
        · simp [lookup, dget]
      have hwc : WF (childDict d k) := by
        unfold childDict
        split
        · next es hes => exact (WF_dget hw hes).2.2
        · exact WF_nil
      obtain ⟨m1, m2, e1, e2, e3⟩ := ih (d := childDict d k) (by simp) hwc hnb' hl'
      cases hg : dget d k with
      | none =>
        have hc : childDict d k = [] := by simp [childDict, hg]
        rw [hc] at e1 e2
        simp only [entries] at e1
        have := List.append_eq_nil_iff.mp e1.symm
        refine ⟨entries d, [], by simp, ?_, by simp⟩
        rw [putPath, dset_new _ hg, entries_append, hc]
        simp [entries, e2, this.1, this.2]
      | some n =>
        cases n with
        | var w =>
          exfalso
          exact hnb ⟨[k], w, by simp, by simp, by simp [varAt, lookup, hg]⟩
        | dict s =>
          have hc : childDict d k = s := by simp [childDict, hg]
          rw [hc] at e1 e2
          obtain ⟨a, b, h1, h2, h3⟩ := dget_split hg
          have hb : dget b k = none := by
            rw [h1] at hw
            exact ((WF_cons _ _ _).mp (WF_append_right hw)).2.1
          refine ⟨entries a ++ m1.map (fun e => (k :: e.1, e.2)),
            m2.map (fun e => (k :: e.1, e.2)) ++ entries b, ?_, ?_, ?_⟩
          · rw [h1, entries_append, entries, e1]; simp
          · rw [putPath, h2, hc, entries_append, entries, e2]; simp
          · intro e he
            rw [List.mem_append] at he
            rcases he with he | he
            · obtain ⟨x, hx, rfl⟩ := List.mem_map.mp he
              simp only [List.dropLast_cons_cons, List.cons_prefix_cons, true_and]
              exact e3 x hx
            · simp only [List.dropLast_cons_cons]
              exact entries_not_under hb e he _

theorem entries_putPath_old {p : List Str} {v w : Nat} {d : Dict} (hw : WF d)
    (hl : varAt d p = some w) :
    entries (putPath p v d) = (entries d).map (fun e => if e.1 = p then (e.1, v) else e) := by
  induction p generalizing d with
  | nil => simp [varAt, lookup] at hl
  | cons k p ih =>
    have fix : ∀ (l : List (List Str × Nat)) (q : List Str), (∀ e ∈ l, ¬ (k :: q) <+: e.1) →
        l.map (fun e => if e.1 = k :: q then (e.1, v) else e) = l := by
      intro l q h
      conv => rhs; rw [← List.map_id l]
      apply List.map_congr_left
      intro e he
      rw [if_neg]
      · rfl
      · intro heq; exact h e he (heq ▸ List.prefix_refl _)
    cases hg : dget d k with
    | none => simp [varAt, lookup, hg] at hl
    | some n =>
      obtain ⟨a, b, h1, h2, h3⟩ := dget_split hg
      have hb : dget b k = none := by
        rw [h1] at hw
        exact ((WF_cons _ _ _).mp (WF_append_right hw)).2.1
      have fa := fun q => fix (entries a) q (fun e he => entries_not_under h3 e he q)
      have fb := fun q => fix (entries b) q (fun e he => entries_not_under hb e he q)
      cases n with
      | var u =>
        cases p with
        | cons k' p => simp [varAt, lookup, hg] at hl
        | nil =>
          rw [putPath, h2, entries_append, entries]
          conv => rhs; rw [h1, entries_append, entries, List.map_append, List.map_cons, fa, fb]
          simp
      | dict s =>
        cases p with
        | nil => simp [varAt, lookup, hg] at hl
        | cons k' p =>
          have hs : varAt s (k' :: p) = some w := by simpa [varAt, lookup, hg] using hl
          have hc : childDict d k = s := by simp [childDict, hg]
          have := ih (WF_dget hw hg).2.2 hs
          rw [putPath, h2, hc, entries_append, entries, this]
          conv => rhs; rw [h1, entries_append, entries, List.map_append, List.map_append, fa, fb]
          congr 2
          simp only [List.map_map]
          apply List.map_congr_left
          intro e _
          simp only [Function.comp, List.cons.injEq, true_and]
          split <;> simp

theorem set_putPath {σ : Type} (k : Str) (v : Nat) (s : σ) {d : Dict} (h : ¬ Blocked d (path k)) :
    (setParameter k v (s, d)).2.2 = putPath (path k) v d := by
  obtain ⟨_, _, e, h3, h4⟩ := (set_spec k v s d).2 h
  obtain ⟨ns, l, hp, hp1, hp2, _⟩ := path_split k
  rw [hp1] at h3
  rw [h4, hp1, hp2, graft_putPath h3, hp]

/-! ### loading a list of saved parameters -/

section
variable {β : Type} (zeros : List Nat → β)

/-- Everything registered so far is in `done`; every scope lies above something in `done`. -/
def Built (acc : Dict) (done : List (List Str)) : Prop :=
  (∀ q v, varAt acc q = some v → q ∈ done) ∧
  (∀ q s, lookup q acc = some (.dict s) → q = [] ∨ ∃ r ∈ done, q <+: r)

theorem load_spec (L : List (Saved β)) (acc : Dict) (done : List (List Str)) (h0 : Heap β)
    (hb : Built acc done)
    (hinc : (done ++ L.map (fun s => path s.name)).Pairwise (fun p q => ¬ p <+: q ∧ ¬ q <+: p)) :
    ∃ ids h', loadParameters zeros L (h0, acc) =
        (.ok (), (h', putAllPaths acc ((L.map (fun s => path s.name)).zip ids))) ∧
      ids.length = L.length ∧
      (∀ s v, (s, v) ∈ L.zip ids → readVar h' s.name v = some s) ∧
      (∀ n v s, readVar h0 n v = some s → readVar h' n v = some s) := by
  induction L generalizing acc done h0 with
  | nil => exact ⟨[], h0, rfl, rfl, by simp, fun _ _ _ h => h⟩
  | cons x L ih =>
    have hx : ∀ r ∈ done, ¬ r <+: path x.name ∧ ¬ path x.name <+: r := by
      intro r hr
      rw [List.pairwise_append] at hinc
      exact hinc.2.2 r hr _ (by simp)
    have hnb : ¬ Blocked acc (path x.name) := by
      rintro ⟨q, v, h1, h2, h3⟩
      exact (hx q (hb.1 q v h3)).1 h1
    have hlk : lookup (path x.name) acc = none := by
      cases hl : lookup (path x.name) acc with
      | none => rfl
      | some n => cases n with
        | var v =>
          have := hb.1 (path x.name) v (by simp [varAt, hl])
          exact absurd (List.prefix_refl _) (hx _ this).1
        | dict s =>
          rcases hb.2 _ _ hl with h | ⟨r, hr, h⟩
          · exact absurd h (path_ne_nil _)
          · exact absurd h (hx r hr).2
    obtain ⟨d0, d1, _, hd1, ⟨e, he, hd1'⟩, hgo⟩ :=
      goc_new zeros x.name (some x.shape) .none x.needGrad none (h := h0) hnb hlk
    obtain ⟨ns, l, hp, hp1, hp2, _⟩ := path_split x.name
    rw [hp1] at he hd1'
    rw [hp2] at hd1'
    rw [graft_putPath he, ← hp] at hd1'
    simp only [createByInit, newVar] at hgo
    simp only [loadParameters, hgo]
    -- the heap after the step
    generalize hh : writeVar _ _ _ = h1
    have hh1 : h1 = Heap.mk (h0.vars ++ [⟨h0.bufs.length, x.needGrad⟩] ++
          [⟨h0.bufs.length, if h0.noGrad then false else x.needGrad⟩])
        (h0.bufs ++ [⟨x.shape, x.data⟩]) h0.noGrad := by
      rw [← hh]
      simp [writeVar, List.getElem?_append]
    have hbuilt : Built d1 (done ++ [path x.name]) := by
      refine ⟨fun q v hq => ?_, fun q s hq => ?_⟩
      · rw [hd1] at hq
        split at hq
        · next h => simp [h]
        · simp [hb.1 q v hq]
      · rw [hd1'] at hq
        rcases lookup_putPath_dict hq with h | ⟨s', h⟩
        · exact .inr ⟨path x.name, by simp, h⟩
        · rcases hb.2 _ _ h with h | ⟨r, hr, h⟩
          · exact .inl h
          · exact .inr ⟨r, by simp [hr], h⟩
    obtain ⟨ids, h', r1, r2, r3, r4⟩ := ih d1 (done ++ [path x.name]) h1 hbuilt (by simpa using hinc)
    refine ⟨h0.vars.length :: ids, h', ?_, by simp [r2], ?_, ?_⟩
    · rw [r1, hd1']
      simp [putAllPaths]
    · intro s v hm
      simp only [List.zip_cons_cons, List.mem_cons, Prod.mk.injEq] at hm
      rcases hm with ⟨rfl, rfl⟩ | hm
      · apply r4
        simp [readVar, hh1]
      · exact r3 s v hm
    · intro n v s hr
      apply r4
      simp only [readVar] at hr ⊢
      cases hv : h0.vars[v]? with
      | none => simp [hv] at hr
      | some r =>
        simp only [hv] at hr
        cases hbf : h0.bufs[r.buf]? with
        | none => simp [hbf] at hr
        | some b =>
          simp only [hbf] at hr
          have hv1 := (List.getElem?_eq_some_iff.mp hv).1
          have hb1 := (List.getElem?_eq_some_iff.mp hbf).1
          have e1 : h1.vars[v]? = some r := by
            rw [hh1]; simp only [List.append_assoc]
            rw [List.getElem?_append_left hv1, hv]
          have e2 : h1.bufs[r.buf]? = some b := by
            rw [hh1]; dsimp only; rw [List.getElem?_append_left hb1, hbf]
          simp only [e1, e2]
          exact hr

end

end Verif.Params
