import Verif.ModuleTree.Spec
namespace Verif.ModuleTree
open Verif.Params

/-! ### keys -/

theorem keyOf_nil (p : List Str) : keyOf [] p = join p := rfl

theorem join_cons {a : Str} {l : List Str} (h : l ≠ []) : join (a :: l) = a ++ '/' :: join l := by
  cases l with
  | nil => exact absurd rfl h
  | cons b t => rfl

theorem keyOf_cons (n : Str) (ms : List Str) {p : List Str} (hp : p ≠ []) :
    keyOf (n :: ms) p = '@' :: n ++ '/' :: keyOf ms p := by
  unfold keyOf
  rw [List.map_cons, List.cons_append, join_cons (by simp [hp])]

theorem cut_noslash {n : Str} (h : '/' ∉ n) (k : Str) : cut (n ++ '/' :: k) = some (n, k) := by
  induction n with
  | nil => simp [cut]
  | cons c cs ih =>
    simp only [List.mem_cons, not_or] at h
    rw [List.cons_append, cut, if_neg (Ne.symm h.1), ih h.2]
    rfl

theorem keyOf_ne_nil {ms p : List Str} (hp : p ≠ []) (h : ∀ a rest, p = a :: rest → a ≠ []) :
    keyOf ms p ≠ [] := by
  cases ms with
  | nil =>
    cases p with
    | nil => exact absurd rfl hp
    | cons a rest =>
      have := h a rest rfl
      rw [keyOf_nil]
      cases rest with
      | nil => exact this
      | cons b t => simp [join]
  | cons n ms => rw [keyOf_cons _ _ hp]; simp

theorem varAt_ne_nil {d : Dict} {p : List Str} {v : Nat} (h : varAt d p = some v) : p ≠ [] := by
  rintro rfl; simp [varAt_nil] at h

/-- Components of a registered path. -/
theorem varAt_comps {d : Dict} (hw : WF d) {p : List Str} {v : Nat} (h : varAt d p = some v) :
    (∀ n ∈ p, '/' ∉ n) ∧ (∀ n ∈ p.dropLast, n ≠ []) :=
  entries_comps d hw _ ((mem_entries d hw p v).mpr h)

theorem not_blocked {d : Dict} {p : List Str} {v : Nat} (h : varAt d p = some v) : ¬ Blocked d p := by
  rintro ⟨q, w, ⟨t, rfl⟩, hne, hq⟩
  have : t ≠ [] := by rintro rfl; simp at hne
  rw [varAt_below hq this] at h
  simp at h

theorem lookup_sub {subs : List (Str × MTree)} (hn : (subs.map Prod.fst).Nodup) {n : Str} {m : MTree}
    (hm : (n, m) ∈ subs) (raise : Bool) (k : Str) (v : Nat) (h : PHeap) :
    setSub raise subs n k v h = setParam raise m k v h := by
  induction subs with
  | nil => simp at hm
  | cons e rest ih =>
    obtain ⟨n', m'⟩ := e
    simp only [List.map_cons, List.nodup_cons] at hn
    rw [setSub]
    rcases List.mem_cons.mp hm with he | he
    · cases he; rw [if_pos rfl]
    · rw [if_neg, ih hn.2 he]
      rintro rfl
      exact hn.1 (List.mem_map.mpr ⟨_, he, rfl⟩)

theorem own_scope {d : Dict} (hw : WFScope d) {p : List Str} {u : Nat} (hv : varAt d p = some u) (w : Nat) :
    setParameter (join p) w ((), d) = (.ok (), ((), putPath p w d)) := by
  have hc := varAt_comps hw.1 hv
  have hp : path (join p) = p := path_join (varAt_ne_nil hv) hc.1 hc.2
  have hb : ¬ Blocked d (path (join p)) := by rw [hp]; exact not_blocked hv
  have h1 := (set_spec (join p) w () d).2 hb
  have h2 := set_putPath (join p) w () hb
  rw [hp] at h2
  exact Prod.ext h1.1 (Prod.ext h1.2.1 h2)

theorem setParam_reach (raise : Bool) {t : MTree} {ms : List Str} {m : MTree} (hr : Reach t ms m)
    (ht : WFTree t) {h : PHeap} (hw : WFScope (h m.id)) {p : List Str} {u : Nat}
    (hv : varAt (h m.id) p = some u) (w : Nat) :
    setParam raise t (keyOf ms p) w h = (.ok (), hput h m.id (putPath p w (h m.id))) := by
  induction hr with
  | here t =>
    obtain ⟨i, subs⟩ := t
    rw [keyOf_nil, setParam.eq_def]
    have hnot : ∀ rest, join p ≠ '@' :: rest := by
      intro rest he
      obtain ⟨a, l, hp⟩ := List.exists_cons_of_ne_nil (varAt_ne_nil hv)
      have := hw.2 p u hv a l hp
      subst hp
      apply this.2
      have hhead : (join (a :: l)).head? = a.head? := by
        cases l with
        | nil => rfl
        | cons b t =>
          rw [join_cons (by simp)]
          cases a with
          | nil => exact absurd rfl this.1
          | cons c cs => rfl
      rw [← hhead, he]; rfl
    simp only
    simp only [MTree.id] at hw hv ⊢
    rw [own_scope hw hv w]
  | @step i subs n m' ms m'' hm hr ih =>
    cases ht with
    | node hs hn ht =>
      have hne := varAt_ne_nil hv
      rw [keyOf_cons _ _ hne, setParam.eq_def]
      simp only [List.cons_append, cut_noslash (hs _ hm)]
      rw [if_neg (keyOf_ne_nil hne (fun a rest hp => (hw.2 p u hv a rest hp).1)), lookup_sub hn hm]
      exact ih (ht _ hm) hw hv

/-! ### listing -/

/-- `filter_and_update` on any keyed list. -/
def dd {α : Type} : List (α × Nat) → List Nat → List (α × Nat) × List Nat
  | [], memo => ([], memo)
  | (k, v) :: rest, memo =>
    if memo.contains v then dd rest memo
    else ((k, v) :: (dd rest (v :: memo)).1, (dd rest (v :: memo)).2)

theorem filterAndUpdate_eq (l : List (Str × Nat)) (memo : List Nat) : filterAndUpdate l memo = dd l memo := by
  induction l generalizing memo with
  | nil => rfl
  | cons e rest ih =>
    obtain ⟨k, v⟩ := e
    simp only [filterAndUpdate, dd, ih]

theorem dd_append {α : Type} (a b : List (α × Nat)) (memo : List Nat) :
    dd (a ++ b) memo = ((dd a memo).1 ++ (dd b (dd a memo).2).1, (dd b (dd a memo).2).2) := by
  induction a generalizing memo with
  | nil => rfl
  | cons e rest ih =>
    obtain ⟨k, v⟩ := e
    simp only [List.cons_append, dd]
    by_cases hm : memo.contains v
    · simp only [if_pos hm, ih]
    · simp only [if_neg hm, ih, List.cons_append]

theorem dd_map {α β : Type} (f : α → β) (l : List (α × Nat)) (memo : List Nat) :
    dd (l.map (fun e => (f e.1, e.2))) memo = ((dd l memo).1.map (fun e => (f e.1, e.2)), (dd l memo).2) := by
  induction l generalizing memo with
  | nil => rfl
  | cons e rest ih =>
    obtain ⟨k, v⟩ := e
    simp only [List.map_cons, dd]
    by_cases hm : memo.contains v
    · simp only [if_pos hm, ih]
    · simp only [if_neg hm, ih, List.map_cons]

theorem dd_sublist {α : Type} (l : List (α × Nat)) (memo : List Nat) : ((dd l memo).1).Sublist l := by
  induction l generalizing memo with
  | nil => exact List.Sublist.refl _
  | cons e rest ih =>
    obtain ⟨k, v⟩ := e
    rw [dd]
    by_cases hm : memo.contains v
    · rw [if_pos hm]; exact (ih memo).cons _
    · rw [if_neg hm]; exact (ih _).cons_cons _

theorem dd_vals {α : Type} (l : List (α × Nat)) (memo : List Nat) :
    (((dd l memo).1).map Prod.snd).Nodup ∧
    (∀ v, v ∈ ((dd l memo).1).map Prod.snd ↔ v ∈ l.map Prod.snd ∧ v ∉ memo) := by
  induction l generalizing memo with
  | nil => simp [dd]
  | cons e rest ih =>
    obtain ⟨k, v⟩ := e
    rw [dd]
    by_cases hm : memo.contains v
    · rw [if_pos hm]
      refine ⟨(ih memo).1, fun x => ?_⟩
      rw [(ih memo).2, List.map_cons, List.mem_cons]
      have hv : v ∈ memo := by simpa using hm
      constructor
      · rintro ⟨h1, h2⟩; exact ⟨Or.inr h1, h2⟩
      · rintro ⟨h1 | h1, h2⟩
        · exact absurd (h1 ▸ hv) h2
        · exact ⟨h1, h2⟩
    · rw [if_neg hm]
      have hv : v ∉ memo := by simpa using hm
      obtain ⟨i1, i2⟩ := ih (v :: memo)
      refine ⟨?_, fun x => ?_⟩
      · simp only [List.map_cons, List.nodup_cons]
        refine ⟨fun h => ?_, i1⟩
        exact ((i2 v).mp h).2 (by simp)
      · simp only [List.map_cons, List.mem_cons]
        rw [i2]
        constructor
        · rintro (h | ⟨h1, h2⟩)
          · exact ⟨Or.inl h, h ▸ hv⟩
          · exact ⟨Or.inr h1, fun hx => h2 (by simp [hx])⟩
        · rintro ⟨h1 | h1, h2⟩
          · exact Or.inl h1
          · by_cases hx : x = v
            · exact Or.inl hx
            · exact Or.inr ⟨h1, by simp [hx, h2]⟩

mutual
/-- Every parameter location below a module: (module path, parameter path), submodules first. -/
def locs (keep : Nat → Bool) (h : PHeap) : MTree → List ((List Str × List Str) × Nat)
  | .node i subs =>
    locsSubs keep h subs ++ ((entries (h i)).filter (fun e => keep e.2)).map (fun e => (([], e.1), e.2))
def locsSubs (keep : Nat → Bool) (h : PHeap) : List (Str × MTree) → List ((List Str × List Str) × Nat)
  | [] => []
  | (n, m) :: rest => (locs keep h m).map (fun e => ((n :: e.1.1, e.1.2), e.2)) ++ locsSubs keep h rest
end

/-- Well-formed tree with well-formed scopes. -/
def Good (h : PHeap) (t : MTree) : Prop :=
  WFTree t ∧ ∀ ms m, Reach t ms m → WFScope (h m.id)

theorem Good.sub {h : PHeap} {i : Nat} {subs : List (Str × MTree)} (hg : Good h (.node i subs))
    {n : Str} {m : MTree} (hm : (n, m) ∈ subs) : Good h m := by
  obtain ⟨h1, h2⟩ := hg
  cases h1 with
  | node a b c => exact ⟨c _ hm, fun ms m' hr => h2 _ m' (.step hm hr)⟩

mutual
theorem mem_locs (keep : Nat → Bool) (h : PHeap) : ∀ (t : MTree), Good h t → ∀ ms p v,
    ((ms, p), v) ∈ locs keep h t ↔ Lives h t ms p v ∧ keep v
  | .node i subs, hg, ms, p, v => by
    have hs := mem_locsSubs keep h subs (fun n m hm => hg.sub hm) ms p v
    have hw := (hg.2 [] _ (.here _)).1
    simp only [locs, List.mem_append, hs, List.mem_map, List.mem_filter]
    constructor
    · rintro (⟨n, m, ms', hm, rfl, ⟨m', hr, hv⟩, hk⟩ | ⟨⟨q, w⟩, ⟨he, hk⟩, heq⟩)
      · exact ⟨⟨m', .step hm hr, hv⟩, hk⟩
      · simp only [Prod.mk.injEq] at heq
        obtain ⟨⟨rfl, rfl⟩, rfl⟩ := heq
        exact ⟨⟨_, .here _, (mem_entries _ hw _ _).mp he⟩, hk⟩
    · rintro ⟨⟨m', hr, hv⟩, hk⟩
      cases hr with
      | here => exact Or.inr ⟨(p, v), ⟨(mem_entries _ hw _ _).mpr hv, hk⟩, rfl⟩
      | step hm hr => exact Or.inl ⟨_, _, _, hm, rfl, ⟨m', hr, hv⟩, hk⟩
theorem mem_locsSubs (keep : Nat → Bool) (h : PHeap) : ∀ (subs : List (Str × MTree)),
    (∀ n m, (n, m) ∈ subs → Good h m) → ∀ ms p v,
    (((ms, p), v) ∈ locsSubs keep h subs ↔
      ∃ n m ms', (n, m) ∈ subs ∧ ms = n :: ms' ∧ Lives h m ms' p v ∧ keep v)
  | [], _, ms, p, v => by simp [locsSubs]
  | (n, m) :: rest, hg, ms, p, v => by
    have h1 := mem_locs keep h m (hg n m (by simp))
    have h2 := mem_locsSubs keep h rest (fun n m hm => hg n m (by simp [hm])) ms p v
    simp only [locsSubs, List.mem_append, h2, List.mem_map]
    constructor
    · rintro (⟨⟨⟨ms', p'⟩, v'⟩, he, heq⟩ | ⟨n', m', ms', hm, h3⟩)
      · simp only [Prod.mk.injEq] at heq
        obtain ⟨⟨rfl, rfl⟩, rfl⟩ := heq
        exact ⟨n, m, ms', by simp, rfl, (h1 _ _ _).mp he⟩
      · exact ⟨n', m', ms', by simp [hm], h3⟩
    · rintro ⟨n', m', ms', hm, rfl, h3⟩
      rcases List.mem_cons.mp hm with he | he
      · cases he
        exact Or.inl ⟨((ms', p), v), (h1 _ _ _).mpr h3, rfl⟩
      · exact Or.inr ⟨n', m', ms', he, rfl, h3⟩
end

mutual
theorem locs_nodup (keep : Nat → Bool) (h : PHeap) : ∀ (t : MTree), Good h t →
    ((locs keep h t).map Prod.fst).Nodup
  | .node i subs, hg => by
    have hn : (subs.map Prod.fst).Nodup := by cases hg.1 with | node a b c => exact b
    have hs := locsSubs_nodup keep h subs hn (fun n m hm => hg.sub hm)
    have hw := (hg.2 [] _ (.here _)).1
    rw [locs, List.map_append, List.nodup_append]
    refine ⟨hs, ?_, ?_⟩
    · rw [List.map_map]
      have := entries_nodup _ hw
      rw [List.Nodup, List.pairwise_map] at this ⊢
      refine (this.filter _).imp ?_
      intro a b hab heq
      simp only [Function.comp, Prod.mk.injEq, true_and] at heq
      exact hab heq
    · intro a ha b hb heq
      subst heq
      obtain ⟨⟨⟨ms, p⟩, v⟩, he, rfl⟩ := List.mem_map.mp ha
      obtain ⟨n, m, ms', hm, rfl, _⟩ := (mem_locsSubs keep h subs (fun n m hm => hg.sub hm) ms p v).mp he
      obtain ⟨e, he', heq⟩ := List.mem_map.mp hb
      obtain ⟨x, hx, rfl⟩ := List.mem_map.mp he'
      simp at heq
theorem locsSubs_nodup (keep : Nat → Bool) (h : PHeap) : ∀ (subs : List (Str × MTree)),
    (subs.map Prod.fst).Nodup → (∀ n m, (n, m) ∈ subs → Good h m) →
    ((locsSubs keep h subs).map Prod.fst).Nodup
  | [], _, _ => by simp [locsSubs]
  | (n, m) :: rest, hn, hg => by
    simp only [List.map_cons, List.nodup_cons] at hn
    have h1 := locs_nodup keep h m (hg n m (by simp))
    have hg' : ∀ n m, (n, m) ∈ rest → Good h m := fun n m hm => hg n m (by simp [hm])
    have h2 := locsSubs_nodup keep h rest hn.2 hg'
    rw [locsSubs, List.map_append, List.nodup_append]
    refine ⟨?_, h2, ?_⟩
    · rw [List.map_map]
      rw [List.Nodup, List.pairwise_map] at h1 ⊢
      refine h1.imp ?_
      intro a b hab heq
      simp only [Function.comp, Prod.mk.injEq, List.cons.injEq, true_and] at heq
      exact hab (Prod.ext heq.1 heq.2)
    · intro a ha b hb heq
      subst heq
      obtain ⟨e, he', rfl⟩ := List.mem_map.mp ha
      obtain ⟨x, hx, rfl⟩ := List.mem_map.mp he'
      obtain ⟨⟨⟨ms, p⟩, v⟩, he, heq⟩ := List.mem_map.mp hb
      obtain ⟨n', m', ms', hm, rfl, _⟩ := (mem_locsSubs keep h rest hg' ms p v).mp he
      simp only [Prod.mk.injEq, List.cons.injEq] at heq
      obtain ⟨⟨rfl, _⟩, _⟩ := heq
      exact hn.1 (List.mem_map.mpr ⟨_, hm, rfl⟩)
end

/-- Names of well-formed locations determine the location. -/
theorem keyOf_inj {ms ms' p p' : List Str} (hms : ∀ n ∈ ms, '/' ∉ n) (hms' : ∀ n ∈ ms', '/' ∉ n)
    (hp : p ≠ []) (hp' : p' ≠ []) (hc : ∀ n ∈ p, '/' ∉ n) (hc' : ∀ n ∈ p', '/' ∉ n)
    (ha : ∀ a rest, p = a :: rest → a.head? ≠ some '@') (ha' : ∀ a rest, p' = a :: rest → a.head? ≠ some '@')
    (h : keyOf ms p = keyOf ms' p') : ms = ms' ∧ p = p' := by
  have aux : ∀ {ms p : List Str}, (∀ n ∈ ms, '/' ∉ n) → (∀ n ∈ p, '/' ∉ n) →
      ∀ n ∈ ms.map ('@' :: ·) ++ p, '/' ∉ n := by
    intro ms p h1 h2 n hn
    rcases List.mem_append.mp hn with hn | hn
    · obtain ⟨x, hx, rfl⟩ := List.mem_map.mp hn
      simp [h1 x hx]
    · exact h2 n hn
  have hl := join_inj (by simp [hp]) (by simp [hp']) (aux hms hc) (aux hms' hc') h
  clear h aux
  induction ms generalizing ms' with
  | nil =>
    cases ms' with
    | nil => exact ⟨rfl, by simpa using hl⟩
    | cons n ms' =>
      exact absurd (by simp) (ha ('@' :: n) _ (by simpa using hl))
  | cons m ms ih =>
    cases ms' with
    | nil => exact absurd (by simp) (ha' ('@' :: m) _ (by simpa using hl.symm))
    | cons n ms' =>
      simp only [List.map_cons, List.cons_append, List.cons.injEq, true_and] at hl
      have := ih (fun x hx => hms x (by simp [hx])) (fun x hx => hms' x (by simp [hx])) hl.2
      exact ⟨by rw [hl.1, this.1], this.2⟩

theorem reach_noslash {t m : MTree} {ms : List Str} (hr : Reach t ms m) (ht : WFTree t) : ∀ n ∈ ms, '/' ∉ n := by
  induction hr with
  | here => simp
  | step hm hr ih =>
    cases ht with
    | node a b c =>
      intro x hx
      rcases List.mem_cons.mp hx with rfl | hx
      · exact a _ hm
      · exact ih (c _ hm) x hx

theorem lives_inj {h : PHeap} {t : MTree} (hg : Good h t) {ms ms' p p' : List Str} {v v' : Nat}
    (h1 : Lives h t ms p v) (h2 : Lives h t ms' p' v') (hk : keyOf ms p = keyOf ms' p') : ms = ms' ∧ p = p' := by
  obtain ⟨m1, r1, v1⟩ := h1
  obtain ⟨m2, r2, v2⟩ := h2
  have w1 := hg.2 _ _ r1
  have w2 := hg.2 _ _ r2
  exact keyOf_inj (reach_noslash r1 hg.1) (reach_noslash r2 hg.1) (varAt_ne_nil v1) (varAt_ne_nil v2)
    (varAt_comps w1.1 v1).1 (varAt_comps w2.1 v2).1 (fun a r e => (w1.2 _ _ v1 a r e).2)
    (fun a r e => (w2.2 _ _ v2 a r e).2) hk

def keyed (l : List ((List Str × List Str) × Nat)) : List (Str × Nat) :=
  l.map (fun e => (keyOf e.1.1 e.1.2, e.2))

theorem locs_keys_nodup (keep : Nat → Bool) {h : PHeap} {t : MTree} (hg : Good h t) :
    ((keyed (locs keep h t)).map Prod.fst).Nodup := by
  have hn := locs_nodup keep h t hg
  rw [keyed, List.map_map, List.Nodup, List.pairwise_map]
  rw [List.Nodup, List.pairwise_map] at hn
  refine List.Pairwise.imp_of_mem ?_ hn
  intro a b ha hb hab hk
  obtain ⟨⟨ms, p⟩, v⟩ := a
  obtain ⟨⟨ms', p'⟩, v'⟩ := b
  have := lives_inj hg ((mem_locs keep h t hg _ _ _).mp ha).1 ((mem_locs keep h t hg _ _ _).mp hb).1 hk
  exact hab (Prod.ext this.1 this.2)

theorem pupdate_eq (params new : List (Str × Nat)) (h : ((params ++ new).map Prod.fst).Nodup) :
    pupdate params new = params ++ new := by
  induction new generalizing params with
  | nil => simp [pupdate]
  | cons e rest ih =>
    obtain ⟨k, v⟩ := e
    have hk : k ∉ params.map Prod.fst := by
      rw [List.map_append, List.nodup_append] at h
      intro hk
      exact h.2.2 k hk k (by simp) rfl
    have : pupdate params ((k, v) :: rest) = pupdate (params ++ [(k, v)]) rest := by
      simp only [pupdate, List.foldl_cons]
      rw [pset_new v hk]
    rw [this, ih _ (by simpa using h)]
    simp

theorem insertParentName_eq (n : Str) {l : List (Str × Nat)} (h : (l.map Prod.fst).Nodup) :
    insertParentName n l = l.map (fun e => ('@' :: n ++ '/' :: e.1, e.2)) := by
  have h1 : insertParentName n l = pupdate [] (l.map (fun e => ('@' :: n ++ '/' :: e.1, e.2))) := by
    simp only [insertParentName, pupdate, List.foldl_map]
  rw [h1, pupdate_eq]
  · simp
  · rw [List.nil_append, List.map_map]
    rw [List.Nodup, List.pairwise_map] at h ⊢
    refine h.imp ?_
    intro a b hab heq
    simp only [Function.comp] at heq
    have := List.append_cancel_left heq
    exact hab (by simpa using this)

theorem dd_keyed (l : List ((List Str × List Str) × Nat)) (memo : List Nat) :
    dd (keyed l) memo = (keyed (dd l memo).1, (dd l memo).2) :=
  dd_map (fun x : List Str × List Str => keyOf x.1 x.2) l memo

theorem own_listing (keep : Nat → Bool) {d : Dict} (hw : WF d) :
    getParameters keep d =
      keyed (((entries d).filter (fun e => keep e.2)).map (fun e => (([], e.1), e.2))) := by
  rw [(getParameters_eq keep hw).1, keyed, List.map_map]
  rfl

theorem keyed_append (a b) : keyed (a ++ b) = keyed a ++ keyed b := by simp [keyed]

theorem keyed_sublist {a b : List ((List Str × List Str) × Nat)} (h : a.Sublist b) :
    (keyed a).Sublist (keyed b) := h.map _

mutual
theorem getParams_eq (keep : Nat → Bool) (h : PHeap) : ∀ (t : MTree) (memo : List Nat), Good h t →
    getParams true keep h t memo = (keyed (dd (locs keep h t) memo).1, (dd (locs keep h t) memo).2)
  | .node i subs, memo, hg => by
    have hw := (hg.2 [] _ (.here _)).1
    have hn : (subs.map Prod.fst).Nodup := by cases hg.1 with | node a b c => exact b
    have hk := locs_keys_nodup keep hg
    have hk' : ((keyed (locsSubs keep h subs)).map Prod.fst).Nodup := by
      rw [locs, keyed_append, List.map_append, List.nodup_append] at hk
      exact hk.1
    have hs := getSubs_eq keep h subs [] memo (fun n m hm => hg.sub hm) (by simpa using hk')
    rw [getParams, if_pos rfl, hs]
    simp only [MTree.id] at hw
    simp only [filterAndUpdate_eq, own_listing keep hw, dd_keyed, locs, dd_append, keyed_append, List.nil_append]
    rw [pupdate_eq]
    rw [← keyed_append]
    rw [locs] at hk
    exact ((keyed_sublist ((dd_sublist _ _).append (dd_sublist _ _))).map _).nodup hk
theorem getSubs_eq (keep : Nat → Bool) (h : PHeap) : ∀ (subs : List (Str × MTree)) (params : List (Str × Nat))
    (memo : List Nat), (∀ n m, (n, m) ∈ subs → Good h m) →
    ((params ++ keyed (locsSubs keep h subs)).map Prod.fst).Nodup →
    getSubs true keep h subs params memo =
      (params ++ keyed (dd (locsSubs keep h subs) memo).1, (dd (locsSubs keep h subs) memo).2)
  | [], params, memo, _, _ => by simp [getSubs, locsSubs, dd, keyed]
  | (n, m) :: rest, params, memo, hg, hn => by
    have hgm := hg n m (by simp)
    have h1 := getParams_eq keep h m memo hgm
    have hsub : keyed (locsSubs keep h ((n, m) :: rest)) =
        (keyed (locs keep h m)).map (fun e => ('@' :: n ++ '/' :: e.1, e.2)) ++ keyed (locsSubs keep h rest) := by
      rw [locsSubs, keyed_append]
      congr 1
      simp only [keyed, List.map_map]
      apply List.map_congr_left
      intro e he
      obtain ⟨⟨ms, p⟩, v⟩ := e
      obtain ⟨m', _, hv⟩ := ((mem_locs keep h m hgm ms p v).mp he).1
      simp only [Function.comp, Prod.mk.injEq, and_true]
      rw [keyOf_cons _ _ (varAt_ne_nil hv)]
    have hins : insertParentName n (keyed (dd (locs keep h m) memo).1) =
        keyed ((dd (locs keep h m) memo).1.map (fun e => ((n :: e.1.1, e.1.2), e.2))) := by
      rw [insertParentName_eq]
      · simp only [keyed, List.map_map]
        apply List.map_congr_left
        intro e he
        obtain ⟨⟨ms, p⟩, v⟩ := e
        obtain ⟨m', _, hv⟩ := ((mem_locs keep h m hgm ms p v).mp ((dd_sublist _ _).subset he)).1
        simp only [Function.comp, Prod.mk.injEq, and_true]
        rw [keyOf_cons _ _ (varAt_ne_nil hv)]
      · exact ((keyed_sublist (dd_sublist _ _)).map _).nodup (locs_keys_nodup keep hgm)
    have hmap := dd_map (fun x : List Str × List Str => (n :: x.1, x.2)) (locs keep h m) memo
    have hpu : pupdate params (insertParentName n (keyed (dd (locs keep h m) memo).1)) =
        params ++ keyed ((dd (locs keep h m) memo).1.map (fun e => ((n :: e.1.1, e.1.2), e.2))) := by
      rw [hins, pupdate_eq]
      rw [locsSubs, keyed_append, ← List.append_assoc, List.map_append, List.nodup_append] at hn
      refine (List.Sublist.map _ (List.Sublist.append_left ?_ _)).nodup hn.1
      exact keyed_sublist ((dd_sublist _ _).map _)
    rw [getSubs, h1]
    simp only [hpu]
    have h2 := getSubs_eq keep h rest
      (params ++ keyed ((dd (locs keep h m) memo).1.map (fun e => ((n :: e.1.1, e.1.2), e.2))))
      (dd (locs keep h m) memo).2 (fun n m hm => hg n m (by simp [hm])) (by
        rw [locsSubs, keyed_append, ← List.append_assoc] at hn
        refine (List.Sublist.map _ (List.Sublist.append_right (List.Sublist.append_left ?_ _) _)).nodup hn
        exact keyed_sublist ((dd_sublist _ _).map _))
    rw [h2, locsSubs, dd_append, hmap, keyed_append]
    simp [List.append_assoc]
end

end Verif.ModuleTree
