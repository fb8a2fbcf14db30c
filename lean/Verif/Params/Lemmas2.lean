import Verif.Params.Lemmas
import Verif.Params.Create
namespace Verif.Params

/-! ### well-formed registries -/

/-- Keys are '/'-free and distinct, scope names are non-empty. -/
def WF : List (Str × Node) → Prop
  | [] => True
  | (k, .var _) :: rest => '/' ∉ k ∧ dget rest k = none ∧ WF rest
  | (k, .dict es) :: rest => '/' ∉ k ∧ k ≠ [] ∧ WF es ∧ dget rest k = none ∧ WF rest

def WFNode (k : Str) : Node → Prop
  | .var _ => '/' ∉ k
  | .dict es => '/' ∉ k ∧ k ≠ [] ∧ WF es

theorem WF_cons (k : Str) (n : Node) (rest : Dict) :
    WF ((k, n) :: rest) ↔ WFNode k n ∧ dget rest k = none ∧ WF rest := by
  cases n <;> simp [WF, WFNode, and_assoc]

theorem WF_nil : WF [] := by rw [WF]; trivial

theorem WF_dset {d : Dict} {k : Str} {n : Node} (h : WF d) (hn : WFNode k n) : WF (dset d k n) := by
  induction d with
  | nil => simp only [dset]; rw [WF_cons]; exact ⟨hn, rfl, WF_nil⟩
  | cons a t ih =>
    obtain ⟨a, m⟩ := a
    rw [WF_cons] at h
    simp only [dset]
    split
    · next e => subst e; rw [WF_cons]; exact ⟨hn, h.2⟩
    · next e =>
      rw [WF_cons]
      exact ⟨h.1, by rw [dget_dset_ne _ _ e]; exact h.2.1, ih h.2.2⟩

theorem dget_ddel_none {d : Dict} {k k' : Str} (h : dget d k' = none) : dget (ddel d k) k' = none := by
  induction d with
  | nil => simp [ddel, dget]
  | cons a t ih =>
    obtain ⟨a, m⟩ := a
    simp only [dget] at h
    simp only [ddel]
    split at h
    · simp at h
    · next e => split
                · exact h
                · simp [dget, e, ih h]

theorem WF_ddel {d : Dict} {k : Str} (h : WF d) : WF (ddel d k) := by
  induction d with
  | nil => simpa [ddel]
  | cons a t ih =>
    obtain ⟨a, m⟩ := a
    rw [WF_cons] at h
    simp only [ddel]
    split
    · exact h.2.2
    · rw [WF_cons]; exact ⟨h.1, dget_ddel_none h.2.1, ih h.2.2⟩

theorem WF_dget {d : Dict} {k : Str} {n : Node} (h : WF d) (hg : dget d k = some n) : WFNode k n := by
  induction d with
  | nil => simp [dget] at hg
  | cons a t ih =>
    obtain ⟨a, m⟩ := a
    rw [WF_cons] at h
    simp only [dget] at hg
    split at hg
    · next e => simp at hg; subst e hg; exact h.1
    · exact ih h.2.2 hg

/-- `m` preserves `P` of the current scope's dictionary. -/
def Keeps {σ α : Type} (P : Dict → Prop) (m : M σ α) : Prop := ∀ s d, P d → P (m (s, d)).2.2

section
variable {σ α : Type}

theorem scopeGo_WF {ns : List Str} {body : M σ α} (hns : ∀ n ∈ ns, '/' ∉ n)
    (hb : Keeps WF body) : Keeps WF (scopeGo ns body) := by
  induction ns with
  | nil => exact hb
  | cons n ns ih =>
    have ih := ih (fun m hm => hns m (by simp [hm]))
    have hn := hns n (by simp)
    intro s d hd
    simp only [scopeGo]
    split
    · exact ih s d hd
    · next hne =>
      split
      · exact WF_dset hd ⟨hn, hne, ih s [] WF_nil⟩
      · next es he => exact WF_dset hd ⟨hn, hne, ih s es (WF_dget hd he).2.2⟩
      · exact hd

theorem parameterScope_WF {name : Str} {body : M σ α} (hb : Keeps WF body) :
    Keeps WF (parameterScope name body) :=
  scopeGo_WF (split_comp_noslash _) hb

theorem mem_of_dropLast' {γ : Type} {a : γ} {l : List γ} (h : a ∈ l.dropLast) : a ∈ l :=
  (List.dropLast_sublist l).subset h

theorem path_noslash (k : Str) : ∀ n ∈ path k, '/' ∉ n := by
  intro n hn
  have := split_comp_noslash k
  simp only [path, List.mem_append, List.mem_filter, List.mem_singleton] at hn
  rcases hn with hn | hn
  · exact this n (mem_of_dropLast' hn.1)
  · subst hn; exact this _ (List.getLast_mem _)

theorem path_dropLast_noslash (k : Str) : ∀ n ∈ (path k).dropLast, '/' ∉ n :=
  fun n hn => path_noslash k n (mem_of_dropLast' hn)

theorem path_last_noslash (k : Str) : '/' ∉ (path k).getLast (path_ne_nil k) :=
  path_noslash k _ (List.getLast_mem _)

theorem getParameter_WF (k : Str) : Keeps WF (getParameter k : M σ _) := by
  rw [getParameter_eq]
  refine scopeGo_WF (path_dropLast_noslash k) ?_
  intro s d hd
  simp only [leafGet]
  split <;> exact hd

theorem popParameter_WF (k : Str) : Keeps WF (popParameter k : M σ _) := by
  rw [popParameter_eq]
  refine scopeGo_WF (path_dropLast_noslash k) ?_
  intro s d hd
  simp only [leafPop]
  split
  · exact hd
  · exact WF_ddel hd

theorem setParameter_WF (k : Str) (v : Nat) : Keeps WF (setParameter k v : M σ _) := by
  rw [setParameter_eq]
  refine scopeGo_WF (path_dropLast_noslash k) ?_
  intro s d hd
  exact WF_dset hd (path_last_noslash k)

theorem discard_WF {m : M σ α} (h : Keeps WF m) : Keeps WF (discard m) := by
  intro s d hd
  have := h s d hd
  simp only [discard]
  split <;> simp_all

end

section
variable {β : Type} (zeros : List Nat → β)

theorem getOrCreate_eq (name : Str) (sh : Option (List Nat)) (i : Init β) (ng : Bool)
    (a : Option Bool) :
    getOrCreate zeros name sh i ng a =
      scopeGo (path name).dropLast
        (getOrCreateLeaf zeros ((path name).getLast (path_ne_nil name)) sh i ng a) := by
  refine peel (f := fun n => getOrCreate zeros n sh i ng a)
    (leaf := fun n => getOrCreateLeaf zeros n sh i ng a) ?_ ?_ name
  · intro key n m t h
    rw [getOrCreate]
    split
    · next h' => rw [h] at h'; simp at h'; obtain ⟨rfl, rfl, rfl⟩ := h'; rfl
    · next h' => exact absurd h (h' _ _ _)
  · intro key h
    rw [getOrCreate]
    split
    · next h' => rw [h] at h'; simp at h'
    · rfl

theorem getOrCreateLeaf_WF (k : Str) (sh : Option (List Nat)) (i : Init β) (ng : Bool)
    (a : Option Bool) : Keeps WF (getOrCreateLeaf zeros k sh i ng a) := by
  intro s d hd
  have h1 := getParameter_WF (σ := Heap β) k s d hd
  simp only [getOrCreateLeaf]
  split
  · next h => rw [h] at h1; exact h1
  · next v st h =>
    rw [h] at h1
    split
    · exact h1
    · split
      · exact h1
      · split
        · exact h1
        · split
          · exact h1
          · dsimp only
            split
            · exact setParameter_WF _ _ _ _ h1
            · exact h1
  · next st h =>
    rw [h] at h1
    split
    · exact h1
    · exact setParameter_WF _ _ _ _ h1

theorem getOrCreate_WF (k : Str) (sh : Option (List Nat)) (i : Init β) (ng : Bool)
    (a : Option Bool) : Keeps WF (getOrCreate zeros k sh i ng a) := by
  rw [getOrCreate_eq]
  exact scopeGo_WF (path_dropLast_noslash k) (getOrCreateLeaf_WF zeros _ _ _ _ _)

theorem loadParameters_WF (l : List (Saved β)) : Keeps WF (loadParameters zeros l) := by
  induction l with
  | nil => intro s d hd; exact hd
  | cons x l ih =>
    intro s d hd
    have h1 := getOrCreate_WF zeros x.name (some x.shape) .none x.needGrad none s d hd
    simp only [loadParameters]
    split
    · next h => rw [h] at h1; exact h1
    · next h => rw [h] at h1; exact ih _ _ h1

theorem run_WF (p : Prog β) : Keeps WF (run zeros p) := by
  induction p with
  | skip => intro s d hd; exact hd
  | raise e => intro s d hd; exact hd
  | seq p q ihp ihq =>
    intro s d hd
    have h1 := ihp s d hd
    simp only [run]
    split
    · next h => rw [h] at h1; exact ihq _ _ h1
    · next h => rw [h] at h1; exact h1
  | tryExcept p q ihp ihq =>
    intro s d hd
    have h1 := ihp s d hd
    simp only [run]
    split
    · next h => rw [h] at h1; exact h1
    · next h => rw [h] at h1; exact ihq _ _ h1
  | get k => exact discard_WF (getParameter_WF k)
  | pop k => exact discard_WF (popParameter_WF k)
  | set k v => exact setParameter_WF k v
  | getOrCreate k sh i ng a => exact discard_WF (getOrCreate_WF zeros k sh i ng a)
  | load l => exact loadParameters_WF zeros l
  | clear => intro s d hd; exact WF_nil
  | scope n p ih => exact parameterScope_WF ih
  | noGrad b p ih => intro s d hd; exact ih _ _ hd

end

/-! ### entries -/

theorem varAt_nil (d : Dict) : varAt d [] = none := rfl

theorem varAt_cons_head (k : Str) (n : Node) (rest : Dict) (p : List Str) :
    varAt ((k, n) :: rest) (k :: p) = match n with
      | .var v => if p = [] then some v else none
      | .dict es => varAt es p := by
  cases n with
  | var v => by_cases h : p = [] <;> simp [varAt, lookup, dget, h]
  | dict es => simp [varAt, lookup, dget]

theorem varAt_cons_ne {k a : Str} (n : Node) (rest : Dict) (p : List Str) (h : k ≠ a) :
    varAt ((k, n) :: rest) (a :: p) = varAt rest (a :: p) := by
  simp [varAt, lookup, dget, h]

theorem varAt_none_of_dget {d : Dict} {k : Str} (h : dget d k = none) (p : List Str) :
    varAt d (k :: p) = none := by
  simp [varAt, lookup, h]

theorem entries_ne_nil : ∀ (d : List (Str × Node)) (e), e ∈ entries d → e.1 ≠ []
  | [], e, h => by simp [entries] at h
  | (k, .var v) :: rest, e, h => by
    simp only [entries, List.mem_cons] at h
    rcases h with rfl | h
    · simp
    · exact entries_ne_nil rest e h
  | (k, .dict es) :: rest, e, h => by
    simp only [entries, List.mem_append, List.mem_map] at h
    rcases h with ⟨a, _, rfl⟩ | h
    · simp
    · exact entries_ne_nil rest e h

theorem entries_head : ∀ (d : List (Str × Node)) (e), e ∈ entries d →
    ∃ k q n, e.1 = k :: q ∧ dget d k = some n
  | [], e, h => by simp [entries] at h
  | (k, .var v) :: rest, e, h => by
    simp only [entries, List.mem_cons] at h
    rcases h with rfl | h
    · exact ⟨k, [], _, rfl, by simp [dget]; rfl⟩
    · obtain ⟨k', q, n, h1, h2⟩ := entries_head rest e h
      by_cases hk : k = k'
      · exact ⟨k', q, _, h1, by simp [dget, hk]; rfl⟩
      · exact ⟨k', q, n, h1, by simp [dget, hk, h2]⟩
  | (k, .dict es) :: rest, e, h => by
    simp only [entries, List.mem_append, List.mem_map] at h
    rcases h with ⟨a, _, rfl⟩ | h
    · exact ⟨k, _, _, rfl, by simp [dget]; rfl⟩
    · obtain ⟨k', q, n, h1, h2⟩ := entries_head rest e h
      by_cases hk : k = k'
      · exact ⟨k', q, _, h1, by simp [dget, hk]; rfl⟩
      · exact ⟨k', q, n, h1, by simp [dget, hk, h2]⟩

theorem mem_entries : ∀ (d : List (Str × Node)), WF d → ∀ p v, (p, v) ∈ entries d ↔ varAt d p = some v
  | [], _, p, v => by cases p <;> simp [entries, varAt, lookup, dget]
  | (k, .var w) :: rest, h, p, v => by
    rw [WF] at h
    have ih := mem_entries rest h.2.2
    simp only [entries, List.mem_cons, Prod.mk.injEq]
    cases p with
    | nil =>
      simp only [varAt_nil, reduceCtorEq, iff_false, not_or]
      exact ⟨by simp, fun hm => entries_ne_nil _ _ hm rfl⟩
    | cons a p =>
      by_cases hk : k = a
      · subst hk
        rw [varAt_cons_head, ih, varAt_none_of_dget h.2.1]
        by_cases hp : p = [] <;> simp [hp, eq_comm]
      · rw [varAt_cons_ne _ _ _ hk, ih]
        simp [Ne.symm hk]
  | (k, .dict es) :: rest, h, p, v => by
    rw [WF] at h
    obtain ⟨_, _, hes, hd, hrest⟩ := h
    have ih1 := mem_entries es hes
    have ih2 := mem_entries rest hrest
    simp only [entries, List.mem_append, List.mem_map, Prod.mk.injEq]
    cases p with
    | nil =>
      simp only [varAt_nil, reduceCtorEq, iff_false, not_or]
      exact ⟨by simp, fun hm => entries_ne_nil _ _ hm rfl⟩
    | cons a p =>
      by_cases hk : k = a
      · subst hk
        rw [varAt_cons_head, ih2, varAt_none_of_dget hd]
        simp only [List.cons.injEq, true_and, reduceCtorEq, or_false]
        rw [← ih1]
        constructor
        · rintro ⟨⟨q, w⟩, hm, rfl, rfl⟩; exact hm
        · intro hm; exact ⟨(p, v), hm, rfl, rfl⟩
      · rw [varAt_cons_ne _ _ _ hk, ih2]
        simp [hk]

theorem entries_nodup : ∀ (d : List (Str × Node)), WF d → ((entries d).map Prod.fst).Nodup
  | [], _ => by simp [entries]
  | (k, .var w) :: rest, h => by
    rw [WF] at h
    have ih := entries_nodup rest h.2.2
    simp only [entries, List.map_cons, List.nodup_cons]
    refine ⟨?_, ih⟩
    intro hm
    obtain ⟨⟨p, v⟩, hm, hp⟩ := List.mem_map.mp hm
    have := (mem_entries rest h.2.2 p v).mp hm
    simp at hp
    subst hp
    rw [varAt_none_of_dget h.2.1] at this
    simp at this
  | (k, .dict es) :: rest, h => by
    rw [WF] at h
    obtain ⟨_, _, hes, hd, hrest⟩ := h
    have ih1 := entries_nodup es hes
    have ih2 := entries_nodup rest hrest
    simp only [entries, List.map_append, List.map_map]
    rw [List.nodup_append]
    refine ⟨?_, ih2, ?_⟩
    · have : (Prod.fst ∘ fun e : List Str × Nat => (k :: e.1, e.2)) = (List.cons k) ∘ Prod.fst := rfl
      rw [this, ← List.map_map]
      exact List.Pairwise.map _ (by intro a b hab; simpa using hab) ih1
    · intro a ha b hb hab
      subst hab
      obtain ⟨e, _, rfl⟩ := List.mem_map.mp ha
      obtain ⟨⟨p, v⟩, hm, he⟩ := List.mem_map.mp hb
      have := (mem_entries rest hrest p v).mp hm
      simp at he
      subst he
      rw [varAt_none_of_dget hd] at this
      simp at this

/-- Components of registered paths are '/'-free, scope components non-empty. -/
theorem entries_comps : ∀ (d : List (Str × Node)), WF d → ∀ e ∈ entries d,
    (∀ n ∈ e.1, '/' ∉ n) ∧ (∀ n ∈ e.1.dropLast, n ≠ [])
  | [], _, e, h => by simp [entries] at h
  | (k, .var w) :: rest, hw, e, h => by
    rw [WF] at hw
    simp only [entries, List.mem_cons] at h
    rcases h with rfl | h
    · simpa using hw.1
    · exact entries_comps rest hw.2.2 e h
  | (k, .dict es) :: rest, hw, e, h => by
    rw [WF] at hw
    simp only [entries, List.mem_append, List.mem_map] at h
    rcases h with ⟨a, ha, rfl⟩ | h
    · have := entries_comps es hw.2.2.1 a ha
      have hne := entries_ne_nil es a ha
      refine ⟨by simpa using ⟨hw.1, this.1⟩, ?_⟩
      simp only [List.dropLast_cons_of_ne_nil hne, List.mem_cons, forall_eq_or_imp]
      exact ⟨hw.2.1, this.2⟩
    · exact entries_comps rest hw.2.2.2.2 e h

/-! ### get_parameters -/

theorem joinPath_join {pre : List Str} (k : Str) (h : ∀ n ∈ pre, n ≠ []) :
    joinPath (join pre) k = join (pre ++ [k]) := by
  cases pre with
  | nil => simp [joinPath, join]
  | cons a t =>
    have : join (a :: t) ≠ [] := by
      cases t with
      | nil => simpa [join] using h a (by simp)
      | cons => simp [join]
    rw [joinPath, if_neg this]
    clear this h
    induction t generalizing a with
    | nil => simp [join]
    | cons b t ih =>
      have := ih b
      simp only [List.cons_append] at this ⊢
      rw [join, join, ← this]
      simp

def putAll (pre : List Str) (params : List (Str × Nat)) (es : List (List Str × Nat)) :
    List (Str × Nat) :=
  es.foldl (fun acc e => pset acc (join (pre ++ e.1)) e.2) params

theorem putAll_append (pre : List Str) (params) (a b) :
    putAll pre params (a ++ b) = putAll pre (putAll pre params a) b := by
  simp [putAll, List.foldl_append]

theorem putAll_map (pre : List Str) (k : Str) (params) (a) :
    putAll pre params (a.map (fun e : List Str × Nat => (k :: e.1, e.2))) =
      putAll (pre ++ [k]) params a := by
  simp [putAll, List.foldl_map]

theorem getParametersGo_eq (keep : Nat → Bool) : ∀ (d : List (Str × Node)) (params) (pre : List Str),
    WF d → (∀ n ∈ pre, n ≠ []) →
    getParametersGo keep params (join pre) d =
      putAll pre params ((entries d).filter (fun e => keep e.2))
  | [], params, pre, _, _ => by simp [getParametersGo, entries, putAll]
  | (k, .var v) :: rest, params, pre, h, hp => by
    rw [WF] at h
    rw [getParametersGo, getParametersGo_eq keep rest _ pre h.2.2 hp, entries]
    by_cases hk : keep v
    · simp [hk, putAll, joinPath_join k hp]
    · simp [hk]
  | (k, .dict es) :: rest, params, pre, h, hp => by
    rw [WF] at h
    have hp' : ∀ n ∈ pre ++ [k], n ≠ [] := by
      intro n hn
      simp only [List.mem_append, List.mem_singleton] at hn
      rcases hn with hn | rfl
      · exact hp n hn
      · exact h.2.1
    rw [getParametersGo, joinPath_join k hp, getParametersGo_eq keep es _ _ h.2.2.1 hp',
      getParametersGo_eq keep rest _ pre h.2.2.2.2 hp, entries, List.filter_append, putAll_append]
    congr 1
    rw [List.filter_map, putAll_map]
    rfl

theorem pset_new {l : List (Str × Nat)} {k : Str} (v : Nat) (h : k ∉ l.map Prod.fst) :
    pset l k v = l ++ [(k, v)] := by
  induction l with
  | nil => rfl
  | cons a t ih =>
    obtain ⟨a, b⟩ := a
    simp only [List.map_cons, List.mem_cons, not_or] at h
    simp only [pset, if_neg (Ne.symm h.1), ih h.2, List.cons_append]

theorem join_inj {a b : List Str} (ha : a ≠ []) (hb : b ≠ []) (ha' : ∀ n ∈ a, '/' ∉ n)
    (hb' : ∀ n ∈ b, '/' ∉ n) (h : join a = join b) : a = b := by
  rw [← split_join ha ha', ← split_join hb hb', h]

theorem putAll_eq (es : List (List Str × Nat)) (params : List (Str × Nat))
    (h : (params.map Prod.fst ++ es.map (fun e => join e.1)).Nodup) :
    putAll [] params es = params ++ es.map (fun e => (join e.1, e.2)) := by
  induction es generalizing params with
  | nil => simp [putAll]
  | cons e t ih =>
    have hnew : join e.1 ∉ params.map Prod.fst := by
      intro hm
      rw [List.nodup_append] at h
      exact h.2.2 _ hm _ (by simp) rfl
    simp only [putAll, List.foldl_cons, List.nil_append]
    rw [pset_new _ hnew]
    have := ih (params ++ [(join e.1, e.2)]) (by simpa using h)
    simp only [putAll, List.nil_append] at this
    rw [this]
    simp

/-- Closed form of `get_parameters`. -/
theorem getParameters_eq (keep : Nat → Bool) {d : Dict} (h : WF d) :
    getParameters keep d =
      ((entries d).filter (fun e => keep e.2)).map (fun e => (join e.1, e.2)) ∧
    ((getParameters keep d).map Prod.fst).Nodup := by
  have hnd : (((entries d).filter (fun e => keep e.2)).map (fun e => join e.1)).Nodup := by
    have h1 : ((entries d).filter (fun e => keep e.2)).Pairwise (fun a b => a.1 ≠ b.1) := by
      have := entries_nodup d h
      rw [List.Nodup, List.pairwise_map] at this
      exact this.filter _
    rw [List.Nodup, List.pairwise_map]
    refine List.Pairwise.imp_of_mem ?_ h1
    intro a b ha hb hab hj
    have ha := (List.mem_filter.mp ha).1
    have hb := (List.mem_filter.mp hb).1
    exact hab (join_inj (entries_ne_nil d a ha) (entries_ne_nil d b hb)
      (entries_comps d h a ha).1 (entries_comps d h b hb).1 hj)
  have heq : getParameters keep d =
      ((entries d).filter (fun e => keep e.2)).map (fun e => (join e.1, e.2)) := by
    have h1 := getParametersGo_eq keep d [] [] h (by simp)
    simp only [join] at h1
    rw [getParameters, h1, putAll_eq _ _ (by simpa using hnd)]
    rfl
  refine ⟨heq, ?_⟩
  rw [heq, List.map_map]
  exact hnd

theorem path_join {p : List Str} (hne : p ≠ []) (h : ∀ n ∈ p, '/' ∉ n)
    (h' : ∀ n ∈ p.dropLast, n ≠ []) : path (join p) = p := by
  simp only [path, split_join hne h]
  rw [List.filter_eq_self.mpr (by simpa using h'), List.dropLast_concat_getLast]

end Verif.Params
