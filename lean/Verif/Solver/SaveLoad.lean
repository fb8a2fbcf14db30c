import Verif.Solver.Count
/-!
# C54: `Solver.save_states` and `Solver.load_states`
-/

namespace Verif.Solver

variable {α : Type}

/-! ## Model -/

/-- A path in the HDF5 file. -/
abbrev Path := List Char

/-- What a dataset holds: the iteration count or an array. -/
inductive Val (α : Type) where
  | cnt (t : Nat)
  | arr (a : List α)

/-- Reading a dataset where a count is expected (a count is always stored there). -/
def Val.toCnt : Val α → Nat
  | .cnt t => t
  | .arr _ => 0

/-- Reading a dataset where an array is expected. -/
def Val.toArr : Val α → List α
  | .cnt _ => []
  | .arr a => a

/-- python/src/nnabla/solver.pyx.tmpl L210-224 `save_states` for `.h5`: one group per parameter with
a dataset `t` and one dataset per state array. (The `index` attributes only order the parameters in
`load_states`; shapes and dtypes are not modelled.) -/
def saveH5 (states : List (Key × SState α)) : List (Path × Val α) :=
  states.flatMap (fun p =>
    (p.1.toList ++ '/' :: "t".toList, .cnt p.2.t) ::
      p.2.pstate.map (fun a => (p.1.toList ++ '/' :: a.1.toList, .arr a.2)))

/-- `name[:name.rindex("/")]`. -/
def parent (p : Path) : Path := ((p.reverse.dropWhile (· ≠ '/')).drop 1).reverse

/-- `skey.split("/")[-1]`. -/
def lastComp (p : Path) : Path := (p.reverse.takeWhile (· ≠ '/')).reverse

/-- python dict assignment `d[k] = v`. -/
def put {β : Type} (k : Key) (v : β) (l : List (Key × β)) : List (Key × β) :=
  match get? k l with
  | some _ => assign k v l
  | none => l ++ [(k, v)]

/-- python/src/nnabla/solver.pyx.tmpl L286-300: the state read for the parameter `pkey`: every
dataset whose path *starts with* `pkey` is taken, in the order of the visit. -/
def loadOne (pkey : Path) : List (Path × Val α) → SState α → SState α
  | [], st => st
  | (skey, v) :: ds, st =>
    loadOne pkey ds
      (if pkey.isPrefixOf skey then
        (if ['/', 't'].isSuffixOf skey then { st with t := v.toCnt }
         else { st with pstate := put (String.ofList (lastComp skey)) v.toArr st.pstate })
       else st)

/-- The dictionary built by `load_states`, L267-301. `vis` is the order in which `visititems` yields
the datasets, `pkeys` the enumeration of the set of groups (sorted by index). -/
def loadDict (vis : List (Path × Val α)) (pkeys : List Path) : List (Key × SState α) :=
  pkeys.map (fun p => (String.ofList p, loadOne p vis ⟨[], 0⟩))

/-- python/src/nnabla/solver.pyx.tmpl L185-198 `set_states`: one C++ state `dst_cstate` is reused, so
array names accumulate over the parameters. -/
def pySetStates : List (Key × SState α) → List (String × List α) → List (Key × SState α)
  | [], _ => []
  | (k, st) :: l, acc =>
    let acc' := st.pstate.foldl (fun acc a => put a.1 a.2 acc) acc
    (k, ⟨acc', st.t⟩) :: pySetStates l acc'

/-- `load_states(path)` for `.h5`, on a solver `w`. -/
def loadH5 (vis : List (Path × Val α)) (pkeys : List Path) (w : World α) : World α × Option Err :=
  setStates (pySetStates (loadDict vis pkeys) []) w

/-! ## Specification -/

/-- Two states are the same dictionary of arrays with the same count. -/
def SameState (a b : SState α) : Prop := a.t = b.t ∧ ∀ n, get? n a.pstate = get? n b.pstate

/-! ## Lemmas -/

theorem get?_put {β : Type} (k k' : Key) (v : β) (l : List (Key × β)) :
    get? k (put k' v l) = if k' = k then some v else get? k l := by
  unfold put
  cases h : get? k' l with
  | some x =>
    simp only [get?_assign]
    by_cases e : k' = k
    · subst e; simp [h]
    · simp [e]
  | none =>
    simp only [get?_append, get?]
    by_cases e : k' = k
    · subst e; simp [h]
    · simp [e]

theorem parent_path (p n : Path) (hn : '/' ∉ n) : parent (p ++ '/' :: n) = p := by
  unfold parent
  have h1 : (p ++ '/' :: n).reverse = n.reverse ++ '/' :: p.reverse := by simp
  rw [h1, List.dropWhile_append_of_pos (by
    intro c hc
    simp only [List.mem_reverse] at hc
    simpa using fun e : c = '/' => hn (e ▸ hc))]
  simp

theorem lastComp_path (p n : Path) (hn : '/' ∉ n) : lastComp (p ++ '/' :: n) = n := by
  unfold lastComp
  have h1 : (p ++ '/' :: n).reverse = n.reverse ++ '/' :: p.reverse := by simp
  rw [h1, List.takeWhile_append_of_pos (by
    intro c hc
    simp only [List.mem_reverse] at hc
    simpa using fun e : c = '/' => hn (e ▸ hc))]
  simp

theorem suffix_t (p n : Path) (hn : '/' ∉ n) :
    ['/', 't'].isSuffixOf (p ++ '/' :: n) = true ↔ n = ['t'] := by
  rw [List.isSuffixOf_iff_suffix]
  constructor
  · rintro ⟨l, hl⟩
    have h1 := lastComp_path p n hn
    have h2 := lastComp_path l ['t'] (by decide)
    rw [← hl] at h1
    have : l ++ ['/', 't'] = l ++ '/' :: ['t'] := rfl
    rw [this] at h1
    exact h1.symm.trans h2
  · rintro rfl
    exact ⟨p, rfl⟩

/-- What `loadOne` reads when the datasets that start with `pkey` are exactly those of one group,
with the array names distinct: folded over any list of datasets. -/
theorem loadOne_spec (pkey : Path) (vis : List (Path × Val α)) (st : SState α)
    (hvis : ∀ d ∈ vis, pkey.isPrefixOf d.1 = true → ∃ n : String, '/' ∉ n.toList ∧
      d.1 = pkey ++ '/' :: n.toList)
    (hdist : (vis.map (·.1)).Nodup) :
    (∀ v, (pkey ++ '/' :: "t".toList, v) ∈ vis → (loadOne pkey vis st).t = v.toCnt) ∧
    (∀ n : String, '/' ∉ n.toList → n ≠ "t" → ∀ v, (pkey ++ '/' :: n.toList, v) ∈ vis →
      get? n (loadOne pkey vis st).pstate = some v.toArr) ∧
    ((∀ v, (pkey ++ '/' :: "t".toList, v) ∉ vis) → (loadOne pkey vis st).t = st.t) ∧
    (∀ n : String, (n = "t" ∨ ∀ v, (pkey ++ '/' :: n.toList, v) ∉ vis) →
      get? n (loadOne pkey vis st).pstate = get? n st.pstate) := by
  induction vis generalizing st with
  | nil => simp [loadOne]
  | cons d vis ih =>
    obtain ⟨skey, v0⟩ := d
    simp only [List.map_cons, List.nodup_cons] at hdist
    have hvis' : ∀ d ∈ vis, pkey.isPrefixOf d.1 = true → ∃ n : String, '/' ∉ n.toList ∧
      d.1 = pkey ++ '/' :: n.toList := fun d hd => hvis d (List.mem_cons_of_mem _ hd)
    have hnot : ∀ v, (skey, v) ∉ vis := fun v hv => hdist.1 (List.mem_map.2 ⟨_, hv, rfl⟩)
    have inj : ∀ a b : String, pkey ++ '/' :: a.toList = pkey ++ '/' :: b.toList → a = b := by
      intro a b hab
      have := List.append_cancel_left hab
      simp only [List.cons.injEq, true_and] at this
      exact String.toList_injective this
    simp only [loadOne]
    by_cases hp : pkey.isPrefixOf skey = true
    · obtain ⟨n0, hn0, hskey⟩ := hvis (skey, v0) (by simp) hp
      simp only [] at hskey
      by_cases ht : ['/', 't'].isSuffixOf skey = true
      · have hn0t : n0 = "t" := by
          rw [hskey] at ht
          exact String.toList_injective ((suffix_t pkey n0.toList hn0).1 ht)
        subst hn0t
        obtain ⟨i1, i2, i3, i4⟩ := ih { st with t := v0.toCnt } hvis' hdist.2
        rw [if_pos hp, if_pos ht]
        refine ⟨?_, ?_, ?_, ?_⟩
        · intro v hv
          rcases List.mem_cons.1 hv with hv | hv
          · have h0 : (loadOne pkey vis { st with t := v0.toCnt }).t = v0.toCnt :=
              i3 (fun v' hv' => by rw [← hskey] at hv'; exact hnot v' hv')
            rw [h0, (Prod.mk.inj hv).2]
          · exact i1 v hv
        · intro n hn hnt v hv
          rcases List.mem_cons.1 hv with hv | hv
          · exact absurd (inj n "t" (((Prod.mk.inj hv).1).trans hskey)) hnt
          · exact i2 n hn hnt v hv
        · intro h
          exact absurd (List.mem_cons.2 (Or.inl (by rw [hskey]))) (h v0)
        · intro n hn
          refine i4 n ?_
          rcases hn with hn | hn
          · exact Or.inl hn
          · exact Or.inr (fun v hv => hn v (List.mem_cons_of_mem _ hv))
      · have hn0t : n0 ≠ "t" := by
          rintro rfl
          apply ht
          rw [hskey]
          exact (suffix_t pkey _ hn0).2 rfl
        have hlast : String.ofList (lastComp skey) = n0 := by
          rw [hskey, lastComp_path pkey _ hn0, String.ofList_toList]
        obtain ⟨i1, i2, i3, i4⟩ := ih { st with pstate := put (String.ofList (lastComp skey)) v0.toArr st.pstate } hvis' hdist.2
        rw [if_pos hp, if_neg ht]
        rw [hlast] at i1 i2 i3 i4 ⊢
        refine ⟨?_, ?_, ?_, ?_⟩
        · intro v hv
          rcases List.mem_cons.1 hv with hv | hv
          · exact absurd (inj "t" n0 (((Prod.mk.inj hv).1).trans hskey)).symm hn0t
          · exact i1 v hv
        · intro n hn hnt v hv
          rcases List.mem_cons.1 hv with hv | hv
          · have e := inj n n0 (((Prod.mk.inj hv).1).trans hskey)
            subst e
            rw [i4 n (Or.inr (fun v' hv' => by rw [← hskey] at hv'; exact hnot v' hv'))]
            simp [get?_put, (Prod.mk.inj hv).2]
          · exact i2 n hn hnt v hv
        · intro h
          exact i3 (fun v hv => h v (List.mem_cons_of_mem _ hv))
        · intro n hn
          have hne : ¬ n0 = n := by
            rintro rfl
            rcases hn with hn | hn
            · exact hn0t hn
            · exact hn v0 (by rw [← hskey]; simp)
          rw [i4 n (by
            rcases hn with hn | hn
            · exact Or.inl hn
            · exact Or.inr (fun v hv => hn v (List.mem_cons_of_mem _ hv)))]
          simp [get?_put, hne]
    · rw [if_neg hp]
      obtain ⟨i1, i2, i3, i4⟩ := ih st hvis' hdist.2
      have hne : ∀ n : Path, skey ≠ pkey ++ '/' :: n := by
        rintro n rfl
        apply hp
        rw [List.isPrefixOf_iff_prefix]
        exact ⟨_, rfl⟩
      refine ⟨?_, ?_, ?_, ?_⟩
      · intro v hv
        rcases List.mem_cons.1 hv with hv | hv
        · exact absurd (Prod.mk.inj hv).1.symm (hne _)
        · exact i1 v hv
      · intro n hn hnt v hv
        rcases List.mem_cons.1 hv with hv | hv
        · exact absurd (Prod.mk.inj hv).1.symm (hne _)
        · exact i2 n hn hnt v hv
      · intro h
        exact i3 (fun v hv => h v (List.mem_cons_of_mem _ hv))
      · intro n hn
        refine i4 n ?_
        rcases hn with hn | hn
        · exact Or.inl hn
        · exact Or.inr (fun v hv => hn v (List.mem_cons_of_mem _ hv))

/-- No parameter name is a prefix of another one. -/
def PrefixFree (states : List (Key × SState α)) : Prop :=
  ∀ p ∈ states, ∀ q ∈ states, p.1.toList <+: q.1.toList → p.1 = q.1

/-- The array names that solver classes use: distinct, without "/", and not "t". -/
def NamesOk (states : List (Key × SState α)) : Prop :=
  ∀ p ∈ states, (p.2.pstate.map (·.1)).Nodup ∧ ∀ a ∈ p.2.pstate, '/' ∉ a.1.toList ∧ a.1 ≠ "t"

/-- All states of a solver have the same array names. -/
def SameNames (states : List (Key × SState α)) : Prop :=
  ∀ p ∈ states, ∀ q ∈ states, ∀ n, (get? n p.2.pstate).isSome = (get? n q.2.pstate).isSome

theorem mem_saveH5 {states : List (Key × SState α)} {d : Path × Val α} :
    d ∈ saveH5 states ↔ ∃ p ∈ states, d = (p.1.toList ++ '/' :: "t".toList, .cnt p.2.t) ∨
      ∃ a ∈ p.2.pstate, d = (p.1.toList ++ '/' :: a.1.toList, .arr a.2) := by
  unfold saveH5
  simp only [List.mem_flatMap, List.mem_cons, List.mem_map]
  constructor
  · rintro ⟨p, hp, h | ⟨a, ha, h⟩⟩
    · exact ⟨p, hp, Or.inl h⟩
    · exact ⟨p, hp, Or.inr ⟨a, ha, h.symm⟩⟩
  · rintro ⟨p, hp, h | ⟨a, ha, h⟩⟩
    · exact ⟨p, hp, Or.inl h⟩
    · exact ⟨p, hp, Or.inr ⟨a, ha, h.symm⟩⟩

theorem prefix_cases {p q n : Path} (h : p <+: q ++ '/' :: n) : p <+: q ∨ q <+: p :=
  List.prefix_or_prefix_of_prefix h ⟨_, rfl⟩

theorem prefixFree_cases {states : List (Key × SState α)} (hpf : PrefixFree states)
    {p q : Key × SState α} (hp : p ∈ states) (hq : q ∈ states) {n : Path}
    (h : p.1.toList <+: q.1.toList ++ '/' :: n) : p.1 = q.1 := by
  rcases prefix_cases h with h | h
  · exact hpf p hp q hq h
  · exact (hpf q hq p hp h).symm

theorem eq_of_key {states : List (Key × SState α)} (hn : (states.map (·.1)).Nodup)
    {p q : Key × SState α} (hp : p ∈ states) (hq : q ∈ states) (h : p.1 = q.1) : p = q := by
  have h1 := get?_of_mem (k := p.1) (v := p.2) hn hp
  have h2 := get?_of_mem (k := q.1) (v := q.2) hn hq
  rw [h, h2] at h1
  exact Prod.ext h (Option.some.inj h1).symm

theorem saveH5_nodup {states : List (Key × SState α)} (hn : (states.map (·.1)).Nodup)
    (hnames : NamesOk states) : ((saveH5 states).map (·.1)).Nodup := by
  induction states with
  | nil => simp [saveH5]
  | cons p l ih =>
    have hnl : NamesOk l := fun q hq => hnames q (List.mem_cons_of_mem _ hq)
    simp only [List.map_cons, List.nodup_cons] at hn
    have e : saveH5 (p :: l) = ((p.1.toList ++ '/' :: "t".toList, .cnt p.2.t) ::
      p.2.pstate.map (fun a => (p.1.toList ++ '/' :: a.1.toList, .arr a.2))) ++ saveH5 l := by
      simp [saveH5]
    rw [e, List.map_append, List.nodup_append]
    obtain ⟨hpn, hpa⟩ := hnames p (by simp)
    refine ⟨?_, ih hn.2 hnl, ?_⟩
    · simp only [List.map_cons, List.map_map, List.nodup_cons]
      refine ⟨?_, ?_⟩
      · intro hm
        obtain ⟨a, ha, hae⟩ := List.mem_map.1 hm
        simp only [Function.comp] at hae
        have := List.append_cancel_left hae
        simp only [List.cons.injEq, true_and] at this
        exact (hpa a ha).2 (String.toList_injective this)
      · have : (p.2.pstate.map ((fun x : Path × Val α => x.1) ∘
            fun a => (p.1.toList ++ '/' :: a.1.toList, Val.arr a.2)))
            = (p.2.pstate.map (·.1)).map (fun n => p.1.toList ++ '/' :: n.toList) := by
          simp
        rw [this]
        refine hpn.map ?_
        intro a b hab
        have := List.append_cancel_left hab
        simp only [List.cons.injEq, true_and] at this
        exact String.toList_injective this
    · intro x hx y hy hxy
      subst hxy
      have hpx : parent x = p.1.toList := by
        simp only [List.map_cons, List.map_map, List.mem_cons, List.mem_map, Function.comp] at hx
        rcases hx with rfl | ⟨a, ha, rfl⟩
        · exact parent_path _ _ (by decide)
        · exact parent_path _ _ (hpa a ha).1
      obtain ⟨d, hd, rfl⟩ := List.mem_map.1 hy
      obtain ⟨q, hq, h⟩ := mem_saveH5.1 hd
      have hqx : parent d.1 = q.1.toList := by
        rcases h with rfl | ⟨a, ha, rfl⟩
        · exact parent_path _ _ (by decide)
        · exact parent_path _ _ ((hnl q hq).2 a ha).1
      have : p.1 = q.1 := String.toList_injective (hpx.symm.trans hqx)
      exact hn.1 (List.mem_map.2 ⟨q, hq, this.symm⟩)

/-- Loading one parameter from the saved datasets, visited in any order. -/
theorem loadOne_saved {states : List (Key × SState α)} (hn : (states.map (·.1)).Nodup)
    (hpf : PrefixFree states) (hnames : NamesOk states) {vis : List (Path × Val α)}
    (hperm : vis.Perm (saveH5 states)) {k : Key} {s : SState α} (hk : (k, s) ∈ states) :
    SameState (loadOne k.toList vis ⟨[], 0⟩) s := by
  have hkey : ∀ d ∈ vis, k.toList.isPrefixOf d.1 = true →
      d = (k.toList ++ '/' :: "t".toList, .cnt s.t) ∨
      ∃ a ∈ s.pstate, d = (k.toList ++ '/' :: a.1.toList, .arr a.2) := by
    intro d hd hp
    rw [List.isPrefixOf_iff_prefix] at hp
    obtain ⟨q, hq, h⟩ := mem_saveH5.1 (hperm.mem_iff.1 hd)
    have hkq : k = q.1 := by
      rcases h with rfl | ⟨a, ha, rfl⟩
      · exact prefixFree_cases hpf hk hq hp
      · exact prefixFree_cases hpf hk hq hp
    have := eq_of_key hn hk hq hkq
    subst this
    exact h
  have hvis : ∀ d ∈ vis, k.toList.isPrefixOf d.1 = true → ∃ n : String, '/' ∉ n.toList ∧
      d.1 = k.toList ++ '/' :: n.toList := by
    intro d hd hp
    rcases hkey d hd hp with rfl | ⟨a, ha, rfl⟩
    · exact ⟨"t", by decide, rfl⟩
    · exact ⟨a.1, ((hnames _ hk).2 a ha).1, rfl⟩
  have hdist : (vis.map (·.1)).Nodup := by
    rw [(hperm.map _).nodup_iff]; exact saveH5_nodup hn hnames
  obtain ⟨l1, l2, _, l4⟩ := loadOne_spec k.toList vis ⟨[], 0⟩ hvis hdist
  refine ⟨?_, ?_⟩
  · exact l1 (.cnt s.t) (hperm.mem_iff.2 (mem_saveH5.2 ⟨_, hk, Or.inl rfl⟩))
  · intro n
    cases hg : get? n s.pstate with
    | some a =>
      have hm := get?_mem hg
      obtain ⟨h1, h2⟩ := (hnames _ hk).2 _ hm
      exact l2 n h1 h2 (.arr a) (hperm.mem_iff.2 (mem_saveH5.2 ⟨_, hk, Or.inr ⟨_, hm, rfl⟩⟩))
    | none =>
      refine l4 n ?_
      by_cases hnt : n = "t"
      · exact Or.inl hnt
      · refine Or.inr ?_
        intro v hv
        rcases hkey _ hv (by rw [List.isPrefixOf_iff_prefix]; exact ⟨_, rfl⟩) with h | ⟨a, ha, h⟩
        · have := List.append_cancel_left (Prod.mk.inj h).1
          simp only [List.cons.injEq, true_and] at this
          exact hnt (String.toList_injective this)
        · have := List.append_cancel_left (Prod.mk.inj h).1
          simp only [List.cons.injEq, true_and] at this
          have hna : n = a.1 := String.toList_injective this
          have hsome := (get?_isSome_iff n s.pstate).2 (List.mem_map.2 ⟨a, ha, hna.symm⟩)
          rw [hg] at hsome; cases hsome

theorem put_nodup {β : Type} (k : Key) (v : β) {l : List (Key × β)} (h : (l.map (·.1)).Nodup) :
    ((put k v l).map (·.1)).Nodup := by
  unfold put
  cases hk : get? k l with
  | some x => rw [keys_assign]; exact h
  | none => have := nodup_insertNew k v h; unfold insertNew at this; rw [hk] at this; exact this

theorem loadOne_nodup (pkey : Path) (vis : List (Path × Val α)) (st : SState α)
    (h : (st.pstate.map (·.1)).Nodup) : ((loadOne pkey vis st).pstate.map (·.1)).Nodup := by
  induction vis generalizing st with
  | nil => exact h
  | cons d vis ih =>
    simp only [loadOne]
    refine ih _ ?_
    split
    · split
      · exact h
      · exact put_nodup _ _ h
    · exact h

theorem get?_foldl_put {β : Type} (l acc : List (Key × β)) (hl : (l.map (·.1)).Nodup) (n : Key) :
    get? n (l.foldl (fun acc a => put a.1 a.2 acc) acc) = (get? n l).or (get? n acc) := by
  induction l generalizing acc with
  | nil => simp [get?]
  | cons p l ih =>
    obtain ⟨k, v⟩ := p
    simp only [List.map_cons, List.nodup_cons] at hl
    rw [List.foldl_cons, ih _ hl.2, get?_put]
    by_cases e : k = n
    · subst e
      have : get? k l = none := by
        cases h : get? k l with
        | none => rfl
        | some x => exact absurd ((get?_isSome_iff k l).1 (by rw [h]; rfl)) hl.1
      simp [get?, this]
    · simp [get?, e]

/-- `set_states` with the reused C++ state: right when all states have the same array names. -/
theorem pySetStates_spec (l : List (Key × SState α)) (acc : List (String × List α))
    (hl : ∀ p ∈ l, (p.2.pstate.map (·.1)).Nodup)
    (hacc : ∀ p ∈ l, ∀ n, (get? n acc).isSome = true → (get? n p.2.pstate).isSome = true)
    (hsame : ∀ p ∈ l, ∀ q ∈ l, ∀ n, (get? n p.2.pstate).isSome = (get? n q.2.pstate).isSome) :
    (pySetStates l acc).map (·.1) = l.map (·.1) ∧
    ∀ k s, get? k l = some s → ∃ s', get? k (pySetStates l acc) = some s' ∧ SameState s' s := by
  induction l generalizing acc with
  | nil => simp [pySetStates, get?]
  | cons p l ih =>
    obtain ⟨k0, st⟩ := p
    have hfold := get?_foldl_put st.pstate acc (hl (k0, st) (by simp))
    have hval : ∀ n, get? n (st.pstate.foldl (fun acc a => put a.1 a.2 acc) acc)
        = get? n st.pstate := by
      intro n
      rw [hfold n]
      cases h1 : get? n st.pstate with
      | some x => simp
      | none =>
        cases h2 : get? n acc with
        | none => simp
        | some y =>
          have := hacc (k0, st) (by simp) n (by rw [h2]; rfl)
          simp only [h1] at this; cases this
    obtain ⟨i1, i2⟩ := ih (st.pstate.foldl (fun acc a => put a.1 a.2 acc) acc)
      (fun p hp => hl p (List.mem_cons_of_mem _ hp))
      (by
        intro p hp n hn
        rw [hval n] at hn
        rw [← hsame (k0, st) (by simp) p (List.mem_cons_of_mem _ hp) n]
        exact hn)
      (fun p hp q hq => hsame p (List.mem_cons_of_mem _ hp) q (List.mem_cons_of_mem _ hq))
    refine ⟨by simp [pySetStates, i1], ?_⟩
    intro k s hk
    by_cases e : k0 = k
    · subst e
      simp only [get?, if_true, Option.some.injEq] at hk
      subst hk
      exact ⟨⟨st.pstate.foldl (fun acc a => put a.1 a.2 acc) acc, st.t⟩,
        by simp [pySetStates, get?], rfl, hval⟩
    · simp only [get?, e, if_false] at hk
      simp only [pySetStates, get?, e, if_false]
      exact i2 k s hk

/-- `set_states` with distinct registered keys sets exactly these. -/
theorem setStates_spec (l : List (Key × SState α)) (w : World α) (hn : (l.map (·.1)).Nodup)
    (hw : ∀ k, k ∈ l.map (·.1) → (get? k w.states).isSome = true) :
    (setStates l w).2 = none ∧
    (∀ k, get? k (setStates l w).1.states = (get? k l).or (get? k w.states)) ∧
    (setStates l w).1.mem = w.mem ∧ (setStates l w).1.params = w.params := by
  induction l generalizing w with
  | nil => simp [setStates, get?]
  | cons p l ih =>
    obtain ⟨k0, s0⟩ := p
    simp only [List.map_cons, List.nodup_cons] at hn
    obtain ⟨x, hx⟩ := Option.isSome_iff_exists.1 (hw k0 (by simp))
    simp only [setStates, hx]
    obtain ⟨i1, i2, i3, i4⟩ := ih { w with states := assign k0 s0 w.states } hn.2 (by
      intro k hk
      rw [get?_isSome_iff]
      simp only [keys_assign]
      rw [← get?_isSome_iff]
      exact hw k (by simp [hk]))
    refine ⟨i1, ?_, i3, i4⟩
    intro k
    rw [i2 k]
    simp only [get?_assign, get?]
    by_cases e : k0 = k
    · subst e
      have : get? k0 l = none := by
        cases h : get? k0 l with
        | none => rfl
        | some y => exact absurd ((get?_isSome_iff k0 l).1 (by rw [h]; rfl)) hn.1
      simp [this, hx]
    · simp [e]

/-! ## C54 -/

/-- C54, h5. When no parameter name is a prefix of another, `load_states` of the file written by
`save_states` restores every state (arrays and iteration count), in any order of visiting the file,
and touches nothing else. Missing: names that are prefixes of other names
(`loadStates_mixes_prefixes`). -/
theorem loadStates_saveStates_partial (states : List (Key × SState α))
    (hn : (states.map (·.1)).Nodup) (hpf : PrefixFree states) (hnames : NamesOk states)
    (hsn : SameNames states) (vis : List (Path × Val α)) (hvis : vis.Perm (saveH5 states))
    (pkeys : List Path) (hpn : pkeys.Nodup)
    (hpk : ∀ p, p ∈ pkeys ↔ ∃ d ∈ vis, parent d.1 = p)
    (w : World α) (hw : ∀ p ∈ states, (get? p.1 w.states).isSome = true) :
    (loadH5 vis pkeys w).2 = none ∧
    (∀ k s, get? k states = some s →
      ∃ s', get? k (loadH5 vis pkeys w).1.states = some s' ∧ SameState s' s) ∧
    (∀ k, get? k states = none → get? k (loadH5 vis pkeys w).1.states = get? k w.states) ∧
    (loadH5 vis pkeys w).1.mem = w.mem ∧ (loadH5 vis pkeys w).1.params = w.params := by
  have hpkeys : ∀ p, p ∈ pkeys ↔ ∃ q ∈ states, p = q.1.toList := by
    intro p
    rw [hpk p]
    constructor
    · rintro ⟨d, hd, rfl⟩
      obtain ⟨q, hq, h⟩ := mem_saveH5.1 (hvis.mem_iff.1 hd)
      refine ⟨q, hq, ?_⟩
      rcases h with rfl | ⟨a, ha, rfl⟩
      · exact parent_path _ _ (by decide)
      · exact parent_path _ _ ((hnames q hq).2 a ha).1
    · rintro ⟨q, hq, rfl⟩
      exact ⟨_, hvis.mem_iff.2 (mem_saveH5.2 ⟨q, hq, Or.inl rfl⟩), parent_path _ _ (by decide)⟩
  have hload : ∀ k s, (k, s) ∈ states → (k, loadOne k.toList vis ⟨[], 0⟩) ∈ loadDict vis pkeys := by
    intro k s hk
    exact List.mem_map.2 ⟨k.toList, (hpkeys _).2 ⟨_, hk, rfl⟩, by simp⟩
  have hkeys : (loadDict vis pkeys).map (·.1) = pkeys.map String.ofList := by simp [loadDict]
  have hkn : ((loadDict vis pkeys).map (·.1)).Nodup := by
    rw [hkeys]
    exact hpn.map (fun _ _ h => String.ofList_injective h)
  have hmemd : ∀ p ∈ loadDict vis pkeys, ∃ k s, (k, s) ∈ states ∧ p = (k, loadOne k.toList vis ⟨[], 0⟩) := by
    intro p hp
    obtain ⟨x, hx, rfl⟩ := List.mem_map.1 hp
    obtain ⟨q, hq, rfl⟩ := (hpkeys x).1 hx
    exact ⟨q.1, q.2, hq, by simp⟩
  obtain ⟨p1, p2⟩ := pySetStates_spec (loadDict vis pkeys) []
    (by
      intro p hp
      obtain ⟨k, s, hks, rfl⟩ := hmemd p hp
      exact loadOne_nodup _ _ _ (by simp))
    (by intro p _ n hn; simp [get?] at hn)
    (by
      intro p hp q hq n
      obtain ⟨k, s, hks, rfl⟩ := hmemd p hp
      obtain ⟨k', s', hks', rfl⟩ := hmemd q hq
      have a := (loadOne_saved hn hpf hnames hvis hks).2 n
      have b := (loadOne_saved hn hpf hnames hvis hks').2 n
      simp only []
      rw [a, b]
      exact hsn _ hks _ hks' n)
  obtain ⟨q1, q2, q3, q4⟩ := setStates_spec (pySetStates (loadDict vis pkeys) []) w
    (by rw [p1]; exact hkn)
    (by
      intro k hk
      rw [p1] at hk
      obtain ⟨p, hp, rfl⟩ := List.mem_map.1 hk
      obtain ⟨k, s, hks, rfl⟩ := hmemd p hp
      exact hw (k, s) hks)
  refine ⟨q1, ?_, ?_, q3, q4⟩
  · intro k s hk
    have hks := get?_mem hk
    obtain ⟨s', h1, h2⟩ := p2 k _ (get?_of_mem hkn (hload k s hks))
    refine ⟨s', ?_, ?_⟩
    · unfold loadH5; rw [q2 k, h1]; rfl
    · have := loadOne_saved hn hpf hnames hvis hks
      exact ⟨h2.1.trans this.1, fun n => (h2.2 n).trans (this.2 n)⟩
  · intro k hk
    unfold loadH5
    rw [q2 k]
    have : get? k (pySetStates (loadDict vis pkeys) []) = none := by
      cases h : get? k (pySetStates (loadDict vis pkeys) []) with
      | none => rfl
      | some x =>
        have hm := (get?_isSome_iff _ _).1 (show (get? k (pySetStates (loadDict vis pkeys) [])).isSome = true by rw [h]; rfl)
        rw [p1] at hm
        obtain ⟨p, hp, rfl⟩ := List.mem_map.1 hm
        obtain ⟨k, s, hks, rfl⟩ := hmemd p hp
        rw [get?_of_mem hn hks] at hk
        cases hk
    rw [this]; rfl

/-- Two parameters of an Adam-like solver with different counts and arrays. -/
def demoStates : List (Key × SState Nat) :=
  [("conv/W", ⟨[("mean", [1, 2]), ("var", [3, 4])], 5⟩), ("conv/b", ⟨[("mean", [6]), ("var", [7])], 8⟩)]

example : (demoStates.map (·.1)).Nodup ∧ PrefixFree demoStates ∧ NamesOk demoStates := by
  refine ⟨by decide, ?_, ?_⟩
  · intro p hp q hq
    simp only [demoStates, List.mem_cons, List.not_mem_nil, or_false] at hp hq
    rcases hp with rfl | rfl <;> rcases hq with rfl | rfl <;> decide
  · intro p hp
    simp only [demoStates, List.mem_cons, List.not_mem_nil, or_false] at hp
    rcases hp with rfl | rfl <;> decide

example : SameNames demoStates := by
  intro p hp q hq n
  simp only [demoStates, List.mem_cons, List.not_mem_nil, or_false] at hp hq
  rcases hp with rfl | rfl <;> rcases hq with rfl | rfl <;>
    (by_cases h1 : "mean" = n <;> by_cases h2 : "var" = n <;> simp [get?, h1, h2])

/-- Refuted without prefix-freeness: "w" and "w2" (visited in alphabetical order, as HDF5 does): the
state restored for "w" is the one of "w2". -/
theorem loadStates_mixes_prefixes :
    ∃ (states : List (Key × SState Nat)) (w : World Nat), (states.map (·.1)).Nodup ∧
      NamesOk states ∧ w.states = states ∧
      ∃ s s', get? "w" states = some s ∧
        get? "w" (loadH5 (saveH5 states) ["w".toList, "w2".toList] w).1.states = some s' ∧
        ¬ SameState s' s := by
  refine ⟨[("w", ⟨[("m", [1])], 5⟩), ("w2", ⟨[("m", [2, 3])], 8⟩)],
    ⟨demoMem, [("w", 0), ("w2", 1)], [("w", ⟨[("m", [1])], 5⟩), ("w2", ⟨[("m", [2, 3])], 8⟩)], 0, []⟩,
    by decide, ?_, rfl, ⟨[("m", [1])], 5⟩, ⟨[("m", [2, 3])], 8⟩, rfl, by rfl, ?_⟩
  · intro p hp
    simp only [List.mem_cons, List.not_mem_nil, or_false] at hp
    rcases hp with rfl | rfl <;> decide
  · rintro ⟨h, _⟩
    exact absurd h (by decide)

/-- C54, protobuf: `set_states_to_protobuf` then `set_states_from_protobuf`
(python/src/nnabla/solver.pyx.tmpl L237-252, L319-336): the message is a map from names to states,
so the dictionary handed to `set_states` is the one that was saved. -/
theorem loadStates_protobuf (states : List (Key × SState α)) (hn : (states.map (·.1)).Nodup)
    (hnn : ∀ p ∈ states, (p.2.pstate.map (·.1)).Nodup) (hsn : SameNames states)
    (msg : List (Key × SState α)) (hmsg : msg.Perm states)
    (w : World α) (hw : ∀ p ∈ states, (get? p.1 w.states).isSome = true) :
    (setStates (pySetStates msg []) w).2 = none ∧
    ∀ k s, get? k states = some s →
      ∃ s', get? k (setStates (pySetStates msg []) w).1.states = some s' ∧ SameState s' s := by
  have hn' : (msg.map (·.1)).Nodup := by rw [(hmsg.map _).nodup_iff]; exact hn
  obtain ⟨p1, p2⟩ := pySetStates_spec msg []
    (fun p hp => hnn p (hmsg.mem_iff.1 hp))
    (by intro p _ n hn; simp [get?] at hn)
    (fun p hp q hq => hsn p (hmsg.mem_iff.1 hp) q (hmsg.mem_iff.1 hq))
  obtain ⟨q1, q2, _, _⟩ := setStates_spec (pySetStates msg []) w
    (by rw [p1]; exact hn')
    (by
      intro k hk
      rw [p1] at hk
      obtain ⟨p, hp, rfl⟩ := List.mem_map.1 hk
      exact hw p (hmsg.mem_iff.1 hp))
  refine ⟨q1, ?_⟩
  intro k s hk
  have hm := hmsg.mem_iff.2 (get?_mem hk)
  obtain ⟨s', h1, h2⟩ := p2 k s (get?_of_mem hn' hm)
  exact ⟨s', by rw [q2 k, h1]; rfl, h2⟩

/-- Refuted without common array names: the reused C++ state leaks the arrays of the previous
parameters into the next ones. -/
theorem setStates_leaks_names :
    ∃ (l : List (Key × SState Nat)) (s : SState Nat), get? "b" l = some s ∧ s.pstate = [] ∧
      get? "b" (pySetStates l []) = some ⟨[("m", [1])], 2⟩ :=
  ⟨[("a", ⟨[("m", [1])], 1⟩), ("b", ⟨[], 2⟩)], ⟨[], 2⟩, rfl, rfl, rfl⟩

end Verif.Solver
