import Verif.ModuleTree.Round
import Verif.ModuleTree.Attr
/-
Property theorems C36, C65, C66 about `nn.Module`.
-/
namespace Verif.ModuleTree
open Verif.Params

/-! ## concrete cases used beside the theorems -/

/-- conv/W = 0, conv/b = 1 -/
def exScopeA : Dict := [("conv".toList, .dict [("W".toList, .var 0), ("b".toList, .var 1)])]
/-- W = 2 -/
def exScopeB : Dict := [("W".toList, .var 2)]
/-- w = 0: the same variable as conv/W of `exScopeA` -/
def exScopeC : Dict := [("w".toList, .var 0)]

def exHeap : PHeap := fun i => if i = 1 then exScopeA else if i = 2 then exScopeB else []
def exHeapShared : PHeap := fun i => if i = 1 then exScopeA else if i = 2 then exScopeC else []

/-- root(0) with two submodules `enc`(1), which holds `head`(2), and `alt`, the very same object 2. -/
def exTree : MTree :=
  .node 0 [("enc".toList, .node 1 [("head".toList, .node 2 [])]), ("alt".toList, .node 2 [])]

theorem exScopeA_wf : WFScope exScopeA := by
  refine ⟨by simp [exScopeA, WF, dget], ?_⟩
  intro p v hv a rest hp
  subst hp
  by_cases ha : a = "conv".toList
  · subst ha; exact ⟨by decide, by decide⟩
  · have : varAt exScopeA (a :: rest) = none := by
      simp only [exScopeA, varAt, lookup, dget, if_neg (Ne.symm ha)]
    rw [this] at hv; cases hv

theorem leaf_wf (k : Str) (v : Nat) (h1 : '/' ∉ k) (h2 : k ≠ []) (h3 : k.head? ≠ some '@') :
    WFScope [(k, .var v)] := by
  refine ⟨by simp [WF, dget, h1], ?_⟩
  intro p u hv a rest hp
  subst hp
  by_cases ha : a = k
  · subst ha; exact ⟨h2, h3⟩
  · have : varAt [(k, .var v)] (a :: rest) = none := by
      simp only [varAt, lookup, dget, if_neg (Ne.symm ha)]
    rw [this] at hv; cases hv

theorem empty_wf : WFScope [] := ⟨by simp [WF], by
  intro p v hv; cases p <;> simp [varAt, lookup, dget] at hv⟩

theorem exTree_wf : WFTree exTree := by
  refine .node (by decide) (by decide) ?_
  intro e he
  simp only [List.mem_cons, List.not_mem_nil, or_false] at he
  rcases he with rfl | rfl
  · refine .node (by decide) (by decide) ?_
    intro e he
    simp only [List.mem_cons, List.not_mem_nil, or_false] at he
    subst he
    exact .node (by simp) (by simp) (by simp)
  · exact .node (by simp) (by simp) (by simp)

theorem exHeap_good : Good exHeap exTree := by
  refine ⟨exTree_wf, fun ms m _ => ?_⟩
  simp only [exHeap]
  split
  · exact exScopeA_wf
  · split
    · exact leaf_wf _ _ (by decide) (by decide) (by decide)
    · exact empty_wf

theorem exHeapShared_good : Good exHeapShared exTree := by
  refine ⟨exTree_wf, fun ms m _ => ?_⟩
  simp only [exHeapShared]
  split
  · exact exScopeA_wf
  · split
    · exact leaf_wf _ _ (by decide) (by decide) (by decide)
    · exact empty_wf

/-! ## C36 -/

/-- **C36** (listing).  `get_parameters` lists only parameters that live in the tree, each under the
documented name of a place where it lives; names are distinct; and every (kept) parameter that
lives anywhere in the tree is listed exactly once, however often it is shared. -/
theorem C36_listing (keep : Nat → Bool) {h : PHeap} {t : MTree} (ht : WFTree t)
    (hs : ∀ ms m, Reach t ms m → WFScope (h m.id)) :
    (∀ k v, (k, v) ∈ getParametersOf keep h t →
      keep v ∧ ∃ ms p, k = keyOf ms p ∧ Lives h t ms p v) ∧
    ((getParametersOf keep h t).map Prod.fst).Nodup ∧
    ((getParametersOf keep h t).map Prod.snd).Nodup ∧
    (∀ ms p v, Lives h t ms p v → keep v → v ∈ (getParametersOf keep h t).map Prod.snd) := by
  have hg : Good h t := ⟨ht, hs⟩
  have he : getParametersOf keep h t = keyed (dd (locs keep h t) []).1 := by
    rw [getParametersOf, getParams_eq keep h t [] hg]
  have hsnd : ∀ l, (keyed l).map Prod.snd = l.map Prod.snd := by
    intro l; simp [keyed, List.map_map, Function.comp_def]
  have hd := dd_vals (locs keep h t) []
  rw [he]
  refine ⟨?_, ?_, ?_, ?_⟩
  · intro k v hm
    obtain ⟨⟨⟨ms, p⟩, w⟩, hx, heq⟩ := List.mem_map.mp hm
    simp only [Prod.mk.injEq] at heq
    obtain ⟨rfl, rfl⟩ := heq
    have := (mem_locs keep h t hg ms p w).mp ((dd_sublist _ _).subset hx)
    exact ⟨this.2, ms, p, rfl, this.1⟩
  · exact ((keyed_sublist (dd_sublist _ _)).map _).nodup (locs_keys_nodup keep hg)
  · rw [hsnd]; exact hd.1
  · intro ms p v hl hk
    rw [hsnd, hd.2]
    exact ⟨List.mem_map.mpr ⟨_, (mem_locs keep h t hg ms p v).mpr ⟨hl, hk⟩, rfl⟩, by simp⟩

/-- The example tree reaches object 2 twice; its parameter is listed once, under the first name. -/
theorem exHeap_list : getParametersOf (fun _ => true) exHeap exTree =
    [("@enc/@head/W".toList, 2), ("@enc/conv/W".toList, 0), ("@enc/conv/b".toList, 1)] := by
  rw [getParametersOf, getParams_eq _ _ _ _ exHeap_good]
  simp [locs, locsSubs, exTree, exHeap, exScopeA, exScopeB, entries, dd, keyed, keyOf, join]

/-- **C36** (addressing).  Every key listed by `get_parameters` is accepted by `set_parameter`, also
with `raise_if_missing=True`, and addresses the parameter it was listed for: the scope of the module it
lives in now holds the new variable at that path, and nothing else changes in any module. -/
theorem C36_addressing (keep : Nat → Bool) (raise : Bool) {h : PHeap} {t : MTree} (ht : WFTree t)
    (hs : ∀ ms m, Reach t ms m → WFScope (h m.id)) {k : Str} {v : Nat}
    (hk : (k, v) ∈ getParametersOf keep h t) (w : Nat) :
    ∃ ms m p, k = keyOf ms p ∧ Reach t ms m ∧ varAt (h m.id) p = some v ∧
      (setParam raise t k w h).1 = .ok () ∧
      ∀ j q, varAt ((setParam raise t k w h).2 j) q =
        if j = m.id ∧ q = p then some w else varAt (h j) q := by
  obtain ⟨_, ms, p, rfl, m, hr, hv⟩ := (C36_listing keep ht hs).1 k v hk
  have hw := hs ms m hr
  refine ⟨ms, m, p, rfl, hr, hv, ?_, ?_⟩
  · rw [setParam_reach raise hr ht hw hv]
  · intro j q
    rw [setParam_reach raise hr ht hw hv]
    simp only [hput]
    by_cases hj : j = m.id
    · rw [if_pos hj, (varAt_put hw hv w).2]
      by_cases hq : q = p
      · simp [hj, hq]
      · simp [hj, hq]
    · rw [if_neg hj, if_neg (fun hc => hj hc.1)]

theorem exReachEnc : Reach exTree ["enc".toList] (.node 1 [("head".toList, .node 2 [])]) :=
  .step (by simp) (.here _)

example : ("@enc/conv/b".toList, 1) ∈ getParametersOf (fun _ => true) exHeap exTree ∧
    ((setParam true exTree "@enc/conv/b".toList 7 exHeap).2 1) =
      [("conv".toList, .dict [("W".toList, .var 0), ("b".toList, .var 7)])] := by
  refine ⟨by rw [exHeap_list]; simp, ?_⟩
  have hk : "@enc/conv/b".toList = keyOf ["enc".toList] ["conv".toList, "b".toList] := by decide
  rw [hk, setParam_reach true exReachEnc exTree_wf (exHeap_good.2 _ _ exReachEnc)
      (p := ["conv".toList, "b".toList]) (u := 1) (by rfl)]
  rfl

/-- **C36** (update).  `update_parameter()` succeeds and leaves every module's scope as it was. -/
theorem C36_update_parameter {h : PHeap} {t : MTree} (ht : WFTree t)
    (hs : ∀ ms m, Reach t ms m → WFScope (h m.id)) : updateParameter t h = (.ok (), h) := by
  have hL := (C36_listing (fun _ => true) ht hs).1
  unfold updateParameter
  generalize hlist : getParametersOf (fun _ => true) h t = L at hL ⊢
  clear hlist
  induction L with
  | nil => rfl
  | cons e L ih =>
    obtain ⟨k, v⟩ := e
    obtain ⟨_, ms, p, rfl, m, hr, hv⟩ := hL k v (by simp)
    rw [setParams, setParam_reach false hr ht (hs _ _ hr) hv, putPath_same hv, hput_same]
    exact ih (fun k v hm => hL k v (by simp [hm]))

example : updateParameter exTree exHeap = (.ok (), exHeap) := C36_update_parameter exTree_wf exHeap_good.2

/-- **C36** (round trip), for modules that do not hold one variable at two places of their scopes.
Give every listed parameter a new variable (`g` sends old variables to new ones, as `load_parameters`
does with the freshly loaded ones) and pass the result to `set_parameters(raise_if_missing=True)` in
any order: the call succeeds, every parameter of the tree is replaced by its new one, and
`get_parameters` lists the same names in the same order with the new variables.
A module object attached at two places counts as one module. -/
theorem C36_round_trip_partial {h : PHeap} {t : MTree} (ht : WFTree t)
    (hs : ∀ ms m, Reach t ms m → WFScope (h m.id))
    (hshare : ∀ ms m ms' m' p p' v, Reach t ms m → Reach t ms' m' → varAt (h m.id) p = some v →
      varAt (h m'.id) p' = some v → m.id = m'.id ∧ p = p')
    (g : Nat → Nat)
    (hg : ∀ ms p v ms' p' v', Lives h t ms p v → Lives h t ms' p' v' → g v = g v' → v = v')
    (L : List (Str × Nat))
    (hL : L.Perm ((getParametersOf (fun _ => true) h t).map (fun e => (e.1, g e.2)))) :
    ∃ h', setParams true t L h = (.ok (), h') ∧
      (∀ ms m p, Reach t ms m → varAt (h' m.id) p = (varAt (h m.id) p).map g) ∧
      getParametersOf (fun _ => true) h' t =
        (getParametersOf (fun _ => true) h t).map (fun e => (e.1, g e.2)) := by
  have hgood : Good h t := ⟨ht, hs⟩
  obtain ⟨l1, l2, l3, l4⟩ := C36_listing (fun _ => true) ht hs
  obtain ⟨Q, hQ, hP⟩ := list_choice (f := Asg.entry)
    (P := fun a => ∃ m v, Reach t a.ms m ∧ m.id = a.i ∧ varAt (h a.i) a.p = some v ∧ a.w = g v) L (by
      intro x hx
      obtain ⟨⟨k, v⟩, he, rfl⟩ := List.mem_map.mp (hL.mem_iff.mp hx)
      obtain ⟨_, ms, p, rfl, m, hr, hv⟩ := l1 k v he
      exact ⟨⟨ms, m.id, p, g v⟩, rfl, m, v, hr, rfl, hv, rfl⟩)
  obtain ⟨h', hset, hg', hent⟩ := setParams_run true Q h hgood (by
    intro a ha
    obtain ⟨m, v, h1, h2, h3, _⟩ := hP a ha
    exact ⟨m, h1, h2, v, h3⟩)
  have hval : ∀ ms m p v, Reach t ms m → varAt (h m.id) p = some v → ov Q m.id p v = g v := by
    intro ms m p v hr hv
    apply ov_hit
    · intro a ha hc
      obtain ⟨m', v', _, h2, h3, h4⟩ := hP a ha
      rw [← hc.1, ← hc.2, hv] at h3
      cases h3
      exact h4
    · obtain ⟨⟨k, v'⟩, he, hv'⟩ := List.mem_map.mp (l4 ms p v ⟨m, hr, hv⟩ rfl)
      simp only at hv'; subst hv'
      have hx : (k, g v') ∈ L := hL.mem_iff.mpr (List.mem_map.mpr ⟨_, he, rfl⟩)
      rw [← hQ] at hx
      obtain ⟨a, ha, hae⟩ := List.mem_map.mp hx
      obtain ⟨m', v'', h1, h2, h3, h4⟩ := hP a ha
      simp only [Asg.entry, Prod.mk.injEq] at hae
      have hl1 : Lives h t a.ms a.p v'' := ⟨m', h1, h2 ▸ h3⟩
      have hvv : v'' = v' := hg _ _ _ _ _ _ hl1 ⟨m, hr, hv⟩ (h4 ▸ hae.2)
      subst hvv
      have := hshare ms m a.ms m' p a.p v'' hr h1 hv (h2 ▸ h3)
      exact ⟨a, ha, by rw [this.1, h2], this.2⟩
  have hent' : ∀ ms m, Reach t ms m →
      entries (h' m.id) = (entries (h m.id)).map (fun e => (e.1, g e.2)) := by
    intro ms m hr
    rw [hent]
    apply List.map_congr_left
    intro e he
    rw [hval ms m e.1 e.2 hr ((mem_entries _ (hs _ _ hr).1 _ _).mp he)]
  refine ⟨h', by rw [← hQ]; exact hset, ?_, ?_⟩
  · intro ms m p hr
    have hw := (hs ms m hr).1
    have hw' := (hg'.2 ms m hr).1
    have hiff : ∀ x, varAt (h' m.id) p = some x ↔ (varAt (h m.id) p).map g = some x := by
      intro x
      rw [← mem_entries _ hw', hent' ms m hr, List.mem_map, Option.map_eq_some_iff]
      constructor
      · rintro ⟨⟨q, y⟩, he, heq⟩
        simp only [Prod.mk.injEq] at heq
        obtain ⟨rfl, rfl⟩ := heq
        exact ⟨y, (mem_entries _ hw _ _).mp he, rfl⟩
      · rintro ⟨y, hy, rfl⟩
        exact ⟨(p, y), (mem_entries _ hw _ _).mpr hy, rfl⟩
    cases h1 : varAt (h' m.id) p with
    | some x => exact ((hiff x).mp h1).symm
    | none =>
      cases h2 : (varAt (h m.id) p).map g with
      | none => rfl
      | some x => rw [(hiff x).mpr h2] at h1; cases h1
  · have hmap := locs_map g h h' t hent'
    have hdd := dd_inj g (locs (fun _ => true) h t) [] (by
      intro a b ha hb hab
      obtain ⟨⟨⟨ms, p⟩, v⟩, he, rfl⟩ := List.mem_map.mp ha
      simp only [List.append_nil] at hb
      obtain ⟨⟨⟨ms', p'⟩, v'⟩, he', rfl⟩ := List.mem_map.mp hb
      exact hg _ _ _ _ _ _ ((mem_locs _ h t hgood _ _ _).mp he).1 ((mem_locs _ h t hgood _ _ _).mp he').1 hab)
    simp only [List.map_nil] at hdd
    rw [getParametersOf, getParams_eq _ h' t [] hg', getParametersOf, getParams_eq _ h t [] hgood, hmap, hdd]
    simp [keyed, List.map_map, Function.comp_def]

theorem exReach {ms : List Str} {m : MTree} (h : Reach exTree ms m) :
    (ms = [] ∧ m.id = 0) ∨ (ms = ["enc".toList] ∧ m.id = 1) ∨ m.id = 2 := by
  unfold exTree at h
  cases h with
  | here => exact Or.inl ⟨rfl, rfl⟩
  | step hm hr =>
    simp only [List.mem_cons, Prod.mk.injEq, List.not_mem_nil, or_false] at hm
    rcases hm with ⟨rfl, rfl⟩ | ⟨rfl, rfl⟩
    · cases hr with
      | here => exact Or.inr (Or.inl ⟨rfl, rfl⟩)
      | step hm hr =>
        simp only [List.mem_cons, Prod.mk.injEq, List.not_mem_nil, or_false] at hm
        obtain ⟨rfl, rfl⟩ := hm
        cases hr with
        | here => exact Or.inr (Or.inr rfl)
        | step hm hr => simp at hm
    · cases hr with
      | here => exact Or.inr (Or.inr rfl)
      | step hm hr => simp at hm

/-- In the example heap no variable sits at two places, so the round trip applies. -/
theorem exHeap_entries {i : Nat} {p : List Str} {v : Nat} (h : varAt (exHeap i) p = some v) :
    (i = 1 ∧ p = ["conv".toList, "W".toList] ∧ v = 0) ∨ (i = 1 ∧ p = ["conv".toList, "b".toList] ∧ v = 1) ∨
    (i = 2 ∧ p = ["W".toList] ∧ v = 2) := by
  have hw : WF (exHeap i) := by
    simp only [exHeap]
    split
    · exact exScopeA_wf.1
    · split
      · exact (leaf_wf _ _ (by decide) (by decide) (by decide)).1
      · exact empty_wf.1
  have hm := (mem_entries _ hw p v).mpr h
  simp only [exHeap] at hm
  split at hm
  · next hi => simp [exScopeA, entries] at hm; simp [hi]; exact hm
  · next hi =>
    split at hm
    · next hi' => simp [exScopeB, entries] at hm; simp [hi']; exact hm
    · simp [entries] at hm

example : ∃ h', setParams true exTree
      [("@enc/conv/b".toList, 11), ("@enc/@head/W".toList, 12), ("@enc/conv/W".toList, 10)] exHeap = (.ok (), h') ∧
    getParametersOf (fun _ => true) h' exTree =
      [("@enc/@head/W".toList, 12), ("@enc/conv/W".toList, 10), ("@enc/conv/b".toList, 11)] := by
  obtain ⟨h', h1, _, h3⟩ := C36_round_trip_partial exTree_wf exHeap_good.2
    (by
      intro ms m ms' m' p p' v _ _ hv hv'
      rcases exHeap_entries hv with ⟨a, b, c⟩ | ⟨a, b, c⟩ | ⟨a, b, c⟩ <;>
        rcases exHeap_entries hv' with ⟨a', b', c'⟩ | ⟨a', b', c'⟩ | ⟨a', b', c'⟩ <;>
        first
        | (exfalso; omega)
        | exact ⟨by rw [a, a'], by rw [b, b']⟩)
    (fun v => v + 10) (by intro _ _ v _ _ v' _ _ h; omega)
    [("@enc/conv/b".toList, 11), ("@enc/@head/W".toList, 12), ("@enc/conv/W".toList, 10)]
    (by
      rw [exHeap_list]
      exact List.perm_middle (l₁ := [("@enc/@head/W".toList, 12), ("@enc/conv/W".toList, 10)]) (l₂ := []) |>.symm)
  exact ⟨h', h1, by rw [h3, exHeap_list]; rfl⟩

/-- **C36** (round trip), refuted for shared variables.  One variable registered in the scopes of two
modules is listed once; setting the listed keys to new variables replaces it at the first place only, the
second keeps the old variable, so the tree does not hold the loaded values and no longer shares. -/
theorem C36_shared_round_trip_refutation :
    ∃ (h : PHeap) (t : MTree) (g : Nat → Nat), WFTree t ∧ (∀ ms m, Reach t ms m → WFScope (h m.id)) ∧
      (∀ v v', g v = g v' → v = v') ∧
      ∃ h', setParams true t ((getParametersOf (fun _ => true) h t).map (fun e => (e.1, g e.2))) h = (.ok (), h') ∧
        ∃ ms m p v, Reach t ms m ∧ varAt (h m.id) p = some v ∧ varAt (h' m.id) p = some v ∧ g v ≠ v := by
  have hl : getParametersOf (fun _ => true) exHeapShared exTree =
      [("@enc/@head/w".toList, 0), ("@enc/conv/b".toList, 1)] := by
    rw [getParametersOf, getParams_eq _ _ _ _ exHeapShared_good]
    simp [locs, locsSubs, exTree, exHeapShared, exScopeA, exScopeC, entries, dd, keyed, keyOf, join]
  have hr2 : Reach exTree ["enc".toList, "head".toList] (.node 2 []) :=
    .step (m := .node 1 [("head".toList, .node 2 [])]) (by simp) (.step (m := .node 2 []) (by simp) (.here _))
  obtain ⟨h', hs, hg', hent⟩ := setParams_run true (t := exTree)
    [⟨["enc".toList, "head".toList], 2, ["w".toList], 10⟩, ⟨["enc".toList], 1, ["conv".toList, "b".toList], 11⟩]
    exHeapShared exHeapShared_good (by
      intro a ha
      simp only [List.mem_cons, List.not_mem_nil, or_false] at ha
      rcases ha with rfl | rfl
      · exact ⟨_, hr2, rfl, 0, by rfl⟩
      · exact ⟨_, exReachEnc, rfl, 1, by rfl⟩)
  refine ⟨exHeapShared, exTree, fun v => v + 10, exTree_wf, exHeapShared_good.2,
    fun v v' h => by simp only at h; omega, h', ?_, ["enc".toList], _, ["conv".toList, "W".toList], 0,
    exReachEnc, by rfl, ?_, by decide⟩
  · rw [hl]
    exact hs
  · rw [← mem_entries _ (hg'.2 _ _ exReachEnc).1]
    have := hent 1
    simp only [MTree.id, this]
    rw [List.mem_map]
    exact ⟨(["conv".toList, "W".toList], 0), by simp [exHeapShared, exScopeA, entries], by simp [ov]⟩

/-- **C36**, refuted for parameter names that start with '@': a parameter registered in scope "@x" is
listed as "@x/w", which `set_parameter` takes for a child module. -/
theorem C36_at_name_refutation :
    ∃ (h : PHeap) (t : MTree) (k : Str) (v : Nat), WFTree t ∧ (∀ ms m, Reach t ms m → WF (h m.id)) ∧
      (k, v) ∈ getParametersOf (fun _ => true) h t ∧
      (setParam true t k v h).1 = .error .valueError ∧ setParam false t k (v + 1) h = (.ok (), h) := by
  refine ⟨fun _ => [("@x".toList, .dict [("w".toList, .var 0)])], .node 0 [], "@x/w".toList, 0,
    .node (by simp) (by simp) (by simp), ?_, ?_, ?_, ?_⟩
  · intro _ _ _; simp [WF, dget]
  · have hw : WF [("@x".toList, .dict [("w".toList, .var 0)])] := by simp [WF, dget]
    rw [getParametersOf, getParams, if_pos rfl, getSubs]
    simp only [(getParameters_eq _ hw).1]
    simp [entries, join, filterAndUpdate, pupdate, pset]
  · rfl
  · rfl

/-! ## C65 -/

/-- **C65**.  After `m.training = b` every module reachable from `m` reads `b`, and the flag of every
other module object is untouched. -/
theorem C65_training (b : Bool) (t : MTree) (T : THeap) :
    (∀ ms m, Reach t ms m → getTraining (setTraining b t T) m.id = b) ∧
    (∀ j, (∀ ms m, Reach t ms m → m.id ≠ j) → getTraining (setTraining b t T) j = getTraining T j) := by
  refine ⟨fun ms m hr => ?_, fun j h => ?_⟩
  · rw [getTraining, ((setTraining_spec b t T m.id).2.1 ⟨ms, m, hr, rfl⟩)]; rfl
  · rw [getTraining, ((setTraining_spec b t T j).2.2 h)]; rfl

example : getTraining (setTraining false exTree (fun _ => none)) 2 = false ∧
    getTraining (setTraining false exTree (fun _ => none)) 3 = true := by decide

/-- **C65**: the flag is copied at the assignment, not inherited: a module attached afterwards keeps
its own. -/
theorem C65_attached_later_refutation :
    ∃ (t t' : MTree) (ms : List Str) (m : MTree) (T : THeap), t.id = t'.id ∧ Reach t' ms m ∧
      getTraining (setTraining false t T) t'.id = false ∧ getTraining (setTraining false t T) m.id = true :=
  ⟨.node 0 [], .node 0 [("s".toList, .node 1 [])], ["s".toList], .node 1 [], fun _ => none, rfl,
    .step (by simp) (.here _), by decide, by decide⟩

/-! ## C66 -/

/-- **C66**.  Assigning an attribute of a Module and reading it back gives the assigned value and leaves
other attributes alone, provided a Module is not assigned to a name that holds a non-Module value. -/
theorem C66_attribute_partial (o : MObj) (name : Str) (v : AVal)
    (h : ∀ i, v = .module i → aget o.dict name = none) :
    getattr (setattr o name v) name = some v ∧
    ∀ n, n ≠ name → getattr (setattr o name v) n = getattr o n := by
  cases v with
  | other x => exact ⟨by simp [getattr, setattr, aget_aset_self], fun n hn => by
      simp [getattr, setattr, aget_aset_ne _ _ hn]⟩
  | module i =>
    have h1 := h i rfl
    exact ⟨by simp [getattr, setattr, h1, aget_aset_self], fun n hn => by
      simp [getattr, setattr, aget_aset_ne _ _ hn]⟩

/-- Replacing a submodule by a plain value reads back the value. -/
example : getattr (setattr ⟨[], [("a".toList, 3)]⟩ "a".toList (.other 5)) "a".toList = some (.other 5) := by decide

/-- **C66**, refuted in general, both ways round: `m.a = None; m.a = Sub()` reads back the old value, and
`m.a = Sub(); m.a = None` leaves the replaced module among the submodules. -/
theorem C66_attribute_refutation :
    (∃ (o : MObj) (n : Str) (i x : Nat), getattr o n = some (.other x) ∧
      getattr (setattr o n (.module i)) n = some (.other x)) ∧
    (∃ (o : MObj) (n : Str) (i x : Nat), getattr o n = some (.module i) ∧
      getattr (setattr o n (.other x)) n = some (.other x) ∧ (setattr o n (.other x)).subs = [(n, i)]) :=
  ⟨⟨⟨[("a".toList, 7)], []⟩, "a".toList, 1, 7, by decide, by decide⟩,
   ⟨⟨[], [("a".toList, 1)]⟩, "a".toList, 1, 7, by decide, by decide, by decide⟩⟩

end Verif.ModuleTree
