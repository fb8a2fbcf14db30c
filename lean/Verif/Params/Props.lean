import Verif.Params.Lemmas4
import Verif.Params.Heap
/-
Property theorems C01-C05 and C37 about the parameter registry.
-/
namespace Verif.Params

/-! ## C01 -/

/-- **C01** (`set_parameter`).  In any current scope `d`: if the key's path runs through a parameter,
the call raises and nothing changes; otherwise it succeeds and afterwards exactly the path of the key
is bound to `v`, whatever was below it is gone, and every other path is bound as before. -/
theorem C01_set_parameter {σ : Type} (k : Str) (v : Nat) (s : σ) (d : Dict) :
    (Blocked d (path k) → setParameter k v (s, d) = (.error .assertion, (s, d))) ∧
    (¬ Blocked d (path k) →
      (setParameter k v (s, d)).1 = .ok () ∧ (setParameter k v (s, d)).2.1 = s ∧
      ∀ q, varAt (setParameter k v (s, d)).2.2 q =
        if q = path k then some v else if path k <+: q then none else varAt d q) := by
  refine ⟨(set_spec k v s d).1, fun h => ?_⟩
  obtain ⟨h1, h2, e, h3, h4⟩ := (set_spec k v s d).2 h
  refine ⟨h1, h2, fun q => ?_⟩
  obtain ⟨ns, l, hp, hp1, hp2, _⟩ := path_split k
  rw [hp1] at h3
  rw [h4, hp1, hp2, varAt_graft_set _ h3, hp]

/-- **C01** (`get_parameter`): the result is a function of what is stored at the key's path, and the
call changes no binding. -/
theorem C01_get_parameter {σ : Type} (k : Str) (s : σ) (d : Dict) :
    ((getParameter k (s, d)).1 = .error .assertion ↔
      Blocked d (path k) ∨ ∃ es, lookup (path k) d = some (.dict es)) ∧
    (∀ v, (getParameter k (s, d)).1 = .ok (some v) ↔ varAt d (path k) = some v) ∧
    ((getParameter k (s, d)).1 = .ok none ↔ ¬ Blocked d (path k) ∧ lookup (path k) d = none) ∧
    (getParameter k (s, d)).2.1 = s ∧
    ∀ q, varAt (getParameter k (s, d)).2.2 q = varAt d q := by
  by_cases hb : Blocked d (path k)
  · have h := (get_spec k s d).1 hb
    rw [h]
    refine ⟨by simp [hb], fun v => ?_, by simp [hb], rfl, fun _ => rfl⟩
    simp only [reduceCtorEq, false_iff]
    intro hv
    obtain ⟨q, w, h1, h2, h3⟩ := hb
    obtain ⟨t, ht⟩ := h1
    have : t ≠ [] := by rintro rfl; simp at ht; exact h2 ht
    rw [← ht, varAt_below h3 this] at hv
    simp at hv
  · obtain ⟨h1, h2, e, h3, h4⟩ := (get_spec k s d).2 hb
    rw [h1, h2, h4]
    refine ⟨?_, fun v => ?_, ?_, rfl, varAt_graft_same h3⟩
    · cases lookup (path k) d with
      | none => simp [hb]
      | some n => cases n <;> simp [hb]
    · simp only [varAt]
      cases lookup (path k) d with
      | none => simp
      | some n => cases n <;> simp
    · cases lookup (path k) d with
      | none => simp [hb]
      | some n => cases n <;> simp

/-- **C01** (`pop_parameter`), in every well-formed (hence every reachable) registry. -/
theorem C01_pop_parameter {σ : Type} (k : Str) (s : σ) {d : Dict} (hw : WF d) :
    (Blocked d (path k) → popParameter k (s, d) = (.error .assertion, (s, d))) ∧
    (¬ Blocked d (path k) →
      (popParameter k (s, d)).1 = .ok (lookup (path k) d) ∧ (popParameter k (s, d)).2.1 = s ∧
      ∀ q, varAt (popParameter k (s, d)).2.2 q = if path k <+: q then none else varAt d q) :=
  pop_spec k s hw

/-- **C01** read-your-writes at API level: `set_parameter(k, v)` then `get_parameter(k)` is `v`, and a
key whose path is neither inside nor above `k`'s path answers as before. -/
theorem C01_get_after_set {σ : Type} (k k' : Str) (v : Nat) (s : σ) (d : Dict)
    (hok : (setParameter k v (s, d)).1 = .ok ()) :
    (getParameter k (setParameter k v (s, d)).2).1 = .ok (some v) ∧
    (¬ path k <+: path k' → ¬ path k' <+: path k →
      (getParameter k' (setParameter k v (s, d)).2).1 = (getParameter k' (s, d)).1) := by
  have hnb : ¬ Blocked d (path k) := by
    intro hb; rw [(set_spec k v s d).1 hb] at hok; simp at hok
  obtain ⟨_, _, hvar⟩ := (C01_set_parameter k v s d).2 hnb
  obtain ⟨h1, h2, e, h3, h4⟩ := (set_spec k v s d).2 hnb
  generalize hst : (setParameter k v (s, d)).2 = st at *
  obtain ⟨s', d'⟩ := st
  dsimp only at *
  subst h2
  refine ⟨?_, fun hi1 hi2 => ?_⟩
  · rw [(C01_get_parameter k s' d').2.1, hvar, if_pos rfl]
  · have hbl : Blocked d' (path k') ↔ Blocked d (path k') := by
      unfold Blocked
      have : ∀ q, q <+: path k' → varAt d' q = varAt d q := by
        intro q hq
        rw [hvar, if_neg, if_neg]
        · intro h; exact hi1 (h.trans hq)
        · rintro rfl; exact hi1 hq
      constructor
      · rintro ⟨q, w, h1, h2, h3⟩; exact ⟨q, w, h1, h2, by rw [← this q h1]; exact h3⟩
      · rintro ⟨q, w, h1, h2, h3⟩; exact ⟨q, w, h1, h2, by rw [this q h1]; exact h3⟩
    by_cases hb : Blocked d (path k')
    · rw [(get_spec k' s' d).1 hb, (get_spec k' s' d').1 (hbl.mpr hb)]
    · rw [((get_spec k' s' d).2 hb).1, ((get_spec k' s' d').2 (fun h => hb (hbl.mp h))).1]
      have : lookup (path k') d' = lookup (path k') d := by
        obtain ⟨ns, l, hp, hp1, hp2, _⟩ := path_split k
        rw [hp] at hi1 hi2
        rw [hp1] at h3
        rw [h4, hp1, hp2]
        by_cases hns : ns <+: path k'
        · obtain ⟨t, ht⟩ := hns
          have htne : t ≠ [] := by rintro rfl; rw [← ht] at hi2; simp at hi2
          rw [← ht, lookup_graft_append, sub_lookup_append h3 htne]
          cases t with
          | nil => exact absurd rfl htne
          | cons a t =>
            have : a ≠ l := by
              rintro rfl; apply hi1; rw [← ht]; simp
            exact lookup_cons_congr _ (dget_dset_ne _ _ this)
        · refine lookup_graft_incomp _ h3 hns ?_
          intro h; exact hi2 (h.trans (List.prefix_append _ _))
      rw [this]

/-- **C01**, lookups: after any `get_parameter(k)`, every key returns the same variable as before.
The only change a lookup can cause is that a key that returned `None` raises AssertionError
afterwards, and only when its path is a proper prefix of the looked-up path (the lookup created an
empty scope there).  See `C01_lookup_changes_none_refutation`. -/
theorem C01_lookup_pure_partial {σ : Type} (k k' : Str) (s : σ) (d : Dict) :
    (getParameter k' (getParameter k (s, d)).2).1 = (getParameter k' (s, d)).1 ∨
    ((getParameter k' (s, d)).1 = .ok none ∧
      (getParameter k' (getParameter k (s, d)).2).1 = .error .assertion ∧
      path k' <+: path k ∧ path k' ≠ path k) := by
  by_cases hb : Blocked d (path k)
  · rw [(get_spec k s d).1 hb]; exact .inl rfl
  obtain ⟨h1, h2, e, h3, h4⟩ := (get_spec k s d).2 hb
  have hv := (C01_get_parameter k s d).2.2.2.2
  generalize hst : (getParameter k (s, d)).2 = st at *
  obtain ⟨s', d'⟩ := st
  dsimp only at *
  subst h2
  have hbl : Blocked d' (path k') ↔ Blocked d (path k') := by simp only [Blocked, hv]
  by_cases hb' : Blocked d (path k')
  · left
    rw [(get_spec k' s' d').1 (hbl.mpr hb'), (get_spec k' s' d).1 hb']
  have hb'' : ¬ Blocked d' (path k') := fun h => hb' (hbl.mp h)
  rw [((get_spec k' s' d').2 hb'').1, ((get_spec k' s' d).2 hb').1]
  obtain ⟨ns, l, hp, hp1, hp2, _⟩ := path_split k
  rw [hp1] at h3 h4
  by_cases hpre : path k' <+: ns
  · obtain ⟨es, hes⟩ := lookup_graft_prefix e d hpre
    rw [← h4] at hes
    rcases sub_prefix_lookup h3 hpre with hn | ⟨es', hn⟩
    · right
      rw [hn, hes]
      refine ⟨rfl, rfl, ?_, ?_⟩
      · rw [hp]; exact hpre.trans (List.prefix_append _ _)
      · rw [hp]; intro h; rw [h] at hpre; have := hpre.length_le; simp at this; omega
    · left; rw [hn, hes]
  · left
    by_cases hns : ns <+: path k'
    · obtain ⟨t, ht⟩ := hns
      have htne : t ≠ [] := by rintro rfl; rw [← ht] at hpre; simp at hpre
      rw [h4, ← ht, lookup_graft_append, sub_lookup_append h3 htne]
    · rw [h4, lookup_graft_incomp _ h3 hns hpre]

/-- The unrestricted claim "a lookup never changes what any key returns" is false: in an empty
registry `get_parameter("a")` is None, but after `get_parameter("a/b")` (also None) it raises. -/
theorem C01_lookup_changes_none_refutation :
    (getParameter "a".toList ((), ([] : Dict))).1 = .ok none ∧
    (getParameter "a/b".toList ((), ([] : Dict))).1 = .ok none ∧
    (getParameter "a".toList (getParameter "a/b".toList ((), ([] : Dict))).2).1 = .error .assertion := by
  have h1 : path "a".toList = ["a".toList] := by decide
  have h2 : path "a/b".toList = ["a".toList, "b".toList] := by decide
  refine ⟨?_, ?_, ?_⟩
  · rw [(C01_get_parameter _ _ _).2.2.1, h1]
    refine ⟨?_, by simp [lookup, dget]⟩
    rintro ⟨q, v, _, _, h⟩; cases q <;> simp [varAt, lookup, dget] at h
  · rw [(C01_get_parameter _ _ _).2.2.1, h2]
    refine ⟨?_, by simp [lookup, dget]⟩
    rintro ⟨q, v, _, _, h⟩; cases q <;> simp [varAt, lookup, dget] at h
  · simp only [getParameter_eq, h1, h2]
    simp [scopeGo, leafGet, dget, dset]

/-- Non-vacuity: a registry with parameters `a/w` (7) and `b` (8); setting `a//w` succeeds and hits
the path `a/w`; `b/x` is blocked by the parameter `b`. -/
example : path "a//w".toList = ["a".toList, "w".toList] ∧
    varAt [("a".toList, .dict [("w".toList, .var 7)]), ("b".toList, .var 8)] ["a".toList, "w".toList] = some 7 ∧
    Blocked [("a".toList, .dict [("w".toList, .var 7)]), ("b".toList, .var 8)] (path "b/x".toList) ∧
    ¬ Blocked [("a".toList, .dict [("w".toList, .var 7)]), ("b".toList, .var 8)] (path "a//w".toList) := by
  refine ⟨by decide, rfl, ?_, ?_⟩
  · refine ⟨["b".toList], 8, ?_, ?_, rfl⟩ <;> decide
  · have : path "a//w".toList = ["a".toList] ++ ["w".toList] := by decide
    rw [this, blocked_snoc]
    simp [sub, dget]

/-! ## C02 -/

/-- **C02** for scopes: for all strings, entering `s/t` is entering `s` and then `t`, whatever the body
does (also when it raises). -/
theorem C02_scope_slash {σ α : Type} (s t : Str) (body : M σ α) :
    parameterScope (s ++ '/' :: t) body = parameterScope s (parameterScope t body) := by
  simp only [parameterScope_eq]
  rw [split_append_slash, List.filter_append, scopeGo_append]

theorem path_append_slash (s t : Str) :
    path (s ++ '/' :: t) = (split s).filter (· ≠ []) ++ path t := by
  have h : ∀ (a b : List Str) (hb : b ≠ []) (hab : a ++ b ≠ []),
      ((a ++ b).dropLast.filter (· ≠ []) ++ [(a ++ b).getLast hab]) =
        a.filter (· ≠ []) ++ (b.dropLast.filter (· ≠ []) ++ [b.getLast hb]) := by
    intro a b hb hab
    rw [List.dropLast_append_of_ne_nil hb, List.getLast_append_of_ne_nil hab hb, List.filter_append]
    simp
  simp only [path, split_append_slash]
  exact h _ _ (split_ne_nil t) _

/-- **C02** for keys: for all strings, `op("s/t")` is `op("t")` inside `parameter_scope("s")`. -/
theorem C02_key_slash {σ : Type} (s t : Str) (v : Nat) :
    (getParameter (s ++ '/' :: t) : M σ _) = parameterScope s (getParameter t) ∧
    (setParameter (s ++ '/' :: t) v : M σ _) = parameterScope s (setParameter t v) ∧
    (popParameter (s ++ '/' :: t) : M σ _) = parameterScope s (popParameter t) := by
  simp only [getParameter_eq, setParameter_eq, popParameter_eq, parameterScope_eq,
    ← scopeGo_append, path_append_slash, List.dropLast_append_of_ne_nil (path_ne_nil t),
    List.getLast_append_of_ne_nil _ (path_ne_nil t), and_self]

/-- **C02** for `get_parameter_or_create`. -/
theorem C02_create_slash {β : Type} (zeros : List Nat → β) (s t : Str) (sh : Option (List Nat))
    (i : Init β) (ng : Bool) (a : Option Bool) :
    getOrCreate zeros (s ++ '/' :: t) sh i ng a =
      parameterScope s (getOrCreate zeros t sh i ng a) := by
  simp only [getOrCreate_eq, parameterScope_eq,
    ← scopeGo_append, path_append_slash, List.dropLast_append_of_ne_nil (path_ne_nil t),
    List.getLast_append_of_ne_nil _ (path_ne_nil t)]

/-- What a scope name means: a body run under `parameter_scope(name)` works on the dictionary found
by following the non-empty components of `name`. -/
theorem C02_scope_meaning {σ : Type} (name key : Str) (s : σ) (d : Dict) (v : Nat) :
    (parameterScope name (getParameter key) (s, d)).1 = .ok (some v) ↔
      varAt d ((split name).filter (· ≠ []) ++ path key) = some v := by
  rw [← (C02_key_slash name key 0).1, (C01_get_parameter _ s d).2.1, path_append_slash]

/-! ## C03 -/

namespace Mut

theorem walk_globals (ns : List Str) (o : Nat) (s : HS) :
    (walk ns o s).2.cur = s.cur ∧ (walk ns o s).2.noGrad = s.noGrad := by
  induction ns generalizing o s with
  | nil => exact ⟨rfl, rfl⟩
  | cons n ns ih =>
    unfold walk
    split
    · exact ih o s
    · split
      · exact ih _ _
      · exact ⟨rfl, rfl⟩
      · exact ih _ _

/-- `m` leaves the two module globals as they were, also when it raises. -/
def Restores {α : Type} (m : HM α) : Prop :=
  ∀ s, (m s).2.cur = s.cur ∧ (m s).2.noGrad = s.noGrad

theorem withScope_restores {α : Type} (n : Str) (d : Option Nat) {body : HM α}
    (h : Restores body) : Restores (withScope n d body) := by
  intro s
  have hw := walk_globals (split (strip n)) (d.getD s.cur) s
  simp only [withScope]
  split
  · next hs => rw [hs] at hw; exact hw
  · next hs => rw [hs] at hw; exact ⟨rfl, (h _).2.trans hw.2⟩

theorem get_restores (k : Str) : Restores (getParameter k) := by
  induction hn : k.length using Nat.strongRecOn generalizing k with
  | _ n ih =>
    unfold getParameter
    split
    · next h => exact withScope_restores _ _ (ih _ (hn ▸ split_tail_lt h) _ rfl)
    · intro s; dsimp only; split <;> exact ⟨rfl, rfl⟩

theorem pop_restores (k : Str) : Restores (popParameter k) := by
  induction hn : k.length using Nat.strongRecOn generalizing k with
  | _ n ih =>
    unfold popParameter
    split
    · next h => exact withScope_restores _ _ (ih _ (hn ▸ split_tail_lt h) _ rfl)
    · intro s; dsimp only; split <;> exact ⟨rfl, rfl⟩

theorem set_restores (k : Str) (x : HNode) : Restores (setParameter k x) := by
  induction hn : k.length using Nat.strongRecOn generalizing k with
  | _ n ih =>
    unfold setParameter
    split
    · next h => exact withScope_restores _ _ (ih _ (hn ▸ split_tail_lt h) _ rfl)
    · intro s; exact ⟨rfl, rfl⟩

theorem discard_restores {α : Type} {m : HM α} (h : Restores m) : Restores (discard m) := by
  intro s
  have := h s
  simp only [discard]
  split <;> simp_all

end Mut

/-- **C03**: for every program of nested `parameter_scope`/`no_grad` blocks (with or without explicit
dictionary argument), parameter operations, arbitrary mutation of dictionary objects, raise and
try/except, from every state: afterwards the current scope is the same dictionary object and
the no_grad flag the same as before - whether the program ended normally or by an exception. -/
theorem C03_scope_restored (p : Mut.Prog) (s : Mut.HS) :
    (Mut.run p s).2.cur = s.cur ∧ (Mut.run p s).2.noGrad = s.noGrad := by
  induction p generalizing s with
  | skip => exact ⟨rfl, rfl⟩
  | raise e => exact ⟨rfl, rfl⟩
  | seq p q ihp ihq =>
    have h1 := ihp s
    simp only [Mut.run]
    split
    · next h => rw [h] at h1; exact ⟨(ihq _).1.trans h1.1, (ihq _).2.trans h1.2⟩
    · next h => rw [h] at h1; exact h1
  | tryExcept p q ihp ihq =>
    have h1 := ihp s
    simp only [Mut.run]
    split
    · next h => rw [h] at h1; exact h1
    · next h => rw [h] at h1; exact ⟨(ihq _).1.trans h1.1, (ihq _).2.trans h1.2⟩
  | get k => exact Mut.discard_restores (Mut.get_restores k) s
  | pop k => exact Mut.discard_restores (Mut.pop_restores k) s
  | set k x => exact Mut.set_restores k x s
  | clear => exact ⟨rfl, rfl⟩
  | arbitrary f => exact ⟨rfl, rfl⟩
  | scope n d p ih => exact Mut.withScope_restores n d ih s
  | noGrad b p ih => exact ⟨(ih _).1, rfl⟩

/-- Inside the block the scope did change (so the restoration is not vacuous), even if the body raises. -/
example :
    let s : Mut.HS := ⟨[[]], 0, false⟩
    let p : Mut.Prog := .scope "a".toList none (.seq (.set "w".toList (.var 5)) (.raise .valueError))
    (Mut.run p s).1 = .error .valueError ∧ (Mut.run p s).2.cur = 0 ∧
    (Mut.run p s).2.objs = [[("a".toList, .ref 1)], [("w".toList, .var 5)]] := by
  have h1 : split (strip "a".toList) = ["a".toList] := by decide
  have h3 : ∀ s, Mut.setParameter "w".toList (.var 5) s =
      (.ok (), Mut.putObj s s.cur (Mut.hset (Mut.obj s s.cur) "w".toList (.var 5))) := by
    intro s
    have : Mut.setParameter "w".toList (.var 5) = fun s =>
      (.ok (), Mut.putObj s s.cur (Mut.hset (Mut.obj s s.cur) "w".toList (.var 5))) := by
      unfold Mut.setParameter
      split
      · next h => have h2 : split "w".toList = ["w".toList] := by decide
                  rw [h2] at h; simp at h
      · rfl
    rw [this]
  simp only [Mut.run, Mut.withScope, h1, h3]
  exact ⟨rfl, rfl, rfl⟩

/-! ## C04 -/

/-- A registry produced by some user program from the empty registry. -/
def Reachable {β : Type} (zeros : List Nat → β) (h : Heap β) (d : Dict) : Prop :=
  ∃ (p : Prog β) (h0 : Heap β), (run zeros p (h0, [])).2 = (h, d)

theorem Reachable.wf {β : Type} {zeros : List Nat → β} {h : Heap β} {d : Dict}
    (hr : Reachable zeros h d) : WF d := by
  obtain ⟨p, h0, hp⟩ := hr
  have := run_WF zeros p h0 [] WF_nil
  rw [hp] at this
  exact this

/-- **C04**: in every reachable registry, `get_parameters` (with `keep` = "not grad_only or need_grad")
returns a dictionary with distinct keys, with exactly one entry `'/'.join(p) -> v` for each path `p`
bound to a kept variable `v`, in the order in which a depth-first walk of the insertion-ordered
dictionaries meets them; and `get_parameter` of each listed key is the listed variable. -/
theorem C04_get_parameters {β : Type} {zeros : List Nat → β} {h : Heap β} {d : Dict}
    (hr : Reachable zeros h d) (keep : Nat → Bool) :
    getParameters keep d =
      ((entries d).filter (fun e => keep e.2)).map (fun e => (join e.1, e.2)) ∧
    ((getParameters keep d).map Prod.fst).Nodup ∧
    (∀ k v, (k, v) ∈ getParameters keep d ↔ ∃ p, varAt d p = some v ∧ keep v = true ∧ k = join p) ∧
    (∀ k v, (k, v) ∈ getParameters keep d → (getParameter k (h, d)).1 = .ok (some v)) ∧
    (∀ p v, varAt d p = some v → keep v = true → (join p, v) ∈ getParameters keep d) := by
  have hw := hr.wf
  obtain ⟨h1, h2⟩ := getParameters_eq keep hw
  have hmem : ∀ k v, (k, v) ∈ getParameters keep d ↔
      ∃ p, varAt d p = some v ∧ keep v = true ∧ k = join p := by
    intro k v
    rw [h1]
    simp only [List.mem_map, List.mem_filter, Prod.mk.injEq]
    constructor
    · rintro ⟨⟨p, w⟩, ⟨hm, hk⟩, rfl, rfl⟩
      exact ⟨p, (mem_entries d hw p w).mp hm, hk, rfl⟩
    · rintro ⟨p, hv, hk, rfl⟩
      exact ⟨(p, v), ⟨(mem_entries d hw p v).mpr hv, hk⟩, rfl, rfl⟩
  refine ⟨h1, h2, hmem, ?_, fun p v hv hk => (hmem _ _).mpr ⟨p, hv, hk, rfl⟩⟩
  intro k v hm
  obtain ⟨p, hv, _, rfl⟩ := (hmem k v).mp hm
  have he := (mem_entries d hw p v).mpr hv
  have hc := entries_comps d hw _ he
  rw [(C01_get_parameter _ h d).2.1, path_join (entries_ne_nil d _ he) hc.1 hc.2]
  exact hv

/-- **C04** registration order: registering a new name puts it after everything already listed in its
scope (and leaves the order of all other entries alone); re-registering a name keeps its place. -/
theorem C04_registration_order {β : Type} {zeros : List Nat → β} {h : Heap β} {d : Dict}
    (hr : Reachable zeros h d) (k : Str) (v : Nat) :
    (¬ Blocked d (path k) → lookup (path k) d = none →
      ∃ l1 l2, entries d = l1 ++ l2 ∧
        entries (setParameter k v (h, d)).2.2 = l1 ++ (path k, v) :: l2 ∧
        ∀ e ∈ l2, ¬ (path k).dropLast <+: e.1) ∧
    (∀ w, varAt d (path k) = some w →
      entries (setParameter k v (h, d)).2.2 =
        (entries d).map (fun e => if e.1 = path k then (e.1, v) else e)) := by
  refine ⟨fun h1 h2 => ?_, fun w hw => ?_⟩
  · rw [set_putPath k v h h1]
    exact entries_putPath_new (path_ne_nil k) hr.wf h1 h2
  · have h1 : ¬ Blocked d (path k) := by
      rintro ⟨q, u, a1, a2, a3⟩
      obtain ⟨t, ht⟩ := a1
      have : t ≠ [] := by rintro rfl; simp at ht; exact a2 ht
      rw [← ht, varAt_below a3 this] at hw
      simp at hw
    rw [set_putPath k v h h1]
    exact entries_putPath_old hr.wf hw

/-- Non-vacuity: the registry built by setting `a/w`, `b`, `a/c/` is reachable and lists three keys
in order. -/
example : ∃ (h : Heap Nat) (d : Dict), Reachable (fun _ => 0) h d ∧
    getParameters (fun _ => true) d =
      [("a/w".toList, 1), ("a/c/".toList, 3), ("b".toList, 2)] := by
  refine ⟨⟨[], [], false⟩, [("a".toList, .dict [("w".toList, .var 1), ("c".toList, .dict [([], .var 3)])]),
    ("b".toList, .var 2)], ⟨.seq (.set "a/w".toList 1) (.seq (.set "b".toList 2)
    (.set "a/c/".toList 3)), ⟨[], [], false⟩, ?_⟩, ?_⟩
  · have h1 : path "a/w".toList = ["a".toList, "w".toList] := by decide
    have h2 : path "b".toList = ["b".toList] := by decide
    have h3 : path "a/c/".toList = ["a".toList, "c".toList, []] := by decide
    simp only [run, setParameter_eq, h1, h2, h3]
    simp [scopeGo, leafSet, dget, dset]
  · simp [getParameters, getParametersGo, joinPath, pset]

/-! ## C05 -/

/-- What `get_parameter_or_create` observes of a registered parameter. -/
def registered {β : Type} (h : Heap β) (d : Dict) (p : List Str) : Option (Nat × VarRec × Buf β) :=
  match varAt d p with
  | none => none
  | some v => match h.vars[v]? with
    | none => none
    | some r => (h.bufs[r.buf]?).map (fun b => (v, r, b))

theorem registered_eq {β : Type} {h : Heap β} {d : Dict} {p : List Str} {v : Nat} {r : VarRec}
    {b : Buf β} : registered h d p = some (v, r, b) ↔
      varAt d p = some v ∧ h.vars[v]? = some r ∧ h.bufs[r.buf]? = some b := by
  unfold registered
  cases varAt d p with
  | none => simp
  | some w =>
    cases hw : h.vars[w]? with
    | none =>
      simp only [hw, reduceCtorEq, false_iff, not_and, Option.some.injEq]
      rintro rfl h2; rw [hw] at h2; simp at h2
    | some r' =>
      simp only [hw, Option.map_eq_some_iff, Prod.mk.injEq, Option.some.injEq]
      constructor
      · rintro ⟨b', h1, rfl, rfl, rfl⟩; exact ⟨rfl, hw, h1⟩
      · rintro ⟨rfl, h2, h3⟩
        rw [hw] at h2; simp at h2; subst h2
        exact ⟨b, h3, rfl, rfl, rfl⟩

/-- **C05** existing parameter, same shape: the call returns a new variable that shares the registered
buffer, with `need_grad` = False under no_grad, else `as_need_grad` (default `need_grad`); the
registered variable is the same object with the same buffer and its flag is now `need_grad`; no
array content changes; no binding changes; the initializer is irrelevant. -/
theorem C05_existing {β : Type} (zeros : List Nat → β) (name : Str) (i : Init β) (ng : Bool)
    (a : Option Bool) {h : Heap β} {d : Dict} {v : Nat} {r : VarRec} {b : Buf β}
    (hreg : registered h d (path name) = some (v, r, b)) :
    ∃ h' d', getOrCreate zeros name (some b.shape) i ng a (h, d) = (.ok h.vars.length, (h', d')) ∧
      h'.vars[h.vars.length]? = some ⟨r.buf, if h.noGrad then false else a.getD ng⟩ ∧
      registered h' d' (path name) = some (v, { r with needGrad := ng }, b) ∧
      h'.bufs = h.bufs ∧ h'.noGrad = h.noGrad ∧ (∀ q, varAt d' q = varAt d q) ∧
      (∀ w, w ≠ v → w < h.vars.length → h'.vars[w]? = h.vars[w]?) := by
  obtain ⟨h1, h2, h3⟩ := registered_eq.mp hreg
  obtain ⟨d', hd, hgo⟩ := goc_found zeros name b.shape i ng a h1 h2 h3
  rw [if_pos rfl] at hgo
  refine ⟨_, d', hgo, by simp, ?_, rfl, rfl, hd, ?_⟩
  · have hlt := (List.getElem?_eq_some_iff.mp h2).1
    rw [registered_eq, hd]
    refine ⟨h1, ?_, h3⟩
    dsimp only
    rw [List.getElem?_append_left (by simpa using hlt)]
    simp [hlt]
  · intro w hw hlt
    dsimp only
    rw [List.getElem?_append_left (by simpa using hlt), List.getElem?_set]
    simp [Ne.symm hw]

/-- **C05** shape mismatch: ValueError; heap and all bindings unchanged. -/
theorem C05_shape_mismatch {β : Type} (zeros : List Nat → β) (name : Str) (sh : List Nat)
    (i : Init β) (ng : Bool) (a : Option Bool) {h : Heap β} {d : Dict} {v : Nat} {r : VarRec}
    {b : Buf β} (hreg : registered h d (path name) = some (v, r, b)) (hne : b.shape ≠ sh) :
    ∃ d', getOrCreate zeros name (some sh) i ng a (h, d) = (.error .valueError, (h, d')) ∧
      ∀ q, varAt d' q = varAt d q := by
  obtain ⟨h1, h2, h3⟩ := registered_eq.mp hreg
  obtain ⟨d', hd, hgo⟩ := goc_found zeros name sh i ng a h1 h2 h3
  rw [if_neg hne] at hgo
  exact ⟨d', hgo, hd⟩

/-- The array an initializer produces for a requested shape, if it accepts it (parameter.py:233-257). -/
def initValue {β : Type} (zeros : List Nat → β) : Init β → Option (List Nat) → Option (Buf β)
  | .none, some sh => some ⟨sh, zeros sh⟩
  | .numpy s x, none => some ⟨s, x⟩
  | .numpy s x, some sh => if sh = s then some ⟨s, x⟩ else none
  | .callable f, some sh => some ⟨(f sh).1, (f sh).2⟩
  | _, _ => none

/-- **C05** new parameter: with an accepted initializer exactly one binding is added, to a fresh
variable with a fresh buffer holding the initial value; the returned variable shares it; nothing
else changes.  With a rejected initializer the call raises and no binding changes. -/
theorem C05_create {β : Type} (zeros : List Nat → β) (name : Str) (sh : Option (List Nat))
    (i : Init β) (ng : Bool) (a : Option Bool) {h : Heap β} {d : Dict}
    (hnb : ¬ Blocked d (path name)) (hnew : lookup (path name) d = none) :
    (∀ b, initValue zeros i sh = some b →
      ∃ h' d' u, getOrCreate zeros name sh i ng a (h, d) = (.ok u, (h', d')) ∧
        registered h' d' (path name) = some (h.vars.length, ⟨h.bufs.length, ng⟩, b) ∧
        h'.vars[u]? = some ⟨h.bufs.length, if h.noGrad then false else a.getD ng⟩ ∧
        h'.bufs = h.bufs ++ [b] ∧ (∀ w, w < h.vars.length → h'.vars[w]? = h.vars[w]?) ∧
        ∀ q, q ≠ path name → varAt d' q = varAt d q) ∧
    (initValue zeros i sh = none →
      ∃ e d', getOrCreate zeros name sh i ng a (h, d) = (.error e, (h, d')) ∧
        ∀ q, varAt d' q = varAt d q) := by
  obtain ⟨d0, d1, hd0, hd1, _, hgo⟩ := goc_new zeros name sh i ng a (h := h) hnb hnew
  constructor
  · intro b hb
    have hc : createByInit zeros i sh ng h = (.ok h.vars.length, (newVar h b.shape b.data ng).2) := by
      unfold createByInit
      cases i <;> cases sh <;> simp [initValue, newVar] at hb ⊢
      · subst hb; simp
      · subst hb; simp
      · obtain ⟨rfl, rfl⟩ := hb; simp
      · subst hb; simp
    rw [hc] at hgo
    refine ⟨_, d1, _, hgo, ?_, by simp [newVar], by simp [newVar], ?_, ?_⟩
    · rw [registered_eq, hd1, if_pos rfl]
      simp [newVar]
    · intro w hw
      simp only [newVar, List.append_assoc]
      rw [List.getElem?_append_left hw]
    · intro q hq; rw [hd1, if_neg hq]
  · intro hb
    have hc : ∃ e, createByInit zeros i sh ng h = (.error e, h) := by
      unfold createByInit
      cases i <;> cases sh <;> simp [initValue] at hb ⊢
      exact ⟨_, by rw [if_neg hb]⟩
    obtain ⟨e, hc⟩ := hc
    rw [hc] at hgo
    exact ⟨e, d0, hgo, hd0⟩

/-- **C05** create-once: after a successful creation, a second call with the same name and the
registered shape - with any initializer and flags - returns a variable on the same buffer and changes
no array. -/
theorem C05_create_once {β : Type} (zeros : List Nat → β) (name : Str) (sh : Option (List Nat))
    (i j : Init β) (ng ng' : Bool) (a a' : Option Bool) {h : Heap β} {d : Dict} {b : Buf β}
    (hnb : ¬ Blocked d (path name)) (hnew : lookup (path name) d = none)
    (hb : initValue zeros i sh = some b) :
    ∃ h' d' u h'' d'' u', getOrCreate zeros name sh i ng a (h, d) = (.ok u, (h', d')) ∧
      getOrCreate zeros name (some b.shape) j ng' a' (h', d') = (.ok u', (h'', d'')) ∧
      (h''.vars[u']?).map VarRec.buf = (h'.vars[u]?).map VarRec.buf ∧
      h''.bufs = h'.bufs ∧ (∀ q, varAt d'' q = varAt d' q) := by
  obtain ⟨h', d', u, h1, h2, h3, _⟩ := (C05_create zeros name sh i ng a hnb hnew).1 b hb
  obtain ⟨h'', d'', k1, k2, k3, k4, k5, k6, _⟩ := C05_existing zeros name j ng' a' h2
  exact ⟨h', d', u, h'', d'', _, h1, k1, by rw [k2, h3]; rfl, k4, k6⟩

/-- Non-vacuity: in an empty registry nothing is blocked and `a/w` can be created. -/
example : ¬ Blocked [] (path "a/w".toList) ∧ lookup (path "a/w".toList) [] = none ∧
    initValue (fun _ => (0 : Nat)) (.numpy [2] 5) (some [2]) = some ⟨[2], 5⟩ := by
  refine ⟨?_, ?_, rfl⟩
  · rintro ⟨q, v, _, _, h⟩; cases q <;> simp [varAt, lookup, dget] at h
  · have : path "a/w".toList = ["a".toList, "w".toList] := by decide
    rw [this]; rfl

/-- Non-vacuity for `C05_existing`: a registered parameter. -/
example : registered (⟨[⟨0, true⟩], [⟨[2], (5 : Nat)⟩], false⟩) [("w".toList, .var 0)] (path "w".toList) =
    some (0, ⟨0, true⟩, ⟨[2], 5⟩) := by
  have : path "w".toList = ["w".toList] := by decide
  rw [this]; rfl

/-! ## C37 -/

/-- **C37** save/load round trip: for every reachable registry whose parameters exist in the heap,
loading what `save_parameters` wrote into an empty registry (of any process state `h0`)
succeeds, and saving again writes the identical sequence of records - same names in the same order,
same shapes, data and need_grad flags. -/
theorem C37_save_load_roundtrip {β : Type} (zeros : List Nat → β) {h : Heap β} {d : Dict}
    (hr : Reachable zeros h d) (hv : ∀ p v, varAt d p = some v → registered h d p ≠ none)
    (h0 : Heap β) :
    ∃ h' d', loadParameters zeros (saveParameters h d) (h0, []) = (.ok (), (h', d')) ∧
      saveParameters h' d' = saveParameters h d ∧
      (saveParameters h d).map Saved.name = (getParameters (fun _ => true) d).map Prod.fst := by
  have hw := hr.wf
  have hg := (getParameters_eq (fun _ => true) hw).1
  rw [List.filter_eq_self.mpr (by simp)] at hg
  -- saved records correspond one-to-one to entries
  have hsv : ∀ (E : List (List Str × Nat)), (∀ e ∈ E, e ∈ entries d) →
      ((E.map (fun e => (join e.1, e.2))).filterMap (fun kv => readVar h kv.1 kv.2)).map Saved.name =
        E.map (fun e => join e.1) := by
    intro E
    induction E with
    | nil => intro _; rfl
    | cons e E ih =>
      intro hE
      have he := (mem_entries d hw e.1 e.2).mp (hE e (by simp))
      have := hv e.1 e.2 he
      obtain ⟨⟨v, r, b⟩, hreg⟩ := Option.ne_none_iff_exists'.mp this
      obtain ⟨k1, k2, k3⟩ := registered_eq.mp hreg
      rw [he] at k1
      simp only [Option.some.injEq] at k1
      have hrd : readVar h (join e.1) e.2 = some ⟨join e.1, b.shape, b.data, r.needGrad⟩ := by
        simp [readVar, k1, k2, k3]
      rw [List.map_cons, List.filterMap_cons_some (f := fun kv => readVar h kv.1 kv.2)
          (a := (join e.1, e.2)) hrd, List.map_cons, List.map_cons,
        ih (fun x hx => hE x (by simp [hx]))]
  have hnames : (saveParameters h d).map Saved.name = (entries d).map (fun e => join e.1) := by
    rw [saveParameters, hg]; exact hsv _ (fun _ h => h)
  have hpaths : (saveParameters h d).map (fun s => path s.name) = (entries d).map Prod.fst := by
    have : (saveParameters h d).map (fun s => path s.name) =
        ((saveParameters h d).map Saved.name).map path := by simp
    rw [this, hnames, List.map_map]
    apply List.map_congr_left
    intro e he
    exact path_join (entries_ne_nil d e he) (entries_comps d hw e he).1 (entries_comps d hw e he).2
  obtain ⟨ids, h', r1, r2, r3, _⟩ := load_spec zeros (saveParameters h d) [] [] h0
    ⟨by intro q v hq; cases q <;> simp [varAt, lookup, dget] at hq,
     by intro q s hq; cases q <;> simp [lookup, dget] at hq ⊢⟩
    (by rw [List.nil_append, hpaths]; exact entries_incomparable hw)
  have hlen : ids.length = (entries d).length := by
    rw [r2, ← List.length_map (f := fun s => path s.name), hpaths, List.length_map]
  obtain ⟨rel, q1, q2, _⟩ := rebuild d [] (((entries d).map Prod.fst).zip ids) hw (by simp [dget])
    (List.map_fst_zip (by simp [hlen]))
  rw [hpaths, q1, List.nil_append] at r1
  refine ⟨h', rel, r1, ?_, by rw [hnames, hg]; simp⟩
  have hwrel : WF rel := by
    have := loadParameters_WF zeros (saveParameters h d) h0 [] WF_nil
    rw [r1] at this
    exact this
  have hg' := (getParameters_eq (fun _ => true) hwrel).1
  rw [List.filter_eq_self.mpr (by simp)] at hg'
  rw [saveParameters, hg', q2]
  -- read back pointwise
  have hzip : ((entries d).map Prod.fst).zip ids = ((saveParameters h d).zip ids).map
      (fun x => (path x.1.name, x.2)) := by
    rw [← hpaths, List.zip_map_left]; rfl
  have hnp : ∀ s ∈ saveParameters h d, join (path s.name) = s.name := by
    intro s hs
    have : s.name ∈ (entries d).map (fun e => join e.1) := by
      rw [← hnames]; exact List.mem_map_of_mem hs
    obtain ⟨e, he, he'⟩ := List.mem_map.mp this
    rw [← he', path_join (entries_ne_nil d e he) (entries_comps d hw e he).1 (entries_comps d hw e he).2]
  rw [hzip, List.map_map]
  have : ∀ (Z : List (Saved β × Nat)), (∀ z ∈ Z, z ∈ (saveParameters h d).zip ids) →
      (Z.map ((fun e : List Str × Nat => (join e.1, e.2)) ∘ fun x : Saved β × Nat => (path x.1.name, x.2))).filterMap
        (fun kv => readVar h' kv.1 kv.2) = Z.map Prod.fst := by
    intro Z
    induction Z with
    | nil => intro _; rfl
    | cons z Z ih =>
      intro hZ
      have hz := hZ z (by simp)
      have hs : z.1 ∈ saveParameters h d := (List.of_mem_zip hz).1
      have hrd : readVar h' (join (path z.1.name)) z.2 = some z.1 := by
        rw [hnp _ hs]; exact r3 _ _ hz
      simp only [List.map_cons, Function.comp]
      rw [List.filterMap_cons_some (f := fun kv => readVar h' kv.1 kv.2)
        (a := (join (path z.1.name), z.2)) hrd]
      congr 1
      exact ih (fun x hx => hZ x (by simp [hx]))
  rw [this _ (fun _ h => h)]
  exact List.map_fst_zip (by simp [r2])

/-- Non-vacuity: a reachable registry with a nested and a top-level parameter, both in the heap. -/
example : ∃ (h : Heap Nat) (d : Dict), Reachable (fun _ => 0) h d ∧
    (∀ p v, varAt d p = some v → registered h d p ≠ none) ∧ (saveParameters h d).length = 2 := by
  refine ⟨⟨[⟨0, true⟩, ⟨1, false⟩], [⟨[2], 7⟩, ⟨[], 8⟩], false⟩,
    [("a".toList, .dict [("w".toList, .var 1)]), ("b".toList, .var 0)],
    ⟨.seq (.set "a/w".toList 1) (.set "b".toList 0),
    ⟨[⟨0, true⟩, ⟨1, false⟩], [⟨[2], 7⟩, ⟨[], 8⟩], false⟩, ?_⟩, ?_, ?_⟩
  · have h1 : path "a/w".toList = ["a".toList, "w".toList] := by decide
    have h2 : path "b".toList = ["b".toList] := by decide
    simp only [run, setParameter_eq, h1, h2]
    simp [scopeGo, leafSet, dget, dset]
  · intro p v hv
    have hw : WF [("a".toList, .dict [("w".toList, .var 1)]), ("b".toList, .var 0)] := by
      simp [WF, dget]
    have hm := (mem_entries _ hw p v).mpr hv
    simp [entries] at hm
    rcases hm with ⟨rfl, rfl⟩ | ⟨rfl, rfl⟩ <;> simp [registered, dget, varAt, lookup]
  · simp [saveParameters, getParameters, getParametersGo, pset, joinPath, readVar]

end Verif.Params
