import Verif.Params.Lemmas2
namespace Verif.Params

section
variable {σ : Type}

theorem path_of_noslash {k : Str} (h : '/' ∉ k) : path k = [k] := by
  simp [path, split_noslash h]

theorem getParameter_leaf {k : Str} (h : '/' ∉ k) : (getParameter k : M σ _) = leafGet k := by
  have := getParameter_eq (σ := σ) k
  simp only [path_of_noslash h] at this
  simpa [scopeGo] using this

theorem setParameter_leaf {k : Str} (h : '/' ∉ k) (v : Nat) :
    (setParameter k v : M σ _) = leafSet v k := by
  have := setParameter_eq (σ := σ) v k
  simp only [path_of_noslash h] at this
  simpa [scopeGo] using this

theorem lookup_singleton (d : Dict) (k : Str) : lookup [k] d = dget d k := by
  simp only [lookup]
  split <;> simp_all

theorem varAt_singleton (d : Dict) (k : Str) (v : Nat) :
    varAt d [k] = some v ↔ dget d k = some (.var v) := by
  simp only [varAt, lookup_singleton]
  split <;> simp_all

theorem varAt_below {d : Dict} {q t : List Str} {w : Nat} (h : varAt d q = some w) (ht : t ≠ []) :
    varAt d (q ++ t) = none := by
  induction q generalizing d with
  | nil => simp [varAt, lookup] at h
  | cons c q ih =>
    simp only [List.cons_append, varAt, lookup] at h ⊢
    cases hd : dget d c with
    | none => simp
    | some x => cases x with
      | var v => simp [ht]
      | dict s =>
        rw [hd] at h
        exact ih (by simpa [varAt] using h)

/-- grafting back a scope in which no variable changed -/
theorem varAt_graft_same {ns : List Str} {d e : Dict} (hs : sub ns d = some e) (p : List Str) :
    varAt (graft ns e d) p = varAt d p := by
  obtain ⟨h1, h2, h3⟩ := varAt_graft (e' := e) hs p
  by_cases h : ns <+: p
  · obtain ⟨q, rfl⟩ := h
    by_cases hq : q = []
    · subst hq; rw [List.append_nil] at *; rw [(h3 rfl).1, (h3 rfl).2]
    · rw [(h2 q rfl hq).1, (h2 q rfl hq).2]
  · exact h1 h

/-- grafting back a scope in which the variable `l` was set -/
theorem varAt_graft_set {ns : List Str} {l : Str} {d e : Dict} (v : Nat)
    (hs : sub ns d = some e) (p : List Str) :
    varAt (graft ns (dset e l (.var v)) d) p =
      if p = ns ++ [l] then some v else if ns ++ [l] <+: p then none else varAt d p := by
  obtain ⟨h1, h2, h3⟩ := varAt_graft (e' := dset e l (.var v)) hs p
  by_cases h : ns <+: p
  · obtain ⟨q, rfl⟩ := h
    by_cases hq : q = []
    · subst hq
      rw [List.append_nil] at *
      rw [(h3 rfl).1, (h3 rfl).2, if_neg, ite_self]
      intro h; have := congrArg List.length h; simp at this
    · obtain ⟨h4, h5⟩ := h2 q rfl hq
      rw [h4, h5]
      cases q with
      | nil => exact absurd rfl hq
      | cons a q =>
        by_cases ha : a = l
        · subst ha
          by_cases hq' : q = []
          · subst hq'; simp [varAt, lookup, dget_dset_self]
          · rw [if_neg (by simp [hq']), if_pos (by simp)]
            simp [varAt, lookup, dget_dset_self, hq']
        · rw [if_neg (by simp [ha]), if_neg (by simp; exact fun h => ha h.symm)]
          simp [varAt, lookup, dget_dset_ne _ _ ha]
  · rw [h1 h, if_neg, if_neg]
    · intro h'; exact h ((List.prefix_append _ _).trans h')
    · rintro rfl; exact h (List.prefix_append _ _)

theorem dget_ddel_self {d : Dict} {k : Str} (h : WF d) : dget (ddel d k) k = none := by
  induction d with
  | nil => simp [ddel, dget]
  | cons a t ih =>
    obtain ⟨a, m⟩ := a
    rw [WF_cons] at h
    simp only [ddel]
    split
    · next e => subst e; exact h.2.1
    · next e => simp [dget, e, ih h.2.2]

theorem dget_ddel_ne {d : Dict} {k a : Str} (h : a ≠ k) : dget (ddel d k) a = dget d a := by
  induction d with
  | nil => simp [ddel, dget]
  | cons b t ih =>
    obtain ⟨b, m⟩ := b
    simp only [ddel]
    split
    · next e => subst e; simp [dget, Ne.symm h]
    · simp [dget, ih]

theorem varAt_graft_del {ns : List Str} {l : Str} {d e : Dict} (he : WF e)
    (hs : sub ns d = some e) (p : List Str) :
    varAt (graft ns (ddel e l) d) p = if ns ++ [l] <+: p then none else varAt d p := by
  obtain ⟨h1, h2, h3⟩ := varAt_graft (e' := ddel e l) hs p
  by_cases h : ns <+: p
  · obtain ⟨q, rfl⟩ := h
    by_cases hq : q = []
    · subst hq
      rw [List.append_nil] at *
      rw [(h3 rfl).1, (h3 rfl).2, ite_self]
    · obtain ⟨h4, h5⟩ := h2 q rfl hq
      rw [h4, h5]
      cases q with
      | nil => exact absurd rfl hq
      | cons a q =>
        by_cases ha : a = l
        · subst ha
          rw [if_pos (by simp)]
          exact varAt_none_of_dget (dget_ddel_self he) _
        · rw [if_neg (by simp; exact fun h => ha h.symm)]
          simp [varAt, lookup, dget_ddel_ne ha]
  · rw [h1 h, if_neg]
    intro h'; exact h ((List.prefix_append _ _).trans h')

theorem WF_sub {ns : List Str} {d e : Dict} (h : WF d) (hs : sub ns d = some e) : WF e := by
  induction ns generalizing d with
  | nil => simp [sub] at hs; exact hs ▸ h
  | cons n ns ih =>
    refine ih ?_ (sub_cons_child hs)
    unfold childDict
    split
    · next he => exact (WF_dget h he).2.2
    · exact WF_nil

/-! ### the three operations at path level -/

theorem get_spec (k : Str) (s : σ) (d : Dict) :
    (Blocked d (path k) → getParameter k (s, d) = (.error .assertion, (s, d))) ∧
    (¬ Blocked d (path k) →
      (getParameter k (s, d)).1 = (match lookup (path k) d with
        | none => .ok none
        | some (.var v) => .ok (some v)
        | some (.dict _) => .error .assertion) ∧
      (getParameter k (s, d)).2.1 = s ∧
      ∃ e, sub (path k).dropLast d = some e ∧
        (getParameter k (s, d)).2.2 = graft (path k).dropLast e d) := by
  rw [getParameter_eq]
  obtain ⟨ns, l, hp, h1, h2, h3⟩ := path_split k
  rw [scopeGo_eq (by rw [h1]; exact h3), h2, h1, hp, blocked_snoc]
  refine ⟨fun h => by rw [h], fun h => ?_⟩
  cases hs : sub ns d with
  | none => exact absurd hs h
  | some e =>
    have hl : lookup (ns ++ [l]) d = dget e l := by
      rw [sub_lookup_append hs (by simp), lookup_singleton]
    simp only [leafGet, hl]
    cases hg : dget e l with
    | none => simp
    | some x => cases x <;> simp

theorem set_spec (k : Str) (v : Nat) (s : σ) (d : Dict) :
    (Blocked d (path k) → setParameter k v (s, d) = (.error .assertion, (s, d))) ∧
    (¬ Blocked d (path k) →
      (setParameter k v (s, d)).1 = .ok () ∧ (setParameter k v (s, d)).2.1 = s ∧
      ∃ e, sub (path k).dropLast d = some e ∧
        (setParameter k v (s, d)).2.2 =
          graft (path k).dropLast (dset e ((path k).getLast (path_ne_nil k)) (.var v)) d) := by
  rw [setParameter_eq]
  obtain ⟨ns, l, hp, h1, h2, h3⟩ := path_split k
  rw [scopeGo_eq (by rw [h1]; exact h3), h2, h1, hp, blocked_snoc]
  refine ⟨fun h => by rw [h], fun h => ?_⟩
  cases hs : sub ns d with
  | none => exact absurd hs h
  | some e => simp [leafSet]

theorem pop_spec (k : Str) (s : σ) {d : Dict} (hw : WF d) :
    (Blocked d (path k) → popParameter k (s, d) = (.error .assertion, (s, d))) ∧
    (¬ Blocked d (path k) →
      (popParameter k (s, d)).1 = .ok (lookup (path k) d) ∧ (popParameter k (s, d)).2.1 = s ∧
      ∀ p, varAt (popParameter k (s, d)).2.2 p = if path k <+: p then none else varAt d p) := by
  rw [popParameter_eq]
  obtain ⟨ns, l, hp, h1, h2, h3⟩ := path_split k
  rw [scopeGo_eq (by rw [h1]; exact h3), h2, h1, hp, blocked_snoc]
  refine ⟨fun h => by rw [h], fun h => ?_⟩
  cases hs : sub ns d with
  | none => exact absurd hs h
  | some e =>
    have hl : lookup (ns ++ [l]) d = dget e l := by
      rw [sub_lookup_append hs (by simp), lookup_singleton]
    simp only [leafPop, hl]
    cases hg : dget e l with
    | none =>
      refine ⟨rfl, rfl, fun p => ?_⟩
      dsimp only
      rw [varAt_graft_same hs]
      split
      · next hp' =>
        obtain ⟨q, rfl⟩ := hp'
        rw [List.append_assoc, varAt, sub_lookup_append hs (by simp)]
        simp [lookup, hg]
      · rfl
    | some x => exact ⟨rfl, rfl, fun p => varAt_graft_del (WF_sub hw hs) hs p⟩

end

/-! ### get_parameter_or_create -/

section
variable {β : Type} (zeros : List Nat → β)

theorem unlinked_ok {h : Heap β} {v : Nat} {r : VarRec} (hv : h.vars[v]? = some r) (b : Bool) :
    unlinked h v b = (.ok h.vars.length, { h with vars := h.vars ++ [⟨r.buf, b⟩] }) := by
  simp [unlinked, hv]

theorem set_same_getElem {h : List VarRec} {v : Nat} {r : VarRec} (hv : h[v]? = some r) :
    h.set v r = h := by
  obtain ⟨hl, rfl⟩ := List.getElem?_eq_some_iff.mp hv
  simp

/-- Outcome when the parameter exists. -/
theorem goc_found (name : Str) (sh : List Nat) (i : Init β) (ng : Bool) (a : Option Bool)
    {h : Heap β} {d : Dict} {v : Nat} {r : VarRec} {b : Buf β}
    (hp : varAt d (path name) = some v) (hv : h.vars[v]? = some r) (hb : h.bufs[r.buf]? = some b) :
    ∃ d', (∀ q, varAt d' q = varAt d q) ∧
      getOrCreate zeros name (some sh) i ng a (h, d) =
        if b.shape = sh then
          (.ok h.vars.length,
            ({ h with vars := h.vars.set v { r with needGrad := ng } ++
                [⟨r.buf, if h.noGrad then false else a.getD ng⟩] }, d'))
        else (.error .valueError, (h, d')) := by
  rw [getOrCreate_eq]
  have hsl := path_last_noslash name
  obtain ⟨ns, l, hp', h1, h2, h3⟩ := path_split name
  rw [h2] at hsl
  rw [scopeGo_eq (by rw [h1]; exact h3), h2, h1]
  rw [hp'] at hp
  have hnb : sub ns d ≠ none := by
    intro hs
    rw [← blocked_snoc (l := l)] at hs
    obtain ⟨q, w, hq1, hq2, hq3⟩ := hs
    obtain ⟨t, ht⟩ := hq1
    rw [← ht] at hp
    have : t ≠ [] := by rintro rfl; simp at ht; exact hq2 ht
    rw [varAt_below hq3 this] at hp
    simp at hp
  cases hs : sub ns d with
  | none => exact absurd hs hnb
  | some e =>
    have hl : dget e l = some (.var v) := by
      rw [varAt, sub_lookup_append hs (by simp), lookup_singleton] at hp
      cases hg : dget e l with
      | none => simp [hg] at hp
      | some x => cases x with
        | var w => simp [hg] at hp; rw [hp]
        | dict w => simp [hg] at hp
    refine ⟨graft ns e d, fun q => varAt_graft_same hs q, ?_⟩
    simp only [getOrCreateLeaf, getParameter_leaf hsl, leafGet, hl, hv, hb]
    by_cases hsh : b.shape = sh
    · simp only [hsh, ne_eq, not_true_eq_false, if_false, if_true]
      by_cases hng : ng = r.needGrad
      · simp only [hng, not_true_eq_false, if_false, unlinked_ok hv, set_same_getElem hv]
      · have hv' : (h.vars.set v { r with needGrad := ng })[v]? = some { r with needGrad := ng } := by
          have hlt := (List.getElem?_eq_some_iff.mp hv).1
          simp [hlt]
        simp only [hng, not_false_eq_true, if_true, setParameter_leaf hsl, leafSet,
          unlinked, hv', dset_same hl, List.length_set]
    · simp [hsh]

/-- Outcome when nothing is registered at the path. -/
theorem goc_new (name : Str) (sh : Option (List Nat)) (i : Init β) (ng : Bool) (a : Option Bool)
    {h : Heap β} {d : Dict} (hnb : ¬ Blocked d (path name)) (hp : lookup (path name) d = none) :
    ∃ d0 d1, (∀ q, varAt d0 q = varAt d q) ∧
      (∀ q, varAt d1 q = if q = path name then some h.vars.length else varAt d q) ∧
      (∃ e, sub (path name).dropLast d = some e ∧ d1 = graft (path name).dropLast
        (dset e ((path name).getLast (path_ne_nil name)) (.var h.vars.length)) d) ∧
      getOrCreate zeros name sh i ng a (h, d) =
        match createByInit zeros i sh ng h with
        | (.error e, _) => (.error e, (h, d0))
        | (.ok _, h') => (.ok h'.vars.length, ({ h' with vars := h'.vars ++
            [⟨h.bufs.length, if h.noGrad then false else a.getD ng⟩] }, d1)) := by
  rw [getOrCreate_eq]
  have hsl := path_last_noslash name
  obtain ⟨ns, l, hp', h1, h2, h3⟩ := path_split name
  rw [h2] at hsl
  rw [scopeGo_eq (by rw [h1]; exact h3), h2, h1]
  rw [hp'] at hp hnb
  rw [blocked_snoc] at hnb
  cases hs : sub ns d with
  | none => exact absurd hs hnb
  | some e =>
    have hl : dget e l = none := by
      rwa [sub_lookup_append hs (by simp), lookup_singleton] at hp
    refine ⟨graft ns e d, graft ns (dset e l (.var h.vars.length)) d,
      fun q => varAt_graft_same hs q, fun q => ?_, ⟨e, rfl, rfl⟩, ?_⟩
    · rw [varAt_graft_set _ hs, hp']
      split
      · rfl
      · split
        · next hq =>
          obtain ⟨t, rfl⟩ := hq
          rw [List.append_assoc, varAt, sub_lookup_append hs (by simp)]
          simp [lookup, hl]
        · rfl
    · simp only [getOrCreateLeaf, getParameter_leaf hsl, leafGet, hl]
      have hc : (∃ er, createByInit zeros i sh ng h = (.error er, h)) ∨
          (∃ s x, createByInit zeros i sh ng h = (.ok h.vars.length, (newVar h s x ng).2)) := by
        unfold createByInit
        split
        · split
          · exact .inl ⟨_, rfl⟩
          · exact .inr ⟨_, _, rfl⟩
        · split
          · exact .inr ⟨_, _, rfl⟩
          · split
            · exact .inr ⟨_, _, rfl⟩
            · exact .inl ⟨_, rfl⟩
        · split
          · exact .inl ⟨_, rfl⟩
          · exact .inr ⟨_, _, rfl⟩
        · exact .inl ⟨_, rfl⟩
      rcases hc with ⟨er, hc⟩ | ⟨s, x, hc⟩
      · simp [hc]
      · simp [hc, setParameter_leaf hsl, leafSet, unlinked, newVar]

end

end Verif.Params
