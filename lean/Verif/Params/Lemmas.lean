import Verif.Params.Spec
namespace Verif.Params

/-! ### dictionaries -/

theorem dget_dset_self (d : Dict) (k : Str) (n : Node) : dget (dset d k n) k = some n := by
  induction d with
  | nil => simp [dset, dget]
  | cons a t ih => obtain ⟨k', n'⟩ := a; simp only [dset]; split <;> simp_all [dget]

theorem dget_dset_ne (d : Dict) {k k' : Str} (n : Node) (h : k' ≠ k) :
    dget (dset d k n) k' = dget d k' := by
  induction d with
  | nil => simp [dset, dget, Ne.symm h]
  | cons a t ih =>
    obtain ⟨a, n'⟩ := a
    simp only [dset]
    split
    · next e => subst e; simp [dget, Ne.symm h]
    · simp [dget, ih]

theorem dset_same {d : Dict} {k : Str} {n : Node} (h : dget d k = some n) : dset d k n = d := by
  induction d with
  | nil => simp [dget] at h
  | cons a t ih =>
    obtain ⟨a, n'⟩ := a
    simp only [dget] at h
    simp only [dset]
    split at h
    · next e => simp at h; simp [e, h]
    · next e => simp [e, ih h]

/-! ### split -/

theorem split_noslash {s : Str} (h : '/' ∉ s) : split s = [s] := by
  induction s with
  | nil => rfl
  | cons c cs ih =>
    simp only [List.mem_cons, not_or] at h
    rw [split, if_neg (Ne.symm h.1), ih h.2]

theorem split_append_slash (s t : Str) : split (s ++ '/' :: t) = split s ++ split t := by
  induction s with
  | nil => simp [split]
  | cons c cs ih =>
    simp only [List.cons_append, split, ih]
    split
    · rfl
    · cases hs : split cs with
      | nil => exact absurd hs (split_ne_nil cs)
      | cons a b => simp

theorem split_comp_noslash (s : Str) : ∀ n ∈ split s, '/' ∉ n := by
  induction s with
  | nil => simp [split]
  | cons c cs ih =>
    unfold split
    split
    · intro n hn
      simp only [List.mem_cons] at hn
      rcases hn with rfl | hn
      · simp
      · exact ih n hn
    · next h =>
      cases hs : split cs with
      | nil => exact absurd hs (split_ne_nil cs)
      | cons a b =>
        rw [hs] at ih
        intro n hn
        simp only [List.mem_cons] at hn
        rcases hn with rfl | hn
        · simp only [List.mem_cons, not_or]
          exact ⟨Ne.symm h, ih a (by simp)⟩
        · exact ih n (by simp [hn])

theorem split_join {l : List Str} (hne : l ≠ []) (h : ∀ n ∈ l, '/' ∉ n) : split (join l) = l := by
  induction l with
  | nil => exact absurd rfl hne
  | cons a t ih =>
    cases t with
    | nil => simpa [join] using split_noslash (h a (by simp))
    | cons b t =>
      rw [join, split_append_slash, split_noslash (h a (by simp)),
        ih (by simp) (fun n hn => h n (by simp [hn]))]
      rfl

/-! ### scopes -/

section
variable {σ α : Type}

theorem scopeGo_append (a b : List Str) (body : M σ α) :
    scopeGo (a ++ b) body = scopeGo a (scopeGo b body) := by
  induction a with
  | nil => rfl
  | cons n ns ih => funext st; simp only [List.cons_append, scopeGo, ih]

theorem scopeGo_filter (a : List Str) (body : M σ α) :
    scopeGo (a.filter (· ≠ [])) body = scopeGo a body := by
  induction a with
  | nil => rfl
  | cons n ns ih =>
    by_cases hn : n = []
    · subst hn
      rw [List.filter_cons_of_neg (by simp), ih]; funext st; simp [scopeGo]
    · rw [List.filter_cons_of_pos (by simpa using hn)]
      funext st; simp only [scopeGo, ih]

theorem split_dropWhile (s : Str) :
    (split (s.dropWhile (· == '/'))).filter (· ≠ []) = (split s).filter (· ≠ []) := by
  induction s with
  | nil => rfl
  | cons c cs ih =>
    by_cases h : c = '/'
    · subst h
      rw [List.dropWhile_cons_of_pos (by simp), ih]
      simp [split]
    · rw [List.dropWhile_cons_of_neg (by simpa using h)]

theorem split_snoc_slash (s : Str) : split (s ++ ['/']) = split s ++ [[]] := by
  have := split_append_slash s []
  simpa [split] using this

theorem split_rdropWhile (s : Str) :
    (split (s.reverse.dropWhile (· == '/')).reverse).filter (· ≠ []) =
      (split s).filter (· ≠ []) := by
  generalize hr : s.reverse = r
  have hs : s = r.reverse := by simp [← hr]
  subst hs
  clear hr
  induction r with
  | nil => rfl
  | cons c cs ih =>
    by_cases h : c = '/'
    · subst h
      rw [List.dropWhile_cons_of_pos (by simp), ih, List.reverse_cons, split_snoc_slash]
      simp
    · rw [List.dropWhile_cons_of_neg (by simpa using h)]

theorem split_strip (s : Str) :
    (split (strip s)).filter (· ≠ []) = (split s).filter (· ≠ []) := by
  unfold strip
  rw [split_rdropWhile, split_dropWhile]

/-- `parameter_scope(name)` follows the non-empty components of `name`. -/
theorem parameterScope_eq (name : Str) (body : M σ α) :
    parameterScope name body = scopeGo ((split name).filter (· ≠ [])) body := by
  unfold parameterScope
  rw [← scopeGo_filter, split_strip]

theorem parameterScope_noslash {n : Str} (h : '/' ∉ n) (body : M σ α) :
    parameterScope n body = scopeGo [n] body := by
  rw [parameterScope_eq, scopeGo_filter, split_noslash h]

/-! ### get/pop/set in terms of components -/

def leafGet (k : Str) : M σ (Option Nat) := fun st =>
  match dget st.2 k with
  | none => (.ok none, st)
  | some (.var v) => (.ok (some v), st)
  | some (.dict _) => (.error .assertion, st)

def leafPop (k : Str) : M σ (Option Node) := fun st =>
  match dget st.2 k with
  | none => (.ok none, st)
  | some x => (.ok (some x), (st.1, ddel st.2 k))

def leafSet (v : Nat) (k : Str) : M σ Unit := fun st =>
  (.ok (), (st.1, dset st.2 k (.var v)))

/-- Anything that peels leading components with `parameter_scope` is `scopeGo` on the
scope part of the path. -/
theorem peel {f : Str → M σ α} {leaf : Str → M σ α}
    (hrec : ∀ key n m t, split key = n :: m :: t → f key = parameterScope n (f (join (m :: t))))
    (hleaf : ∀ key, split key = [key] → f key = leaf key) (key : Str) :
    f key = scopeGo (path key).dropLast (leaf ((path key).getLast (by simp [path]))) := by
  have main : ∀ (l : List Str) (hl : l ≠ []) (key : Str), split key = l →
      f key = scopeGo l.dropLast (leaf (l.getLast hl)) := by
    intro l
    induction l with
    | nil => intro hl; exact absurd rfl hl
    | cons a t ih =>
      intro _ key hk
      cases t with
      | nil =>
        have : key = a := by have := join_split key; rw [hk] at this; simpa [join] using this.symm
        subst this
        simpa [scopeGo] using hleaf key hk
      | cons b t =>
        have hsl := split_comp_noslash key
        rw [hk] at hsl
        have hj : split (join (b :: t)) = b :: t :=
          split_join (by simp) (fun n hn => hsl n (by simp [hn]))
        rw [hrec key a b t hk, parameterScope_noslash (hsl a (by simp)),
          ih (by simp) _ hj, ← scopeGo_append]
        simp
  rw [main _ (split_ne_nil key) key rfl, ← scopeGo_filter]
  simp [path]

theorem split_single {key a : Str} (h : split key = [a]) : split key = [key] := by
  have := join_split key
  rw [h] at this
  simp [join] at this
  rw [h, this]

theorem getParameter_eq (key : Str) :
    (getParameter key : M σ _) =
      scopeGo (path key).dropLast (leafGet ((path key).getLast (by simp [path]))) := by
  refine peel (f := getParameter) (leaf := leafGet) ?_ ?_ key
  · intro key n m t h
    rw [getParameter]
    split
    · next h' => rw [h] at h'; simp at h'; obtain ⟨rfl, rfl, rfl⟩ := h'; rfl
    · next h' => exact absurd h (h' _ _ _)
  · intro key h
    rw [getParameter]
    split
    · next h' => rw [h] at h'; simp at h'
    · rfl

theorem popParameter_eq (key : Str) :
    (popParameter key : M σ _) =
      scopeGo (path key).dropLast (leafPop ((path key).getLast (by simp [path]))) := by
  refine peel (f := popParameter) (leaf := leafPop) ?_ ?_ key
  · intro key n m t h
    rw [popParameter]
    split
    · next h' => rw [h] at h'; simp at h'; obtain ⟨rfl, rfl, rfl⟩ := h'; rfl
    · next h' => exact absurd h (h' _ _ _)
  · intro key h
    rw [popParameter]
    split
    · next h' => rw [h] at h'; simp at h'
    · rfl

theorem setParameter_eq (v : Nat) (key : Str) :
    (setParameter key v : M σ _) =
      scopeGo (path key).dropLast (leafSet v ((path key).getLast (by simp [path]))) := by
  refine peel (f := fun k => setParameter k v) (leaf := leafSet v) ?_ ?_ key
  · intro key n m t h
    rw [setParameter]
    split
    · next h' => rw [h] at h'; simp at h'; obtain ⟨rfl, rfl, rfl⟩ := h'; rfl
    · next h' => exact absurd h (h' _ _ _)
  · intro key h
    rw [setParameter]
    split
    · next h' => rw [h] at h'; simp at h'
    · rfl

/-! ### zipper view of scopeGo -/

/-- The scope dictionary the body sees (`none` when a variable is in the way). -/
def sub : List Str → Dict → Option Dict
  | [], d => some d
  | n :: ns, d => match dget d n with
    | none => sub ns []
    | some (.dict s) => sub ns s
    | some (.var _) => none

def childDict (d : Dict) (n : Str) : Dict :=
  match dget d n with
  | some (.dict s) => s
  | _ => []

def graft : List Str → Dict → Dict → Dict
  | [], e, _ => e
  | n :: ns, e, d => dset d n (.dict (graft ns e (childDict d n)))

theorem scopeGo_eq {ns : List Str} (hne : ∀ n ∈ ns, n ≠ []) (body : M σ α) (s : σ) (d : Dict) :
    scopeGo ns body (s, d) = match sub ns d with
      | none => (.error .assertion, (s, d))
      | some e => ((body (s, e)).1, ((body (s, e)).2.1, graft ns (body (s, e)).2.2 d)) := by
  induction ns generalizing s d with
  | nil => rfl
  | cons n ns ih =>
    have hn := hne n (by simp)
    have ih := ih (fun m hm => hne m (by simp [hm]))
    simp only [scopeGo, sub, if_neg hn]
    cases hd : dget d n with
    | none =>
      simp only [ih]
      cases hs : sub ns [] with
      | none =>
        exfalso
        clear ih hd
        have : ∀ ns, sub ns [] ≠ none := by
          intro ns; induction ns with
          | nil => simp [sub]
          | cons a t ih => simpa [sub, dget] using ih
        exact this ns hs
      | some e => simp [graft, childDict, hd]
    | some x =>
      cases x with
      | var v => rfl
      | dict es =>
        simp only [ih]
        cases hs : sub ns es with
        | none => simp [dset_same hd]
        | some e => simp [graft, childDict, hd]

theorem lookup_cons_dset_self (d : Dict) (n : Str) (e : Dict) (q : List Str) :
    lookup (n :: q) (dset d n (.dict e)) = lookup q e := by
  simp [lookup, dget_dset_self]

theorem lookup_cons_congr {d d' : Dict} {n : Str} (q : List Str) (h : dget d n = dget d' n) :
    lookup (n :: q) d = lookup (n :: q) d' := by
  simp [lookup, h]

theorem lookup_graft_append (ns q : List Str) (e d : Dict) :
    lookup (ns ++ q) (graft ns e d) = lookup q e := by
  induction ns generalizing d with
  | nil => rfl
  | cons n ns ih => simp only [List.cons_append, graft, lookup_cons_dset_self, ih]

theorem sub_cons_child {n : Str} {ns : List Str} {d e : Dict} (h : sub (n :: ns) d = some e) :
    sub ns (childDict d n) = some e := by
  simp only [sub] at h
  unfold childDict
  split at h <;> simp_all

theorem lookup_graft_incomp {ns p : List Str} {d e' : Dict} (e : Dict)
    (hs : sub ns d = some e') (h1 : ¬ ns <+: p) (h2 : ¬ p <+: ns) :
    lookup p (graft ns e d) = lookup p d := by
  induction ns generalizing d p with
  | nil => exact absurd (List.nil_prefix) h1
  | cons n ns ih =>
    cases p with
    | nil => exact absurd (List.nil_prefix) h2
    | cons a p =>
      by_cases ha : a = n
      · subst ha
        rw [List.prefix_cons_inj] at h1 h2
        have hc := sub_cons_child hs
        rw [graft, lookup_cons_dset_self, ih hc h1 h2]
        simp only [sub] at hs
        simp only [lookup, childDict]
        cases hd : dget d a with
        | none =>
          simp only [hd] at hs ⊢
          cases p with
          | nil => exact absurd (List.nil_prefix) h2
          | cons b p => simp [lookup, dget]
        | some x =>
          cases x with
          | var v => simp [hd] at hs
          | dict s => rfl
      · rw [graft]
        exact lookup_cons_congr _ (dget_dset_ne _ _ ha)

theorem lookup_graft_prefix {ns p : List Str} (e d : Dict) (h : p <+: ns) :
    ∃ s, lookup p (graft ns e d) = some (.dict s) := by
  obtain ⟨q, rfl⟩ := h
  induction p generalizing d with
  | nil => exact ⟨_, rfl⟩
  | cons a p ih =>
    rw [List.cons_append, graft, lookup_cons_dset_self]
    exact ih _

/-- Along an unblocked path nothing is a variable. -/
theorem sub_prefix_lookup {ns p : List Str} {d e : Dict} (hs : sub ns d = some e) (h : p <+: ns) :
    lookup p d = none ∨ ∃ s, lookup p d = some (.dict s) := by
  induction ns generalizing d p with
  | nil => simp at h; subst h; right; exact ⟨_, rfl⟩
  | cons n ns ih =>
    cases p with
    | nil => right; exact ⟨_, rfl⟩
    | cons a p =>
      obtain ⟨rfl, h'⟩ := List.cons_prefix_cons.mp h
      have := ih (sub_cons_child hs) h'
      simp only [sub] at hs
      simp only [lookup, childDict] at this ⊢
      cases hd : dget d a with
      | none => simp
      | some x => cases x with
        | var v => simp [hd] at hs
        | dict s => simpa [hd] using this

theorem sub_lookup_append {ns q : List Str} {d e : Dict} (hs : sub ns d = some e) (hq : q ≠ []) :
    lookup (ns ++ q) d = lookup q e := by
  induction ns generalizing d with
  | nil => simp [sub] at hs; subst hs; rfl
  | cons n ns ih =>
    have := ih (sub_cons_child hs)
    simp only [sub] at hs
    simp only [List.cons_append, lookup, childDict] at this ⊢
    cases hd : dget d n with
    | none =>
      simp only [hd] at this ⊢
      rw [← this]
      cases ns with
      | nil => cases q with
        | nil => exact absurd rfl hq
        | cons => simp [lookup, dget]
      | cons => simp [lookup, dget]
    | some x => cases x with
      | var v => simp [hd] at hs
      | dict s => simpa [hd] using this

theorem sub_none_iff {ns : List Str} {d : Dict} :
    sub ns d = none ↔ ∃ q v, q <+: ns ∧ varAt d q = some v := by
  induction ns generalizing d with
  | nil => simp [sub, varAt, lookup]
  | cons n ns ih =>
    simp only [sub]
    cases hd : dget d n with
    | none =>
      rw [ih]
      constructor
      · rintro ⟨q, v, hq, hv⟩
        exfalso
        cases q with
        | nil => simp [varAt, lookup] at hv
        | cons => simp [varAt, lookup, dget] at hv
      · rintro ⟨q, v, hq, hv⟩
        exfalso
        cases q with
        | nil => simp [varAt, lookup] at hv
        | cons a q =>
          obtain ⟨rfl, h⟩ := List.cons_prefix_cons.mp hq
          simp [varAt, lookup, hd] at hv
    | some x =>
      cases x with
      | var w =>
        refine ⟨fun _ => ⟨[n], w, by simp, by simp [varAt, lookup, hd]⟩, fun _ => rfl⟩
      | dict s =>
        dsimp only
        rw [ih]
        constructor
        · rintro ⟨q, v, hq, hv⟩
          exact ⟨n :: q, v, by simpa [List.cons_prefix_cons] using hq, by
            simpa [varAt, lookup, hd] using hv⟩
        · rintro ⟨q, v, hq, hv⟩
          cases q with
          | nil => simp [varAt, lookup] at hv
          | cons a q =>
            obtain ⟨rfl, h⟩ := List.cons_prefix_cons.mp hq
            exact ⟨q, v, h, by simpa [varAt, lookup, hd] using hv⟩

theorem path_ne_nil (k : Str) : path k ≠ [] := by simp [path]

theorem path_dropLast_ne (k : Str) : ∀ n ∈ (path k).dropLast, n ≠ [] := by
  intro n hn
  simp [path] at hn
  exact hn.2

theorem path_split (k : Str) : ∃ ns l, path k = ns ++ [l] ∧ (path k).dropLast = ns ∧
    (path k).getLast (path_ne_nil k) = l ∧ (∀ n ∈ ns, n ≠ []) := by
  refine ⟨_, _, rfl, ?_, ?_, ?_⟩
  · simp [path]
  · simp [path]
  · intro n hn; simp at hn; exact hn.2

theorem prefix_snoc_iff {q ns : List Str} {l : Str} :
    (q <+: ns ++ [l] ∧ q ≠ ns ++ [l]) ↔ q <+: ns := by
  constructor
  · rintro ⟨h, hne⟩
    rcases List.prefix_concat_iff.mp h with h | h
    · exact absurd h hne
    · exact h
  · intro h
    refine ⟨h.trans (List.prefix_append _ _), ?_⟩
    rintro rfl
    have := h.length_le
    simp at this
    omega

theorem blocked_snoc {ns : List Str} {l : Str} {d : Dict} :
    Blocked d (ns ++ [l]) ↔ sub ns d = none := by
  rw [sub_none_iff]
  unfold Blocked
  constructor
  · rintro ⟨q, v, h1, h2, h3⟩; exact ⟨q, v, prefix_snoc_iff.mp ⟨h1, h2⟩, h3⟩
  · rintro ⟨q, v, h1, h3⟩
    exact ⟨q, v, (prefix_snoc_iff.mpr h1).1, (prefix_snoc_iff.mpr h1).2, h3⟩

/-- The effect of an operation at `ns` on the variables, in terms of its effect on the scope. -/
theorem varAt_graft {ns : List Str} {d e e' : Dict} (hs : sub ns d = some e) (p : List Str) :
    (¬ ns <+: p → varAt (graft ns e' d) p = varAt d p) ∧
    (∀ q, p = ns ++ q → q ≠ [] → varAt (graft ns e' d) p = varAt e' q ∧ varAt d p = varAt e q) ∧
    (p = ns → varAt (graft ns e' d) p = none ∧ varAt d p = none) := by
  have pre : p <+: ns → varAt (graft ns e' d) p = none ∧ varAt d p = none := by
    intro h
    obtain ⟨s, h1⟩ := lookup_graft_prefix e' d h
    refine ⟨by simp [varAt, h1], ?_⟩
    rcases sub_prefix_lookup hs h with h2 | ⟨t, h2⟩ <;> simp [varAt, h2]
  refine ⟨fun h => ?_, fun q hp hq => ?_, fun h => pre (h ▸ List.prefix_refl _)⟩
  · by_cases h2 : p <+: ns
    · rw [(pre h2).1, (pre h2).2]
    · simp [varAt, lookup_graft_incomp e' hs h h2]
  · subst hp
    simp [varAt, lookup_graft_append, sub_lookup_append hs hq]

end

end Verif.Params
