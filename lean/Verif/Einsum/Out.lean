import Verif.Einsum.Props
/-
The last transposition of einsum (/repo/src/nbla/function/generic/einsum.cpp:633-645) and property C220.
-/
namespace Verif.Einsum

/-- transpose_axes[output_term_[label][i]] = label_dims[i] for one label (einsum.cpp:637-642). Accesses outside of the vectors are errors
here; the program does not check them. -/
def putAxes (out : Char → List Nat) (c : Char) : List Nat → Nat → List Nat → Except String (List Nat)
  | [], _, axes => .ok axes
  | d :: ds, i, axes =>
    match (out c)[i]? with
    | none => .error "read outside of the vector"
    | some p => if p < axes.length then putAxes out c ds (i + 1) (axes.set p d) else .error "write outside of the vector"

/-- The loop over last_term (einsum.cpp:636-643). -/
def putAll (out : Char → List Nat) : List (Char × List Nat) → List Nat → Except String (List Nat)
  | [], axes => .ok axes
  | (c, ds) :: rest, axes =>
    match putAxes out c ds 0 axes with
    | .error e => .error e
    | .ok axes => putAll out rest axes

/-- The axes of the last transposition (einsum.cpp:633-643) for the output label `o`; `last` lists the labels of the array with their
dimensions, `nd` is the number of its dimensions. (If the terms are equal the program does not transpose.) -/
def outAxes (o : List Char) (e : Nat) (last : List (Char × List Nat)) (nd : Nat) : Except String (List Nat) :=
  putAll (createTerm o e) last (List.replicate nd 0)

theorem positions_mem (c : Char) (w : List Char) (p : Nat) : p ∈ positions c w 0 ↔ w[p]? = some c := by
  unfold positions
  rw [List.mem_filterMap]
  constructor
  · rintro ⟨⟨x, q⟩, hm, h⟩
    simp only at h
    split at h
    · next hx =>
      simp only [Option.some.injEq] at h
      subst h
      subst hx
      exact List.mem_zipIdx_iff_getElem?.1 hm
    · simp at h
  · intro h
    exact ⟨(c, p), List.mem_zipIdx_iff_getElem?.2 h, by simp⟩

theorem positions_sorted (c : Char) : ∀ (w : List Char) (n : Nat), (positions c w n).Pairwise (· < ·) ∧ ∀ p ∈ positions c w n, n ≤ p
  | [], n => by simp [positions]
  | d :: w, n => by
    obtain ⟨h1, h2⟩ := positions_sorted c w (n + 1)
    have he : positions c (d :: w) n = (if d = c then [n] else []) ++ positions c w (n + 1) := by
      have := positions_append c [d] w n
      simp only [List.cons_append, List.nil_append, List.length_cons, List.length_nil] at this
      rw [this]
      congr 1
      unfold positions
      simp only [List.zipIdx_cons, List.zipIdx_nil, List.filterMap_cons, List.filterMap_nil]
      split <;> simp_all
    rw [he]
    split
    · refine ⟨?_, ?_⟩
      · rw [List.cons_append, List.nil_append, List.pairwise_cons]
        exact ⟨fun p hp => by have := h2 p hp; omega, h1⟩
      · intro p hp
        simp only [List.cons_append, List.nil_append, List.mem_cons] at hp
        rcases hp with rfl | hp
        · omega
        · have := h2 p hp; omega
    · rw [List.nil_append]
      exact ⟨h1, fun p hp => by have := h2 p hp; omega⟩

theorem putAxes_ok (out : Char → List Nat) (c : Char) (hnd : (out c).Nodup) : ∀ (ds : List Nat) (i : Nat) (axes ax' : List Nat),
    putAxes out c ds i axes = .ok ax' →
    ax'.length = axes.length ∧ (∀ (k d p : Nat), ds[k]? = some d → (out c)[i + k]? = some p → ax'[p]? = some d) ∧
      ∀ p, (∀ k, k < ds.length → (out c)[i + k]? ≠ some p) → ax'[p]? = axes[p]?
  | [], i, axes, ax', h => by
    simp only [putAxes, Except.ok.injEq] at h
    subst h
    exact ⟨rfl, by simp, fun _ _ => rfl⟩
  | d :: ds, i, axes, ax', h => by
    rw [putAxes] at h
    split at h
    · simp at h
    · next p hp =>
      split at h
      · next hlt =>
        obtain ⟨i1, i2, i3⟩ := putAxes_ok out c hnd ds (i + 1) _ ax' h
        rw [List.length_set] at i1
        refine ⟨i1, ?_, ?_⟩
        · intro k d' p' hk hp'
          cases k with
          | zero =>
            simp only [List.getElem?_cons_zero, Option.some.injEq] at hk
            subst hk
            rw [Nat.add_zero, hp] at hp'
            simp only [Option.some.injEq] at hp'
            subst hp'
            rw [i3 p ?_]
            · rw [List.getElem?_set_self hlt]
            · intro k _ he
              have hlen := (List.getElem?_eq_some_iff.1 hp).1
              have := (List.getElem?_inj hlen hnd).1 (hp.trans he.symm)
              omega
          | succ k =>
            refine i2 k d' p' (by simpa using hk) ?_
            rw [show i + 1 + k = i + (k + 1) by omega]; exact hp'
        · intro p' hp'
          have h0 : p ≠ p' := by
            rintro rfl
            exact hp' 0 (by simp) (by simpa using hp)
          rw [i3 p' (fun k hk => by
            have := hp' (k + 1) (by simp; omega)
            rwa [show i + 1 + k = i + (k + 1) by omega])]
          exact List.getElem?_set_ne h0
      · simp at h

theorem putAxes_of (out : Char → List Nat) (c : Char) : ∀ (ds : List Nat) (i : Nat) (axes : List Nat),
    (∀ k, k < ds.length → ∃ p, (out c)[i + k]? = some p ∧ p < axes.length) ↔ ∃ ax', putAxes out c ds i axes = .ok ax'
  | [], i, axes => by simp [putAxes]
  | d :: ds, i, axes => by
    rw [putAxes]
    constructor
    · intro h
      obtain ⟨p, hp, hlt⟩ := h 0 (by simp)
      rw [Nat.add_zero] at hp
      rw [hp]
      simp only
      rw [if_pos hlt]
      refine (putAxes_of out c ds (i + 1) (axes.set p d)).1 fun k hk => ?_
      rw [List.length_set, show i + 1 + k = i + (k + 1) by omega]
      exact h (k + 1) (by simp; omega)
    · rintro ⟨ax', h⟩
      split at h
      · simp at h
      · next p hp =>
        split at h
        · next hlt =>
          have := (putAxes_of out c ds (i + 1) (axes.set p d)).2 ⟨ax', h⟩
          intro k hk
          cases k with
          | zero => exact ⟨p, by simpa using hp, hlt⟩
          | succ k =>
            have := this k (by simp at hk; omega)
            rwa [List.length_set, show i + 1 + k = i + (k + 1) by omega] at this
        · simp at h

theorem putAll_ok (out : Char → List Nat) (hnd : ∀ c, (out c).Nodup) (hdis : ∀ c c' p, p ∈ out c → p ∈ out c' → c = c') :
    ∀ (last : List (Char × List Nat)) (axes ax' : List Nat), (last.map Prod.fst).Nodup → putAll out last axes = .ok ax' →
    ax'.length = axes.length ∧
      (∀ c ds, (c, ds) ∈ last → ∀ (k d p : Nat), ds[k]? = some d → (out c)[k]? = some p → ax'[p]? = some d) ∧
      ∀ p, (∀ c ∈ last.map Prod.fst, p ∉ out c) → ax'[p]? = axes[p]?
  | [], axes, ax', _, h => by
    simp only [putAll, Except.ok.injEq] at h
    subst h
    exact ⟨rfl, by simp, fun _ _ => rfl⟩
  | (c, ds) :: rest, axes, ax', hl, h => by
    rw [List.map_cons, List.nodup_cons] at hl
    rw [putAll] at h
    cases hp : putAxes out c ds 0 axes with
    | error e => rw [hp] at h; simp at h
    | ok a1 =>
      rw [hp] at h
      obtain ⟨j1, j2, j3⟩ := putAxes_ok out c (hnd c) ds 0 axes a1 hp
      obtain ⟨i1, i2, i3⟩ := putAll_ok out hnd hdis rest a1 ax' hl.2 h
      refine ⟨by omega, ?_, ?_⟩
      · intro c' ds' hm k d p hk hpk
        rcases List.mem_cons.1 hm with hm | hm
        · simp only [Prod.mk.injEq] at hm
          obtain ⟨rfl, rfl⟩ := hm
          rw [i3 p]
          · exact j2 k d p hk (by rwa [Nat.zero_add])
          · intro c'' hc'' hmem
            have := hdis _ _ p hmem (List.mem_of_getElem? hpk)
            subst this
            exact hl.1 hc''
        · exact i2 c' ds' hm k d p hk hpk
      · intro p hno
        rw [i3 p fun c hc => hno c (by simp only [List.map_cons, List.mem_cons]; exact Or.inr hc), j3 p]
        intro k _ he
        exact hno c (by simp) (List.mem_of_getElem? he)

theorem putAll_of (out : Char → List Nat) : ∀ (last : List (Char × List Nat)) (axes : List Nat),
    (∀ c ds, (c, ds) ∈ last → ∀ k, k < ds.length → ∃ p, (out c)[k]? = some p ∧ p < axes.length) ↔ ∃ ax', putAll out last axes = .ok ax'
  | [], axes => by simp [putAll]
  | (c, ds) :: rest, axes => by
    rw [putAll]
    have hlen : ∀ a1, putAxes out c ds 0 axes = .ok a1 → a1.length = axes.length := by
      have : ∀ (ds : List Nat) (i : Nat) (axes a1 : List Nat), putAxes out c ds i axes = .ok a1 → a1.length = axes.length := by
        intro ds
        induction ds with
        | nil => intro i axes a1 h; simp only [putAxes, Except.ok.injEq] at h; rw [h]
        | cons d ds ih =>
          intro i axes a1 h
          rw [putAxes] at h
          split at h
          · simp at h
          · split at h
            · rw [ih _ _ _ h, List.length_set]
            · simp at h
      exact this ds 0 axes
    constructor
    · intro h
      obtain ⟨a1, ha1⟩ := (putAxes_of out c ds 0 axes).1 fun k hk => by rw [Nat.zero_add]; exact h c ds (by simp) k hk
      rw [ha1]
      refine (putAll_of out rest a1).1 fun c' ds' hm k hk => ?_
      rw [hlen a1 ha1]
      exact h c' ds' (by simp [hm]) k hk
    · rintro ⟨ax', h⟩
      cases ha1 : putAxes out c ds 0 axes with
      | error e => rw [ha1] at h; simp at h
      | ok a1 =>
        rw [ha1] at h
        have h1 := (putAxes_of out c ds 0 axes).2 ⟨a1, ha1⟩
        have h2 := (putAll_of out rest a1).2 ⟨ax', h⟩
        intro c' ds' hm k hk
        rcases List.mem_cons.1 hm with hm | hm
        · simp only [Prod.mk.injEq] at hm
          obtain ⟨rfl, rfl⟩ := hm
          have := h1 k hk
          rwa [Nat.zero_add] at this
        · have := h2 c' ds' hm k hk
          rwa [hlen a1 ha1] at this

theorem createTerm_out (o : List Char) (e : Nat) (ho : ∀ d ∈ o, alpha d = true ∨ d = '.') (h1 : o.count '.' ≤ 1) (c : Char)
    (hc : alpha c = true ∨ c = '.') (p : Nat) : p ∈ createTerm o e c ↔ (perDim e o)[p]? = some c := by
  rw [C219_term_positions o e ho h1 c hc, positions_mem]

/-- C220. If the dimensions of the array that is to be transposed are exactly those the output describes (every label of the output is a
label of the array, with as many dimensions, and the other way round), the transposition is defined, and the dimension at every position
of the output is the dimension of its label in the array: for the k-th position of label c, the k-th dimension of c. -/
theorem C220_output_order_partial (o : List Char) (e : Nat) (last : List (Char × List Nat)) (ho : ∀ d ∈ o, alpha d = true ∨ d = '.')
    (h1 : o.count '.' ≤ 1) (hl : (last.map Prod.fst).Nodup) (hlab : ∀ c ds, (c, ds) ∈ last → c ∈ o)
    (hdim : ∀ c ds, (c, ds) ∈ last → ds.length = (createTerm o e c).length) :
    ∃ axes, outAxes o e last (perDim e o).length = .ok axes ∧ axes.length = (perDim e o).length ∧
      ∀ c ds, (c, ds) ∈ last → ∀ (k d p : Nat), ds[k]? = some d → (createTerm o e c)[k]? = some p →
        (perDim e o)[p]? = some c ∧ axes[p]? = some d := by
  -- restrict the term to its labels
  have hcl : ∀ c ds, (c, ds) ∈ last → alpha c = true ∨ c = '.' := fun c ds hm => ho c (hlab c ds hm)
  obtain ⟨axes, hax⟩ := (putAll_of (createTerm o e) last (List.replicate (perDim e o).length 0)).1 (by
    intro c ds hm k hk
    have hk' : k < (createTerm o e c).length := by rw [← hdim c ds hm]; exact hk
    refine ⟨_, List.getElem?_eq_getElem hk', ?_⟩
    have := (createTerm_out o e ho h1 c (hcl c ds hm) _).1 (List.getElem_mem hk')
    rw [List.length_replicate]
    exact (List.getElem?_eq_some_iff.1 this).1)
  let out : Char → List Nat := fun c => if alpha c = true ∨ c = '.' then createTerm o e c else []
  have hcongr : ∀ (L : List (Char × List Nat)) (a : List Nat), (∀ c ds, (c, ds) ∈ L → alpha c = true ∨ c = '.') →
      putAll (createTerm o e) L a = putAll out L a := by
    have hin : ∀ (c : Char), (alpha c = true ∨ c = '.') → ∀ (ds : List Nat) (i : Nat) (a : List Nat),
        putAxes (createTerm o e) c ds i a = putAxes out c ds i a := by
      intro c hc ds
      have : out c = createTerm o e c := if_pos hc
      induction ds with
      | nil => intro i a; rfl
      | cons d ds ih =>
        intro i a
        rw [putAxes, putAxes, this]
        split
        · rfl
        · split
          · exact ih _ _
          · rfl
    intro L
    induction L with
    | nil => intro a _; rfl
    | cons x L ih =>
      intro a h
      obtain ⟨c, ds⟩ := x
      rw [putAll, putAll, hin c (h c ds (by simp))]
      split
      · rfl
      · exact ih _ fun c' ds' hm => h c' ds' (by simp [hm])
  refine ⟨axes, hax, ?_⟩
  rw [hcongr last _ hcl] at hax
  obtain ⟨i1, i2, _⟩ := putAll_ok out (by
      intro c
      by_cases hc : alpha c = true ∨ c = '.'
      · have : out c = createTerm o e c := if_pos hc
        rw [this, C219_term_positions o e ho h1 c hc]
        exact (positions_sorted c _ 0).1.imp fun h => Nat.ne_of_lt h
      · have : out c = [] := if_neg hc
        rw [this]; exact List.nodup_nil) (by
      intro c c' p hp hp'
      have key : ∀ c, p ∈ out c → (perDim e o)[p]? = some c := by
        intro c hp
        by_cases hc : alpha c = true ∨ c = '.'
        · have : out c = createTerm o e c := if_pos hc
          rw [this] at hp
          exact (createTerm_out o e ho h1 c hc p).1 hp
        · have : out c = [] := if_neg hc
          rw [this] at hp; simp at hp
      have := (key c hp).symm.trans (key c' hp')
      simpa using this) last _ axes hl hax
  rw [List.length_replicate] at i1
  refine ⟨i1, fun c ds hm k d p hk hp => ⟨?_, ?_⟩⟩
  · exact (createTerm_out o e ho h1 c (hcl c ds hm) p).1 (List.mem_of_getElem? hp)
  · refine i2 c ds hm k d p hk ?_
    have : out c = createTerm o e c := if_pos (hcl c ds hm)
    rw [this]; exact hp

/-- The transposition is defined exactly if all positions are within the dimensions of the array. -/
theorem C220_defined_iff (o : List Char) (e : Nat) (last : List (Char × List Nat)) (nd : Nat) :
    (∃ axes, outAxes o e last nd = .ok axes) ↔
      ∀ c ds, (c, ds) ∈ last → ∀ k, k < ds.length → ∃ p, (createTerm o e c)[k]? = some p ∧ p < nd := by
  unfold outAxes
  rw [← putAll_of, List.length_replicate]

example : outAxes ".ki".toList 2 [('.', [0, 1]), ('i', [2]), ('k', [3])] 4 = .ok [0, 1, 3, 2] := by decide +kernel

/-- What is false: labels of the output that no input has are not rejected. "i->ij" is read as "i->i"; for "i->ji" the program writes
outside of the vector. Labels that occur twice in the output are accepted too. -/
example : outAxes "ij".toList 0 [('i', [0])] 1 = .ok [0] := by decide +kernel
example : (outAxes "ji".toList 0 [('i', [0])] 1).toOption = none := by decide +kernel
example : outAxes "ii".toList 0 [('i', [0])] 1 = .ok [0] := by decide +kernel
/-- Spaces in an equation with ellipses ("...ij, ...jk -> ...ik", see C217) lead outside of the vector. -/
example : parse "...ij, ...jk -> ...ik".toList = .ok ([".ij".toList, ".jk".toList], ".ik.ik".toList) := by decide +kernel
example : (outAxes ".ik.ik".toList 1 [('.', [0]), ('i', [1]), ('k', [2])] 3).toOption = none := by decide +kernel

end Verif.Einsum
