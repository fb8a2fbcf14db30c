import Verif.Einsum.Model
import Mathlib.Data.List.Forall2
/-
Properties C217 to C219: the reading of einsum equations.
-/
namespace Verif.Einsum

/-! ### Specification: how equations are written -/

/-- A term: letters, and '.' for the ellipsis. -/
def Term (t : List Char) : Prop := t ≠ [] ∧ ∀ c ∈ t, alpha c = true ∨ c = '.'

/-- Terms separated by commas. -/
def join : List (List Char) → List Char
  | [] => []
  | [t] => t
  | t :: ts => t ++ ',' :: join ts

/-- The ellipsis is written as three points. -/
def expand (w : List Char) : List Char := w.flatMap fun c => if c = '.' then ['.', '.', '.'] else [c]

/-- terms -> output -/
def explicitEq (ts : List (List Char)) (o : List Char) : List Char := expand (join ts ++ '-' :: '>' :: o)

/-- terms -/
def implicitEq (ts : List (List Char)) : List Char := expand (join ts)

/-! ### Lemmas -/

theorem alpha_ne {c : Char} (h : alpha c = true) : c ≠ '.' ∧ c ≠ '-' ∧ c ≠ ',' ∧ c ≠ ' ' ∧ c ≠ '>' := by
  refine ⟨?_, ?_, ?_, ?_, ?_⟩ <;> (rintro rfl; revert h; decide)

theorem dots_cons {c : Char} (h : c ≠ '.') (r : List Char) : dots (c :: r) = c :: dots r := by
  rw [dots]
  intro r' h'
  exact absurd h' h

theorem dots_expand : ∀ (w b : List Char), dots (expand w ++ b) = w ++ dots b
  | [], b => rfl
  | c :: w, b => by
    have ih := dots_expand w b
    unfold expand at ih ⊢
    rw [List.flatMap_cons]
    by_cases hc : c = '.'
    · subst hc
      simp only [if_true, List.cons_append, List.nil_append]
      rw [dots, ih]
    · rw [if_neg hc, List.cons_append, List.nil_append, List.cons_append, dots_cons hc, ih, List.cons_append]

theorem tokens_cons {c : Char} (h1 : c ≠ '.') (h2 : c ≠ '-') (r : List Char) :
    tokensOk (c :: r) = ((alpha c || c == ',' || c == ' ') && tokensOk r) := by
  rw [tokensOk]
  · intro r' h; exact absurd h h1
  · intro r' h; exact absurd h h2

theorem tokens_expand : ∀ (w b : List Char), (∀ c ∈ w, alpha c = true ∨ c = '.' ∨ c = ',') → tokensOk (expand w ++ b) = tokensOk b
  | [], b, _ => rfl
  | c :: w, b, h => by
    have ih := tokens_expand w b (fun x hx => h x (by simp [hx]))
    unfold expand at ih ⊢
    rw [List.flatMap_cons]
    rcases h c (by simp) with hc | rfl | rfl
    · obtain ⟨h1, h2, _⟩ := alpha_ne hc
      rw [if_neg h1, List.cons_append, List.nil_append, List.cons_append, tokens_cons h1 h2, hc, ih]; rfl
    · simp only [if_true, List.cons_append, List.nil_append]
      rw [tokensOk, ih]
    · rw [if_neg (by decide), List.cons_append, List.nil_append, List.cons_append, tokens_cons (by decide) (by decide), ih]; rfl

theorem splitArrow_cons {c : Char} (h : c ≠ '-') (r : List Char) :
    splitArrow (c :: r) = (splitArrow r).map fun p => (c :: p.1, p.2) := by
  rw [splitArrow]
  intro r' h'
  exact absurd h' h

theorem splitArrow_some (r : List Char) : ∀ l : List Char, '-' ∉ l → splitArrow (l ++ '-' :: '>' :: r) = some (l, r)
  | [], _ => by rw [List.nil_append, splitArrow]
  | c :: l, h => by
    have hc : c ≠ '-' := fun e => h (by simp [e])
    rw [List.cons_append, splitArrow_cons hc, splitArrow_some r l (fun e => h (by simp [e]))]; rfl

theorem splitArrow_none : ∀ l : List Char, '-' ∉ l → splitArrow l = none
  | [], _ => rfl
  | c :: l, h => by
    have hc : c ≠ '-' := fun e => h (by simp [e])
    rw [splitArrow_cons hc, splitArrow_none l (fun e => h (by simp [e]))]; rfl

theorem splitFrom_append : ∀ (t r acc : List Char), ',' ∉ t → splitFrom (t ++ r) acc = splitFrom r (acc ++ t)
  | [], r, acc, _ => by simp
  | c :: t, r, acc, h => by
    have hc : c ≠ ',' := fun e => h (by simp [e])
    rw [List.cons_append, splitFrom, if_neg hc, splitFrom_append t r _ (fun e => h (by simp [e]))]
    simp

theorem term_noComma {t : List Char} (h : Term t) : ',' ∉ t := by
  intro hc
  rcases h.2 _ hc with h | h
  · revert h; decide
  · revert h; decide

theorem splitComma_join : ∀ ts : List (List Char), (∀ t ∈ ts, Term t) → splitComma (join ts) = ts
  | [], _ => by simp [splitComma, join, splitFrom]
  | [t], h => by
    have ht := h t (by simp)
    have := splitFrom_append t [] [] (term_noComma ht)
    rw [List.append_nil, List.nil_append] at this
    rw [splitComma, join, this, splitFrom, if_neg ht.1]
  | t :: t' :: ts, h => by
    have ht := h t (by simp)
    have ih := splitComma_join (t' :: ts) (fun x hx => h x (by simp [hx]))
    rw [join, splitComma, splitFrom_append t _ _ (term_noComma ht), splitFrom, if_pos rfl, List.nil_append]
    rw [splitComma] at ih
    rw [ih]
    simp

theorem join_mem : ∀ (ts : List (List Char)), (∀ t ∈ ts, Term t) → ∀ c ∈ join ts, alpha c = true ∨ c = '.' ∨ c = ','
  | [], _, c, hc => by simp [join] at hc
  | [t], h, c, hc => by
    rw [join] at hc
    rcases (h t (by simp)).2 c hc with h | h
    · exact Or.inl h
    · exact Or.inr (Or.inl h)
  | t :: t' :: ts, h, c, hc => by
    rw [join, List.mem_append, List.mem_cons] at hc
    · rcases hc with hc | rfl | hc
      · rcases (h t (by simp)).2 c hc with h | h
        · exact Or.inl h
        · exact Or.inr (Or.inl h)
      · exact Or.inr (Or.inr rfl)
      · exact join_mem (t' :: ts) (fun x hx => h x (by simp [hx])) c hc
    · simp

theorem join_noDash (ts : List (List Char)) (h : ∀ t ∈ ts, Term t) : '-' ∉ join ts := by
  intro hc
  rcases join_mem ts h _ hc with h | h | h <;> (revert h; decide)

theorem expand_noSpace : ∀ w : List Char, ' ' ∉ w → ' ' ∉ expand w
  | [], _ => by simp [expand]
  | c :: w, h => by
    have ih := expand_noSpace w (fun e => h (by simp [e]))
    unfold expand at ih ⊢
    rw [List.flatMap_cons, List.mem_append, not_or]
    refine ⟨?_, ih⟩
    split
    · decide
    · intro e
      exact h (by simp at e; simp [← e])

theorem removeSpaces_noSpace (s : List Char) (h : ' ' ∉ s) : removeSpaces s = s := by
  have : s.filter (· ≠ ' ') = s := by
    rw [List.filter_eq_self]
    intro c hc
    simp only [ne_eq, decide_not, Bool.not_eq_eq_eq_not, Bool.not_true, decide_eq_false_iff_not]
    rintro rfl
    exact h hc
  unfold removeSpaces
  simp only [this, List.drop_length, List.append_nil]

theorem any_empty (ts : List (List Char)) (h : ∀ t ∈ ts, Term t) : ts.any List.isEmpty = false := by
  rw [List.any_eq_false]
  intro t ht
  have := (h t ht).1
  simpa using this

theorem parse_of (s : List Char) (ts : List (List Char)) (left out : List Char) (h1 : tokensOk s = true)
    (h2 : splitEq (dots (removeSpaces s)) = (left, out))
    (h3 : splitComma left = ts) (h4 : ts.any List.isEmpty = false) : parse s = .ok (ts, out) := by
  unfold parse
  rw [h1]
  simp only [Bool.not_true, Bool.false_eq_true, if_false, h2, h3, h4]

/-- C217. An equation with an output and without spaces is read as it is written. -/
theorem C217_explicit_partial (ts : List (List Char)) (o : List Char) (hts : ∀ t ∈ ts, Term t) (ho : ∀ c ∈ o, alpha c = true ∨ c = '.') :
    parse (explicitEq ts o) = .ok (ts, o) := by
  have hsp : ' ' ∉ join ts ++ '-' :: '>' :: o := by
    intro h
    rcases List.mem_append.1 h with h | h
    · rcases join_mem ts hts _ h with h | h | h <;> (revert h; decide)
    · simp only [List.mem_cons] at h
      rcases h with h | h | h
      · revert h; decide
      · revert h; decide
      · rcases ho _ h with h | h <;> (revert h; decide)
  have hd : dots (removeSpaces (explicitEq ts o)) = join ts ++ '-' :: '>' :: o := by
    unfold explicitEq
    rw [removeSpaces_noSpace _ (expand_noSpace _ hsp)]
    have := dots_expand (join ts ++ '-' :: '>' :: o) []
    rw [List.append_nil] at this
    rw [this, dots, List.append_nil]
  refine parse_of _ ts (join ts) o ?_ ?_ (splitComma_join ts hts) (any_empty ts hts)
  · unfold explicitEq expand
    rw [List.flatMap_append]
    have := tokens_expand (join ts) (('-' :: '>' :: o).flatMap fun c => if c = '.' then ['.', '.', '.'] else [c]) (join_mem ts hts)
    unfold expand at this
    rw [this]
    have h2 := tokens_expand o [] (fun c hc => by rcases ho c hc with h | h <;> simp [h])
    unfold expand at h2
    rw [List.append_nil] at h2
    simp only [List.flatMap_cons]
    rw [if_neg (by decide), if_neg (by decide), List.cons_append, List.nil_append, List.cons_append, List.nil_append, tokensOk, h2]
    rfl
  · rw [hd, splitEq, splitArrow_some o _ (join_noDash ts hts)]

/-- The output of an equation that does not name one: the ellipsis first, if there is one, then the letters that occur exactly once in all
terms together, in ascending order. -/
def IsImplicit (ts : List (List Char)) (o : List Char) : Prop :=
  ∃ L : List Char, o = (if '.' ∈ ts.flatten then ['.'] else []) ++ L ∧ L.Pairwise (· < ·) ∧
    ∀ c, c ∈ L ↔ alpha c = true ∧ ts.flatten.count c = 1

theorem join_count (c : Char) (hc : c ≠ ',') : ∀ ts : List (List Char), (join ts).count c = ts.flatten.count c
  | [] => rfl
  | [t] => by simp [join]
  | t :: t' :: ts => by
    rw [join, List.count_append, List.count_cons_of_ne hc.symm, join_count c hc (t' :: ts)]
    · simp
    · intro h; cases h

theorem alpha_range {c : Char} (h : alpha c = true) : c ∈ (List.range 128).map Char.ofNat := by
  refine List.mem_map.2 ⟨c.toNat, List.mem_range.2 ?_, Char.ofNat_toNat c⟩
  unfold alpha at h
  simp only [Bool.or_eq_true, Bool.and_eq_true, decide_eq_true_eq, Char.le_def, UInt32.le_iff_toNat_le] at h
  have h1 : 'z'.val.toNat = 122 := rfl
  have h2 : 'Z'.val.toNat = 90 := rfl
  have : c.toNat = c.val.toNat := rfl
  omega

/-- C217. An equation without an output and without spaces. -/
theorem C217_implicit_partial (ts : List (List Char)) (hts : ∀ t ∈ ts, Term t) :
    ∃ o, parse (implicitEq ts) = .ok (ts, o) ∧ IsImplicit ts o := by
  have hsp : ' ' ∉ join ts := by
    intro h
    rcases join_mem ts hts _ h with h | h | h <;> (revert h; decide)
  have hd : dots (removeSpaces (implicitEq ts)) = join ts := by
    unfold implicitEq
    rw [removeSpaces_noSpace _ (expand_noSpace _ hsp)]
    have := dots_expand (join ts) []
    rw [List.append_nil] at this
    rw [this, dots, List.append_nil]
  refine ⟨implicitOut (join ts), parse_of _ ts (join ts) _ ?_ ?_ (splitComma_join ts hts) (any_empty ts hts), ?_⟩
  · have := tokens_expand (join ts) [] (join_mem ts hts)
    rw [List.append_nil] at this
    exact this
  · rw [hd, splitEq, splitArrow_none _ (join_noDash ts hts)]
  · refine ⟨((List.range 128).map Char.ofNat).filter fun c => alpha c && (join ts).count c == 1, ?_, ?_, ?_⟩
    · have h1 : '.' ∈ join ts ↔ '.' ∈ ts.flatten := by
        rw [← List.count_pos_iff, ← List.count_pos_iff, join_count _ (by decide)]
      unfold implicitOut
      simp only [h1]
    · have : ((List.range 128).map Char.ofNat).Pairwise (· < ·) := by decide +kernel
      exact this.filter _
    · intro c
      rw [List.mem_filter]
      constructor
      · rintro ⟨_, h⟩
        simp only [Bool.and_eq_true, beq_iff_eq] at h
        rw [join_count c (alpha_ne h.1).2.2.1] at h
        exact h
      · rintro ⟨h1, h2⟩
        refine ⟨alpha_range h1, ?_⟩
        rw [join_count c (alpha_ne h1).2.2.1, h1, h2]
        rfl


example : parse "...ij,...jk->...ik".toList = .ok ([".ij".toList, ".jk".toList], ".ik".toList) := by decide +kernel
example : parse "b...a,Ac".toList = .ok (["b.a".toList, "Ac".toList], ".Aabc".toList) := by decide +kernel
example : Term ".ij".toList := ⟨by decide, by decide⟩

/-- What is false: spaces are accepted, but they are not removed from the length of the equation. In an equation with an output, the last
characters, as many as there are spaces, are read a second time as part of the output. -/
theorem C217_spaces_lengthen_output (ts : List (List Char)) (o s : List Char) (hts : ∀ t ∈ ts, Term t) (htok : tokensOk s = true)
    (hs : s.filter (· ≠ ' ') = explicitEq ts o) :
    parse s = .ok (ts, o ++ dots (s.drop (explicitEq ts o).length)) := by
  have hd : dots (removeSpaces s) = join ts ++ '-' :: '>' :: (o ++ dots (s.drop (explicitEq ts o).length)) := by
    unfold removeSpaces
    simp only [hs]
    conv_lhs => arg 1; arg 1; unfold explicitEq
    rw [dots_expand]
    simp
  refine parse_of _ ts (join ts) _ htok ?_ (splitComma_join ts hts) (any_empty ts hts)
  rw [hd, splitEq, splitArrow_some _ _ (join_noDash ts hts)]

theorem dots_ne_nil : ∀ s : List Char, s ≠ [] → dots s ≠ []
  | [], h => absurd rfl h
  | c :: r, _ => by
    unfold dots
    split
    · next h => cases h
    · simp
    · simp

/-- So with any space the output is never the one written. -/
theorem C217_spaces_change_output (ts : List (List Char)) (o s : List Char) (hts : ∀ t ∈ ts, Term t) (htok : tokensOk s = true)
    (hs : s.filter (· ≠ ' ') = explicitEq ts o) (hsp : ' ' ∈ s) : parse s ≠ .ok (ts, o) := by
  rw [C217_spaces_lengthen_output ts o s hts htok hs]
  intro h
  simp only [Except.ok.injEq, Prod.mk.injEq, true_and] at h
  have h' : dots (s.drop (explicitEq ts o).length) = [] := by
    have := congrArg List.length h
    rw [List.length_append] at this
    exact List.eq_nil_of_length_eq_zero (by omega)
  have hlt : (explicitEq ts o).length < s.length := by
    rw [← hs]
    refine Nat.lt_of_le_of_ne (List.length_filter_le _ _) fun e => ?_
    have := (List.length_filter_eq_length_iff.1 e) ' ' hsp
    simp at this
  exact dots_ne_nil _ (by rw [ne_eq, List.drop_eq_nil_iff]; omega) h'

example : parse "ij,jk -> ik".toList = .ok (["ij".toList, "jk".toList], "ikik".toList) := by decide +kernel
example : parse "...i, ...i -> ...".toList = .ok ([".i".toList, ".i".toList], "..".toList) := by decide +kernel
/-- In an equation without an output the last term changes. -/
example : parse "ij, jk".toList = .ok (["ij".toList, "jkk".toList], "i".toList) := by decide +kernel
/-- A comma at the end is ignored. -/
example : parse "ij,".toList = .ok (["ij".toList], "ij".toList) := by decide +kernel

/-! ### C218: numbers of dimensions -/

theorem ellipsisLoop_ok : ∀ (ins : List (List Char × Nat)) (e e' : Nat), ellipsisLoop ins e = .ok e' →
    (e ≠ 0 → e' = e) ∧ ∀ l nd, (l, nd) ∈ ins → l.length ≤ nd ∧ l.count '.' ≤ 1 ∧ ('.' ∈ l → nd = l.length - 1 + e' ∧ 1 ≤ e')
  | [], e, e', h => by
    simp only [ellipsisLoop, Except.ok.injEq] at h
    exact ⟨fun _ => h.symm, by simp⟩
  | (l, nd) :: rest, e, e', h => by
    rw [ellipsisLoop] at h
    split at h; · simp at h
    rename_i h1
    split at h; · simp at h
    rename_i h2
    have h1' : l.count '.' ≤ 1 := by omega
    have h2' : l.length ≤ nd := by omega
    split at h
    · rename_i hd
      have hpos : 1 ≤ l.length := List.length_pos_of_mem hd
      simp only at h
      split at h
      · obtain ⟨i1, i2⟩ := ellipsisLoop_ok rest _ e' h
        have he : e' = nd - (l.length - 1) := i1 (by omega)
        refine ⟨fun hne => by omega, ?_⟩
        intro l' nd' hm
        rcases List.mem_cons.1 hm with hm | hm
        · simp only [Prod.mk.injEq] at hm
          obtain ⟨rfl, rfl⟩ := hm
          exact ⟨h2', h1', fun _ => by omega⟩
        · exact i2 l' nd' hm
      · split at h
        · rename_i hne heq
          obtain ⟨i1, i2⟩ := ellipsisLoop_ok rest _ e' h
          have he := i1 hne
          refine ⟨fun _ => he, ?_⟩
          intro l' nd' hm
          rcases List.mem_cons.1 hm with hm | hm
          · simp only [Prod.mk.injEq] at hm
            obtain ⟨rfl, rfl⟩ := hm
            exact ⟨h2', h1', fun _ => by omega⟩
          · exact i2 l' nd' hm
        · simp at h
    · rename_i hd
      obtain ⟨i1, i2⟩ := ellipsisLoop_ok rest _ e' h
      refine ⟨i1, ?_⟩
      intro l' nd' hm
      rcases List.mem_cons.1 hm with hm | hm
      · simp only [Prod.mk.injEq] at hm
        obtain ⟨rfl, rfl⟩ := hm
        exact ⟨h2', h1', fun h => absurd h hd⟩
      · exact i2 l' nd' hm

theorem ellipsisLoop_no : ∀ (ins : List (List Char × Nat)) (e : Nat), (∀ l nd, (l, nd) ∈ ins → '.' ∉ l ∧ l.length ≤ nd) →
    ellipsisLoop ins e = .ok e
  | [], e, _ => rfl
  | (l, nd) :: rest, e, h => by
    obtain ⟨h1, h2⟩ := h l nd (by simp)
    rw [ellipsisLoop, if_neg (by rw [List.count_eq_zero.2 h1]; omega), if_neg (by omega), if_neg h1]
    exact ellipsisLoop_no rest e fun l nd hm => h l nd (by simp [hm])

/-- C218. In an accepted equation every input whose term has an ellipsis has one ellipsis, which stands for the same number e ≥ 1 of
dimensions in all of them, and as many dimensions as its term describes; the other inputs have at least as many dimensions as letters,
and exactly as many if no term has an ellipsis. -/
theorem C218_dimensions_partial (ins : List (List Char × Nat)) (e : Nat) (h : ellipsisNdim ins = .ok e) :
    (∀ l nd, (l, nd) ∈ ins → '.' ∈ l → l.count '.' = 1 ∧ 1 ≤ e ∧ nd = (l.length - 1) + e) ∧
    (∀ l nd, (l, nd) ∈ ins → l.length ≤ nd) ∧
    ((∀ l nd, (l, nd) ∈ ins → '.' ∉ l) → ∀ l nd, (l, nd) ∈ ins → nd = l.length) := by
  unfold ellipsisNdim at h
  cases hl : ellipsisLoop ins 0 with
  | error x => rw [hl] at h; simp at h
  | ok e' =>
    rw [hl] at h
    simp only at h
    split at h; · simp at h
    rename_i hc
    simp only [Except.ok.injEq] at h
    subst h
    obtain ⟨_, i2⟩ := ellipsisLoop_ok ins 0 e' hl
    refine ⟨fun l nd hm hd => ?_, fun l nd hm => (i2 l nd hm).1, fun hno l nd hm => ?_⟩
    · obtain ⟨_, h2, h3⟩ := i2 l nd hm
      have : 0 < l.count '.' := List.count_pos_iff.2 hd
      exact ⟨by omega, (h3 hd).2, (h3 hd).1⟩
    · have he : e' = 0 := by
        rw [ellipsisLoop_no ins 0 fun l nd hm => ⟨hno l nd hm, (i2 l nd hm).1⟩] at hl
        simpa using hl.symm
      by_contra hne
      exact hc ⟨he, (l, nd), hm, fun h => hne h.symm⟩

/-- What is false: if another term has an ellipsis, an input may have more dimensions than its term describes; the shapes (2, 3, 4) and
(5, 6) are accepted for "ij,...k". And an ellipsis that stands for no dimension is rejected. -/
example : ellipsisNdim [("ij".toList, 3), (".k".toList, 2)] = .ok 1 := by decide +kernel
example : (ellipsisNdim [("ij".toList, 3), ("jk".toList, 2)]).toOption = none := by decide +kernel
example : (ellipsisNdim [(".i".toList, 1)]).toOption = none := by decide +kernel

/-! ### C219: the dimensions of the labels, and their sizes -/

/-- A term with the ellipsis written as e labels: one label per dimension. -/
def perDim (e : Nat) (l : List Char) : List Char := l.flatMap fun c => if c = '.' then List.replicate e '.' else [c]

/-- The positions of c, counted from n. -/
def positions (c : Char) (w : List Char) (n : Nat) : List Nat := (w.zipIdx n).filterMap fun p => if p.1 = c then some p.2 else none

theorem positions_append (c : Char) (w w' : List Char) (n : Nat) :
    positions c (w ++ w') n = positions c w n ++ positions c w' (n + w.length) := by
  unfold positions
  rw [List.zipIdx_append, List.filterMap_append, Nat.add_comm]

theorem positions_replicate (c : Char) : ∀ (e n : Nat), positions c (List.replicate e c) n = List.range' n e
  | 0, n => rfl
  | e + 1, n => by
    have := positions_replicate c e (n + 1)
    unfold positions at this ⊢
    rw [List.replicate_succ, List.zipIdx_cons, List.filterMap_cons]
    simp only [if_true]
    rw [this, List.range'_succ]

theorem positions_replicate_ne {c d : Char} (h : d ≠ c) : ∀ (e n : Nat), positions c (List.replicate e d) n = []
  | 0, n => rfl
  | e + 1, n => by
    have := positions_replicate_ne h e (n + 1)
    unfold positions at this ⊢
    rw [List.replicate_succ, List.zipIdx_cons, List.filterMap_cons]
    simp only [if_neg h]
    exact this

theorem positions_notMem (c : Char) (e : Nat) : ∀ (l : List Char) (n : Nat), c ∉ l → positions c (perDim e l) n = []
  | [], n, _ => rfl
  | d :: l, n, h => by
    have hd : d ≠ c := fun e => h (by simp [e])
    unfold perDim
    rw [List.flatMap_cons, positions_append]
    have ih := positions_notMem c e l
    unfold perDim at ih
    rw [ih _ (fun e => h (by simp [e])), List.append_nil]
    split
    · next hdot => exact positions_replicate_ne (hdot ▸ hd) e n
    · have := positions_replicate_ne hd 1 n
      simpa using this

theorem createTermFrom_eq (e : Nat) (c : Char) : ∀ (l : List Char) (n : Nat) (t : Char → List Nat), (∀ d ∈ l, alpha d = true ∨ d = '.') →
    (alpha c = true ∨ (c = '.' ∧ l.count '.' ≤ 1 ∧ ('.' ∈ l → t '.' = []))) →
    createTermFrom e l n t c = t c ++ positions c (perDim e l) n
  | [], n, t, _, _ => by simp [createTermFrom, perDim, positions]
  | d :: l, n, t, hl, hc => by
    have hl' : ∀ d ∈ l, alpha d = true ∨ d = '.' := fun x hx => hl x (by simp [hx])
    have hper : perDim e (d :: l) = (if d = '.' then List.replicate e '.' else [d]) ++ perDim e l := by
      unfold perDim; rw [List.flatMap_cons]
    rw [hper, positions_append, createTermFrom]
    rcases hl d (by simp) with hd | hd
    · have hne := (alpha_ne hd).1
      rw [if_pos hd, if_neg hne, createTermFrom_eq e c l (n + 1) _ hl' ?_]
      · by_cases hcd : c = d
        · subst hcd
          simp [positions]
        · have : d ≠ c := fun e => hcd e.symm
          simp [positions, hcd, this]
      · rcases hc with hc | ⟨hc, h1, h2⟩
        · exact Or.inl hc
        · refine Or.inr ⟨hc, ?_, fun hm => ?_⟩
          · rwa [List.count_cons_of_ne hne] at h1
          · rw [if_neg (Ne.symm hne)]
            exact h2 (by simp [hm])
    · subst hd
      rw [if_neg (by decide), if_pos rfl, List.length_replicate]
      rcases hc with hc | ⟨rfl, h1, h2⟩
      · have hne := (alpha_ne hc).1
        rw [createTermFrom_eq e c l (n + e) _ hl' (Or.inl hc), if_neg hne, positions_replicate_ne (Ne.symm hne), List.nil_append]
      · have hno : '.' ∉ l := by
          intro hm
          have : 0 < l.count '.' := List.count_pos_iff.2 hm
          rw [List.count_cons_self] at h1
          omega
        rw [createTermFrom_eq e '.' l (n + e) _ hl' (Or.inr ⟨rfl, by rw [List.count_eq_zero.2 hno]; omega, fun h => absurd h hno⟩)]
        rw [if_pos rfl, positions_replicate, h2 (by simp), List.nil_append]

/-- C219. The dimensions of a label in a term are its positions in the term with the ellipsis written out. -/
theorem C219_term_positions (l : List Char) (e : Nat) (hl : ∀ d ∈ l, alpha d = true ∨ d = '.') (h1 : l.count '.' ≤ 1) (c : Char)
    (hc : alpha c = true ∨ c = '.') : createTerm l e c = positions c (perDim e l) 0 := by
  unfold createTerm
  rw [createTermFrom_eq e c l 0 _ hl (by
    rcases hc with h | h
    · exact Or.inl h
    · exact Or.inr ⟨h, h1, fun _ => rfl⟩)]
  rfl

example : createTerm ".iji".toList 2 'i' = [2, 4] ∧ createTerm ".iji".toList 2 '.' = [0, 1] := by decide +kernel
/-- With a second ellipsis (which an output with spaces can have, see C217) the first is lost: the positions are beyond the dimensions. -/
example : createTerm ".ik.ik".toList 2 '.' = [4, 5] := by decide +kernel

theorem validateDims_ok (c : Char) : ∀ (ds : List Nat) (sizes s' : Char → Option Nat), validateDims c ds sizes = .ok s' →
    (∀ x n, sizes x = some n → s' x = some n) ∧ (∀ d ∈ ds, s' c = some d)
  | [], sizes, s', h => by
    simp only [validateDims, Except.ok.injEq] at h
    subst h
    exact ⟨fun _ _ h => h, by simp⟩
  | d :: ds, sizes, s', h => by
    rw [validateDims] at h
    cases hs : sizes c with
    | none =>
      rw [hs] at h
      obtain ⟨i1, i2⟩ := validateDims_ok c ds _ s' h
      have h0 : s' c = some d := i1 c d (by simp)
      refine ⟨fun x n hx => i1 x n ?_, ?_⟩
      · have : x ≠ c := by rintro rfl; rw [hs] at hx; simp at hx
        rw [if_neg this]; exact hx
      · intro d' hd'
        rcases List.mem_cons.1 hd' with rfl | hd'
        · exact h0
        · exact i2 d' hd'
    | some n =>
      rw [hs] at h
      simp only at h
      split at h
      · next hnd =>
        obtain ⟨i1, i2⟩ := validateDims_ok c ds _ s' h
        refine ⟨i1, ?_⟩
        intro d' hd'
        rcases List.mem_cons.1 hd' with rfl | hd'
        · rw [← hnd]; exact i1 c n hs
        · exact i2 d' hd'
      · simp at h

theorem validateDims_of (c : Char) (f : Char → Nat) : ∀ (ds : List Nat) (sizes : Char → Option Nat), (∀ x n, sizes x = some n → f x = n) →
    (∀ d ∈ ds, d = f c) → ∃ s', validateDims c ds sizes = .ok s' ∧ ∀ x n, s' x = some n → f x = n
  | [], sizes, h, _ => ⟨sizes, rfl, h⟩
  | d :: ds, sizes, h, hd => by
    have hd0 := hd d (by simp)
    rw [validateDims]
    cases hs : sizes c with
    | none =>
      refine validateDims_of c f ds _ ?_ fun x hx => hd x (by simp [hx])
      intro x n hx
      split at hx
      · next hxc => subst hxc; simp only [Option.some.injEq] at hx; omega
      · exact h x n hx
    | some n =>
      have := h c n hs
      simp only
      rw [if_pos (by omega)]
      exact validateDims_of c f ds _ h fun x hx => hd x (by simp [hx])

/-- d fits to the common size n. -/
def Fit (n d : Nat) : Prop := d = n ∨ d = 1

theorem validateEll_ok : ∀ (ell ds l : List Nat), (∀ n ∈ ell, 1 ≤ n) → (∀ d ∈ ds, 1 ≤ d) → ds.length = ell.length →
    validateEll ell ds = .ok l → List.Forall₂ Fit l ell ∧ List.Forall₂ Fit l ds ∧ (∀ n ∈ l, 1 ≤ n)
  | [], [], l, _, _, _, h => by
    simp only [validateEll, Except.ok.injEq] at h
    subst h
    exact ⟨.nil, .nil, by simp⟩
  | n :: ell, d :: ds, l, h1, h2, hlen, h => by
    rw [validateEll] at h
    split at h
    · next hc =>
      cases hr : validateEll ell ds with
      | error x => rw [hr] at h; simp at h
      | ok l' =>
        rw [hr] at h
        simp only [Except.ok.injEq] at h
        subst h
        obtain ⟨i1, i2, i3⟩ := validateEll_ok ell ds l' (fun x hx => h1 x (by simp [hx])) (fun x hx => h2 x (by simp [hx]))
          (by simpa using hlen) hr
        have hn := h1 n (by simp)
        have hd := h2 d (by simp)
        refine ⟨.cons ?_ i1, .cons ?_ i2, ?_⟩
        · unfold Fit; omega
        · unfold Fit; omega
        · intro x hx
          rcases List.mem_cons.1 hx with rfl | hx
          · omega
          · exact i3 x hx
    · simp at h
  | [], _ :: _, _, _, _, hlen, _ => by simp at hlen
  | _ :: _, [], _, _, _, hlen, _ => by simp at hlen

theorem validateEll_of : ∀ (E ell ds : List Nat), (∀ n ∈ E, 1 ≤ n) → List.Forall₂ Fit E ell → List.Forall₂ Fit E ds →
    ∃ l, validateEll ell ds = .ok l ∧ List.Forall₂ Fit E l
  | [], ell, ds, _, h1, h2 => by
    cases h1; cases h2
    exact ⟨[], by simp [validateEll], .nil⟩
  | m :: E, ell, ds, hE, h1, h2 => by
    cases h1 with
    | cons h1 t1 =>
    cases h2 with
    | cons h2 t2 =>
    obtain ⟨l, hl, hf⟩ := validateEll_of E _ _ (fun x hx => hE x (by simp [hx])) t1 t2
    have hm := hE m (by simp)
    unfold Fit at h1 h2
    rename_i n _ d _
    refine ⟨max n d :: l, ?_, .cons ?_ hf⟩
    · rw [validateEll, if_pos (by omega), hl]
    · unfold Fit; omega

theorem fit_trans : ∀ (E l ds : List Nat), List.Forall₂ Fit E l → List.Forall₂ Fit l ds → List.Forall₂ Fit E ds
  | _, _, _, .nil, .nil => .nil
  | _, _, _, .cons h1 t1, .cons h2 t2 => .cons (by unfold Fit at *; omega) (fit_trans _ _ _ t1 t2)

theorem fit_len (E l : List Nat) (h : List.Forall₂ Fit E l) : E.length = l.length := h.length_eq

theorem fit_refl : ∀ l : List Nat, List.Forall₂ Fit l l
  | [] => .nil
  | _ :: l => .cons (Or.inl rfl) (fit_refl l)

theorem validate_ok (e : Nat) (he : 0 < e) : ∀ (items : List (Char × List Nat)) (sizes s' : Char → Option Nat) (ell ell' : List Nat),
    (∀ c ds, (c, ds) ∈ items → alpha c = false → ds.length = e ∧ ∀ d ∈ ds, 1 ≤ d) →
    (∀ n ∈ ell, 1 ≤ n) → (ell = [] ∨ ell.length = e) →
    validate items sizes ell = .ok (s', ell') →
    (∀ x n, sizes x = some n → s' x = some n) ∧ (ell ≠ [] → List.Forall₂ Fit ell' ell) ∧ (∀ n ∈ ell', 1 ≤ n) ∧
      ∀ c ds, (c, ds) ∈ items → (alpha c = true → ∀ d ∈ ds, s' c = some d) ∧ (alpha c = false → List.Forall₂ Fit ell' ds)
  | [], sizes, s', ell, ell', _, hp, _, h => by
    simp only [validate, Except.ok.injEq, Prod.mk.injEq] at h
    obtain ⟨rfl, rfl⟩ := h
    exact ⟨fun _ _ h => h, fun _ => fit_refl _, hp, by simp⟩
  | (c, ds) :: rest, sizes, s', ell, ell', hit, hp, hlen, h => by
    have hit' : ∀ c ds, (c, ds) ∈ rest → alpha c = false → ds.length = e ∧ ∀ d ∈ ds, 1 ≤ d := fun c ds hm => hit c ds (by simp [hm])
    rw [validate] at h
    split at h
    · next ha =>
      cases hd : validateDims c ds sizes with
      | error x => rw [hd] at h; simp at h
      | ok s1 =>
        rw [hd] at h
        obtain ⟨j1, j2⟩ := validateDims_ok c ds sizes s1 hd
        obtain ⟨i1, i2, i3, i4⟩ := validate_ok e he rest s1 s' ell ell' hit' hp hlen h
        refine ⟨fun x n hx => i1 x n (j1 x n hx), i2, i3, ?_⟩
        intro c' ds' hm
        rcases List.mem_cons.1 hm with hm | hm
        · simp only [Prod.mk.injEq] at hm
          obtain ⟨rfl, rfl⟩ := hm
          exact ⟨fun _ d hd' => i1 _ _ (j2 d hd'), fun h => by rw [ha] at h; simp at h⟩
        · exact i4 c' ds' hm
    · next ha =>
      have ha' : alpha c = false := by simpa using ha
      obtain ⟨hl1, hl2⟩ := hit c ds (by simp) ha'
      split at h
      · next hell =>
        obtain ⟨i1, i2, i3, i4⟩ := validate_ok e he rest sizes s' ds ell' hit' hl2 (Or.inr hl1) h
        refine ⟨i1, fun hne => absurd hell hne, i3, ?_⟩
        intro c' ds' hm
        rcases List.mem_cons.1 hm with hm | hm
        · simp only [Prod.mk.injEq] at hm
          obtain ⟨rfl, rfl⟩ := hm
          exact ⟨fun h => absurd h ha, fun _ => i2 (by rintro rfl; simp at hl1; omega)⟩
        · exact i4 c' ds' hm
      · next hell =>
        have hle : ell.length = e := by
          rcases hlen with h | h
          · exact absurd h hell
          · exact h
        cases hv : validateEll ell ds with
        | error x => rw [hv] at h; simp at h
        | ok l =>
          rw [hv] at h
          obtain ⟨j1, j2, j3⟩ := validateEll_ok ell ds l hp hl2 (by omega) hv
          have hll := fit_len _ _ j1
          obtain ⟨i1, i2, i3, i4⟩ := validate_ok e he rest sizes s' l ell' hit' j3 (Or.inr (by omega)) h
          have hln : l ≠ [] := by rintro rfl; simp at hll; omega
          refine ⟨i1, fun _ => fit_trans _ _ _ (i2 hln) j1, i3, ?_⟩
          intro c' ds' hm
          rcases List.mem_cons.1 hm with hm | hm
          · simp only [Prod.mk.injEq] at hm
            obtain ⟨rfl, rfl⟩ := hm
            exact ⟨fun h => absurd h ha, fun _ => fit_trans _ _ _ (i2 hln) j2⟩
          · exact i4 c' ds' hm

theorem validate_of (f : Char → Nat) (E : List Nat) (hE : ∀ n ∈ E, 1 ≤ n) : ∀ (items : List (Char × List Nat)) (sizes : Char → Option Nat)
    (ell : List Nat), (∀ x n, sizes x = some n → f x = n) → (ell = [] ∨ List.Forall₂ Fit E ell) →
    (∀ c ds, (c, ds) ∈ items → (alpha c = true → ∀ d ∈ ds, d = f c) ∧ (alpha c = false → List.Forall₂ Fit E ds)) →
    ∃ r, validate items sizes ell = .ok r
  | [], sizes, ell, _, _, _ => ⟨_, rfl⟩
  | (c, ds) :: rest, sizes, ell, hs, hell, hit => by
    have hit' : ∀ c ds, (c, ds) ∈ rest → (alpha c = true → ∀ d ∈ ds, d = f c) ∧ (alpha c = false → List.Forall₂ Fit E ds) :=
      fun c ds hm => hit c ds (by simp [hm])
    obtain ⟨h1, h2⟩ := hit c ds (by simp)
    rw [validate]
    cases ha : alpha c with
    | true =>
      obtain ⟨s1, e1, e2⟩ := validateDims_of c f ds sizes hs (h1 ha)
      simp only [if_true, e1]
      exact validate_of f E hE rest s1 ell e2 hell hit'
    | false =>
      simp only [Bool.false_eq_true, if_false]
      split
      · exact validate_of f E hE rest sizes ds hs (Or.inr (h2 ha)) hit'
      · next hne =>
        have hfe : List.Forall₂ Fit E ell := by
          rcases hell with h | h
          · exact absurd h hne
          · exact h
        obtain ⟨l, e1, e2⟩ := validateEll_of E ell ds hE hfe (h2 ha)
        simp only [e1]
        exact validate_of f E hE rest sizes l hs (Or.inr e2) hit'

/-- C219. The sizes are accepted exactly if every letter has one size in all its dimensions of all inputs, and there is a shape to which
the dimensions of every ellipsis can be broadcast. `items` lists the labels of all inputs with the sizes of their dimensions, all
positive; an ellipsis stands for e ≥ 1 dimensions. -/
theorem C219_sizes_accepted_iff (e : Nat) (he : 0 < e) (items : List (Char × List Nat))
    (hit : ∀ c ds, (c, ds) ∈ items → (∀ d ∈ ds, 1 ≤ d) ∧ (alpha c = false → ds.length = e)) :
    (∃ r, validate items (fun _ => none) [] = .ok r) ↔
      (∃ f : Char → Nat, ∀ c ds, (c, ds) ∈ items → alpha c = true → ∀ d ∈ ds, d = f c) ∧
      ∃ E : List Nat, ∀ c ds, (c, ds) ∈ items → alpha c = false → List.Forall₂ (fun n d => d = n ∨ d = 1) E ds := by
  constructor
  · rintro ⟨⟨s', ell'⟩, h⟩
    obtain ⟨_, _, _, i4⟩ := validate_ok e he items _ s' [] ell' (fun c ds hm ha => ⟨(hit c ds hm).2 ha, (hit c ds hm).1⟩) (by simp) (Or.inl rfl) h
    refine ⟨⟨fun c => (s' c).getD 0, fun c ds hm ha d hd => ?_⟩, ell', fun c ds hm ha => (i4 c ds hm).2 ha⟩
    simp only [(i4 c ds hm).1 ha d hd, Option.getD_some]
  · rintro ⟨⟨f, hf⟩, E, hE⟩
    -- a shape with positive sizes
    refine validate_of f (E.map fun n => max n 1) (by intro n hn; obtain ⟨m, _, rfl⟩ := List.mem_map.1 hn; omega) items _ [] (by simp) (Or.inl rfl) fun c ds hm => ⟨hf c ds hm, fun ha => ?_⟩
    have h1 := (hit c ds hm).1
    have h2 := hE c ds hm ha
    rw [List.forall₂_map_left_iff]
    clear hm hE hf
    induction h2 with
    | nil => exact .nil
    | cons hab _ ih =>
      have := h1 _ (List.mem_cons_self ..)
      refine .cons ?_ (ih fun d hd => h1 d (List.mem_cons_of_mem _ hd))
      unfold Fit; omega

example : (validate [('.', [1, 3]), ('i', [4]), ('.', [2, 1]), ('i', [4])] (fun _ => none) []).toOption.map Prod.snd = some [2, 3] := by
  decide +kernel
example : (validate [('i', [4]), ('i', [1])] (fun _ => none) []).toOption.map Prod.snd = none := by decide +kernel

end Verif.Einsum
