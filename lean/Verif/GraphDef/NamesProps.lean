import Verif.GraphDef.Names

/-!
# C111: names handed out while recording a proto network
-/

namespace Verif.GraphDef

theorem repr_inj {m n : Nat} (h : m.repr = n.repr) : m = n := by
  have h' : Nat.toDigits 10 m = Nat.toDigits 10 n := by
    rw [← Nat.toList_repr, ← Nat.toList_repr, h]
  have := congrArg (fun l => Nat.ofDigitChars 10 l 0) h'
  simpa [Nat.ofDigitChars_ten_toDigits] using this

theorem splitUnderscore : ∀ {a b : List Char} {c d : List Char},
    '_' ∉ c → '_' ∉ d → a ++ '_' :: c = b ++ '_' :: d → a = b ∧ c = d := by
  intro a
  induction a with
  | nil =>
    intro b c d hc hd h
    cases b with
    | nil => simpa using h
    | cons x b =>
      exfalso
      simp only [List.nil_append, List.cons_append, List.cons.injEq] at h
      exact hc (by rw [h.2]; simp)
  | cons x a ih =>
    intro b c d hc hd h
    cases b with
    | nil =>
      exfalso
      simp only [List.nil_append, List.cons_append, List.cons.injEq] at h
      exact hd (by rw [← h.2]; simp)
    | cons y b =>
      simp only [List.cons_append, List.cons.injEq] at h
      obtain ⟨h1, h2⟩ := ih hc hd h.2
      exact ⟨by rw [h.1, h1], h2⟩

/-- Numbered names determine prefix and number. -/
theorem numbered_inj {p q : String} {m n : Nat} (h : numbered p m = numbered q n) :
    p = q ∧ m = n := by
  have h' := congrArg String.toList h
  simp only [numbered, String.toList_append, Nat.toList_repr, List.append_assoc] at h'
  have hu : ("_" : String).toList = ['_'] := rfl
  rw [hu] at h'
  obtain ⟨h1, h2⟩ := splitUnderscore (a := p.toList) (b := q.toList)
    Nat.underscore_not_in_toDigits Nat.underscore_not_in_toDigits h'
  refine ⟨String.toList_inj.mp h1, repr_inj ?_⟩
  apply String.toList_inj.mp
  rw [Nat.toList_repr, Nat.toList_repr, h2]

/-- Requested prefixes do not look like a numbered version of another requested
prefix (e.g. not both `"conv"` and `"conv_1"`). -/
def NoNumberedRequest (ps : List String) : Prop :=
  ∀ p ∈ ps, ∀ q ∈ ps, ∀ n, q ≠ numbered p n

theorem numbered_ne_self (p : String) (n : Nat) : p ≠ numbered p n := by
  intro h
  have := congrArg (fun s : String => s.toList.length) h
  simp [numbered] at this

theorem getUnique_cases (names : Counters) (p : String) :
    (names.lookup p = none ∧ getUniqueName names p = (p, (p, 1) :: names)) ∨
    (∃ n, names.lookup p = some n ∧
      getUniqueName names p = (numbered p n, (p, n + 1) :: names)) := by
  unfold getUniqueName
  cases h : names.lookup p with
  | none => left; simp
  | some n => right; exact ⟨n, rfl, rfl⟩

/-- A key that may be handed out for `es` starting from `names`: a fresh user name,
a prefix with no counter yet, or a numbered prefix whose number is at least the
current counter. -/
theorem storedKeys_mem {es : List Entry} : ∀ {names : Counters} {k : String},
    k ∈ storedKeys names es →
    (Entry.userNamed k ∈ es) ∨
    (∃ p, Entry.generated p ∈ es ∧
      ((names.lookup p = none ∧ k = p) ∨
       (∃ m, k = numbered p m ∧ ∀ n, names.lookup p = some n → n ≤ m))) := by
  induction es with
  | nil => intro names k h; simp [storedKeys] at h
  | cons e es ih =>
    intro names k h
    cases e with
    | userNamed n =>
      simp only [storedKeys, List.mem_cons] at h
      rcases h with h | h
      · left; simp [h]
      · rcases ih h with h' | ⟨p, hp, h'⟩
        · left; simp [h']
        · right; exact ⟨p, by simp [hp], h'⟩
    | generated q =>
      simp only [storedKeys, List.mem_cons] at h
      rcases getUnique_cases names q with ⟨hl, hg⟩ | ⟨n, hl, hg⟩
      · rw [hg] at h
        rcases h with h | h
        · right; exact ⟨q, by simp, Or.inl ⟨hl, h⟩⟩
        · rcases ih h with h' | ⟨p, hp, h'⟩
          · left; simp [h']
          · right
            refine ⟨p, by simp [hp], ?_⟩
            by_cases hpq : p = q
            · subst hpq
              rcases h' with ⟨h1, _⟩ | ⟨m, hm, hle⟩
              · simp [List.lookup] at h1
              · right; exact ⟨m, hm, fun n hn => by rw [hl] at hn; cases hn⟩
            · have hb : (p == q) = false := by simpa using hpq
              simpa [List.lookup, hb] using h'
      · rw [hg] at h
        rcases h with h | h
        · right
          refine ⟨q, by simp, Or.inr ⟨n, h, ?_⟩⟩
          intro n' hn'
          rw [hl] at hn'; cases hn'; exact Nat.le_refl _
        · rcases ih h with h' | ⟨p, hp, h'⟩
          · left; simp [h']
          · right
            refine ⟨p, by simp [hp], ?_⟩
            by_cases hpq : p = q
            · subst hpq
              rcases h' with ⟨h1, _⟩ | ⟨m, hm, hle⟩
              · simp [List.lookup] at h1
              · right
                refine ⟨m, hm, fun n' hn' => ?_⟩
                rw [hl] at hn'
                cases hn'
                have := hle (n + 1) (by simp [List.lookup])
                omega
            · have hb : (p == q) = false := by simpa using hpq
              simpa [List.lookup, hb] using h'

/-- **C111 (partial).** Whatever is recorded, and in whatever order: when the
user's own variable names are pairwise different and neither they nor any default
name coincides with (a numbered version of) a default name, all variables of the
network are stored under different keys.  Missing from the full claim: the
user's names have to be kept apart from the generated ones by the user
(`c111_user_name_overwritten`). -/
theorem c111_variable_keys_distinct_partial (es : List Entry) (names : Counters)
    (huser : (es.filterMap fun | .userNamed n => some n | _ => none).Nodup)
    (hug : ∀ n p, Entry.userNamed n ∈ es → Entry.generated p ∈ es →
      n ≠ p ∧ ∀ m, n ≠ numbered p m)
    (hgg : ∀ p q, Entry.generated p ∈ es → Entry.generated q ∈ es →
      ∀ m, q ≠ numbered p m) :
    (storedKeys names es).Nodup := by
  induction es generalizing names with
  | nil => simp [storedKeys]
  | cons e es ih =>
    have hug' : ∀ n p, Entry.userNamed n ∈ es → Entry.generated p ∈ es →
        n ≠ p ∧ ∀ m, n ≠ numbered p m :=
      fun n p h1 h2 => hug n p (by simp [h1]) (by simp [h2])
    have hgg' : ∀ p q, Entry.generated p ∈ es → Entry.generated q ∈ es →
        ∀ m, q ≠ numbered p m :=
      fun p q h1 h2 => hgg p q (by simp [h1]) (by simp [h2])
    cases e with
    | userNamed n =>
      simp only [List.filterMap_cons, List.nodup_cons] at huser
      simp only [storedKeys, List.nodup_cons]
      refine ⟨?_, ih names huser.2 hug' hgg'⟩
      intro hm
      rcases storedKeys_mem hm with h | ⟨p, hp, h⟩
      · exact huser.1 (List.mem_filterMap.mpr ⟨_, h, rfl⟩)
      · have := hug n p (by simp) (by simp [hp])
        rcases h with ⟨_, h⟩ | ⟨m, h, _⟩
        · exact this.1 h
        · exact this.2 m h
    | generated q =>
      have huser' : (es.filterMap fun | .userNamed n => some n | _ => none).Nodup := by
        simpa [List.filterMap_cons] using huser
      simp only [storedKeys, List.nodup_cons]
      refine ⟨?_, ih _ huser' hug' hgg'⟩
      intro hm
      rcases getUnique_cases names q with ⟨hl, hg⟩ | ⟨n, hl, hg⟩
      · rw [hg] at hm
        rcases storedKeys_mem hm with h | ⟨p, hp, h⟩
        · exact (hug q q (by simp [h]) (by simp)).1 rfl
        · rcases h with ⟨h1, h2⟩ | ⟨m, h, _⟩
          · simp only at h2; subst h2
            simp [List.lookup] at h1
          · exact hgg p q (by simp [hp]) (by simp) m h
      · rw [hg] at hm
        rcases storedKeys_mem hm with h | ⟨p, hp, h⟩
        · exact (hug _ q (by simp [h]) (by simp)).2 n rfl
        · rcases h with ⟨_, h2⟩ | ⟨m, h, hle⟩
          · exact hgg q p (by simp) (by simp [hp]) n h2.symm
          · obtain ⟨h3, h4⟩ := numbered_inj h
            subst h3
            have := hle (n + 1) (by simp [List.lookup])
            omega

theorem handOut_eq (names : Counters) (ps : List String) :
    handOut names ps = storedKeys names (ps.map .generated) := by
  induction ps generalizing names with
  | nil => rfl
  | cons p ps ih => simp [handOut, storedKeys, ih]

/-- **C111 (partial).** For every sequence of requests in which no requested name
is a numbered version of another one, the names handed out are pairwise different
- however often each name is requested and whatever was handed out before. -/
theorem c111_handed_out_names_distinct_partial (ps : List String) (names : Counters)
    (h : NoNumberedRequest ps) : (handOut names ps).Nodup := by
  rw [handOut_eq]
  apply c111_variable_keys_distinct_partial
  · have : (ps.map Entry.generated).filterMap
        (fun | .userNamed n => some n | _ => none) = [] := by
      rw [List.filterMap_eq_nil_iff]
      intro a ha
      obtain ⟨p, _, rfl⟩ := List.mem_map.mp ha
      rfl
    rw [this]; exact List.nodup_nil
  · intro n p hn; simp at hn
  · intro p q hp hq m
    simp only [List.mem_map, Entry.generated.injEq, exists_eq_right] at hp hq
    exact h p hp q hq m

/-- the requests recorded for a small network meet the hypotheses -/
example : NoNumberedRequest ["Affine", "ReLU", "Affine"] := by
  intro p hp q hq n h
  have h0 := congrArg String.toList h
  have hm : '_' ∈ (numbered p n).toList := by simp [numbered]
  rw [← h] at hm
  simp only [List.mem_cons, List.not_mem_nil, or_false] at hq
  rcases hq with rfl | rfl | rfl <;> revert hm <;> decide

example : handOut [] ["Affine", "ReLU", "Affine", "Affine"] =
    ["Affine", "ReLU", "Affine_1", "Affine_2"] := by decide

/-- The unrestricted claim is false: a name handed out for a repeated request is
not itself recorded as taken. -/
theorem c111_unique_name_refuted :
    ¬ ∀ ps : List String, (handOut [] ps).Nodup := by
  intro h
  exact absurd (h ["a", "a_1", "a"]) (by decide)

/-- The unrestricted claim is false also with a single function: an input which
the user called `ReLU_out` is overwritten by the output of the `ReLU`. -/
theorem c111_user_name_overwritten :
    storedKeys [] [.userNamed "ReLU_out", .generated "ReLU_out"] = ["ReLU_out", "ReLU_out"] := by
  decide

end Verif.GraphDef
