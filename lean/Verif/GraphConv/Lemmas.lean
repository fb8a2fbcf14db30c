/-
The table of FunctionModifier holds, when a function is visited, a converted variable for each of its inputs.
-/
import Verif.GraphConv.Model

namespace Verif.GraphConv
variable {Fn V S : Type}

/-- What every graph with its visiting order satisfies: each function once, producers first, references
are exactly the consumers.  (That `visit` gives such an order is C23's subject.) -/
structure WF (G : Graph Fn) (order : List Nat) : Prop where
  nodup : order.Nodup
  topo : ∀ pre f post, order = pre ++ f :: post → ∀ g k, Var.out g k ∈ (G.node f).args → g ∈ pre
  outs : ∀ h g k, Var.out g k ∈ (G.node h).args → k < (G.node g).nout
  refs : ∀ g k h, h ∈ G.refs g k ↔ Var.out g k ∈ (G.node h).args

/-- What this converter needs in addition: every function has an input, and only trailing outputs of
a function may be unused. -/
structure Simple (G : Graph Fn) (order : List Nat) : Prop where
  ins : ∀ f ∈ order, (G.node f).args ≠ []
  gap : ∀ f ∈ order, ∀ k k', k < k' → G.refs f k = [] → G.refs f k' = []

/-- The outputs that `__call__` wires. -/
def outputsOf (G : Graph Fn) (f : Nat) (inputs : List (Term Fn V)) : Option (Term Fn V) → List (Term Fn V)
  | some t => [t]
  | none => (List.range (G.node f).nout).map (fun k => Term.app (G.node f).fn inputs k)

/-- The converted inputs of a function: leaves are kept, other inputs are good. -/
def Match (Good : Nat → Nat → Term Fn V → Prop) (a : Var) (t : Term Fn V) : Prop := match a with
  | .leaf n => t = .leaf n
  | .out g k => Good g k t

/-- One slot of the table, when exactly the outputs in `D` were wired. -/
def Slot (Good : Nat → Nat → Term Fn V → Prop) (D : Nat → Nat → Prop) (a : Var) (o : Option (Term Fn V)) : Prop := match a with
  | .leaf _ => o = none
  | .out g k => (D g k → ∃ t, o = some t ∧ Good g k t) ∧ (¬ D g k → o = none)

/-- One entry of the table. -/
def Entry (Good : Nat → Nat → Term Fn V → Prop) (D : Nat → Nat → Prop) (args : List Var) : Option (List (Option (Term Fn V))) → Prop
  | none => ∀ g k, Var.out g k ∈ args → ¬ D g k
  | some l => List.Forall₂ (Slot Good D) args l ∧ ∃ g k, Var.out g k ∈ args

theorem entry_congr {Good : Nat → Nat → Term Fn V → Prop} {D D' : Nat → Nat → Prop} {args : List Var} {e : Option (List (Option (Term Fn V)))}
    (h : ∀ g k, Var.out g k ∈ args → (D g k ↔ D' g k)) (he : Entry Good D args e) : Entry Good D' args e := by
  cases e with
  | none => exact fun g k hm hd => he g k hm ((h g k hm).mpr hd)
  | some l =>
    obtain ⟨he, hex⟩ := he
    refine ⟨?_, hex⟩
    clear hex
    induction he with
    | nil => exact .nil
    | @cons a o as os h1 h2 ih =>
      refine .cons ?_ (ih fun g k hm => h g k (List.mem_cons_of_mem _ hm))
      cases a with
      | leaf n => exact h1
      | out g k =>
        have := h g k List.mem_cons_self
        exact ⟨fun hd => h1.1 (this.mpr hd), fun hd => h1.2 fun hd' => hd (this.mp hd')⟩

theorem forall2_zip (Good : Nat → Nat → Term Fn V → Prop) (D : Nat → Nat → Prop) (f k : Nat) (t : Term Fn V) (ht : Good f k t) (args : List Var) :
    ∀ l, List.Forall₂ (Slot Good D) args l ∨ List.Forall₂ (Slot Good fun g j => D g j ∨ (g = f ∧ j = k)) args l →
      List.Forall₂ (Slot Good fun g j => D g j ∨ (g = f ∧ j = k)) args
        (List.zipWith (fun a o => if a = Var.out f k then some t else o) args l) := by
  induction args with
  | nil => intro l h; simp
  | cons a as ih =>
    intro l h
    cases l with
    | nil => rcases h with h | h <;> cases h
    | cons o os =>
      rw [List.zipWith_cons_cons]
      refine .cons ?_ (ih os ?_)
      · by_cases e : a = Var.out f k
        · rw [if_pos e, e]; exact ⟨fun _ => ⟨t, rfl, ht⟩, fun hd => absurd (Or.inr ⟨rfl, rfl⟩) hd⟩
        · rw [if_neg e]
          rcases h with h | h
          · cases h with
            | cons h1 h2 =>
              cases a with
              | leaf n => exact h1
              | out g j =>
                refine ⟨fun hd => h1.1 ?_, fun hd => h1.2 fun hd' => hd (Or.inl hd')⟩
                rcases hd with hd | ⟨rfl, rfl⟩
                · exact hd
                · exact absurd rfl e
          · cases h with
            | cons h1 h2 => exact h1
      · rcases h with h | h
        · cases h with
          | cons h1 h2 => exact Or.inl h2
        · cases h with
          | cons h1 h2 => exact Or.inr h2

theorem forall2_none (Good : Nat → Nat → Term Fn V → Prop) (D : Nat → Nat → Prop) (args : List Var)
    (h : ∀ g k, Var.out g k ∈ args → ¬ D g k) : List.Forall₂ (Slot Good D) args (args.map fun _ => none) := by
  induction args with
  | nil => exact .nil
  | cons a as ih =>
    refine .cons ?_ (ih fun g k hm => h g k (List.mem_cons_of_mem _ hm))
    cases a with
    | leaf n => rfl
    | out g k => exact ⟨fun hd => absurd hd (h g k List.mem_cons_self), fun _ => rfl⟩

theorem entry_wireOne {Good : Nat → Nat → Term Fn V → Prop} {D : Nat → Nat → Prop} (G : Graph Fn) (f k : Nat) (t : Term Fn V) (ht : Good f k t)
    (m : Table Fn V) (h : Nat) (hne : Var.out f k ∈ (G.node h).args)
    (he : Entry Good D (G.node h).args (m h) ∨ Entry Good (fun g j => D g j ∨ (g = f ∧ j = k)) (G.node h).args (m h)) :
    Entry Good (fun g j => D g j ∨ (g = f ∧ j = k)) (G.node h).args (wireOne G f k t m h h) := by
  unfold wireOne
  rw [if_pos rfl]
  refine ⟨?_, f, k, hne⟩
  refine forall2_zip Good D f k t ht _ _ ?_
  cases hm : m h with
  | none =>
    rw [hm] at he
    left
    have : ∀ g j, Var.out g j ∈ (G.node h).args → ¬ D g j := by
      rcases he with he | he
      · exact he
      · exact fun g j hj hd => he g j hj (Or.inl hd)
    exact forall2_none Good D _ this
  | some l =>
    rw [hm] at he
    have hl : l.length = (G.node h).args.length := by
      rcases he with he | he <;> exact (List.Forall₂.length_eq he.1).symm
    have : l.length ≠ 0 := by rw [hl]; exact List.length_pos_of_mem hne |>.ne'
    simp only [Option.getD_some, if_neg this]
    rcases he with he | he
    · exact Or.inl he.1
    · exact Or.inr he.1

theorem wireOne_other (G : Graph Fn) (f k : Nat) (t : Term Fn V) (m : Table Fn V) (h g : Nat) (e : g ≠ h) : wireOne G f k t m h g = m g := by
  simp [wireOne, e]

theorem foldl_wireOne {Good : Nat → Nat → Term Fn V → Prop} {D : Nat → Nat → Prop} (G : Graph Fn) (f k : Nat) (t : Term Fn V) (ht : Good f k t)
    (l : List Nat) (hl : ∀ h ∈ l, Var.out f k ∈ (G.node h).args) :
    ∀ (m : Table Fn V) (P : List Nat),
      (∀ h, (h ∈ P → Entry Good (fun g j => D g j ∨ (g = f ∧ j = k)) (G.node h).args (m h)) ∧
        (h ∉ P → Entry Good D (G.node h).args (m h))) →
      ∀ h, (h ∈ P ++ l → Entry Good (fun g j => D g j ∨ (g = f ∧ j = k)) (G.node h).args (l.foldl (wireOne G f k t) m h)) ∧
        (h ∉ P ++ l → Entry Good D (G.node h).args (l.foldl (wireOne G f k t) m h)) := by
  induction l with
  | nil => intro m P hP h; simpa using hP h
  | cons x xs ih =>
    intro m P hP h
    rw [List.foldl_cons]
    have := ih (fun h hh => hl h (List.mem_cons_of_mem _ hh)) (wireOne G f k t m x) (P ++ [x]) (fun h => by
      by_cases e : h = x
      · subst e
        refine ⟨fun _ => ?_, fun hn => absurd (by simp) hn⟩
        refine entry_wireOne G f k t ht m h (hl h List.mem_cons_self) ?_
        by_cases hp : h ∈ P
        · exact Or.inr ((hP h).1 hp)
        · exact Or.inl ((hP h).2 hp)
      · rw [wireOne_other _ _ _ _ _ _ _ e]
        refine ⟨fun hp => (hP h).1 (by simpa [e] using hp), fun hp => (hP h).2 (by intro h'; exact hp (by simp [h']))⟩) h
    simpa using this

/-- After wiring, exactly the outputs of `f` with consumers were added. -/
theorem wire_entry {Good : Nat → Nat → Term Fn V → Prop} {D : Nat → Nat → Prop} (G : Graph Fn) (order : List Nat) (wf : WF G order) (sm : Simple G order)
    (f : Nat) (hf : f ∈ order) :
    ∀ (ts : List (Term Fn V)) (k : Nat) (m : Table Fn V),
      (∀ j t, ts[j]? = some t → k + j < (G.node f).nout → Good f (k + j) t) →
      (∀ j, G.refs f j ≠ [] → j < k + ts.length) →
      (∀ h, Entry Good (fun g j => D g j ∨ (g = f ∧ j < k)) (G.node h).args (m h)) →
      ∀ h, Entry Good (fun g j => D g j ∨ g = f) (G.node h).args (wire G f k ts m h) := by
  intro ts
  induction ts with
  | nil =>
    intro k m hg hn hm h
    refine entry_congr (fun g j hj => ?_) (hm h)
    constructor
    · rintro (hd | ⟨rfl, _⟩)
      · exact Or.inl hd
      · exact Or.inr rfl
    · rintro (hd | rfl)
      · exact Or.inl hd
      · refine Or.inr ⟨rfl, ?_⟩
        have := hn j (List.ne_nil_of_mem ((wf.refs g j h).mpr hj))
        simpa using this
  | cons t ts ih =>
    intro k m hg hn hm h
    have key : ∀ (hno : ∀ h j, Var.out f j ∈ (G.node h).args → j < k), Entry Good (fun g j => D g j ∨ g = f) (G.node h).args (m h) := by
      intro hno
      refine entry_congr (fun g j hj => ?_) (hm h)
      constructor
      · rintro (hd | ⟨rfl, _⟩)
        · exact Or.inl hd
        · exact Or.inr rfl
      · rintro (hd | rfl)
        · exact Or.inl hd
        · exact Or.inr ⟨rfl, hno h j hj⟩
    unfold wire
    by_cases hk : k < (G.node f).nout
    · rw [if_pos hk]
      by_cases he : (G.refs f k).isEmpty
      · rw [if_pos he]
        rw [List.isEmpty_iff] at he
        refine key fun h j hj => ?_
        by_contra hlt
        have hj' := List.ne_nil_of_mem ((wf.refs f j h).mpr hj)
        rcases Nat.lt_or_eq_of_le (Nat.le_of_not_lt hlt) with h1 | h1
        · exact hj' (sm.gap f hf k j h1 he)
        · exact hj' (h1 ▸ he)
      · rw [if_neg he]
        refine ih (k + 1) _ ?_ ?_ ?_ h
        · intro j t' hj hlt
          have := hg (j + 1) t' (by simpa using hj) (by omega)
          rwa [show k + (j + 1) = k + 1 + j by omega] at this
        · intro j hj
          have := hn j hj
          simp only [List.length_cons] at this
          omega
        · intro h
          have := foldl_wireOne (Good := Good) (D := fun g j => D g j ∨ (g = f ∧ j < k)) G f k t (hg 0 t (by simp) (by simpa using hk)) (G.refs f k)
            (fun h hh => (wf.refs f k h).mp hh) m [] (fun h => ⟨fun hh => by simp at hh, fun _ => hm h⟩) h
          simp only [List.nil_append] at this
          by_cases hh : h ∈ G.refs f k
          · refine entry_congr (fun g j hj => ?_) (this.1 hh)
            constructor
            · rintro ((hd | ⟨rfl, h2⟩) | ⟨rfl, rfl⟩)
              · exact Or.inl hd
              · exact Or.inr ⟨rfl, by omega⟩
              · exact Or.inr ⟨rfl, by omega⟩
            · rintro (hd | ⟨rfl, h2⟩)
              · exact Or.inl (Or.inl hd)
              · by_cases e : j = k
                · exact Or.inr ⟨rfl, e⟩
                · exact Or.inl (Or.inr ⟨rfl, by omega⟩)
          · refine entry_congr (fun g j hj => ?_) (this.2 hh)
            constructor
            · rintro (hd | ⟨rfl, h2⟩)
              · exact Or.inl hd
              · exact Or.inr ⟨rfl, by omega⟩
            · rintro (hd | ⟨rfl, h2⟩)
              · exact Or.inl hd
              · by_cases e : j = k
                · subst e; exact absurd ((wf.refs _ _ _).mpr hj) hh
                · exact Or.inr ⟨rfl, by omega⟩
    · rw [if_neg hk]
      refine key fun h j hj => ?_
      have := wf.outs h f j hj
      omega

theorem mapM_id_forall2 {Good : Nat → Nat → Term Fn V → Prop} (args : List Var) :
    ∀ l : List (Option (Term Fn V)), List.Forall₂ (fun a o => ∃ t, o = some t ∧ Match Good a t) args l →
      ∃ ts, l.mapM id = some ts ∧ List.Forall₂ (Match Good) args ts := by
  induction args with
  | nil => intro l h; cases h; exact ⟨[], rfl, .nil⟩
  | cons a as ih =>
    intro l h
    cases h with
    | @cons _ o _ os h1 h2 =>
      obtain ⟨t, rfl, ht⟩ := h1
      obtain ⟨ts, e, hts⟩ := ih os h2
      exact ⟨t :: ts, by simp [List.mapM_cons, e], .cons ht hts⟩

/-- When all producers of `f` were visited, the inputs looked up are their converted outputs. -/
theorem inputsOf_spec {Good : Nat → Nat → Term Fn V → Prop} {D : Nat → Nat → Prop} (G : Graph Fn) (m : Table Fn V) (f : Nat)
    (hne : (G.node f).args ≠ []) (hD : ∀ g k, Var.out g k ∈ (G.node f).args → D g k)
    (he : Entry Good D (G.node f).args (m f)) :
    ∃ ts, inputsOf G m f = some ts ∧ List.Forall₂ (Match Good) (G.node f).args ts := by
  unfold inputsOf
  cases ha : (G.node f).args with
  | nil => exact absurd ha hne
  | cons a as =>
    rw [ha] at he hD
    cases hm : m f with
    | none =>
      rw [hm] at he
      have hleaf : ∀ v ∈ a :: as, ∃ n, v = Var.leaf n := by
        intro v hv
        cases v with
        | leaf n => exact ⟨n, rfl⟩
        | out g k => exact absurd (hD g k hv) (he g k hv)
      have hal : a.isLeaf = true := by
        obtain ⟨n, rfl⟩ := hleaf a List.mem_cons_self
        rfl
      simp only [hal, Option.isNone_none, Bool.and_self, if_true]
      have hz : List.zipWith (fun v (o : Option (Term Fn V)) => some (o.getD (origVar v))) (a :: as) ((a :: as).map fun v => some (copyVar v)) =
          (a :: as).map fun v => some (copyVar v) := by
        generalize a :: as = l
        induction l with
        | nil => rfl
        | cons x xs ih => simp [ih]
      rw [hz, ite_self]
      simp only [List.length_map, if_true]
      refine mapM_id_forall2 _ _ ?_
      clear hz hal he hm hD
      generalize a :: as = l at hleaf
      induction l with
      | nil => exact .nil
      | cons x xs ih =>
        refine .cons ?_ (ih fun v hv => hleaf v (List.mem_cons_of_mem _ hv))
        obtain ⟨n, rfl⟩ := hleaf x List.mem_cons_self
        exact ⟨_, rfl, rfl⟩
    | some l =>
      rw [hm] at he
      obtain ⟨he, hex⟩ := he
      simp only [Option.isNone_some, Bool.and_false, Bool.false_eq_true, if_false, Option.getD_some]
      have hlen : l.length = (a :: as).length := (List.Forall₂.length_eq he).symm
      cases as with
      | nil =>
        simp only [List.isEmpty_nil, if_true]
        rw [if_pos hlen]
        cases a with
        | leaf n =>
          obtain ⟨g, k, hgk⟩ := hex
          simp at hgk
        | out g k =>
          refine mapM_id_forall2 _ _ ?_
          cases he with
          | cons h1 h2 =>
            cases h2
            exact .cons (h1.1 (hD g k List.mem_cons_self)) .nil
      | cons b bs =>
        simp only [List.isEmpty_cons, Bool.false_eq_true, if_false]
        rw [if_pos (by simp [List.length_zipWith, hlen])]
        refine mapM_id_forall2 _ _ ?_
        clear hlen hm hne ha hex
        generalize a :: b :: bs = as at *
        induction he with
        | nil => exact .nil
        | @cons x o xs os h1 h2 ih =>
          rw [List.zipWith_cons_cons]
          refine .cons ?_ (ih fun g k hk => hD g k (List.mem_cons_of_mem _ hk))
          cases x with
          | leaf n => exact ⟨_, rfl, by rw [show o = none from h1]; rfl⟩
          | out g k =>
            obtain ⟨t, rfl, ht⟩ := h1.1 (hD g k List.mem_cons_self)
            exact ⟨t, rfl, ht⟩

/-- A modifier never raises and gives good outputs on good inputs; `I` is what is known of its state. -/
def StepOK (G : Graph Fn) (order : List Nat) (mod : Modify Fn V S) (Good : Nat → Nat → Term Fn V → Prop) (I : List Nat → S → Prop) : Prop :=
  ∀ pre f post, order = pre ++ f :: post → ∀ s inputs, I pre s → List.Forall₂ (Match Good) (G.node f).args inputs →
    ∃ s' o, mod s f inputs = some (s', o) ∧ I (pre ++ [f]) s' ∧
      (∀ j t, (outputsOf G f inputs o)[j]? = some t → j < (G.node f).nout → Good f j t) ∧
      ∀ j, G.refs f j ≠ [] → j < (outputsOf G f inputs o).length

theorem call_ok {Good : Nat → Nat → Term Fn V → Prop} {I : List Nat → S → Prop} (G : Graph Fn) (order : List Nat) (wf : WF G order) (sm : Simple G order)
    (mod : Modify Fn V S) (ok : StepOK G order mod Good I) (pre : List Nat) (f : Nat) (post : List Nat) (hsplit : order = pre ++ f :: post)
    (st : Table Fn V × S × List (Term Fn V)) (hI : I pre st.2.1)
    (hm : ∀ h, Entry Good (fun g _ => g ∈ pre) (G.node h).args (st.1 h)) :
    ∃ inputs s' o, List.Forall₂ (Match Good) (G.node f).args inputs ∧ mod st.2.1 f inputs = some (s', o) ∧
      I (pre ++ [f]) s' ∧ call G mod st f = some (wire G f 0 (outputsOf G f inputs o) st.1, s', outputsOf G f inputs o) ∧
      ∀ h, Entry Good (fun g _ => g ∈ pre ++ [f]) (G.node h).args (wire G f 0 (outputsOf G f inputs o) st.1 h) := by
  have hf : f ∈ order := by rw [hsplit]; simp
  obtain ⟨inputs, h1, h2⟩ := inputsOf_spec (Good := Good) (D := fun g _ => g ∈ pre) G st.1 f (sm.ins f hf) (fun g k => wf.topo pre f post hsplit g k) (hm f)
  obtain ⟨s', o, h3, h4, h5, h6⟩ := ok pre f post hsplit st.2.1 inputs hI h2
  refine ⟨inputs, s', o, h2, h3, h4, ?_, fun h => ?_⟩
  · unfold call
    rw [h1]
    simp only [Option.bind_eq_bind, Option.bind_some, h3]
    cases o <;> rfl
  · have := wire_entry (Good := Good) (D := fun g _ => g ∈ pre) G order wf sm f hf (outputsOf G f inputs o) 0 st.1
      (by simpa using h5) (by simpa using h6) (fun h => entry_congr (fun g j _ => by simp) (hm h)) h
    exact entry_congr (fun g j _ => by simp) this

/-- The state after the functions `l`, when `pre` was visited before. -/
theorem calls_ok {Good : Nat → Nat → Term Fn V → Prop} {I : List Nat → S → Prop} (G : Graph Fn) (order : List Nat) (wf : WF G order) (sm : Simple G order)
    (mod : Modify Fn V S) (ok : StepOK G order mod Good I) (l : List Nat) :
    ∀ (pre post : List Nat) (st : Table Fn V × S × List (Term Fn V)), order = pre ++ l ++ post → I pre st.2.1 →
      (∀ h, Entry Good (fun g _ => g ∈ pre) (G.node h).args (st.1 h)) →
      ∃ st', l.foldlM (call G mod) st = some st' ∧ I (pre ++ l) st'.2.1 ∧
        ∀ h, Entry Good (fun g _ => g ∈ pre ++ l) (G.node h).args (st'.1 h) := by
  induction l with
  | nil => intro pre post st _ hI hm; exact ⟨st, rfl, by simpa using hI, by simpa using hm⟩
  | cons f l ih =>
    intro pre post st hs hI hm
    obtain ⟨inputs, s', o, -, -, c3, c4, c5⟩ := call_ok G order wf sm mod ok pre f (l ++ post) (by rw [hs]; simp) st hI hm
    obtain ⟨st', d1, d2, d3⟩ := ih (pre ++ [f]) post (wire G f 0 (outputsOf G f inputs o) st.1, s', outputsOf G f inputs o) (by rw [hs]; simp) c3 c5
    refine ⟨st', ?_, by simpa using d2, by simpa using d3⟩
    rw [List.foldlM_cons, c4]
    exact d1

/-- One modifier over a whole graph: no exception, and the converted outputs are good. -/
theorem pass_good {Good : Nat → Nat → Term Fn V → Prop} {I : List Nat → S → Prop} (G : Graph Fn) (fs : List Nat) (sink : Nat)
    (wf : WF G (fs ++ [sink])) (sm : Simple G (fs ++ [sink]))
    (mod : Modify Fn V S) (ok : StepOK G (fs ++ [sink]) mod Good I) (s : S) (hI : I [] s)
    (hnout : (G.node sink).nout = 1) (hsink : ∀ s inputs s' o, mod s sink inputs = some (s', o) → o = none) :
    ∃ s' ts, pass G mod s (fs ++ [sink]) = some (s', ts) ∧ I (fs ++ [sink]) s' ∧ List.Forall₂ (Match Good) (G.node sink).args ts := by
  obtain ⟨st, a1, a2, a3⟩ := calls_ok G _ wf sm mod ok fs [] [sink] ((fun _ => none), s, []) (by simp) hI (fun h g k _ => by simp)
  obtain ⟨inputs, s', o, c1, c2, c3, c4, -⟩ := call_ok G _ wf sm mod ok fs sink [] (by simp) st (by simpa using a2) (by simpa using a3)
  have ho := hsink _ _ _ _ c2
  subst ho
  refine ⟨s', inputs, ?_, c3, c1⟩
  unfold pass
  rw [List.foldlM_append, a1]
  simp only [Option.bind_eq_bind, Option.bind_some, List.foldlM_cons, List.foldlM_nil, c4]
  simp [outputsOf, hnout]

end Verif.GraphConv
