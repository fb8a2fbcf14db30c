import Verif.Graph.ForwardProps
/-
Model and traversal theorem of the backward pass (C24).
-/
namespace Verif.Graph
variable {τ : Type}

/-- What `visit_function_backward` reads from the graph: ranks and need_grad of functions,
`need_grad_state()` of variables. -/
structure BEnv where
  rank : FnId → Nat
  fng : FnId → Bool
  vg : VarId → Bool

/-- The environment left by a forward pass. -/
def BEnv.of {σ : Type} (G : Graph) (s : VSt σ) : BEnv :=
  ⟨s.frank, s.fng, fun v => needGradState (G.flag v) (s.vng v)⟩

/-- State of the loop (variable.cpp L857-887). `ids` lists the functions in the order in which
`get_id` first saw them, so that the id is the position; `open_` is the `std::set` of
`(-rank, id, f)` as a sorted list; `order` the calls of the backward callback; `popped` records the
iterations (ghost). -/
structure BSt (τ : Type) where
  ids : List FnId := []
  open_ : List (Nat × Nat × FnId) := []
  order : List FnId := []
  popped : List FnId := []
  ext : τ

/-- `get_id` (variable.cpp L859-870). -/
def getId (ids : List FnId) (f : FnId) : List FnId × Nat :=
  if f ∈ ids then (ids, ids.idxOf f) else (ids ++ [f], ids.length)

/-- Order of the keys `(-rank, id)`. -/
def keyLt (a b : Nat × Nat × FnId) : Bool :=
  decide (a.1 > b.1) || (a.1 == b.1 && decide (a.2.1 < b.2.1))

/-- `open.insert` (std::set: no duplicates, sorted). The third component is determined by the id. -/
def openInsert (e : Nat × Nat × FnId) : List (Nat × Nat × FnId) → List (Nat × Nat × FnId)
  | [] => [e]
  | x :: xs => if x = e then x :: xs else if keyLt e x then e :: x :: xs else x :: openInsert e xs

/-- "Propagate down" (variable.cpp L918-931), one input. -/
def propagate (G : Graph) (env : BEnv) (s : BSt τ) (vi : VarId × Bool) : BSt τ :=
  if vi.2 = false then s
  else if env.vg vi.1 = false then s
  else match G.parent vi.1 with
    | none => s
    | some p =>
      let (ids, i) := getId s.ids p
      { s with ids := ids, open_ := openInsert (env.rank p, i, p) s.open_ }

/-- One iteration of the while loop (variable.cpp L881-931), without recomputation and
communicator callbacks. The popped element is erased at the end of the iteration. -/
def bstep (G : Graph) (env : BEnv) (cb : FnId → τ → τ) (e : Nat × Nat × FnId) (s : BSt τ) : BSt τ :=
  let f := e.2.2
  if env.fng f = false then
    { s with open_ := s.open_.erase e, popped := s.popped ++ [f] }
  else
    let s1 : BSt τ := { s with ext := cb f s.ext, order := s.order ++ [f] }
    let s2 := (G.fn f).inputs.foldl (propagate G env) s1
    { s2 with open_ := s2.open_.erase e, popped := s2.popped ++ [f] }

/-- The while loop; the fuel bounds the number of iterations. -/
def bloop (G : Graph) (env : BEnv) (cb : FnId → τ → τ) : Nat → BSt τ → BSt τ
  | 0, s => s
  | n + 1, s =>
    match s.open_ with
    | [] => s
    | e :: _ => bloop G env cb n (bstep G env cb e s)

/-- `visit_function_backward` (variable.cpp L853-937). -/
def visitBackward (G : Graph) (env : BEnv) (cb : FnId → τ → τ) (fuel : Nat) (root : FnId)
    (x : τ) : BSt τ :=
  bloop G env cb fuel { ids := [root], open_ := [(env.rank root, 0, root)], ext := x }

/-! ### Specification -/

/-- `p` produces an input of `f` through which gradient flows. -/
def GFeeds (G : Graph) (env : BEnv) (p f : FnId) : Prop :=
  ∃ v, (v, true) ∈ (G.fn f).inputs ∧ env.vg v = true ∧ G.parent v = some p

/-- Gradient reaches `g` when starting at `root`. -/
inductive GReach (G : Graph) (env : BEnv) (root : FnId) : FnId → Prop
  | root : GReach G env root root
  | step {f p} : GReach G env root f → env.fng f = true → GFeeds G env p f → GReach G env root p

/-- Consumers of reached functions have a larger rank. -/
def RanksOk (G : Graph) (env : BEnv) (root : FnId) : Prop :=
  ∀ f p, GReach G env root f → GFeeds G env p f → env.rank p < env.rank f

/-! ### Proof -/

structure BInv (G : Graph) (env : BEnv) (root : FnId) (s : BSt τ) : Prop where
  order_eq : s.order = s.popped.filter env.fng
  nodup : s.popped.Nodup
  sorted : s.popped.Pairwise (fun a b => env.rank b ≤ env.rank a)
  open_ok : ∀ e, e ∈ s.open_ → e.1 = env.rank e.2.2 ∧ s.ids[e.2.1]? = some e.2.2
  ids_nodup : s.ids.Nodup
  open_sorted : s.open_.Pairwise (fun a b => keyLt a b = true)
  le : ∀ f, f ∈ s.popped → ∀ e, e ∈ s.open_ → e.1 ≤ env.rank f
  disj : ∀ e, e ∈ s.open_ → e.2.2 ∉ s.popped
  reach : ∀ f, f ∈ s.popped → GReach G env root f
  reach' : ∀ e, e ∈ s.open_ → GReach G env root e.2.2
  has_root : root ∈ s.popped ∨ ∃ e, e ∈ s.open_ ∧ e.2.2 = root
  closure : ∀ f, f ∈ s.popped → env.fng f = true → ∀ p, GFeeds G env p f →
    p ∈ s.popped ∨ ∃ e, e ∈ s.open_ ∧ e.2.2 = p

theorem mem_openInsert {e x : Nat × Nat × FnId} {l} :
    x ∈ openInsert e l ↔ x = e ∨ x ∈ l := by
  induction l with
  | nil => simp [openInsert]
  | cons y l ih =>
    unfold openInsert
    split
    · rename_i h; subst h; simp
    · split
      · simp
      · simp only [List.mem_cons, ih]
        constructor
        · rintro (h | h | h) <;> simp [h]
        · rintro (h | h | h) <;> simp [h]

theorem keyLt_iff (a b : Nat × Nat × FnId) :
    keyLt a b = true ↔ b.1 < a.1 ∨ (a.1 = b.1 ∧ a.2.1 < b.2.1) := by
  simp [keyLt]

theorem openInsert_sorted {e : Nat × Nat × FnId} {l : List (Nat × Nat × FnId)}
    (h : l.Pairwise (fun a b => keyLt a b = true))
    (hid : ∀ x, x ∈ l → x.1 = e.1 → x.2.1 = e.2.1 → x = e) :
    (openInsert e l).Pairwise (fun a b => keyLt a b = true) := by
  induction l with
  | nil => simp [openInsert]
  | cons y l ih =>
    unfold openInsert
    rw [List.pairwise_cons] at h
    split
    · exact List.pairwise_cons.mpr h
    · rename_i hne
      split
      · rename_i hk
        rw [List.pairwise_cons]
        refine ⟨?_, List.pairwise_cons.mpr h⟩
        intro z hz
        rcases List.mem_cons.mp hz with rfl | hz
        · exact hk
        · have h1 := (keyLt_iff _ _).mp hk
          have h2 := (keyLt_iff _ _).mp (h.1 z hz)
          rw [keyLt_iff]; omega
      · rename_i hk
        rw [List.pairwise_cons]
        refine ⟨?_, ih h.2 (fun x hx => hid x (by simp [hx]))⟩
        intro z hz
        rcases mem_openInsert.mp hz with rfl | hz
        · have h1 := hid y (by simp)
          rw [keyLt_iff] at hk
          rw [keyLt_iff]
          by_cases h2 : y.1 = z.1
          · by_cases h3 : y.2.1 = z.2.1
            · exact absurd (h1 h2 h3) hne
            · omega
          · omega
        · exact h.1 z hz

theorem sorted_nodup {l : List (Nat × Nat × FnId)}
    (h : l.Pairwise (fun a b => keyLt a b = true)) : l.Nodup := by
  apply h.imp
  rintro a b hab rfl
  rw [keyLt_iff] at hab
  omega

theorem getId_spec {ids : List FnId} {f : FnId} (hn : ids.Nodup) :
    (getId ids f).1.Nodup ∧ (getId ids f).1[(getId ids f).2]? = some f ∧
    ∀ (i : Nat) x, ids[i]? = some x → (getId ids f).1[i]? = some x := by
  unfold getId
  split
  · rename_i h
    refine ⟨hn, ?_, fun _ _ h => h⟩
    have hlt := List.idxOf_lt_length_of_mem h
    simp only
    rw [List.getElem?_eq_getElem hlt]
    simp
  · rename_i h
    refine ⟨?_, ?_, ?_⟩
    · simp only
      rw [List.nodup_append]
      refine ⟨hn, by simp, ?_⟩
      intro a ha b hb
      simp at hb; subst hb
      rintro rfl; exact h ha
    · simp
    · intro i x hi
      simp only
      have hlt : i < ids.length := by
        rcases Nat.lt_or_ge i ids.length with h' | h'
        · exact h'
        · rw [List.getElem?_eq_none h'] at hi; cases hi
      rw [List.getElem?_append_left hlt]; exact hi

/-- facts kept while the inputs of the popped `f` are propagated -/
structure PInv (G : Graph) (env : BEnv) (f : FnId) (s0 s : BSt τ) (P : List (VarId × Bool)) :
    Prop where
  order : s.order = s0.order
  popped : s.popped = s0.popped
  ext : s.ext = s0.ext
  ids_nodup : s.ids.Nodup
  open_ok : ∀ e, e ∈ s.open_ → e.1 = env.rank e.2.2 ∧ s.ids[e.2.1]? = some e.2.2
  sorted : s.open_.Pairwise (fun a b => keyLt a b = true)
  sub : ∀ e, e ∈ s0.open_ → e ∈ s.open_
  from_ : ∀ e, e ∈ s.open_ → e ∈ s0.open_ ∨ GFeeds G env e.2.2 f
  has : ∀ v p, (v, true) ∈ P → env.vg v = true → G.parent v = some p →
    ∃ e, e ∈ s.open_ ∧ e.2.2 = p

theorem propagate_inv {G : Graph} {env : BEnv} {f : FnId} {s0 s : BSt τ} {P vi}
    (hvi : vi ∈ (G.fn f).inputs) (h : PInv G env f s0 s P) :
    PInv G env f s0 (propagate G env s vi) (P ++ [vi]) := by
  obtain ⟨v, b⟩ := vi
  have keep : ((v, b) = (v, false) ∨ env.vg v = false ∨ G.parent v = none) →
      PInv G env f s0 s (P ++ [(v, b)]) := by
    intro hc
    refine { h with has := ?_ }
    intro u p hu hvg hp
    rcases List.mem_append.mp hu with hu | hu
    · exact h.has u p hu hvg hp
    · simp at hu
      obtain ⟨rfl, rfl⟩ := hu
      rcases hc with hc | hc | hc
      · simp at hc
      · rw [hvg] at hc; cases hc
      · rw [hp] at hc; cases hc
  unfold propagate
  simp only
  split
  · rename_i hb; subst hb; exact keep (Or.inl rfl)
  · rename_i hb
    split
    · rename_i hvg; exact keep (Or.inr (Or.inl hvg))
    · rename_i hvg
      have hb : b = true := by cases b <;> simp at hb ⊢
      subst hb
      have hvg : env.vg v = true := by simpa using hvg
      cases hp : G.parent v with
      | none => exact keep (Or.inr (Or.inr hp))
      | some p =>
        simp only
        obtain ⟨hn, hget, hmono⟩ := getId_spec (f := p) h.ids_nodup
        constructor
        · exact h.order
        · exact h.popped
        · exact h.ext
        · exact hn
        · intro e he
          rcases mem_openInsert.mp he with rfl | he
          · exact ⟨rfl, hget⟩
          · exact ⟨(h.open_ok e he).1, hmono _ _ (h.open_ok e he).2⟩
        · apply openInsert_sorted h.sorted
          intro x hx h1 h2
          have hx2 := hmono _ _ (h.open_ok x hx).2
          rw [h2, hget] at hx2
          have : p = x.2.2 := Option.some.inj hx2
          obtain ⟨a, b, c⟩ := x
          simp at h1 h2 this ⊢
          exact ⟨h1, h2, this.symm⟩
        · intro e he; exact mem_openInsert.mpr (Or.inr (h.sub e he))
        · intro e he
          rcases mem_openInsert.mp he with rfl | he
          · exact Or.inr ⟨v, hvi, hvg, hp⟩
          · exact h.from_ e he
        · intro u q hu hvg' hq
          rcases List.mem_append.mp hu with hu | hu
          · obtain ⟨e, he, heq⟩ := h.has u q hu hvg' hq
            exact ⟨e, mem_openInsert.mpr (Or.inr he), heq⟩
          · simp at hu
            subst hu
            rw [hp] at hq
            obtain rfl := Option.some.inj hq
            exact ⟨_, mem_openInsert.mpr (Or.inl rfl), rfl⟩

theorem propagate_all {G : Graph} {env : BEnv} {f : FnId} {s0 : BSt τ} :
    ∀ (l P : List (VarId × Bool)) (s : BSt τ), (∀ x, x ∈ l → x ∈ (G.fn f).inputs) →
      PInv G env f s0 s P → PInv G env f s0 (l.foldl (propagate G env) s) (P ++ l) := by
  intro l
  induction l with
  | nil => intro P s _ h; simpa using h
  | cons x l ih =>
    intro P s hl h
    have := ih (P ++ [x]) _ (fun y hy => hl y (by simp [hy])) (propagate_inv (hl x (by simp)) h)
    simpa using this

theorem bstep_inv {G : Graph} {env : BEnv} {root : FnId} {cb : FnId → τ → τ} {s : BSt τ} {e rest}
    (hR : RanksOk G env root) (h : BInv G env root s) (ho : s.open_ = e :: rest) :
    BInv G env root (bstep G env cb e s) ∧
      (bstep G env cb e s).popped = s.popped ++ [e.2.2] ∧
      (bstep G env cb e s).ext = if env.fng e.2.2 = true then cb e.2.2 s.ext else s.ext := by
  have heo : e ∈ s.open_ := by rw [ho]; simp
  have hmax : ∀ x, x ∈ s.open_ → x.1 ≤ e.1 := by
    intro x hx
    have hs := h.open_sorted
    rw [ho] at hx hs
    rw [List.pairwise_cons] at hs
    rcases List.mem_cons.mp hx with rfl | hx
    · exact Nat.le_refl _
    · have := (keyLt_iff _ _).mp (hs.1 x hx); omega
  have her := (h.open_ok e heo).1
  have hreach := h.reach' e heo
  have hnp := h.disj e heo
  have huniq : ∀ x, x ∈ s.open_ → x.2.2 = e.2.2 → x = e := by
    intro x hx hxe
    have h1 := h.open_ok x hx
    have h2 := h.open_ok e heo
    have hid : x.2.1 = e.2.1 := by
      rw [hxe] at h1
      have hl1 : x.2.1 < s.ids.length := by
        rcases Nat.lt_or_ge x.2.1 s.ids.length with h' | h'
        · exact h'
        · rw [List.getElem?_eq_none h'] at h1; cases h1.2
      have hl2 : e.2.1 < s.ids.length := by
        rcases Nat.lt_or_ge e.2.1 s.ids.length with h' | h'
        · exact h'
        · rw [List.getElem?_eq_none h'] at h2; cases h2.2
      exact (List.getElem?_inj hl1 h.ids_nodup).mp (by rw [h1.2, h2.2])
    obtain ⟨a, b, c⟩ := x
    obtain ⟨a', b', c'⟩ := e
    simp at h1 h2 hxe hid ⊢
    exact ⟨by rw [h1.1, h2.1, hxe], hid, hxe⟩
  by_cases hng : env.fng e.2.2 = false
  · have hst : bstep G env cb e s =
        { s with open_ := s.open_.erase e, popped := s.popped ++ [e.2.2] } := by
      simp [bstep, hng]
    rw [hst]
    have hmem : ∀ x, x ∈ s.open_.erase e ↔ x ≠ e ∧ x ∈ s.open_ := fun x =>
      (sorted_nodup h.open_sorted).mem_erase_iff
    refine ⟨?_, rfl, by simp [hng]⟩
    constructor
    · show s.order = (s.popped ++ [e.2.2]).filter env.fng
      rw [List.filter_append, h.order_eq]; simp [hng]
    · show (s.popped ++ [e.2.2]).Nodup
      rw [List.nodup_append]
      refine ⟨h.nodup, by simp, ?_⟩
      intro a ha b hb
      simp at hb; subst hb
      rintro rfl; exact hnp ha
    · show (s.popped ++ [e.2.2]).Pairwise _
      rw [List.pairwise_append]
      refine ⟨h.sorted, by simp, ?_⟩
      intro a ha b hb
      simp at hb; subst hb
      rw [← her]; exact h.le a ha e heo
    · intro x hx; exact h.open_ok x ((hmem x).mp hx).2
    · exact h.ids_nodup
    · exact h.open_sorted.sublist (List.erase_sublist)
    · intro f hf x hx
      have hx' := ((hmem x).mp hx).2
      rcases List.mem_append.mp hf with hf | hf
      · exact h.le f hf x hx'
      · simp at hf; subst hf; rw [← her]; exact hmax x hx'
    · intro x hx hxp
      have hx' := (hmem x).mp hx
      rcases List.mem_append.mp hxp with hf | hf
      · exact h.disj x hx'.2 hf
      · simp at hf; exact hx'.1 (huniq x hx'.2 hf)
    · intro f hf
      rcases List.mem_append.mp hf with hf | hf
      · exact h.reach f hf
      · simp at hf; subst hf; exact hreach
    · intro x hx; exact h.reach' x ((hmem x).mp hx).2
    · rcases h.has_root with hr | ⟨x, hx, hxr⟩
      · exact Or.inl (by simp [hr])
      · by_cases hxe : x = e
        · left; simp [← hxr, hxe]
        · right; exact ⟨x, (hmem x).mpr ⟨hxe, hx⟩, hxr⟩
    · intro f hf hfg p hp
      rcases List.mem_append.mp hf with hf | hf
      · rcases h.closure f hf hfg p hp with h' | ⟨x, hx, hxp⟩
        · exact Or.inl (by simp [h'])
        · by_cases hxe : x = e
          · left; simp [← hxp, hxe]
          · right; exact ⟨x, (hmem x).mpr ⟨hxe, hx⟩, hxp⟩
      · simp at hf; subst hf; rw [hng] at hfg; cases hfg
  · have hng : env.fng e.2.2 = true := by simpa using hng
    let s1 : BSt τ := { s with ext := cb e.2.2 s.ext, order := s.order ++ [e.2.2] }
    have hP0 : PInv G env e.2.2 s1 s1 [] :=
      ⟨rfl, rfl, rfl, h.ids_nodup, h.open_ok, h.open_sorted, fun _ h => h, fun _ h => Or.inl h,
        by simp⟩
    have hP := propagate_all (G := G) (env := env) (G.fn e.2.2).inputs [] s1 (fun _ h => h) hP0
    have hst : bstep G env cb e s =
        { (G.fn e.2.2).inputs.foldl (propagate G env) s1 with
          open_ := ((G.fn e.2.2).inputs.foldl (propagate G env) s1).open_.erase e
          popped := ((G.fn e.2.2).inputs.foldl (propagate G env) s1).popped ++ [e.2.2] } := by
      simp [bstep, hng, s1]
    rw [hst]
    generalize (G.fn e.2.2).inputs.foldl (propagate G env) s1 = t at hP
    simp only [List.nil_append] at hP
    have hmem : ∀ x, x ∈ t.open_.erase e ↔ x ≠ e ∧ x ∈ t.open_ := fun x =>
      (sorted_nodup hP.sorted).mem_erase_iff
    have hpop : t.popped = s.popped := hP.popped
    have hfeed_ne : ∀ p, GFeeds G env p e.2.2 → p ∉ s.popped ∧ p ≠ e.2.2 ∧ env.rank p < e.1 := by
      intro p hp
      have hlt := hR _ _ hreach hp
      rw [← her] at hlt
      refine ⟨?_, ?_, hlt⟩
      · intro hpp
        have := h.le p hpp e heo
        omega
      · rintro rfl; rw [← her] at hlt; omega
    refine ⟨?_, by simp [hpop], ?_⟩
    · constructor
      · show t.order = (t.popped ++ [e.2.2]).filter env.fng
        rw [hP.order, hpop, List.filter_append, ← h.order_eq]; simp [s1, hng]
      · show (t.popped ++ [e.2.2]).Nodup
        rw [hpop, List.nodup_append]
        refine ⟨h.nodup, by simp, ?_⟩
        intro a ha b hb
        simp at hb; subst hb
        rintro rfl; exact hnp ha
      · show (t.popped ++ [e.2.2]).Pairwise _
        rw [hpop, List.pairwise_append]
        refine ⟨h.sorted, by simp, ?_⟩
        intro a ha b hb
        simp at hb; subst hb
        rw [← her]; exact h.le a ha e heo
      · intro x hx; exact hP.open_ok x ((hmem x).mp hx).2
      · exact hP.ids_nodup
      · exact hP.sorted.sublist (List.erase_sublist)
      · intro f hf x hx
        have hx' := ((hmem x).mp hx).2
        change f ∈ t.popped ++ [e.2.2] at hf
        rw [hpop] at hf
        have hxr := (hP.open_ok x hx').1
        have hxle : x.1 ≤ e.1 := by
          rcases hP.from_ x hx' with h' | h'
          · exact hmax x h'
          · rw [hxr]; exact Nat.le_of_lt (hfeed_ne _ h').2.2
        rcases List.mem_append.mp hf with hf | hf
        · have := h.le f hf e heo; omega
        · simp at hf; subst hf; rw [← her]; exact hxle
      · intro x hx hxp
        have hx' := (hmem x).mp hx
        change x.2.2 ∈ t.popped ++ [e.2.2] at hxp
        rw [hpop] at hxp
        rcases hP.from_ x hx'.2 with h' | h'
        · rcases List.mem_append.mp hxp with hf | hf
          · exact h.disj x h' hf
          · simp at hf; exact hx'.1 (huniq x h' hf)
        · rcases List.mem_append.mp hxp with hf | hf
          · exact (hfeed_ne _ h').1 hf
          · simp at hf; exact (hfeed_ne _ h').2.1 hf
      · intro f hf
        change f ∈ t.popped ++ [e.2.2] at hf
        rw [hpop] at hf
        rcases List.mem_append.mp hf with hf | hf
        · exact h.reach f hf
        · simp at hf; subst hf; exact hreach
      · intro x hx
        rcases hP.from_ x ((hmem x).mp hx).2 with h' | h'
        · exact h.reach' x h'
        · exact .step hreach hng h'
      · show root ∈ t.popped ++ [e.2.2] ∨ _
        rw [hpop]
        rcases h.has_root with hr | ⟨x, hx, hxr⟩
        · exact Or.inl (by simp [hr])
        · by_cases hxe : x = e
          · left; simp [← hxr, hxe]
          · right; exact ⟨x, (hmem x).mpr ⟨hxe, hP.sub x hx⟩, hxr⟩
      · intro f hf hfg p hp
        change f ∈ t.popped ++ [e.2.2] at hf
        show p ∈ t.popped ++ [e.2.2] ∨ _
        rw [hpop] at hf ⊢
        rcases List.mem_append.mp hf with hf | hf
        · rcases h.closure f hf hfg p hp with h' | ⟨x, hx, hxp⟩
          · exact Or.inl (by simp [h'])
          · by_cases hxe : x = e
            · left; simp [← hxp, hxe]
            · right; exact ⟨x, (hmem x).mpr ⟨hxe, hP.sub x hx⟩, hxp⟩
        · simp at hf; subst hf
          obtain ⟨v, hv, hvg, hvp⟩ := hp
          obtain ⟨x, hx, hxp⟩ := hP.has v p hv hvg hvp
          right
          refine ⟨x, (hmem x).mpr ⟨?_, hx⟩, hxp⟩
          rintro rfl
          exact (hfeed_ne p ⟨v, hv, hvg, hvp⟩).2.1 hxp.symm
    · show t.ext = _
      rw [hP.ext]; simp [s1, hng]

theorem bloop_inv {G : Graph} {env : BEnv} {root : FnId} {cb : FnId → τ → τ}
    (hR : RanksOk G env root) (L : List FnId) (hL : ∀ f, GReach G env root f → f ∈ L) (x0 : τ) :
    ∀ n (s : BSt τ), BInv G env root s → s.ext = s.order.foldl (fun e f => cb f e) x0 →
      L.length ≤ n + s.popped.length →
      BInv G env root (bloop G env cb n s) ∧ (bloop G env cb n s).open_ = [] ∧
      (bloop G env cb n s).ext = (bloop G env cb n s).order.foldl (fun e f => cb f e) x0 := by
  intro n
  induction n with
  | zero =>
    intro s h hx hlen
    refine ⟨h, ?_, hx⟩
    show s.open_ = []
    cases ho : s.open_ with
    | nil => rfl
    | cons e rest =>
      exfalso
      have heo : e ∈ s.open_ := by rw [ho]; simp
      have hnd : (e.2.2 :: s.popped).Nodup := List.nodup_cons.mpr ⟨h.disj e heo, h.nodup⟩
      have := hnd.length_le_of_subset (l₂ := L) (by
        intro f hf
        rcases List.mem_cons.mp hf with rfl | hf
        · exact hL _ (h.reach' e heo)
        · exact hL _ (h.reach f hf))
      simp at this
      omega
  | succ n ih =>
    intro s h hx hlen
    simp only [bloop]
    cases ho : s.open_ with
    | nil => simp only; exact ⟨h, ho, hx⟩
    | cons e rest =>
      simp only
      obtain ⟨hI, hp, hxe⟩ := bstep_inv (cb := cb) hR h ho
      refine ih _ hI ?_ ?_
      · rw [hxe, hI.order_eq, hp, List.filter_append, ← h.order_eq, List.foldl_append, ← hx]
        by_cases hg : env.fng e.2.2 = true
        · simp [hg]
        · simp [hg]
      · rw [hp]; simp; omega

/-- The outcome of a backward traversal, in the words of the property. -/
structure BackOk (G : Graph) (env : BEnv) (root : FnId) (order : List FnId) : Prop where
  once : order.Nodup
  exact_ : ∀ g, g ∈ order ↔ GReach G env root g ∧ env.fng g = true
  after : ∀ f p, f ∈ order → p ∈ order → GFeeds G env p f → Before order f p
  /-- more generally, functions are visited in the order of decreasing rank -/
  by_rank : order.Pairwise (fun a b => env.rank b ≤ env.rank a)

theorem before_of_pairwise {order : List FnId} {rank : FnId → Nat}
    (hs : order.Pairwise (fun a b => rank b ≤ rank a)) {f p} (hf : f ∈ order)
    (hlt : rank p < rank f) : Before order f p := by
  intro a b hab
  rw [hab] at hf hs
  rcases List.mem_append.mp hf with h | h
  · exact h
  · exfalso
    rw [List.pairwise_append] at hs
    rcases List.mem_cons.mp h with rfl | h
    · omega
    · have := (List.pairwise_cons.mp hs.2.1).1 f h
      omega

/-- C24. For every graph with consistent ranks, every starting function, every enumeration `L` of
the functions reached and every fuel at least its length, the loop ends (the open list is empty),
calls the backward callback exactly on the `need_grad` functions reached through `need_grad`
inputs, each once and after all functions it feeds gradient-wise. -/
theorem visitBackward_ok (G : Graph) (env : BEnv) (cb : FnId → τ → τ) (root : FnId)
    (hR : RanksOk G env root) (L : List FnId) (hL : ∀ f, GReach G env root f → f ∈ L)
    (fuel : Nat) (hf : L.length ≤ fuel) (x : τ) :
    (visitBackward G env cb fuel root x).open_ = [] ∧
    BackOk G env root (visitBackward G env cb fuel root x).order ∧
    (visitBackward G env cb fuel root x).ext =
      (visitBackward G env cb fuel root x).order.foldl (fun e f => cb f e) x := by
  have h0 : BInv G env root
      ({ ids := [root], open_ := [(env.rank root, 0, root)], ext := x } : BSt τ) := by
    constructor <;> simp
    exact .root
  obtain ⟨hI, hE, hx⟩ := bloop_inv (cb := cb) hR L hL x fuel _ h0 rfl (by simpa using hf)
  refine ⟨hE, ?_, hx⟩
  have hmem : ∀ g, g ∈ (visitBackward G env cb fuel root x).popped ↔ GReach G env root g := by
    intro g
    constructor
    · exact hI.reach g
    · intro hg
      induction hg with
      | root =>
        rcases hI.has_root with h | ⟨e, he, _⟩
        · exact h
        · rw [hE] at he; cases he
      | step _ hng hfe ih =>
        rcases hI.closure _ ih hng _ hfe with h | ⟨e, he, _⟩
        · exact h
        · rw [hE] at he; cases he
  have hsorted : (visitBackward G env cb fuel root x).order.Pairwise
      (fun a b => env.rank b ≤ env.rank a) := by
    show (bloop _ _ _ _ _).order.Pairwise _
    rw [hI.order_eq]; exact hI.sorted.sublist List.filter_sublist
  have hex : ∀ g, g ∈ (visitBackward G env cb fuel root x).order ↔
      GReach G env root g ∧ env.fng g = true := by
    intro g
    show g ∈ (bloop _ _ _ _ _).order ↔ _
    rw [hI.order_eq, List.mem_filter]
    have := hmem g
    constructor
    · rintro ⟨h1, h2⟩; exact ⟨this.mp h1, h2⟩
    · rintro ⟨h1, h2⟩; exact ⟨this.mpr h1, h2⟩
  refine ⟨?_, hex, ?_, hsorted⟩
  · show (bloop _ _ _ _ _).order.Nodup
    rw [hI.order_eq]; exact hI.nodup.filter _
  · intro f p hf hp hfe
    exact before_of_pairwise hsorted hf (hR f p ((hex f).mp hf).1 hfe)

/-- Ranks left by a forward pass on the same variable are consistent. -/
theorem ranksOk_of_pass {σ : Type} {G : Graph} {m0} {root : FnId} {s : VSt σ}
    (h : PassOk G m0 (Depends G root) s) : RanksOk G (BEnv.of G s) root := by
  have hdep : ∀ f, GReach G (BEnv.of G s) root f → Depends G root f := by
    have trans : ∀ a b c, Depends G a b → Feeds G c b → Depends G a c := by
      intro a b c hab
      induction hab with
      | refl => intro hf; exact .step hf (.refl c)
      | step hf _ ih => intro h; exact .step hf (ih h)
    intro f hf
    induction hf with
    | root => exact .refl root
    | step _ _ hfe ih =>
      obtain ⟨v, hv, _, hp⟩ := hfe
      exact trans _ _ _ ih ⟨v, hv, hp⟩
  intro f p hf ⟨v, hv, _, hp⟩
  have hff := hdep f hf
  have hr := h.rank f hff
  have hpd : Depends G root p := by
    have trans : ∀ a b c, Depends G a b → Feeds G c b → Depends G a c := by
      intro a b c hab
      induction hab with
      | refl => intro hf; exact .step hf (.refl c)
      | step hf _ ih => intro h; exact .step hf (ih h)
    exact trans _ _ _ hff ⟨v, hv, hp⟩
  have := hr.2 _ (.cons ⟨v, hv, hp⟩ (h.rank p hpd).1)
  show s.frank p < s.frank f
  omega

/-- C23+C24: `v.forward(); v.backward()` on an acyclic graph. -/
theorem forward_backward_ok {σ : Type} (G : Graph) (fcb : VSt σ → FnId → σ → σ)
    (bcb : FnId → τ → τ) (depth : FnId → Nat) (hLay : Layered G depth) (hO : OutputsOk G)
    (v : VarId) (p : FnId) (hv : G.parent v = some p) (fuel : Nat) (hfuel : depth p < fuel)
    (s : VSt σ) (hc : s.closed = []) (ho : s.order = []) (hs : s.setups = []) (x : τ) :
    ∃ s', forward G fcb fuel v s = some s' ∧
      (∀ bfuel, s'.order.length ≤ bfuel →
        (visitBackward G (BEnv.of G s') bcb bfuel p x).open_ = [] ∧
        BackOk G (BEnv.of G s') p (visitBackward G (BEnv.of G s') bcb bfuel p x).order) := by
  obtain ⟨s', hs', hP⟩ := forward_ok G fcb depth hLay hO v p hv fuel hfuel s hc ho hs
  refine ⟨s', hs', ?_⟩
  intro bfuel hb
  have hdep : ∀ f, GReach G (BEnv.of G s') p f → f ∈ s'.order := by
    intro f hf
    induction hf with
    | root => exact (hP.exact_ p).mpr (.refl p)
    | step _ _ hfe ih =>
      obtain ⟨u, hu, _, hup⟩ := hfe
      have hd := (hP.exact_ _).mp ih
      obtain ⟨a, b, hab⟩ := List.append_of_mem ih
      have := hP.after _ hd _ ⟨u, hu, hup⟩ a b hab
      rw [hab]; simp [this]
  have := visitBackward_ok G (BEnv.of G s') bcb p (ranksOk_of_pass hP) s'.order hdep bfuel hb x
  exact ⟨this.1, this.2.1⟩

example : ∃ s', forward diamond (fun _ _ e => e) 5 3
      ({ ext := (), mark := fun _ _ => false } : VSt Unit) = some s' ∧
    (∀ bfuel, s'.order.length ≤ bfuel →
      (visitBackward diamond (BEnv.of diamond s') (fun _ (e : Unit) => e) bfuel 2 ()).open_ = [] ∧
      BackOk diamond (BEnv.of diamond s') 2
        (visitBackward diamond (BEnv.of diamond s') (fun _ (e : Unit) => e) bfuel 2 ()).order) :=
  forward_backward_ok diamond _ _ id diamond_layered diamond_outputs 3 2 rfl 5 (by decide) _ rfl
    rfl rfl ()

example : (visitBackward diamond ⟨fun f => f + 1, fun f => f != 0, fun v => v != 0 && v != 1⟩
    (fun _ (e : Unit) => e) 9 2 ()).order = [2, 1] := by decide

end Verif.Graph
