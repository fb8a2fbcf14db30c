/- What the recursive walks over the family do, node by node. -/
import Verif.Synced.Tree

namespace Verif.Synced

variable {V : Type}

theorem keeps_clearFlags : KeepsShape (V := V) clearFlags := ⟨fun _ => rfl, fun _ => rfl, fun _ => rfl, fun _ => rfl⟩
theorem keeps_clearAllArray : KeepsShape (V := V) clearAllArray := ⟨fun _ => rfl, fun _ => rfl, fun _ => rfl, fun _ => rfl⟩
theorem keeps_keepHead : KeepsShape (V := V) keepHead := ⟨fun _ => rfl, fun _ => rfl, fun _ => rfl, fun _ => rfl⟩

theorem idem_clearFlags (d : Node V) : clearFlags (clearFlags d) = clearFlags d := rfl
theorem idem_clearAllArray (d : Node V) : clearAllArray (clearAllArray d) = clearAllArray d := rfl
theorem idem_keepHead (d : Node V) : keepHead (keepHead d) = keepHead d := by
  have : (d.arrs.filter (fun e => some e.1 = d.head)).filter (fun e => some e.1 = d.head)
      = d.arrs.filter (fun e => some e.1 = d.head) := by
    rw [List.filter_filter]
    apply List.filter_congr
    intro x _
    cases decide (some x.1 = d.head) <;> rfl
  exact congrArg (fun l => { d with arrs := l }) this

/-- `L` lists the proper living descendants of `n`, once each, parents first. -/
structure IsDesc (s : St V) (n : Nat) (L : List Nat) : Prop where
  mem : ∀ m, m ∈ L ↔ Below s n m
  nodup : L.Nodup
  topo : ∀ L1 L2 m, L = L1 ++ m :: L2 → ∃ p, (s.node m).parent = some p ∧ (p = n ∨ p ∈ L1)

theorem isDesc {s : St V} {st} (T : Tree s st) (n : Nat) (hn : s.alive n = true) :
    IsDesc s n (descList (fun k => (s.node k).children) s.count n) :=
  ⟨mem_descList T _ n hn (Nat.le_add_right _ _), nodup_descList T _ n hn (Nat.le_add_right _ _),
   fun _ _ _ h => topo_descList T _ n hn (Nat.le_add_right _ _) _ _ _ h⟩

theorem onDesc_node {s : St V} {st} (T : Tree s st) (f : Node V → Node V) (hf : ∀ d, f (f d) = f d)
    (n : Nat) (hn : s.alive n = true) (m : Nat) :
    (Below s n m → (onDesc f n s).node m = f (s.node m)) ∧
    (¬ Below s n m → (onDesc f n s).node m = s.node m) := by
  unfold onDesc
  rw [dfs_eq_foldl, foldl_upd_node f hf]
  constructor <;> intro h
  · rw [if_pos (((isDesc T n hn).mem m).2 h)]
  · rw [if_neg (fun h' => h (((isDesc T n hn).mem m).1 h'))]

theorem onDesc_rest (f : Node V → Node V) (n : Nat) (s : St V) :
    (onDesc f n s).mem = s.mem ∧ (onDesc f n s).alive = s.alive ∧ (onDesc f n s).count = s.count ∧
    (onDesc f n s).nextBlk = s.nextBlk := by
  unfold onDesc; rw [dfs_eq_foldl]; exact foldl_upd_rest f _ s

theorem onDesc_shape {f : Node V → Node V} (hf : KeepsShape f) (n : Nat) (s : St V) :
    SameShape s (onDesc f n s) := by
  unfold onDesc; rw [dfs_eq_foldl]; exact sameShape_foldl_upd f hf _ s

/-! ### clear_all_array_descendants -/

/-- When all descendants have an array, every one is visited. -/
theorem clearDesc_eq (keep : Bool) (ch : Nat → List Nat) (fuel n : Nat) (s : St V)
    (hh : ∀ m ∈ descList ch fuel n, hasHead (s.node m) = true) (hnd : (descList ch fuel n).Nodup) :
    clearDesc keep ch fuel n s =
      (descList ch fuel n).foldl (fun s c => upd s c (if keep then keepHead else clearAllArray)) s := by
  induction fuel generalizing n s with
  | zero => rfl
  | succ k ih =>
    simp only [clearDesc, descList] at *
    revert hh hnd
    generalize ch n = L
    induction L generalizing s with
    | nil => intro _ _; rfl
    | cons c L ihL =>
      intro hh hnd
      simp only [List.flatMap_cons] at hh hnd ⊢
      rw [List.nodup_append] at hnd
      obtain ⟨hnd1, hnd2, hdj⟩ := hnd
      rw [List.nodup_cons] at hnd1
      have hc : hasHead (s.node c) = true := hh c (by simp)
      simp only [List.foldl_cons, hc, if_true, Bool.false_eq_true, if_false, List.foldl_append,
        List.cons_append]
      generalize hF : (if keep then (keepHead : Node V → Node V) else clearAllArray) = F at *
      have h1 : clearDesc keep ch k c (upd s c F) =
          (descList ch k c).foldl (fun s c => upd s c F) (upd s c F) := by
        apply ih
        · intro m hm
          rw [upd_ne]
          · exact hh m (by simp [hm])
          · intro h; subst h; exact hnd1.1 hm
        · exact hnd1.2
      rw [h1]
      apply ihL
      · intro m hm
        have hne : m ∉ c :: descList ch k c := fun h => (hdj m h m hm) rfl
        have : ((descList ch k c).foldl (fun s c => upd s c F) (upd s c F)).node m = s.node m := by
          have : ∀ (M : List Nat) (s' : St V), m ∉ M → (M.foldl (fun s c => upd s c F) s').node m = s'.node m := by
            intro M
            induction M with
            | nil => intro s' _; rfl
            | cons x M ihM =>
              intro s' hx
              rw [List.foldl_cons, ihM _ (fun h => hx (List.mem_cons_of_mem _ h)), upd_ne]
              exact fun h => hx (by rw [h]; exact List.mem_cons_self ..)
          rw [this _ _ (fun h => hne (List.mem_cons_of_mem _ h)), upd_ne]
          exact fun h => hne (by rw [h]; exact List.mem_cons_self ..)
        rw [this]
        exact hh m (List.mem_append_right _ hm)
      · exact hnd2

/-- When no descendant has an array, nothing happens. -/
theorem clearDesc_none (keep : Bool) (ch : Nat → List Nat) (fuel n : Nat) (s : St V)
    (hh : ∀ m ∈ ch n, hasHead (s.node m) = false) : clearDesc keep ch fuel n s = s := by
  cases fuel with
  | zero => rfl
  | succ k =>
    simp only [clearDesc]
    revert hh
    generalize ch n = L
    intro hh
    cases L with
    | nil => rfl
    | cons c L =>
      have hc : hasHead (s.node c) = false := hh c (List.mem_cons_self ..)
      simp only [List.foldl_cons, hc, Bool.false_eq_true, if_false]
      have : ∀ (M : List Nat) (g : St V × Bool → Nat → St V × Bool),
          (∀ sb c, sb.2 = true → g sb c = sb) → (M.foldl g (s, true)).1 = s := by
        intro M g hg
        induction M with
        | nil => rfl
        | cons x M ihM => rw [List.foldl_cons, hg (s, true) x rfl]; exact ihM
      apply this
      intro sb c h
      simp [h]

theorem clearDescendants_node {s : St V} {st} (T : Tree s st) (keep : Bool) (n : Nat) (hn : s.alive n = true)
    (hh : ∀ m, Below s n m → hasHead (s.node m) = true) (m : Nat) :
    (Below s n m → (clearDescendants keep n s).node m = (if keep then keepHead else clearAllArray) (s.node m)) ∧
    (¬ Below s n m → (clearDescendants keep n s).node m = s.node m) := by
  have D := isDesc T n hn
  unfold clearDescendants
  rw [clearDesc_eq keep _ _ _ _ (fun m hm => hh m ((D.mem m).1 hm)) D.nodup]
  rw [foldl_upd_node _ (by intro d; cases keep; exact idem_clearAllArray d; exact idem_keepHead d)]
  constructor <;> intro h
  · rw [if_pos ((D.mem m).2 h)]
  · rw [if_neg (fun h' => h ((D.mem m).1 h'))]

theorem clearDescendants_rest_shape {s : St V} {st} (T : Tree s st) (keep : Bool) (n : Nat) (hn : s.alive n = true)
    (hh : ∀ m, Below s n m → hasHead (s.node m) = true) :
    (clearDescendants keep n s).mem = s.mem ∧ (clearDescendants keep n s).nextBlk = s.nextBlk ∧
    SameShape s (clearDescendants keep n s) := by
  have D := isDesc T n hn
  unfold clearDescendants
  rw [clearDesc_eq keep _ _ _ _ (fun m hm => hh m ((D.mem m).1 hm)) D.nodup]
  have := foldl_upd_rest (if keep then keepHead else clearAllArray)
    (descList (fun k => (s.node k).children) s.count n) s
  refine ⟨this.1, this.2.2.2, sameShape_foldl_upd _ ?_ _ s⟩
  cases keep; exact keeps_clearAllArray; exact keeps_keepHead

theorem clearDescendants_none {s : St V} {st} (T : Tree s st) (keep : Bool) (n : Nat) (hn : s.alive n = true)
    (hh : ∀ m, Below s n m → hasHead (s.node m) = false) : clearDescendants keep n s = s := by
  apply clearDesc_none
  intro m hm
  obtain ⟨hac, hpc⟩ := (T.kids n m hn).1 hm
  apply hh m
  refine ⟨Sub.step Sub.refl hpc, ?_, hac⟩
  have hc0 : m ≠ 0 := by intro h; subst h; rw [T.root.2.1] at hpc; cases hpc
  obtain ⟨p', g1, g2, _⟩ := T.child m hc0 hac
  rw [g1] at hpc; cases hpc; omega

/-! ### create_array_descendants -/

/-- createFromParent changes only its node's head and arrays. -/
theorem createFromParent_node_ne (s : St V) {n m : Nat} (h : m ≠ n) : (createFromParent s n).node m = s.node m := by
  unfold createFromParent
  split
  · rfl
  · split
    · rfl
    · split
      · rfl
      · simp only [setArr]; rw [upd_ne _ _ h, upd_ne _ _ h]

theorem createFromParent_rest (s : St V) (n : Nat) :
    (createFromParent s n).mem = s.mem ∧ (createFromParent s n).nextBlk = s.nextBlk ∧
    SameShape s (createFromParent s n) := by
  unfold createFromParent
  split
  · exact ⟨rfl, rfl, SameShape.refl s⟩
  · split
    · exact ⟨rfl, rfl, SameShape.refl s⟩
    · split
      · exact ⟨rfl, rfl, SameShape.refl s⟩
      · refine ⟨rfl, rfl, ?_⟩
        simp only [setArr]
        refine SameShape.trans (sameShape_upd s n ?_) (sameShape_upd _ n ?_)
        all_goals exact ⟨fun _ => rfl, fun _ => rfl, fun _ => rfl, fun _ => rfl⟩

theorem createFromParent_node (s : St V) {n p : Nat} {hk : Key} {pa : Arr} {b : Bool}
    (hp : (s.node n).parent = some p) (hh : (s.node p).head = some hk) (hf : find hk (s.node p).arrs = some (pa, b)) :
    (createFromParent s n).node n =
      { s.node n with
        head := some (hk.1, hk.2 ++ [((s.node n).off, (s.node n).size)])
        arrs := insert (hk.1, hk.2 ++ [((s.node n).off, (s.node n).size)])
          ({ blk := pa.blk, off := (s.node p).off + (s.node n).off, dt := pa.dt }, false) (s.node n).arrs } := by
  unfold createFromParent
  simp only [hp, hh, hf, setArr, upd_self]

theorem createDesc_eq (ch : Nat → List Nat) (fuel n : Nat) (s : St V)
    (hh : ∀ m ∈ descList ch fuel n, hasHead (s.node m) = false) (hnd : (descList ch fuel n).Nodup) :
    createDesc ch fuel n s = (descList ch fuel n).foldl createFromParent s := by
  induction fuel generalizing n s with
  | zero => rfl
  | succ k ih =>
    simp only [createDesc, descList] at *
    revert hh hnd
    generalize ch n = L
    induction L generalizing s with
    | nil => intro _ _; rfl
    | cons c L ihL =>
      intro hh hnd
      simp only [List.flatMap_cons] at hh hnd ⊢
      rw [List.nodup_append] at hnd
      obtain ⟨hnd1, hnd2, hdj⟩ := hnd
      rw [List.nodup_cons] at hnd1
      have hc : hasHead (s.node c) = false := hh c (by simp)
      simp only [List.foldl_cons, hc, Bool.false_eq_true, if_false, List.foldl_append,
        List.cons_append]
      have h1 : createDesc ch k c (createFromParent s c) =
          (descList ch k c).foldl createFromParent (createFromParent s c) := by
        apply ih
        · intro m hm
          rw [createFromParent_node_ne]
          · exact hh m (by simp [hm])
          · intro h; subst h; exact hnd1.1 hm
        · exact hnd1.2
      rw [h1]
      apply ihL
      · intro m hm
        have hne : m ∉ c :: descList ch k c := fun h => (hdj m h m hm) rfl
        have : ((descList ch k c).foldl createFromParent (createFromParent s c)).node m = s.node m := by
          have : ∀ (M : List Nat) (s' : St V), m ∉ M → (M.foldl createFromParent s').node m = s'.node m := by
            intro M
            induction M with
            | nil => intro s' _; rfl
            | cons x M ihM =>
              intro s' hx
              rw [List.foldl_cons, ihM _ (fun h => hx (List.mem_cons_of_mem _ h)), createFromParent_node_ne]
              exact fun h => hx (by rw [h]; exact List.mem_cons_self ..)
          rw [this _ _ (fun h => hne (List.mem_cons_of_mem _ h)), createFromParent_node_ne]
          exact fun h => hne (by rw [h]; exact List.mem_cons_self ..)
        rw [this]
        exact hh m (List.mem_append_right _ hm)
      · exact hnd2

theorem createDescendants_none {s : St V} {st} (T : Tree s st) (n : Nat) (hn : s.alive n = true)
    (hh : ∀ m, Below s n m → hasHead (s.node m) = true) : createDescendants n s = s := by
  unfold createDescendants
  have hch : ∀ m ∈ (s.node n).children, hasHead (s.node m) = true := by
    intro m hm
    obtain ⟨hac, hpc⟩ := (T.kids n m hn).1 hm
    apply hh m
    refine ⟨Sub.step Sub.refl hpc, ?_, hac⟩
    have hc0 : m ≠ 0 := by intro h; subst h; rw [T.root.2.1] at hpc; cases hpc
    obtain ⟨p', g1, g2, _⟩ := T.child m hc0 hac
    rw [g1] at hpc; cases hpc; omega
  cases s.count with
  | zero => rfl
  | succ k =>
    simp only [createDesc]
    revert hch
    generalize (s.node n).children = L
    intro hch
    induction L with
    | nil => rfl
    | cons c L ih =>
      rw [List.foldl_cons, if_pos (hch c (List.mem_cons_self ..))]
      exact ih (fun m hm => hch m (List.mem_cons_of_mem _ hm))

/-- A node whose head array is a window of the block `B` held in `k`. -/
structure HeadAt (s : St V) (st : Nat → Nat) (k : BaseKey) (B : Nat) (n : Nat) : Prop where
  key : ∃ l, (s.node n).head = some (k, l) ∧ ∃ b, find (k, l) (s.node n).arrs = some (⟨B, st n, k.dt⟩, b)

theorem HeadAt.hasHead {s : St V} {st k B n} (h : HeadAt s st k B n) : hasHead (s.node n) = true := by
  obtain ⟨l, h1, b, h2⟩ := h.key
  simp [Synced.hasHead, h1, isEmpty_of_find h2]

/-- The head key of a child extends that of its parent. -/
def KeyOk (s : St V) (n : Nat) : Prop :=
  ∀ p, (s.node n).parent = some p → ∀ hk, (s.node p).head = some hk →
    (s.node n).head = some (hk.1, hk.2 ++ [((s.node n).off, (s.node n).size)])

theorem createDescendants_spec {s : St V} {st} (T : Tree s st) (n : Nat) (hn : s.alive n = true) {k B}
    (hst : st n = (s.node n).off)
    (hH : HeadAt s st k B n) (hE : ∀ m, Below s n m → (s.node m).arrs = []) :
    let s' := createDescendants n s
    SameShape s s' ∧ s'.mem = s.mem ∧ s'.nextBlk = s.nextBlk ∧
    (∀ m, ¬ Below s n m → s'.node m = s.node m) ∧
    (∀ m, Below s n m → HeadAt s' st k B m ∧ KeyOk s' m ∧
      ∃ key e, (s'.node m).head = some key ∧ s'.node m = { s.node m with head := some key, arrs := [(key, e)] }) := by
  have D := isDesc T n hn
  intro s'
  have hs' : s' = (descList (fun k => (s.node k).children) s.count n).foldl createFromParent s := by
    show createDescendants n s = _
    unfold createDescendants
    apply createDesc_eq
    · intro m hm
      have := hE m ((D.mem m).1 hm)
      simp [Synced.hasHead, this]
    · exact D.nodup
  rw [hs']
  clear hs'
  clear s'
  -- prefix invariant
  have key : ∀ (L2 L1 : List Nat) (t : St V),
      descList (fun k => (s.node k).children) s.count n = L1 ++ L2 →
      SameShape s t → t.mem = s.mem → t.nextBlk = s.nextBlk →
      (∀ m, m ∉ L1 → t.node m = s.node m) →
      (∀ m ∈ L1, HeadAt t st k B m ∧ KeyOk t m ∧
        ∃ key e, (t.node m).head = some key ∧ t.node m = { s.node m with head := some key, arrs := [(key, e)] }) →
      let t' := L2.foldl createFromParent t
      SameShape s t' ∧ t'.mem = s.mem ∧ t'.nextBlk = s.nextBlk ∧
      (∀ m, m ∉ L1 ++ L2 → t'.node m = s.node m) ∧
      (∀ m ∈ L1 ++ L2, HeadAt t' st k B m ∧ KeyOk t' m ∧
        ∃ key e, (t'.node m).head = some key ∧ t'.node m = { s.node m with head := some key, arrs := [(key, e)] }) := by
    intro L2
    induction L2 with
    | nil =>
      intro L1 t hL hS hm hb h1 h2
      simp only [List.append_nil, List.foldl_nil]
      exact ⟨hS, hm, hb, h1, h2⟩
    | cons c L2 ih =>
      intro L1 t hL hS hm hb h1 h2
      have hcL1 : c ∉ L1 := by
        have := D.nodup; rw [hL, List.nodup_append] at this
        intro h; exact this.2.2 c h c (List.mem_cons_self ..) rfl
      obtain ⟨p, hp, hpor⟩ := D.topo L1 L2 c hL
      have hcB : Below s n c := (D.mem c).1 (by rw [hL]; simp)
      have hc0 : c ≠ 0 := by intro h; subst h; rw [T.root.2.1] at hp; cases hp
      obtain ⟨p', g1, g2, g3, g4, g5, g6⟩ := T.child c hc0 hcB.2.2
      rw [g1] at hp; cases hp
      have hpH : HeadAt t st k B p := by
        rcases hpor with h | h
        · subst h
          have hnL1 : p ∉ L1 := by
            intro h
            have : Below s p p := (D.mem p).1 (by rw [hL]; exact List.mem_append_left _ h)
            exact this.2.1 rfl
          obtain ⟨l, e1, b, e2⟩ := hH.key
          exact ⟨l, by rw [h1 p hnL1]; exact e1, b, by rw [h1 p hnL1]; exact e2⟩
        · exact (h2 p h).1
      obtain ⟨l, e1, b, e2⟩ := hpH.key
      have hpar : (t.node c).parent = some p := by rw [hS.parent]; exact g1
      have hnode := createFromParent_node t hpar e1 e2
      have hcn := h1 c hcL1
      have hrest := createFromParent_rest t c
      have hstc : st c = (t.node p).off + (t.node c).off := by
        rw [hS.off, hS.off]
        omega
      have happ : L1 ++ c :: L2 = (L1 ++ [c]) ++ L2 := by simp
      rw [List.foldl_cons, happ]
      apply ih (L1 ++ [c]) (createFromParent t c) (by rw [hL, happ]) (hS.trans hrest.2.2)
        (hrest.1.trans hm) (hrest.2.1.trans hb)
      · intro m hm'
        rw [createFromParent_node_ne t (by intro h; apply hm'; simp [h])]
        exact h1 m (fun h => hm' (List.mem_append_left _ h))
      · intro m hm'
        rcases List.mem_append.1 hm' with h | h
        · have hmc : m ≠ c := fun h' => hcL1 (h' ▸ h)
          obtain ⟨q1, q2, q3⟩ := h2 m h
          have hnm := createFromParent_node_ne t hmc
          refine ⟨?_, ?_, ?_⟩
          · obtain ⟨l', f1, b', f2⟩ := q1.key
            exact ⟨l', by rw [hnm]; exact f1, b', by rw [hnm]; exact f2⟩
          · intro p2 hp2 hk hhk
            rw [hnm] at hp2 ⊢
            by_cases hp2c : p2 = c
            · exfalso
              subst hp2c
              -- parent of m ∈ L1 is before m, hence not c
              have hmB : Below s n m := (D.mem m).1 (by rw [hL]; exact List.mem_append_left _ h)
              obtain ⟨A1, A2, hsplit⟩ := List.append_of_mem h
              have hLm : descList (fun k => (s.node k).children) s.count n = A1 ++ m :: (A2 ++ p2 :: L2) := by
                rw [hL, hsplit]; simp
              obtain ⟨p3, r1, r2⟩ := D.topo A1 _ m hLm
              have : (t.node m).parent = some p3 := by rw [hS.parent]; exact r1
              rw [this] at hp2; cases hp2
              rcases r2 with r2 | r2
              · subst r2
                exact hcB.2.1 rfl
              · exact hcL1 (by rw [hsplit]; exact List.mem_append_left _ r2)
            · rw [createFromParent_node_ne t hp2c] at hhk
              exact q2 p2 hp2 hk hhk
          · rw [hnm]; exact q3
        · have hmc : m = c := by simpa using h
          subst hmc
          rw [hcn] at hnode hstc
          have hE' := hE m hcB
          refine ⟨⟨l ++ [((s.node m).off, (s.node m).size)], ?_, false, ?_⟩, ?_, ?_⟩
          · rw [hnode]
          · rw [hnode, find_insert]
            simp only [if_true, hstc]
          · intro p2 hp2 hk hhk
            rw [hrest.2.2.parent, hpar] at hp2; cases hp2
            rw [createFromParent_node_ne t (by omega : p ≠ m), e1] at hhk
            cases hhk
            rw [hnode]
          · refine ⟨(k, l ++ [((s.node m).off, (s.node m).size)]),
              ({ blk := B, off := (t.node p).off + (s.node m).off, dt := k.dt }, false), by rw [hnode], ?_⟩
            rw [hnode, hE']
            rfl
  have := key _ [] s rfl (SameShape.refl s) rfl rfl (fun _ _ => rfl) (by simp)
  simp only [List.nil_append] at this
  obtain ⟨a1, a2, a3, a4, a5⟩ := this
  exact ⟨a1, a2, a3, fun m hm => a4 m (fun h => hm ((D.mem m).1 h)), fun m hm => a5 m ((D.mem m).2 hm)⟩

end Verif.Synced
