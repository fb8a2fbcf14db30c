import Verif.Graph.ForwardProps
/-
C26: clearing of data during forward.  Model of ForwardCallback
(src/nbla/computation_graph/variable.cpp L137-405), without recomputation
(`as_recomputation_ = false`), hooks and error traces.
-/
namespace Verif.Graph
variable {α : Type}

abbrev ArrId := Nat

/-- Options of `forward` and the data side of the graph. `arr v` is the array of `v` (in-place
functions share the array of an input with an output, include/nbla/function.hpp L255-290);
`run f ins` is the forward kernel of `f`: the contents of its output arrays, in order, from the
contents of its input arrays; `junk` is what a cleared array contains. -/
structure FCfg (α : Type) where
  clearBuffer : Bool := false
  clearNoNeedGrad : Bool := false
  arr : VarId → ArrId
  run : FnId → List α → List α
  junk : FnId → VarId → α

/-- State of a ForwardCallback: `vseen_` (0 = not in the map), the three variable sets, the data
arrays, and (ghost) a log of the clear operations and of the data each function has read. -/
structure FSt (α : Type) where
  seen : VarId → Nat := fun _ => 0
  needG : List VarId := []
  inpl : List VarId := []
  over : List VarId := []
  mem : ArrId → α
  log : List (FnId × VarId) := []
  reads : List (FnId × List α) := []

/-- `check_last_visit` (variable.cpp L160-181). -/
def checkLast (G : Graph) (seen : VarId → Nat) (v : VarId) : (VarId → Nat) × Bool :=
  if G.refCount v < 2 then (seen, true)
  else if seen v = 0 then (upd seen v 1, false)
  else if seen v + 1 = G.refCount v then (upd seen v 0, true)
  else (upd seen v (seen v + 1), false)

/-- `check_grad_depends_data<true>` (L183-201). -/
def gradDependsIn (fn : Fn) (k : Nat) : Bool :=
  (List.range fn.inputs.length).any (fun i => fn.gradDepIn i k)

/-- `check_grad_depends_data<false>`. -/
def gradDependsOut (fn : Fn) (o : Nat) : Bool :=
  (List.range fn.inputs.length).any (fun i => fn.gradDepOut i o)

/-- One iteration of the loop of `get_clear_flags` (L213-268). -/
def clearStep (G : Graph) (cfg : FCfg α) (rank : VarId → Nat) (ng : Bool) (f : FnId)
    (a : FSt α × List Bool) (x : VarId × Nat) : FSt α × List Bool :=
  let fn := G.fn f
  let v := x.1
  let i := x.2
  let s := a.1
  let needG := if ng && gradDependsIn fn i then v :: s.needG else s.needG
  let over := if ng && fn.overwriteIn i then v :: s.over else s.over
  let inpl := match fn.inplace i with
    | some o => match fn.outputs[o]? with
      | some w => v :: w :: s.inpl
      | none => v :: s.inpl
    | none => s.inpl
  let c := checkLast G s.seen v
  let flag :=
    if c.2 = false then false
    else if fn.prohibitClearInputs then false
    else if rank v = 0 || G.persistent v || (fn.inplace i).isSome || G.prohibitClear v then false
    else if v ∈ inpl then false
    else if cfg.clearBuffer then true
    else if G.recompute v then true
    else if cfg.clearNoNeedGrad then
      if v ∈ needG then false
      else if v ∈ over then false
      else true
    else false
  ({ s with seen := c.1, needG := needG, inpl := inpl, over := over }, a.2 ++ [flag])

/-- `get_clear_flags` (L203-270). -/
def getClearFlags (G : Graph) (cfg : FCfg α) (rank : VarId → Nat) (ng : Bool) (f : FnId)
    (s : FSt α) : FSt α × List Bool :=
  let fn := G.fn f
  let outs := (fn.outputs.zipIdx.filter (fun x => ng && gradDependsOut fn x.2)).map Prod.fst
  (fn.inputs.map Prod.fst).zipIdx.foldl (clearStep G cfg rank ng f)
    ({ s with needG := outs ++ s.needG }, [])

/-- `clear_inputs` (L272-281). -/
def clearInputs (cfg : FCfg α) (f : FnId) (s : FSt α) (l : List (VarId × Bool)) : FSt α :=
  l.foldl (fun s x => if x.2 then
    { s with mem := upd s.mem (cfg.arr x.1) (cfg.junk f x.1), log := s.log ++ [(f, x.1)] } else s) s

/-- Writing the outputs of a kernel. -/
def writeAll (cfg : FCfg α) (mem : ArrId → α) (l : List (VarId × α)) : ArrId → α :=
  l.foldl (fun m x => upd m (cfg.arr x.1) x.2) mem

/-- The forward kernel of `f` on the arrays. -/
def runFn (G : Graph) (cfg : FCfg α) (f : FnId) (mem : ArrId → α) : ArrId → α :=
  writeAll cfg mem ((G.fn f).outputs.zip
    (cfg.run f ((G.fn f).inputs.map (fun v => mem (cfg.arr v.1)))))

/-- `ForwardCallback::operator()` (L323-404): forward, flags, clearing. -/
def forwardCall (G : Graph) (cfg : FCfg α) (st : VSt (FSt α)) (f : FnId) (s : FSt α) : FSt α :=
  let s1 := { s with mem := runFn G cfg f s.mem
                     reads := s.reads ++ [(f, (G.fn f).inputs.map (fun v => s.mem (cfg.arr v.1)))] }
  let r := getClearFlags G cfg st.vrank (st.fng f) f s1
  clearInputs cfg f r.1 (((G.fn f).inputs.map Prod.fst).zip r.2)

/-! ### Specification -/

/-- `v` is linked to another variable by an in-place function. -/
def InplaceLink (G : Graph) (u v : VarId) : Prop :=
  ∃ f i o, (G.fn f).inplace i = some o ∧ ((G.fn f).inputs.map Prod.fst)[i]? = some u ∧
    (G.fn f).outputs[o]? = some v

/-- The arrays are shared as the in-place functions say, and not otherwise. -/
inductive SameData (G : Graph) : VarId → VarId → Prop
  | refl (v) : SameData G v v
  | fwd {u v w} : SameData G u v → InplaceLink G v w → SameData G u w
  | bwd {u v w} : SameData G u v → InplaceLink G w v → SameData G u w

/-- Number of uses of `v` as an input by the functions of `F`. -/
def uses (G : Graph) (F : List FnId) (v : VarId) : Nat :=
  (F.map (fun f => ((G.fn f).inputs.map Prod.fst).count v)).sum

/-- `function_reference_count()` is at least the number of uses (see C46). -/
def RefsOk (G : Graph) : Prop := ∀ F v, F.Nodup → uses G F v ≤ G.refCount v

/-- Data of `v` needed by the backward of `f`. -/
def NeededBy (G : Graph) (f : FnId) (v : VarId) : Prop :=
  (∃ k, ((G.fn f).inputs.map Prod.fst)[k]? = some v ∧
    (gradDependsIn (G.fn f) k = true ∨ (G.fn f).overwriteIn k = true)) ∨
  (∃ o, (G.fn f).outputs[o]? = some v ∧ gradDependsOut (G.fn f) o = true)

/-- Execution of the functions `E` without any clearing: final arrays and what was read. -/
def plain (G : Graph) (cfg : FCfg α) (mem : ArrId → α) (E : List FnId) :
    (ArrId → α) × List (FnId × List α) :=
  E.foldl (fun s f => (runFn G cfg f s.1,
    s.2 ++ [(f, (G.fn f).inputs.map (fun v => s.1 (cfg.arr v.1)))])) (mem, [])

/-! ### Proof -/

theorem checkLast_other {G : Graph} {seen : VarId → Nat} {v u : VarId} (h : u ≠ v) :
    (checkLast G seen v).1 u = seen u := by
  unfold checkLast
  split
  · rfl
  · split
    · simp [upd, h]
    · split <;> simp [upd, h]

/-- `seen` after `n` visits of `v` -/
def seenAfter (G : Graph) (v : VarId) (n : Nat) : Nat :=
  if G.refCount v < 2 then 0 else if n < G.refCount v then n else 0

theorem checkLast_self {G : Graph} {seen : VarId → Nat} {v : VarId} {n : Nat}
    (h : seen v = seenAfter G v n) (hn : n < G.refCount v) :
    (checkLast G seen v).1 v = seenAfter G v (n + 1) ∧
      ((checkLast G seen v).2 = true → n + 1 = G.refCount v) := by
  unfold seenAfter at *
  unfold checkLast
  by_cases h2 : G.refCount v < 2
  · simp only [h2, if_true] at h ⊢
    exact ⟨h, fun _ => by omega⟩
  · simp only [h2, if_false, hn, if_true] at h ⊢
    rw [h]
    by_cases h0 : n = 0
    · subst h0
      have : 1 < G.refCount v := by omega
      simp [upd, this]
    · rw [if_neg h0]
      by_cases h1 : n + 1 = G.refCount v
      · rw [if_pos h1]
        simp [upd, h1]
      · rw [if_neg h1]
        have : n + 1 < G.refCount v := by omega
        simp [upd, this]

theorem uses_append {G : Graph} {A B : List FnId} {v : VarId} :
    uses G (A ++ B) v = uses G A v + uses G B v := by
  simp [uses]

theorem uses_cons {G : Graph} {a : FnId} {B : List FnId} {v : VarId} :
    uses G (a :: B) v = ((G.fn a).inputs.map Prod.fst).count v + uses G B v := by
  simp [uses]

/-- What holds after the functions `Q` and the first inputs `P` of the current function. -/
structure CInv (G : Graph) (Q : List FnId) (ng : FnId → Bool) (cur : FnId)
    (P : List VarId) (s : FSt α) : Prop where
  seen : ∀ v, s.seen v = seenAfter G v (uses G Q v + P.count v)
  inpl : ∀ f i o u, (f ∈ Q ∨ (f = cur ∧ i < P.length)) → (G.fn f).inplace i = some o →
    ((G.fn f).inputs.map Prod.fst)[i]? = some u → u ∈ s.inpl ∧
      ∀ w, (G.fn f).outputs[o]? = some w → w ∈ s.inpl
  need : ∀ f v, f ∈ Q → ng f = true → NeededBy G f v → v ∈ s.needG ∨ v ∈ s.over
  needo : ∀ (o : Nat) v, ng cur = true → (G.fn cur).outputs[o]? = some v →
    gradDependsOut (G.fn cur) o = true → v ∈ s.needG
  needi : ∀ (k : Nat) v, k < P.length → ng cur = true →
    ((G.fn cur).inputs.map Prod.fst)[k]? = some v →
    (gradDependsIn (G.fn cur) k = true ∨ (G.fn cur).overwriteIn k = true) →
    v ∈ s.needG ∨ v ∈ s.over

/-- What is known when the flag of input `i` of `f` is set. -/
structure Clearable (G : Graph) (cfg : FCfg α) (rank : VarId → Nat) (ng : FnId → Bool)
    (Q : List FnId) (f : FnId) (i : Nat) (v : VarId) : Prop where
  here : ((G.fn f).inputs.map Prod.fst)[i]? = some v
  rank : rank v ≠ 0
  persistent : G.persistent v = false
  prohibit : G.prohibitClear v = false
  last : uses G Q v + (((G.fn f).inputs.map Prod.fst).take (i + 1)).count v = G.refCount v
  inpl : ∀ g j o u, (g ∈ Q ∨ (g = f ∧ j ≤ i)) → (G.fn g).inplace j = some o →
    ((G.fn g).inputs.map Prod.fst)[j]? = some u → u ≠ v ∧
      ∀ w, (G.fn g).outputs[o]? = some w → w ≠ v
  option : cfg.clearBuffer = true ∨ G.recompute v = true ∨ cfg.clearNoNeedGrad = true
  need : cfg.clearBuffer = false → G.recompute v = false →
    (∀ g, g ∈ Q → ng g = true → ¬NeededBy G g v) ∧
    (ng f = true → (∀ (o : Nat), (G.fn f).outputs[o]? = some v → gradDependsOut (G.fn f) o = false) ∧
      ∀ (k : Nat), k ≤ i → ((G.fn f).inputs.map Prod.fst)[k]? = some v →
        gradDependsIn (G.fn f) k = false ∧ (G.fn f).overwriteIn k = false)

theorem clearStep_spec {G : Graph} {cfg : FCfg α} {rank : VarId → Nat} {ng : FnId → Bool}
    {Q : List FnId} {f : FnId} {P rest : List VarId} {v : VarId} {s : FSt α} {fl : List Bool}
    (hins : (G.fn f).inputs.map Prod.fst = P ++ v :: rest) (hI : CInv G Q ng f P s)
    (hlt : uses G Q v + P.count v < G.refCount v) :
    CInv G Q ng f (P ++ [v]) (clearStep G cfg rank (ng f) f (s, fl) (v, P.length)).1 ∧
    (clearStep G cfg rank (ng f) f (s, fl) (v, P.length)).1.mem = s.mem ∧
    (clearStep G cfg rank (ng f) f (s, fl) (v, P.length)).1.log = s.log ∧
    (clearStep G cfg rank (ng f) f (s, fl) (v, P.length)).1.reads = s.reads ∧
    ∃ b, (clearStep G cfg rank (ng f) f (s, fl) (v, P.length)).2 = fl ++ [b] ∧
      (b = true → Clearable G cfg rank ng Q f P.length v) := by
  have hget : ((G.fn f).inputs.map Prod.fst)[P.length]? = some v := by rw [hins]; simp
  have htake : ((G.fn f).inputs.map Prod.fst).take (P.length + 1) = P ++ [v] := by
    rw [hins, List.take_append]; simp [List.take_of_length_le]
  obtain ⟨hself, hlast⟩ := checkLast_self (hI.seen v) hlt
  -- the in-place set
  have hinpl : ∀ inpl', inpl' = (match (G.fn f).inplace P.length with
      | some o => match (G.fn f).outputs[o]? with
        | some w => v :: w :: s.inpl
        | none => v :: s.inpl
      | none => s.inpl) →
      ∀ g j o u, (g ∈ Q ∨ (g = f ∧ j < (P ++ [v]).length)) → (G.fn g).inplace j = some o →
      ((G.fn g).inputs.map Prod.fst)[j]? = some u → u ∈ inpl' ∧
        ∀ w, (G.fn g).outputs[o]? = some w → w ∈ inpl' := by
    intro inpl' he g j o u hg hio hu
    have hmono : ∀ x, x ∈ s.inpl → x ∈ inpl' := by
      intro x hx
      rw [he]
      cases (G.fn f).inplace P.length with
      | none => exact hx
      | some o' =>
        simp only
        cases (G.fn f).outputs[o']? with
        | none => simp [hx]
        | some w => simp [hx]
    by_cases hnew : g = f ∧ j = P.length
    · obtain ⟨rfl, rfl⟩ := hnew
      rw [hget] at hu
      obtain rfl := Option.some.inj hu
      rw [hio] at he
      simp only at he
      cases ho : (G.fn g).outputs[o]? with
      | none => rw [ho] at he; rw [he]; simp
      | some w =>
        rw [ho] at he
        rw [he]
        refine ⟨by simp, ?_⟩
        intro w' hw'
        obtain rfl := Option.some.inj hw'
        simp
    · have hg' : g ∈ Q ∨ (g = f ∧ j < P.length) := by
        rcases hg with h | ⟨h1, h2⟩
        · exact Or.inl h
        · right
          refine ⟨h1, ?_⟩
          simp at h2
          have : j ≠ P.length := fun h => hnew ⟨h1, h⟩
          omega
      have := hI.inpl g j o u hg' hio hu
      exact ⟨hmono _ this.1, fun w hw => hmono _ (this.2 w hw)⟩
  have hneedi : ∀ needG over', needG = (if ng f && gradDependsIn (G.fn f) P.length then
        v :: s.needG else s.needG) →
      over' = (if ng f && (G.fn f).overwriteIn P.length then v :: s.over else s.over) →
      (∀ (k : Nat) u, k < (P ++ [v]).length → ng f = true →
        ((G.fn f).inputs.map Prod.fst)[k]? = some u →
        (gradDependsIn (G.fn f) k = true ∨ (G.fn f).overwriteIn k = true) →
        u ∈ needG ∨ u ∈ over') ∧ (∀ x, x ∈ s.needG → x ∈ needG) ∧ (∀ x, x ∈ s.over → x ∈ over') := by
    intro needG over' h1 h2
    have m1 : ∀ x, x ∈ s.needG → x ∈ needG := by
      intro x hx; rw [h1]; split <;> simp [hx]
    have m2 : ∀ x, x ∈ s.over → x ∈ over' := by
      intro x hx; rw [h2]; split <;> simp [hx]
    refine ⟨?_, m1, m2⟩
    intro k u hk hng hu hd
    by_cases hkl : k = P.length
    · subst hkl
      rw [hget] at hu
      obtain rfl := Option.some.inj hu
      rcases hd with hd | hd
      · left; rw [h1, hng, hd]; simp
      · right; rw [h2, hng, hd]; simp
    · simp at hk
      rcases hI.needi k u (by omega) hng hu hd with h | h
      · exact Or.inl (m1 _ h)
      · exact Or.inr (m2 _ h)
  unfold clearStep
  simp only
  generalize hneq : (if (ng f && gradDependsIn (G.fn f) P.length) = true then v :: s.needG
    else s.needG) = needG
  generalize hoeq : (if (ng f && (G.fn f).overwriteIn P.length) = true then v :: s.over
    else s.over) = over'
  generalize hieq : (match (G.fn f).inplace P.length with
      | some o => match (G.fn f).outputs[o]? with
        | some w => v :: w :: s.inpl
        | none => v :: s.inpl
      | none => s.inpl) = inpl'
  obtain ⟨hn1, hn2, hn3⟩ := hneedi needG over' hneq.symm hoeq.symm
  have hin := hinpl inpl' hieq.symm
  refine ⟨?_, trivial, trivial, trivial, _, rfl, ?_⟩
  · constructor
    · intro u
      by_cases hu : u = v
      · subst hu
        simp only
        rw [hself]; simp [Nat.add_assoc]
      · simp only
        rw [checkLast_other hu, hI.seen u]
        congr 2
        rw [List.count_append]
        have : [v].count u = 0 := by
          rw [List.count_eq_zero]; simpa using hu
        omega
    · exact hin
    · intro g u hg hng hnd
      rcases hI.need g u hg hng hnd with h | h
      · exact Or.inl (hn2 _ h)
      · exact Or.inr (hn3 _ h)
    · intro o u hng ho hd
      exact hn2 _ (hI.needo o u hng ho hd)
    · exact hn1
  · intro hb
    by_cases hc : (checkLast G s.seen v).2 = true
    rotate_left
    · rw [if_pos (by simpa using hc)] at hb; cases hb
    by_cases hp : (G.fn f).prohibitClearInputs = true
    · simp [hc, hp] at hb
    by_cases hr : (decide (rank v = 0) || G.persistent v || ((G.fn f).inplace P.length).isSome ||
        G.prohibitClear v) = true
    · simp only [hc, hp, hr] at hb
      simp at hb
    by_cases hi : v ∈ inpl'
    · simp [hi] at hb
    rw [if_neg (by rw [hc]; simp), if_neg hp, if_neg hr, if_neg hi] at hb
    simp only [Bool.or_eq_true, decide_eq_true_eq, not_or, Bool.not_eq_true] at hr
    refine ⟨hget, hr.1.1.1, hr.1.1.2, hr.2, ?_, ?_, ?_, ?_⟩
    · rw [htake, List.count_append]
      have := hlast hc
      simp
      omega
    · intro g j o u hg hio hu
      have hg' : g ∈ Q ∨ (g = f ∧ j < (P ++ [v]).length) := by
        rcases hg with h | ⟨h1, h2⟩
        · exact Or.inl h
        · exact Or.inr ⟨h1, by simp; omega⟩
      have := hin g j o u hg' hio hu
      refine ⟨?_, ?_⟩
      · rintro rfl; exact hi this.1
      · rintro w hw rfl; exact hi (this.2 _ hw)
    · cases h1 : cfg.clearBuffer with
      | true => exact Or.inl rfl
      | false =>
        cases h2 : G.recompute v with
        | true => exact Or.inr (Or.inl rfl)
        | false =>
          cases h3 : cfg.clearNoNeedGrad with
          | true => exact Or.inr (Or.inr rfl)
          | false => rw [h1, h2, h3] at hb; simp at hb
    · intro h1 h2
      rw [h1, h2] at hb
      simp only [Bool.false_eq_true, if_false] at hb
      split at hb
      rotate_left
      · cases hb
      split at hb
      · cases hb
      rename_i hvn
      split at hb
      · cases hb
      rename_i hvo
      refine ⟨?_, ?_⟩
      · intro g hg hng hnd
        rcases hI.need g v hg hng hnd with h | h
        · exact hvn (hn2 _ h)
        · exact hvo (hn3 _ h)
      · intro hng
        refine ⟨?_, ?_⟩
        · intro o ho
          cases hd : gradDependsOut (G.fn f) o with
          | false => rfl
          | true => exact absurd (hn2 _ (hI.needo o v hng ho hd)) hvn
        · intro k hk hkv
          have := hn1 k v (by simp; omega) hng hkv
          constructor
          · cases hd : gradDependsIn (G.fn f) k with
            | false => rfl
            | true => rcases this (Or.inl hd) with h | h
                      · exact absurd h hvn
                      · exact absurd h hvo
          · cases hd : (G.fn f).overwriteIn k with
            | false => rfl
            | true => rcases this (Or.inr hd) with h | h
                      · exact absurd h hvn
                      · exact absurd h hvo

end Verif.Graph
