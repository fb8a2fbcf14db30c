/-
C107: converting a graph with function-wise modifiers.
-/
import Verif.GraphConv.Lemmas

namespace Verif.GraphConv
variable {Fn V S : Type}

/-! ### Specification -/

/-- The data of a variable. -/
def valOf (env : Nat → V) (ov : Nat → Nat → V) : Var → V
  | .leaf n => env n
  | .out f k => ov f k

/-- `ov` are the data of the inner variables after a forward of the functions. -/
def IsForward [Inhabited V] (sem : Fn → List V → List V) (env : Nat → V) (G : Graph Fn) (order : List Nat) (ov : Nat → Nat → V) : Prop :=
  ∀ f ∈ order, ∀ k < (G.node f).nout, ov f k = (sem (G.node f).fn ((G.node f).args.map (valOf env ov))).getD k default

/-- Every visited function other than the sink was reached from one of its outputs. -/
def Used (G : Graph Fn) (fs : List Nat) : Prop := ∀ f ∈ fs, ∃ k < (G.node f).nout, G.refs f k ≠ []

/-! ### Proofs -/

theorem evalAll_map [Inhabited V] (sem : Fn → List V → List V) (env : Nat → V) (ov : Nat → Nat → V) (ts : List (Term Fn V)) :
    evalAll sem env ov ts = ts.map (eval sem env ov) := by
  induction ts with
  | nil => rw [evalAll]; rfl
  | cons t ts ih => rw [evalAll, ih]; rfl

/-- Converted inputs that evaluate to given values. -/
theorem match_eval [Inhabited V] (sem : Fn → List V → List V) (env env' : Nat → V) (ov ov' : Nat → Nat → V) (args : List Var) (ts : List (Term Fn V))
    (hl : ∀ n, Var.leaf n ∈ args → env n = env' n)
    (h : List.Forall₂ (Match fun g k t => eval sem env ov t = ov' g k) args ts) :
    evalAll sem env ov ts = args.map (valOf env' ov') := by
  induction h with
  | nil => rw [evalAll]; rfl
  | @cons a t as ts h1 h2 ih =>
    rw [evalAll, ih fun n hn => hl n (List.mem_cons_of_mem _ hn), List.map_cons]
    congr 1
    cases a with
    | leaf n => rw [show t = .leaf n from h1, eval]; exact hl n List.mem_cons_self
    | out g k => exact h1

/-- The modifiers that replace functions one by one: `sem'` is what the functions should compute after
the conversion, `env'` the data of the leaves. -/
theorem local_pass [Inhabited V] (sem sem' : Fn → List V → List V) (env : Nat → V) (env' : Nat → V) (ov ov' : Nat → Nat → V)
    (G : Graph Fn) (fs : List Nat) (sink : Nat) (wf : WF G (fs ++ [sink])) (sm : Simple G (fs ++ [sink])) (hnout : (G.node sink).nout = 1)
    (mod : Modify Fn V Unit) (hfwd : IsForward sem' env' G (fs ++ [sink]) ov')
    (hsinkleaf : ∀ n, Var.leaf n ∈ (G.node sink).args → env n = env' n)
    (hsink : ∀ s inputs s' o, mod s sink inputs = some (s', o) → o = none)
    (hmod : ∀ f ∈ fs ++ [sink], ∀ inputs, List.Forall₂ (Match fun g k t => eval sem env ov t = ov' g k) (G.node f).args inputs →
      (mod () f inputs = some ((), none) ∧ sem (G.node f).fn (evalAll sem env ov inputs) = sem' (G.node f).fn ((G.node f).args.map (valOf env' ov'))) ∨
      ∃ t, mod () f inputs = some ((), some t) ∧ (∀ k, G.refs f k ≠ [] → k = 0) ∧
        eval sem env ov t = (sem' (G.node f).fn ((G.node f).args.map (valOf env' ov'))).getD 0 default) :
    ∃ ts, pass G mod () (fs ++ [sink]) = some ((), ts) ∧ evalAll sem env ov ts = (G.node sink).args.map (valOf env' ov') := by
  have ok : StepOK G (fs ++ [sink]) mod (fun g k t => eval sem env ov t = ov' g k) (fun _ _ => True) := by
    intro pre f post hs s inputs _ hin
    have hf : f ∈ fs ++ [sink] := by rw [hs]; simp
    rcases hmod f hf inputs hin with ⟨h1, h2⟩ | ⟨t, h1, h2, h3⟩
    · refine ⟨(), none, h1, trivial, ?_, ?_⟩
      · intro j t hj hlt
        simp only [outputsOf, List.getElem?_map, List.getElem?_range hlt, Option.map_some, Option.some.injEq] at hj
        subst hj
        rw [eval, h2, hfwd f hf j hlt]
      · intro j hj
        obtain ⟨h, hh⟩ := List.exists_mem_of_ne_nil _ hj
        simpa [outputsOf] using wf.outs h f j ((wf.refs f j h).mp hh)
    · refine ⟨(), some t, h1, trivial, ?_, ?_⟩
      · intro j t' hj hlt
        cases j with
        | zero =>
          simp only [outputsOf, List.getElem?_cons_zero, Option.some.injEq] at hj
          subst hj
          rw [h3, hfwd f hf 0 hlt]
        | succ j => simp [outputsOf] at hj
      · intro j hj
        rw [h2 j hj]; simp [outputsOf]
  obtain ⟨s', ts, p1, -, p3⟩ := pass_good G fs sink wf sm mod ok () trivial hnout hsink
  refine ⟨ts, p1, match_eval sem env env' ov ov' _ ts hsinkleaf p3⟩

/-- C107, base class (and every modifier whose `modify` returns None; NoGradModifier): the conversion
succeeds and the new outputs have the values of the old ones.  `ov` (here and below) is arbitrary: the new graph
does not read the inner variables of the old one. -/
theorem c107_same_partial [Inhabited V] (sem : Fn → List V → List V) (env : Nat → V) (ov ov' : Nat → Nat → V)
    (G : Graph Fn) (fs : List Nat) (sink : Nat) (wf : WF G (fs ++ [sink])) (sm : Simple G (fs ++ [sink])) (hnout : (G.node sink).nout = 1)
    (hfwd : IsForward sem env G (fs ++ [sink]) ov') :
    ∃ ts, pass G sameMod () (fs ++ [sink]) = some ((), ts) ∧ evalAll sem env ov ts = (G.node sink).args.map (valOf env ov') := by
  refine local_pass sem sem env env ov ov' G fs sink wf sm hnout sameMod hfwd (fun _ _ => rfl) ?_ ?_
  · intro s inputs s' o h
    simp only [sameMod, Option.some.injEq, Prod.mk.injEq] at h
    exact h.2.symm
  · intro f hf inputs hin
    exact Or.inl ⟨rfl, by rw [match_eval sem env env ov ov' _ _ (fun _ _ => rfl) hin]⟩

/-- C107, IdentityModifier with replaced inputs: if replaced leaves occur as first inputs only (of
functions with one output, not directly as an output of the graph), the new outputs have the values
of the old graph on the replacements. -/
theorem c107_identity_partial [Inhabited V] (sem : Fn → List V → List V) (env : Nat → V) (ov ov' : Nat → Nat → V) (d : Nat → Option Nat)
    (G : Graph Fn) (fs : List Nat) (sink : Nat) (wf : WF G (fs ++ [sink])) (sm : Simple G (fs ++ [sink])) (hnout : (G.node sink).nout = 1)
    (hfwd : IsForward sem (fun n => env ((d n).getD n)) G (fs ++ [sink]) ov')
    (hsinkleaf : ∀ n, Var.leaf n ∈ (G.node sink).args → d n = none)
    (hfirst : ∀ f ∈ fs, ∀ n, Var.leaf n ∈ (G.node f).args.tail → d n = none)
    (hone : ∀ f ∈ fs, ∀ n r, (G.node f).args.head? = some (Var.leaf n) → d n = some r → (G.node f).nout = 1) :
    ∃ ts, pass G (identityMod G d) () (fs ++ [sink]) = some ((), ts) ∧
      evalAll sem env ov ts = (G.node sink).args.map (valOf (fun n => env ((d n).getD n)) ov') := by
  have hns : ∀ n, Var.leaf n ∈ (G.node sink).args → env n = env ((d n).getD n) := fun n hn => by rw [hsinkleaf n hn]; rfl
  refine local_pass sem sem env _ ov ov' G fs sink wf sm hnout _ hfwd hns ?_ ?_
  · intro s inputs s' o h
    unfold identityMod at h
    cases inputs with
    | nil => simp at h
    | cons t rest =>
      cases t <;> simp only [Option.some.injEq, Prod.mk.injEq] at h
      case leaf n =>
        cases ha : (G.node sink).args with
        | nil => rw [ha] at h; simp only [Option.some.injEq, Prod.mk.injEq] at h; exact h.2.symm
        | cons a as =>
          rw [ha] at h
          cases a with
          | leaf n =>
            have := hsinkleaf n (by rw [ha]; exact List.mem_cons_self)
            simp only [this, Option.some.injEq, Prod.mk.injEq] at h
            exact h.2.symm
          | out g k => simp only [Option.some.injEq, Prod.mk.injEq] at h; exact h.2.symm
      all_goals exact h.2.symm
  · intro f hf inputs hin
    have hnone : (∀ n, Var.leaf n ∈ (G.node f).args → d n = none) → identityMod G d () f inputs = some ((), none) →
        (identityMod G d () f inputs = some ((), none) ∧
          sem (G.node f).fn (evalAll sem env ov inputs) = sem (G.node f).fn ((G.node f).args.map (valOf (fun n => env ((d n).getD n)) ov'))) := by
      intro hd he
      refine ⟨he, ?_⟩
      rw [match_eval sem env (fun n => env ((d n).getD n)) ov ov' _ _ (fun n hn => by rw [hd n hn]; rfl) hin]
    cases ha : (G.node f).args with
    | nil => exact absurd ha (sm.ins f hf)
    | cons a as =>
      cases inputs with
      | nil => rw [ha] at hin; cases hin
      | cons t rest =>
        have htail : ∀ n, Var.leaf n ∈ as → d n = none := by
          intro n hn
          rcases List.mem_append.mp hf with h | h
          · exact hfirst f h n (by rw [ha]; exact hn)
          · rw [List.mem_singleton.mp h] at ha
            exact hsinkleaf n (by rw [ha]; exact List.mem_cons_of_mem _ hn)
        rw [ha] at hin hnone
        cases hin with
        | cons h1 h2 =>
          cases a with
          | out g k =>
            left
            refine hnone ?_ ?_
            · intro n hn
              rcases List.mem_cons.mp hn with h | h
              · cases h
              · exact htail n h
            · unfold identityMod
              rw [ha]
              cases t <;> rfl
          | leaf n =>
            have ht : t = .leaf n := h1
            subst ht
            cases hd : d n with
            | none =>
              left
              refine hnone ?_ ?_
              · intro n' hn
                rcases List.mem_cons.mp hn with h | h
                · cases h; exact hd
                · exact htail n' h
              · simp only [identityMod, ha, hd]
            | some r =>
              right
              have hfs : f ∈ fs := by
                rcases List.mem_append.mp hf with h | h
                · exact h
                · rw [List.mem_singleton.mp h] at ha
                  have := hsinkleaf n (by rw [ha]; exact List.mem_cons_self)
                  rw [hd] at this; cases this
              have h1out := hone f hfs n r (by rw [ha]; rfl) hd
              refine ⟨.app (G.node f).fn (.leaf r :: rest) 0, ?_, ?_, ?_⟩
              · simp only [identityMod, ha, hd, if_pos h1out]
              · intro k hk
                obtain ⟨h, hh⟩ := List.exists_mem_of_ne_nil _ hk
                have := wf.outs h f k ((wf.refs f k h).mp hh)
                omega
              · rw [eval, evalAll, match_eval sem env (fun n => env ((d n).getD n)) ov ov' as rest
                  (fun n hn => by rw [htail n hn]; rfl) h2, List.map_cons]
                simp only [eval, valOf, hd, Option.getD_some]

/-- C107, RemoveFunctionModifier: the new outputs have the values of the network in which the removed
functions pass their first input on. -/
theorem c107_remove_partial [Inhabited V] (sem : Fn → List V → List V) (env : Nat → V) (ov ov' : Nat → Nat → V) (rm : Fn → Bool)
    (G : Graph Fn) (fs : List Nat) (sink : Nat) (wf : WF G (fs ++ [sink])) (sm : Simple G (fs ++ [sink])) (hnout : (G.node sink).nout = 1)
    (used : Used G fs)
    (hfwd : IsForward (fun fn xs => if rm fn then xs.take 1 else sem fn xs) env G (fs ++ [sink]) ov')
    (hrm : ∀ f ∈ fs, rm (G.node f).fn = true → (G.node f).nout = 1) (hsk : rm (G.node sink).fn = false) :
    ∃ ts, pass G (removeMod G rm) () (fs ++ [sink]) = some ((), ts) ∧ evalAll sem env ov ts = (G.node sink).args.map (valOf env ov') := by
  refine local_pass sem _ env env ov ov' G fs sink wf sm hnout _ hfwd (fun _ _ => rfl) ?_ ?_
  · intro s inputs s' o h
    simp only [removeMod, hsk, Bool.false_eq_true, if_false, Option.some.injEq, Prod.mk.injEq] at h
    exact h.2.symm
  · intro f hf inputs hin
    have hev := match_eval sem env env ov ov' _ _ (fun _ _ => rfl) hin
    cases hr : rm (G.node f).fn with
    | false => exact Or.inl ⟨by simp [removeMod, hr], by simp only [hev, Bool.false_eq_true, if_false]⟩
    | true =>
      right
      have hfs : f ∈ fs := by
        rcases List.mem_append.mp hf with h | h
        · exact h
        · rw [List.mem_singleton.mp h, hsk] at hr; cases hr
      obtain ⟨k, hk, hrefs⟩ := used f hfs
      have hk0 : k = 0 := by have := hrm f hfs hr; omega
      subst hk0
      obtain ⟨x, xs, hx⟩ := List.exists_cons_of_ne_nil hrefs
      cases inputs with
      | nil =>
        have := List.Forall₂.length_eq hin
        exact absurd (List.length_eq_zero_iff.mp this) (sm.ins f hf)
      | cons t rest =>
        refine ⟨t, by simp [removeMod, hr, hx], ?_, ?_⟩
        · intro k hk
          obtain ⟨h, hh⟩ := List.exists_mem_of_ne_nil _ hk
          have := wf.outs h f k ((wf.refs f k h).mp hh)
          have := hrm f hfs hr
          omega
        · rw [← hev, evalAll]; simp

/-- C107, BatchNormBatchStatModifier (the first half of TestModeModifier): the new outputs have the
values of the network in which the chosen functions have the changed arguments. -/
theorem c107_retype_partial [Inhabited V] (sem : Fn → List V → List V) (env : Nat → V) (ov ov' : Nat → Nat → V) (chg : Fn → Option Fn)
    (G : Graph Fn) (fs : List Nat) (sink : Nat) (wf : WF G (fs ++ [sink])) (sm : Simple G (fs ++ [sink])) (hnout : (G.node sink).nout = 1)
    (hfwd : IsForward (fun fn xs => sem ((chg fn).getD fn) xs) env G (fs ++ [sink]) ov')
    (hc : ∀ f ∈ fs, chg (G.node f).fn ≠ none → (G.node f).nout = 1) (hsk : chg (G.node sink).fn = none) :
    ∃ ts, pass G (retypeMod G chg) () (fs ++ [sink]) = some ((), ts) ∧ evalAll sem env ov ts = (G.node sink).args.map (valOf env ov') := by
  refine local_pass sem _ env env ov ov' G fs sink wf sm hnout _ hfwd (fun _ _ => rfl) ?_ ?_
  · intro s inputs s' o h
    simp only [retypeMod, hsk, Option.some.injEq, Prod.mk.injEq] at h
    exact h.2.symm
  · intro f hf inputs hin
    have hev := match_eval sem env env ov ov' _ _ (fun _ _ => rfl) hin
    cases hr : chg (G.node f).fn with
    | none => exact Or.inl ⟨by simp [retypeMod, hr], by simp only [hev, Option.getD_none]⟩
    | some fn' =>
      right
      have hfs : f ∈ fs := by
        rcases List.mem_append.mp hf with h | h
        · exact h
        · rw [List.mem_singleton.mp h, hsk] at hr; cases hr
      refine ⟨.app fn' inputs 0, by simp [retypeMod, hr], ?_, ?_⟩
      · intro k hk
        obtain ⟨h, hh⟩ := List.exists_mem_of_ne_nil _ hk
        have := wf.outs h f k ((wf.refs f k h).mp hh)
        have := hc f hfs (by rw [hr]; simp)
        omega
      · rw [eval, hev]; rfl

/-! ### Examples -/

/-- Toy functions on integers: `(0, c)` multiplies its first input by c, `(1, _)` adds two inputs,
`(2, _)` returns its input and its negation, `(3, _)` is the sink, `(4, c)` is the constant c. -/
def toySem (fn : Nat × Int) (xs : List Int) : List Int := match fn.1, xs with
  | 0, x :: _ => [fn.2 * x]
  | 1, x :: y :: _ => [x + y]
  | 2, x :: _ => [x, -x]
  | 4, _ => [fn.2]
  | _, _ => []

/-- x → 3x → (h, -h); -h + h → sink. -/
def exGraph : Graph (Nat × Int) where
  node f := match f with
    | 0 => ⟨(0, 3), [.leaf 0], 1⟩
    | 1 => ⟨(2, 0), [.out 0 0], 2⟩
    | 2 => ⟨(1, 0), [.out 1 0, .out 1 1], 1⟩
    | 3 => ⟨(1, 0), [.out 2 0, .leaf 1], 1⟩
    | 4 => ⟨(3, 0), [.out 3 0], 1⟩
    | _ => ⟨(3, 0), [], 0⟩
  refs f k := match f, k with
    | 0, 0 => [1]
    | 1, 0 => [2]
    | 1, 1 => [2]
    | 2, 0 => [3]
    | 3, 0 => [4]
    | _, _ => []

theorem exGraph_wf : WF exGraph [0, 1, 2, 3, 4] where
  nodup := by decide
  topo := by
    intro pre f post h g k hm
    have hlen := congrArg List.length h
    simp only [List.length_append, List.length_cons, List.length_nil] at hlen
    match pre, hlen with
    | [], _ => simp at h; obtain ⟨rfl, -⟩ := h; simp [exGraph] at hm
    | [_], _ => simp at h; obtain ⟨rfl, rfl, -⟩ := h; simp [exGraph] at hm; simp [hm.1]
    | [_, _], _ => simp at h; obtain ⟨rfl, rfl, rfl, -⟩ := h; simp [exGraph] at hm; rcases hm with hm | hm <;> simp [hm.1]
    | [_, _, _], _ => simp at h; obtain ⟨rfl, rfl, rfl, rfl, -⟩ := h; simp [exGraph] at hm; simp [hm.1]
    | [_, _, _, _], _ => simp at h; obtain ⟨rfl, rfl, rfl, rfl, rfl, -⟩ := h; simp [exGraph] at hm; simp [hm.1]
    | _ :: _ :: _ :: _ :: _ :: _, hl => simp at hl; omega
  outs := by
    intro h g k hm
    match h, hm with
    | 0, hm => simp [exGraph] at hm
    | 1, hm => simp [exGraph] at hm; obtain ⟨rfl, rfl⟩ := hm; decide
    | 2, hm => simp [exGraph] at hm; rcases hm with ⟨rfl, rfl⟩ | ⟨rfl, rfl⟩ <;> decide
    | 3, hm => simp [exGraph] at hm; obtain ⟨rfl, rfl⟩ := hm; decide
    | 4, hm => simp [exGraph] at hm; obtain ⟨rfl, rfl⟩ := hm; decide
    | h + 5, hm => simp [exGraph] at hm
  refs := by
    intro g k h
    match h with
    | 0 => simp only [exGraph]; split <;> simp
    | 1 => simp only [exGraph]; split <;> simp_all
    | 2 => simp only [exGraph]; split <;> simp_all
    | 3 => simp only [exGraph]; split <;> simp_all
    | 4 => simp only [exGraph]; split <;> simp_all
    | h + 5 => simp only [exGraph]; split <;> simp

theorem exGraph_simple : Simple exGraph [0, 1, 2, 3, 4] where
  ins := by decide
  gap := by
    intro f hf k k' hk h
    simp only [List.mem_cons, List.not_mem_nil, or_false] at hf
    rcases hf with rfl | rfl | rfl | rfl | rfl
    all_goals
      rcases k' with _ | _ | k'
      · omega
      · have : k = 0 := by omega
        subst this
        first | rfl | (simp [exGraph] at h)
      · rfl

/-- The hypotheses are met: x = 5, the second leaf 7. -/
example : IsForward toySem (fun n => if n = 0 then 5 else 7) exGraph [0, 1, 2, 3, 4]
    (fun f k => match f, k with
      | 0, _ => 15
      | 1, 0 => 15
      | 1, _ => -15
      | 2, _ => 0
      | 3, _ => 7
      | _, _ => 0) := by
  unfold IsForward
  decide

example : Used exGraph [0, 1, 2, 3] := by
  intro f hf
  refine ⟨0, ?_⟩
  revert f
  decide

/-- The replaced leaf 0 occurs as a first input only. -/
example : (∀ f ∈ [0, 1, 2, 3], ∀ n, Var.leaf n ∈ (exGraph.node f).args.tail → (fun n => if n = 0 then some 9 else none : Nat → Option Nat) n = none) := by
  intro f hf n hn
  simp only [List.mem_cons, List.not_mem_nil, or_false] at hf
  rcases hf with rfl | rfl | rfl | rfl <;> simp [exGraph] at hn
  simp [hn]

/-! ### Refutations of the unrestricted claim -/

/-- A function without inputs (a constant or a random source). -/
def noInput : Graph (Nat × Int) where
  node f := match f with
    | 0 => ⟨(4, 3), [], 1⟩
    | 1 => ⟨(3, 0), [.out 0 0], 1⟩
    | _ => ⟨(3, 0), [], 0⟩
  refs f k := match f, k with
    | 0, 0 => [1]
    | _, _ => []

/-- A graph with a function that has no inputs cannot be converted (`f.inputs[0]` raises). -/
theorem c107_refuted_no_inputs : (pass (V := Int) noInput sameMod () [0, 1]).isNone = true := by rfl

/-- The first output of a function is not used, the second is the only input of the next function. -/
def unusedFirst : Graph (Nat × Int) where
  node f := match f with
    | 0 => ⟨(2, 0), [.leaf 0], 2⟩
    | 1 => ⟨(0, 3), [.out 0 1], 1⟩
    | 2 => ⟨(3, 0), [.out 1 0], 1⟩
    | _ => ⟨(3, 0), [], 0⟩
  refs f k := match f, k with
    | 0, 1 => [1]
    | 1, 0 => [2]
    | _, _ => []

/-- Such a graph cannot be converted: the `return` skips the second output. -/
theorem c107_refuted_unused_output : (pass (V := Int) unusedFirst sameMod () [0, 1, 2]).isNone = true := by rfl

/-- h = 3x; (a, b) = split h with a unused; h + b. -/
def staleBranch : Graph (Nat × Int) where
  node f := match f with
    | 0 => ⟨(0, 3), [.leaf 0], 1⟩
    | 1 => ⟨(2, 0), [.out 0 0], 2⟩
    | 2 => ⟨(1, 0), [.out 0 0, .out 1 1], 1⟩
    | 3 => ⟨(3, 0), [.out 2 0], 1⟩
    | _ => ⟨(3, 0), [], 0⟩
  refs f k := match f, k with
    | 0, 0 => [1, 2]
    | 1, 1 => [2]
    | 2, 0 => [3]
    | _, _ => []

/-- With another input connected the conversion silently keeps the old branch: changing the factor 3
to 4 should give 4x - 4x = 0, but gives 4x - 3x. -/
theorem c107_refuted_stale_branch :
    (pass (V := Int) staleBranch (retypeMod staleBranch fun fn => if fn.1 = 0 then some (0, 4) else none) () [0, 1, 2, 3]).map
      (fun r => evalAll toySem (fun _ => 5) (fun f k => if f = 0 then 15 else if f = 1 then (if k = 0 then 15 else -15) else 0) r.2) = some [5] := by rfl

/-- c + x with the leaf x second. -/
def secondInput : Graph (Nat × Int) where
  node f := match f with
    | 0 => ⟨(1, 0), [.leaf 1, .leaf 0], 1⟩
    | 1 => ⟨(3, 0), [.out 0 0], 1⟩
    | _ => ⟨(3, 0), [], 0⟩
  refs f k := match f, k with
    | 0, 0 => [1]
    | _, _ => []

/-- IdentityModifier({x: x'}) does not replace x where it is a second input: with x = 5, x' = 50 and
c = 7 the result is 12, not 57. -/
theorem c107_refuted_second_input :
    (pass (V := Int) secondInput (identityMod secondInput fun n => if n = 0 then some 2 else none) () [0, 1]).map
      (fun r => evalAll toySem (fun n => if n = 0 then 5 else if n = 2 then 50 else 7) (fun _ _ => 0) r.2) = some [12] := by rfl

end Verif.GraphConv
