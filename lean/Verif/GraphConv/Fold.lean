/-
Model of batch_normalization_folding.py (python/src/nnabla/experimental/graph_converters) and
batch_normalization_self_folding.py on top of GraphConv.Model, over the reals.
-/
import Verif.GraphConv.Props
import Mathlib.Algebra.BigOperators.Group.Finset.Basic

namespace Verif.GraphConv.Fold
open Verif.GraphConv
open scoped BigOperators

/-- Tensors: activations (channel, position), weights (output map, tap), biases and batch normalization
parameters (channel, 0). -/
abbrev T := Nat → Nat → ℝ

/-- Function types: inner product layers (Convolution, and Deconvolution without groups, with weights
regrouped by output map) with K taps, where `patch x o k p` is the input element that tap k of output
map o meets at position p, 0 in the padding; BatchNormalization in test mode (batch_stat=False); any other. -/
inductive Fn where
  | ip (K : Nat) (patch : T → Nat → Nat → Nat → ℝ)
  | bn (eps : ℝ)
  | other (op : List T → List T)

/-- What an inner product layer computes (functions convolution.py documentation). -/
noncomputable def ipVal (K : Nat) (patch : T → Nat → Nat → Nat → ℝ) (x w b : T) : T :=
  fun o p => ∑ k ∈ Finset.range K, w o k * patch x o k p + b o 0

/-- What batch normalization computes in test mode (C105 `c105_global`). -/
noncomputable def bnVal (eps : ℝ) (x be ga me va : T) : T :=
  fun c p => ga c 0 * (x c p - me c 0) / √(va c 0 + eps) + be c 0

/-- The values of the functions. -/
noncomputable def sem : Fn → List T → List T
  | .ip K patch, [x, w, b] => [ipVal K patch x w b]
  | .ip K patch, [x, w] => [ipVal K patch x w fun _ _ => 0]
  | .bn eps, [x, be, ga, me, va] => [bnVal eps x be ga me va]
  | .other op, xs => op xs
  | _, _ => []

/-- `type_name in self._fct_set` (batch_normalization_folding.py:26-34). -/
def isIp : Fn → Bool
  | .ip _ _ => true
  | _ => false

/-- `type_name == 'BatchNormalization'`. -/
def isBn : Fn → Bool
  | .bn _ => true
  | _ => false

/-- The parameters created by the conversion, by scope: ('w-folded', 'b-folded'). -/
abbrev Reg := Nat → Option (T × T)

/-- The type of `variable.parent`; `none`: no parent. -/
def parentFn (G : Graph Fn) : Term Fn T → Option Fn
  | .app fn _ _ => some fn
  | .orig g _ => some (G.node g).fn
  | _ => none

/-- get_parameter_scope of a variable (graph_converter.py:37-53); scope 0 is the empty one. -/
def scopeOf (scope : Nat → Nat) : Term Fn T → Nat
  | .leaf n => scope n
  | _ => 0

/-- batch_normalization_folding.py:174-198: the folded weight (Convolution, Deconvolution). -/
noncomputable def foldW (eps : ℝ) (ga va w : T) : T := fun o k => ga o 0 / √(va o 0 + eps) * w o k

/-- The folded bias. -/
noncomputable def foldB (eps : ℝ) (be ga me va b : T) : T :=
  fun o _ => be o 0 - ga o 0 * me o 0 / √(va o 0 + eps) + ga o 0 / √(va o 0 + eps) * b o 0

/-- batch_normalization_folding.py:109-151: the part that folds `f` with the batch normalization `nx`.
`dat` is the data of the original variables.  get_parameter_or_create returns an existing parameter. -/
noncomputable def foldIp (G : Graph Fn) (dat : Var → T) (scope : Nat → Nat) (s : Reg) (f nx : Nat) (K : Nat) (patch : T → Nat → Nat → Nat → ℝ)
    (inputs : List (Term Fn T)) : Option (Reg × Option (Term Fn T)) :=
  match (G.node f).args, (G.node nx).fn, (G.node nx).args, inputs with
  | [_, w, b], .bn eps, [_, be, ga, me, va], x :: w' :: _ =>
    let key := scopeOf scope w'
    match s key with
    | some (wf, bf) => some (s, some (.app (.ip K patch) [x, .const wf, .const bf] 0))
    | none =>
      let wd := foldW eps (dat ga) (dat va) (dat w)
      let bd := foldB eps (dat be) (dat ga) (dat me) (dat va) (dat b)
      some (Function.update s key (some (wd, bd)), some (.app (.ip K patch) [x, .const wd, .const bd] 0))
  | _, _, _, _ => none

/-- batch_normalization_folding.py:109-151 `BatchNormalizationFoldingModifierInner.modify`. -/
noncomputable def foldMod (G : Graph Fn) (dat : Var → T) (scope : Nat → Nat) : Modify Fn T Reg := fun s f inputs =>
  match G.refs f 0 with
  | [] => some (s, none)
  | nx :: more =>
    match (G.node f).fn with
    | .bn _ => match inputs with
      | [] => none
      | x :: _ => match parentFn G x with
        | none => none
        | some p => if isIp p then some (s, some x) else some (s, none)
    | .ip K patch => if isBn (G.node nx).fn && more.isEmpty then foldIp G dat scope s f nx K patch inputs else some (s, none)
    | .other _ => some (s, none)

/-! ### Hypotheses -/

/-- An inner product layer `g` whose output is consumed by the batch normalization `f` only. -/
def Folded (G : Graph Fn) (g f : Nat) : Prop := isIp (G.node g).fn = true ∧ G.refs g 0 = [f] ∧ isBn (G.node f).fn = true

/-- The networks for which folding is right. -/
structure Foldable (G : Graph Fn) (scope : Nat → Nat) (fs : List Nat) (sink : Nat) : Prop where
  /-- every visited function has a visited consumer -/
  used : ∀ f ∈ fs, ∃ h ∈ fs ++ [sink], ∃ k, Var.out f k ∈ (G.node h).args
  sinkFn : ∃ op, (G.node sink).fn = .other op
  /-- a batch normalization normalises the output of a function and has parameters -/
  bnArgs : ∀ f ∈ fs, isBn (G.node f).fn = true → (G.node f).nout = 1 ∧
    ∃ g be ga me va, (G.node f).args = [.out g 0, .leaf be, .leaf ga, .leaf me, .leaf va]
  ipOut : ∀ f ∈ fs, isIp (G.node f).fn = true → (G.node f).nout = 1
  /-- the layer before a batch normalization has no other consumer -/
  single : ∀ f ∈ fs, ∀ g, isBn (G.node f).fn = true → Var.out g 0 ∈ (G.node f).args → isIp (G.node g).fn = true → G.refs g 0 = [f]
  /-- it has a weight and a bias -/
  ipArgs : ∀ g ∈ fs, ∀ f, Folded G g f → ∃ a w b, (G.node g).args = [a, .leaf w, .leaf b]
  /-- not layer → batch normalization → batch normalization -/
  nochain : ∀ f ∈ fs, ∀ g h, isBn (G.node f).fn = true → Var.out g 0 ∈ (G.node f).args → isBn (G.node g).fn = true →
    Var.out h 0 ∈ (G.node g).args → isIp (G.node h).fn = false
  /-- folded layers have their own parameter scopes -/
  scopes : ∀ g ∈ fs, ∀ g' ∈ fs, ∀ f f' a w b a' w' b', Folded G g f → Folded G g' f' → (G.node g).args = [a, .leaf w, .leaf b] →
    (G.node g').args = [a', .leaf w', .leaf b'] → scope w = scope w' → g = g'

/-- What a converted output stands for: the output of a folded layer has the value of the batch
normalization behind it. -/
def Good (G : Graph Fn) (env : Nat → T) (ov0 ov : Nat → Nat → T) (g k : Nat) (t : Term Fn T) : Prop :=
  (∃ f, Folded G g f ∧ eval sem env ov0 t = ov f 0 ∧ ∃ fn as j, t = .app fn as j ∧ isIp fn = true) ∨
  ((¬ ∃ f, Folded G g f) ∧ eval sem env ov0 t = ov g k ∧ ∃ fn as j, t = .app fn as j ∧ (isIp fn = true →
    isIp (G.node g).fn = true ∨ (isBn (G.node g).fn = true ∧ ∃ h, Var.out h 0 ∈ (G.node g).args ∧ isIp (G.node h).fn = true)))

/-- The algebra of folding. -/
theorem fold_val (K : Nat) (patch : T → Nat → Nat → Nat → ℝ) (eps : ℝ) (x w b be ga me va : T) :
    ipVal K patch x (foldW eps ga va w) (foldB eps be ga me va b) = bnVal eps (ipVal K patch x w b) be ga me va := by
  funext o p
  simp only [ipVal, foldW, foldB, bnVal]
  have : ∑ k ∈ Finset.range K, ga o 0 / √(va o 0 + eps) * w o k * patch x o k p =
      ga o 0 / √(va o 0 + eps) * ∑ k ∈ Finset.range K, w o k * patch x o k p := by
    rw [Finset.mul_sum]; exact Finset.sum_congr rfl fun k _ => by ring
  rw [this]
  ring

theorem good_inputs (G : Graph Fn) (env : Nat → T) (ov0 ov : Nat → Nat → T) (args : List Var) (ts : List (Term Fn T))
    (hno : ∀ g k, Var.out g k ∈ args → ¬ ∃ f, Folded G g f)
    (h : List.Forall₂ (Match (Good G env ov0 ov)) args ts) : evalAll sem env ov0 ts = args.map (valOf env ov) := by
  induction h with
  | nil => rw [evalAll]; rfl
  | @cons a t as ts h1 h2 ih =>
    rw [evalAll, ih fun g k hk => hno g k (List.mem_cons_of_mem _ hk), List.map_cons]
    congr 1
    cases a with
    | leaf n => rw [show t = .leaf n from h1, eval]; rfl
    | out g k =>
      rcases h1 with ⟨f, hf, -⟩ | ⟨-, h1, -⟩
      · exact absurd ⟨f, hf⟩ (hno g k List.mem_cons_self)
      · exact h1

theorem same_ok (G : Graph Fn) (env : Nat → T) (ov0 ov : Nat → Nat → T) (order : List Nat) (hfwd : IsForward sem env G order ov)
    (f : Nat) (hf : f ∈ order) (inputs : List (Term Fn T)) (hev : evalAll sem env ov0 inputs = (G.node f).args.map (valOf env ov))
    (hno : ¬ ∃ h, Folded G f h) (j : Nat) (t : Term Fn T) (hj : (outputsOf G f inputs none)[j]? = some t) (hlt : j < (G.node f).nout) :
    Good G env ov0 ov f j t := by
  simp only [outputsOf, List.getElem?_map, List.getElem?_range hlt, Option.map_some, Option.some.injEq] at hj
  subst hj
  refine Or.inr ⟨hno, ?_, _, _, _, rfl, fun h => Or.inl h⟩
  rw [eval, hev, hfwd f hf j hlt]

/-- C108.  On foldable networks, with no folded parameters left from an earlier conversion, folding
succeeds and keeps the values of all outputs.  (`ov0` is arbitrary: the new graph does not read inner
variables of the old one.) -/
theorem c108_fold_partial (G : Graph Fn) (scope : Nat → Nat) (env : Nat → T) (ov0 ov : Nat → Nat → T) (fs : List Nat) (sink : Nat)
    (wf : WF G (fs ++ [sink])) (sm : Simple G (fs ++ [sink])) (hnout : (G.node sink).nout = 1) (fo : Foldable G scope fs sink)
    (hfwd : IsForward sem env G (fs ++ [sink]) ov) :
    ∃ s ts, pass G (foldMod G (valOf env ov) scope) (fun _ => none) (fs ++ [sink]) = some (s, ts) ∧
      evalAll sem env ov0 ts = (G.node sink).args.map (valOf env ov) := by
  obtain ⟨sop, hsop⟩ := fo.sinkFn
  -- only batch normalizations consume folded layers
  have honly : ∀ f, isBn (G.node f).fn = false → ∀ g k, Var.out g k ∈ (G.node f).args → g ∈ fs → ¬ ∃ h, Folded G g h := by
    rintro f hf g k hk hg ⟨h, hip, hr, hbn⟩
    have hk1 := wf.outs f g k hk
    rw [fo.ipOut g hg hip] at hk1
    have hk0 : k = 0 := by omega
    subst hk0
    have := (wf.refs g 0 f).mpr hk
    rw [hr, List.mem_singleton] at this
    subst this
    rw [hf] at hbn; cases hbn
  have hmemfs : ∀ pre f post, fs ++ [sink] = pre ++ f :: post → ∀ g ∈ pre, g ∈ fs := by
    intro pre f post hs g hg
    rcases List.eq_nil_or_concat post with rfl | ⟨post', y, rfl⟩
    · have : fs = pre := by
        have := congrArg List.dropLast hs
        simpa using this
      rw [this]; exact hg
    · have : fs = pre ++ f :: post' := by
        rw [show pre ++ f :: post'.concat y = (pre ++ f :: post') ++ [y] by simp] at hs
        exact (List.append_inj' hs rfl).1
      rw [this]; exact List.mem_append_left _ hg
  have hrefs0 : ∀ f ∈ fs, (G.node f).nout = 1 → ∃ h ∈ fs ++ [sink], h ∈ G.refs f 0 := by
    intro f hf h1
    obtain ⟨h, hh, k, hk⟩ := fo.used f hf
    have := wf.outs h f k hk
    have hk0 : k = 0 := by omega
    subst hk0
    exact ⟨h, hh, (wf.refs f 0 h).mpr hk⟩
  have hcount : ∀ f inputs j, G.refs f j ≠ [] → j < (outputsOf G f inputs (none : Option (Term Fn T))).length := by
    intro f inputs j hj
    obtain ⟨h, hh⟩ := List.exists_mem_of_ne_nil _ hj
    simpa [outputsOf] using wf.outs h f j ((wf.refs f j h).mp hh)
  have hcount1 : ∀ f (t : Term Fn T) inputs, (G.node f).nout = 1 → ∀ j, G.refs f j ≠ [] → j < (outputsOf G f inputs (some t)).length := by
    intro f t inputs h1 j hj
    obtain ⟨h, hh⟩ := List.exists_mem_of_ne_nil _ hj
    have := wf.outs h f j ((wf.refs f j h).mp hh)
    simp [outputsOf]; omega
  have ok : StepOK G (fs ++ [sink]) (foldMod G (valOf env ov) scope) (Good G env ov0 ov)
      (fun pre s => ∀ key, s key ≠ none → ∃ g ∈ pre, g ∈ fs ∧ ∃ f a w b, Folded G g f ∧ (G.node g).args = [a, .leaf w, .leaf b] ∧ scope w = key) := by
    intro pre f post hs s inputs hI hin
    have hf : f ∈ fs ++ [sink] := by rw [hs]; simp
    have hpre : ∀ g k, Var.out g k ∈ (G.node f).args → g ∈ fs := fun g k hk => hmemfs pre f post hs g (wf.topo pre f post hs g k hk)
    have hI' : ∀ key, s key ≠ none → ∃ g ∈ pre ++ [f], g ∈ fs ∧ ∃ f a w b, Folded G g f ∧ (G.node g).args = [a, .leaf w, .leaf b] ∧ scope w = key :=
      fun key hk => by
        obtain ⟨g, h1, h2⟩ := hI key hk
        exact ⟨g, List.mem_append_left _ h1, h2⟩
    -- the case in which the function is recreated
    have hsame : isBn (G.node f).fn = false → (¬ ∃ h, Folded G f h) → foldMod G (valOf env ov) scope s f inputs = some (s, none) →
        ∃ s' o, foldMod G (valOf env ov) scope s f inputs = some (s', o) ∧
          (∀ key, s' key ≠ none → ∃ g ∈ pre ++ [f], g ∈ fs ∧ ∃ f a w b, Folded G g f ∧ (G.node g).args = [a, .leaf w, .leaf b] ∧ scope w = key) ∧
          (∀ j t, (outputsOf G f inputs o)[j]? = some t → j < (G.node f).nout → Good G env ov0 ov f j t) ∧
          ∀ j, G.refs f j ≠ [] → j < (outputsOf G f inputs o).length := by
      intro hb hno he
      refine ⟨s, none, he, hI', ?_, hcount f inputs⟩
      exact same_ok G env ov0 ov _ hfwd f hf inputs (good_inputs G env ov0 ov _ _ (fun g k hk => honly f hb g k hk (hpre g k hk)) hin) hno
    cases hfn : (G.node f).fn with
    | other op =>
      refine hsame (by rw [hfn]; rfl) ?_ ?_
      · rintro ⟨h, hip, -⟩; rw [hfn] at hip; cases hip
      · unfold foldMod; rw [hfn]; cases G.refs f 0 <;> rfl
    | bn eps =>
      have hffs : f ∈ fs := by
        rcases List.mem_append.mp hf with h | h
        · exact h
        · rw [List.mem_singleton.mp h, hsop] at hfn; cases hfn
      have hbn : isBn (G.node f).fn = true := by rw [hfn]; rfl
      obtain ⟨h1, g, be, ga, me, va, hargs⟩ := fo.bnArgs f hffs hbn
      obtain ⟨h, -, hr⟩ := hrefs0 f hffs h1
      obtain ⟨nx, more, hnx⟩ := List.exists_cons_of_ne_nil (List.ne_nil_of_mem hr)
      have hnofold : ¬ ∃ h, Folded G f h := by rintro ⟨h, hip, -⟩; rw [hfn] at hip; cases hip
      have hg0 : Var.out g 0 ∈ (G.node f).args := by rw [hargs]; exact List.mem_cons_self
      have hin' := hin
      rw [hargs] at hin'
      cases hin' with
      | @cons _ x _ rest hx hrest =>
        rcases hx with ⟨f', hf', hev, fn', as', j', rfl, hip⟩ | ⟨hnf, hev, fn', as', j', rfl, hip⟩
        · -- the layer before was folded: it already has this value
          have : f' = f := by
            have := fo.single f hffs g hbn hg0 hf'.1
            have h2 := hf'.2.1
            rw [this] at h2
            simpa using h2.symm
          subst this
          refine ⟨s, some _, ?_, hI', ?_, hcount1 _ (.app fn' as' j') _ h1⟩
          · unfold foldMod; simp only [hnx, hfn, parentFn, hip, if_true]
          · intro j t hj hlt
            have hj0 : j = 0 := by omega
            subst hj0
            simp only [outputsOf, List.getElem?_cons_zero, Option.some.injEq] at hj
            subst hj
            exact Or.inr ⟨hnofold, hev, _, _, _, rfl, fun _ => Or.inr ⟨hbn, g, hg0, hf'.1⟩⟩
        · have hgip : isIp (G.node g).fn = false := by
            by_contra hc
            rw [Bool.not_eq_false] at hc
            exact hnf ⟨f, hc, fo.single f hffs g hbn hg0 hc, hbn⟩
          have hfn' : isIp fn' = false := by
            by_contra hc
            rw [Bool.not_eq_false] at hc
            rcases hip hc with h | ⟨hb, h, hh, hhi⟩
            · rw [hgip] at h; cases h
            · rw [fo.nochain f hffs g h hbn hg0 hb hh] at hhi; cases hhi
          refine ⟨s, none, ?_, hI', ?_, hcount f _⟩
          · unfold foldMod; simp only [hnx, hfn, parentFn, hfn', Bool.false_eq_true, if_false]
          · refine same_ok G env ov0 ov _ hfwd f hf _ (good_inputs G env ov0 ov _ _ ?_ hin) hnofold
            intro g' k hk
            rw [hargs] at hk
            simp only [List.mem_cons, Var.out.injEq, reduceCtorEq, List.not_mem_nil, or_false] at hk
            rw [hk.1]
            exact hnf
    | ip K patch =>
      have hip : isIp (G.node f).fn = true := by rw [hfn]; rfl
      have hffs : f ∈ fs := by
        rcases List.mem_append.mp hf with h | h
        · exact h
        · rw [List.mem_singleton.mp h, hsop] at hfn; cases hfn
      have h1 := fo.ipOut f hffs hip
      obtain ⟨h, hmem, hr⟩ := hrefs0 f hffs h1
      obtain ⟨nx, more, hnx⟩ := List.exists_cons_of_ne_nil (List.ne_nil_of_mem hr)
      have hb : isBn (G.node f).fn = false := by rw [hfn]; rfl
      by_cases hc : isBn (G.node nx).fn = true ∧ more = []
      · obtain ⟨hbn, rfl⟩ := hc
        have hFold : Folded G f nx := ⟨hip, hnx, hbn⟩
        have hhn : h = nx := by rw [hnx, List.mem_singleton] at hr; exact hr
        rw [hhn] at hmem
        have hnfs : nx ∈ fs := by
          rcases List.mem_append.mp hmem with h | h
          · exact h
          · rw [List.mem_singleton.mp h, hsop] at hbn; cases hbn
        obtain ⟨a, w, b, hargs⟩ := fo.ipArgs f hffs nx hFold
        obtain ⟨hn1, g, be, ga, me, va, hnargs⟩ := fo.bnArgs nx hnfs hbn
        have hgf : g = f := by
          have : Var.out f 0 ∈ (G.node nx).args := (wf.refs f 0 nx).mp (by rw [hnx]; exact List.mem_cons_self)
          rw [hnargs] at this
          simp only [List.mem_cons, Var.out.injEq, reduceCtorEq, List.not_mem_nil, or_false] at this
          exact this.1.symm
        subst hgf
        obtain ⟨eps, heps⟩ : ∃ e, (G.node nx).fn = .bn e := by
          cases h : (G.node nx).fn with
          | bn e => exact ⟨e, rfl⟩
          | ip _ _ => rw [h] at hbn; cases hbn
          | other _ => rw [h] at hbn; cases hbn
        have hin' := hin
        rw [hargs] at hin'
        obtain ⟨x, w', b', rfl, hx, hw', hb'⟩ : ∃ x w' b', inputs = [x, w', b'] ∧ Match (Good G env ov0 ov) a x ∧ w' = Term.leaf w ∧ b' = Term.leaf b := by
          cases hin' with
          | cons e1 r1 =>
            cases r1 with
            | cons e2 r2 =>
              cases r2 with
              | cons e3 r3 => cases r3; exact ⟨_, _, _, rfl, e1, e2, e3⟩
        subst hw' hb'
        have hkey : s (scope w) = none := by
          by_contra hk
          obtain ⟨g', hg', hg'fs, f', a', w', b', hF', ha', hsc⟩ := hI _ hk
          have := fo.scopes g' hg'fs g hffs f' nx a' w' b' a w b hF' hFold ha' hargs hsc
          subst this
          have hnd := wf.nodup
          rw [hs] at hnd
          exact (List.nodup_append.mp hnd).2.2 g' hg' g' List.mem_cons_self rfl
        have hxv : eval sem env ov0 x = valOf env ov a := by
          have := good_inputs G env ov0 ov _ _ (fun g' k hk => honly g hb g' k hk (hpre g' k hk)) hin
          rw [hargs] at this
          simp only [evalAll, List.map_cons, List.cons.injEq] at this
          exact this.1
        refine ⟨Function.update s (scope w) (some (foldW eps (env ga) (env va) (env w), foldB eps (env be) (env ga) (env me) (env va) (env b))),
          some (.app (.ip K patch) [x, .const (foldW eps (env ga) (env va) (env w)), .const (foldB eps (env be) (env ga) (env me) (env va) (env b))] 0),
          ?_, ?_, ?_, hcount1 _ _ _ h1⟩
        · unfold foldMod
          simp only [hnx, hfn, hbn, List.isEmpty_nil, Bool.and_self, if_true]
          unfold foldIp
          simp only [hargs, heps, hnargs, scopeOf, hkey, valOf]
        · intro key hk
          by_cases e : key = scope w
          · exact ⟨g, by simp, hffs, nx, a, w, b, hFold, hargs, e.symm⟩
          · rw [Function.update_of_ne e] at hk
            exact hI' key hk
        · intro j t hj hlt
          have hj0 : j = 0 := by omega
          subst hj0
          simp only [outputsOf, List.getElem?_cons_zero, Option.some.injEq] at hj
          subst hj
          refine Or.inl ⟨nx, hFold, ?_, _, _, _, rfl, rfl⟩
          have hov : ov nx 0 = bnVal eps (ov g 0) (env be) (env ga) (env me) (env va) := by
            rw [hfwd nx (List.mem_append_left _ hnfs) 0 (by omega), heps, hnargs]
            simp [sem, valOf]
          have hog : ov g 0 = ipVal K patch (valOf env ov a) (env w) (env b) := by
            rw [hfwd g hf 0 (by omega), hfn, hargs]
            simp [sem, valOf]
          rw [hov, hog, ← fold_val]
          simp [eval, evalAll, sem, hxv]
      · refine hsame hb ?_ ?_
        · rintro ⟨h', -, hr', hb'⟩
          rw [hnx] at hr'
          simp only [List.cons.injEq] at hr'
          exact hc ⟨hr'.1 ▸ hb', hr'.2⟩
        · unfold foldMod
          simp only [hnx, hfn]
          rw [if_neg]
          intro hcc
          rw [Bool.and_eq_true, List.isEmpty_iff] at hcc
          exact hc hcc
  have hsink : ∀ s inputs s' o, foldMod G (valOf env ov) scope s sink inputs = some (s', o) → o = none := by
    intro s inputs s' o h
    unfold foldMod at h
    rw [hsop] at h
    cases hr : G.refs sink 0 with
    | nil => rw [hr] at h; simp only [Option.some.injEq, Prod.mk.injEq] at h; exact h.2.symm
    | cons a b => rw [hr] at h; simp only [Option.some.injEq, Prod.mk.injEq] at h; exact h.2.symm
  obtain ⟨s', ts, p1, -, p3⟩ := pass_good G fs sink wf sm _ ok (fun _ => none) (fun key h => absurd rfl h) hnout hsink
  refine ⟨s', ts, p1, good_inputs G env ov0 ov _ _ (fun g k hk => ?_) p3⟩
  exact honly sink (by rw [hsop]; rfl) g k hk (wf.topo fs sink [] (by simp) g k hk)

end Verif.GraphConv.Fold
