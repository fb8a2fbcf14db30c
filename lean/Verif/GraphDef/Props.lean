import Verif.GraphDef.Traverse
import Mathlib.Data.List.Perm.Basic
import Mathlib.Data.List.Perm.Subperm
import Mathlib.Data.List.Induction

/-!
# C112, C113, C114: traversing, calling, and saving and loading a proto network
-/

namespace Verif.GraphDef

/-- The loaded network after the user has set some `stop` flags. -/
def Net.withStops (N : Net) (stopped : String → Bool) : Net :=
  { N with node := fun v => { N.node v with stop := stopped v } }

theorem Wired.withStops {p : Proto} {N : Net} (h : Wired p N) (st : String → Bool) :
    Wired p (N.withStops st) := ⟨h.varKeys, h.fnKeys, h.fn, h.parent, h.required⟩

theorem all_evaluated {p : Proto} {N : Net} (hp : WF p) (hw : Wired p N) (hac : Acyclic p) :
    ∃ s, Reach N N.start s ∧ s.stack = [] ∧ Inv p N s ∧
      ∀ f ∈ p.functions, ∀ v ∈ f.outputs, v ∈ s.evaluated := by
  obtain ⟨rank, hr⟩ := hac
  have hlist : ∀ vs : List String, ∃ gs : List PFn,
      (∀ g ∈ gs, g ∈ p.functions) ∧
      (∀ v ∈ vs, ∀ g, Produces p g v → g ∈ gs) ∧
      vs.filterMap (fun v => (N.node v).parent) = gs.map PFn.name := by
    intro vs
    induction vs with
    | nil => exact ⟨[], by simp, by simp, rfl⟩
    | cons v vs ih =>
      obtain ⟨gs, h1, h2, h3⟩ := ih
      cases hpar : (N.node v).parent with
      | none =>
        refine ⟨gs, h1, ?_, by rw [List.filterMap_cons, hpar]; exact h3⟩
        intro w hw' g hg
        rw [List.mem_cons] at hw'
        rcases hw' with rfl | hw'
        · rw [parent_of_produces hw hg] at hpar; cases hpar
        · exact h2 w hw' g hg
      | some n =>
        obtain ⟨g0, hg0, he⟩ := produces_of_parent hw hpar
        refine ⟨g0 :: gs, ?_, ?_, by rw [List.filterMap_cons, hpar]; simp [h3, he]⟩
        · intro g hg; rw [List.mem_cons] at hg
          rcases hg with rfl | hg
          · exact hg0.1
          · exact h1 g hg
        · intro w hw' g hg
          rw [List.mem_cons] at hw'
          rcases hw' with rfl | hw'
          · rw [producer_unique hp hg hg0]; simp
          · exact List.mem_cons_of_mem _ (h2 w hw' g hg)
  obtain ⟨gs, g1, g2, g3⟩ := hlist N.outputs
  have hst : N.start.stack = gs.reverse.map PFn.name ++ [] := by
    show (N.outputs.filterMap fun o => (N.node o).parent).reverse = _
    rw [g3]; simp
  obtain ⟨s, r, k, i, _, o⟩ := clears_list gs.reverse
    (fun g hg => clears_all hp hw rank hr (rank g + 1) g (by omega)
      (g1 g (List.mem_reverse.mp hg))) N.start [] hst (inv_start hp hw)
  refine ⟨s, r, k, i, ?_⟩
  -- every function leads to an output of the network
  obtain ⟨M, hM⟩ : ∃ M, ∀ f ∈ p.functions, rank f ≤ M := by
    have hb : ∀ l : List PFn, ∃ M, ∀ f ∈ l, rank f ≤ M := by
      intro l
      induction l with
      | nil => exact ⟨0, by simp⟩
      | cons a l ihl =>
        obtain ⟨M, hM⟩ := ihl
        refine ⟨max M (rank a), fun f hf => ?_⟩
        rw [List.mem_cons] at hf
        rcases hf with rfl | hf
        · exact Nat.le_max_right _ _
        · exact Nat.le_trans (hM f hf) (Nat.le_max_left _ _)
    exact hb p.functions
  have key : ∀ d f, M - rank f < d → f ∈ p.functions → ∀ v ∈ f.outputs, v ∈ s.evaluated := by
    intro d
    induction d with
    | zero => intro f h; omega
    | succ d ih =>
      intro f hd hf
      obtain ⟨v, hv⟩ := List.exists_mem_of_ne_nil _ (hp.outNonempty f hf)
      have hev : v ∈ s.evaluated := by
        cases hreq : (N.node v).required with
        | nil =>
          have hkey : v ∈ N.varKeys := by
            rw [hw.varKeys]
            exact List.mem_map.mpr ⟨⟨v, false⟩, List.mem_filter.mpr ⟨hp.outDecl f hf v hv, rfl⟩, rfl⟩
          have hout : v ∈ N.outputs := by
            refine List.mem_filter.mpr ⟨hkey, ?_⟩
            rw [hreq, parent_of_produces hw ⟨hf, hv⟩]; rfl
          exact o f (List.mem_reverse.mpr (g2 v hout f ⟨hf, hv⟩)) v hv
        | cons n ns =>
          obtain ⟨g, hg, _, hgv⟩ := (hw.required v n).mp (by rw [hreq]; simp)
          have hlt := hr f g v ⟨hf, hv⟩ hg hgv
          have hgM := hM g hg
          have hgo := ih g (by omega) hg
          obtain ⟨w, hwg⟩ := List.exists_mem_of_ne_nil _ (hp.outNonempty g hg)
          exact i.closed g w v f ⟨hg, hwg⟩ (hgo w hwg) hgv ⟨hf, hv⟩
      exact fun w hwf => i.together f v w ⟨hf, hv⟩ hev hwf
  exact fun f hf => key (M - rank f + 1) f (by omega) hf

/-- **C112.** Every acyclic network loads, and - whatever stop flags are then set - its traversal
ends, and the sequence of functions it visits contains each function at most once, contains exactly
the functions which are not downstream of a stopped variable, and has each of them after the
producers of all its inputs. -/
theorem c112_traversal (p : Proto) (hp : WF p) (hac : Acyclic p) (stopped : String → Bool) :
    ∃ N, fromProto p = some N ∧ ∃ fs, (N.withStops stopped).ForwardSequence fs ∧
      fs.Nodup ∧
      (∀ n, n ∈ fs ↔ ∃ f ∈ p.functions, f.name = n ∧ ¬ Blocked p stopped f) ∧
      (∀ a b f, f ∈ p.functions → fs = a ++ f.name :: b → ∀ v ∈ f.inputs, ∀ g, Produces p g v →
        g.name ∈ a) := by
  obtain ⟨N, hN, hB⟩ := fromProto_built p hp
  have hw := hB.wired.withStops stopped
  obtain ⟨s, r, k, i, hall⟩ := all_evaluated hp hw hac
  refine ⟨N, hN, s.executed, ?_, i.nodup, ?_, ?_⟩
  · have hfin : (N.withStops stopped).step s = .finished s := by unfold Net.step; rw [k]
    obtain ⟨n, hn⟩ := r.run hfin
    exact ⟨n, s, hn, rfl⟩
  · intro n
    rw [i.executed]
    constructor
    · rintro ⟨f, hf, he, _, hb⟩; exact ⟨f, hf, he, hb⟩
    · rintro ⟨f, hf, he, hb⟩; exact ⟨f, hf, he, hall f hf, hb⟩
  · exact i.order

theorem not_blocked_of_no_stop {p : Proto} {f : PFn} : ¬ Blocked p (fun _ => false) f := by
  intro h
  induction h with
  | direct _ _ h => cases h
  | upstream _ _ _ _ ih => exact ih

theorem withStops_false {vs : List PVar} {fs : List PFn} {N : Net} (h : Built vs fs N) :
    N.withStops (fun _ => false) = N := by
  have : (fun v => ({ N.node v with stop := false } : Node)) = N.node := by
    funext v
    have := h.stop v
    cases hn : N.node v with
    | mk pa re st => rw [hn] at this; simp at this; subst this; rfl
  unfold Net.withStops
  rw [this]

/-- A sequence of function names runs every function of `p` exactly once, producers first
(specification). -/
def IsSchedule (p : Proto) (fs : List String) : Prop :=
  fs.Perm (p.functions.map PFn.name) ∧
  ∀ a b f, f ∈ p.functions → fs = a ++ f.name :: b → ∀ v ∈ f.inputs, ∀ g, Produces p g v →
    g.name ∈ a

/-- **C112.** A freshly loaded acyclic network: `forward_sequence` ends and is a permutation of all
functions of the file in which every function comes after the producers of its inputs. -/
theorem c112_forward_sequence (p : Proto) (hp : WF p) (hac : Acyclic p) :
    ∃ N, fromProto p = some N ∧ ∃ fs, N.ForwardSequence fs ∧ IsSchedule p fs := by
  obtain ⟨N, hN, hB⟩ := fromProto_built p hp
  obtain ⟨N', hN', fs, h1, h2, h3, h4⟩ := c112_traversal p hp hac (fun _ => false)
  rw [hN] at hN'; cases hN'
  rw [withStops_false hB] at h1
  refine ⟨N, hN, fs, h1, ?_, h4⟩
  rw [List.perm_ext_iff_of_nodup h2 hp.fnNodup]
  intro n
  rw [h3, List.mem_map]
  constructor
  · rintro ⟨f, hf, he, _⟩; exact ⟨f, hf, he⟩
  · rintro ⟨f, hf, he⟩; exact ⟨f, hf, he, not_blocked_of_no_stop⟩

/-- the sequence is determined: the loop is deterministic -/
theorem run_mono {N : Net} {s t : TState} : ∀ {n m}, N.run n s = .finished t → n ≤ m →
    N.run m s = .finished t := by
  intro n
  induction n generalizing s with
  | zero => intro m h; simp [Net.run] at h
  | succ n ih =>
    intro m h hm
    cases m with
    | zero => omega
    | succ m =>
      simp only [Net.run] at h ⊢
      cases hs : N.step s with
      | running s' => rw [hs] at h; simp only at h ⊢; exact ih h (by omega)
      | finished s' => rw [hs] at h; exact h
      | assertion => rw [hs] at h; exact h

theorem forwardSequence_unique {N : Net} {a b : List String} (ha : N.ForwardSequence a)
    (hb : N.ForwardSequence b) : a = b := by
  obtain ⟨n, s, h1, rfl⟩ := ha
  obtain ⟨m, t, h2, rfl⟩ := hb
  have h1' := run_mono h1 (Nat.le_max_left n m)
  have h2' := run_mono h2 (Nat.le_max_right n m)
  rw [h1'] at h2'
  cases h2'; rfl

/-! ## Calling the network -/

theorem writeOuts_other {V : Type} : ∀ (os : List String) (xs : List V) (env : String → V) (v),
    v ∉ os → writeOuts env os xs v = env v := by
  intro os
  induction os with
  | nil => intro xs env v _; rfl
  | cons o os ih =>
    intro xs env v hv
    rw [List.mem_cons, not_or] at hv
    cases xs with
    | nil => rfl
    | cons x xs =>
      show writeOuts (upd env o x) os xs v = env v
      rw [ih xs _ v hv.2]; exact upd_other _ _ hv.1

theorem writeOuts_map {V : Type} : ∀ (os : List String) (xs : List V) (env : String → V),
    os.Nodup → xs.length = os.length → os.map (writeOuts env os xs) = xs := by
  intro os
  induction os with
  | nil => intro xs env _ h; cases xs <;> simp_all
  | cons o os ih =>
    intro xs env hnd hl
    rw [List.nodup_cons] at hnd
    cases xs with
    | nil => simp at hl
    | cons x xs =>
      have h1 : writeOuts env (o :: os) (x :: xs) = writeOuts (upd env o x) os xs := rfl
      rw [List.map_cons, h1, ih xs _ hnd.2 (by simpa using hl), writeOuts_other _ _ _ _ hnd.1]
      rw [upd_same]

theorem outputs_nodup {p : Proto} (hp : WF p) {f : PFn} (hf : f ∈ p.functions) :
    f.outputs.Nodup := by
  have := hp.outNodup
  rw [List.nodup_flatMap] at this
  exact this.1 f hf

/-- running the functions `todo`, when those of `done` have been run -/
theorem callOn_solves {V : Type} {p : Proto} {N : Net} (hp : WF p) (hw : Wired p N)
    (sem : String → List V → List V) (har : ArityOK sem p) (given : String → V)
    {fs : List String} (hsub : ∀ n ∈ fs, n ∈ p.functions.map PFn.name) (hnd : fs.Nodup)
    (hord : ∀ a b f, f ∈ p.functions → fs = a ++ f.name :: b → ∀ v ∈ f.inputs, ∀ g,
      Produces p g v → g.name ∈ a) :
    ∀ done todo, fs = done ++ todo →
      (∀ f ∈ p.functions, f.name ∈ done →
        f.outputs.map (callOn sem N given done) =
          sem f.name (f.inputs.map (callOn sem N given done))) ∧
      (∀ v, (∀ f, Produces p f v → f.name ∉ done) → callOn sem N given done v = given v) := by
  intro done
  induction done using List.reverseRecOn with
  | nil => intro todo _; exact ⟨by simp, fun v _ => rfl⟩
  | append_singleton done n ih =>
    intro todo hfs
    obtain ⟨ih1, ih2⟩ := ih (n :: todo) (by simpa using hfs)
    obtain ⟨f, hf, rfl⟩ := List.mem_map.mp (hsub n (by rw [hfs]; simp))
    have hcall : callOn sem N given (done ++ [f.name]) =
        writeOuts (callOn sem N given done) f.outputs
          (sem f.name (f.inputs.map (callOn sem N given done))) := by
      unfold callOn
      rw [List.foldl_append]
      show graphCall sem N _ f.name = _
      unfold graphCall
      rw [hw.fn f hf]
    have hfd : f.name ∉ done := by
      intro hm
      rw [hfs, List.nodup_append, List.nodup_append] at hnd
      exact hnd.1.2.2 _ hm _ (by simp) rfl
    have hself : ∀ v ∈ f.inputs, v ∉ f.outputs := by
      intro v hi ho
      exact hfd (hord done todo f hf (by simpa using hfs) v hi f ⟨hf, ho⟩)
    have hsame : ∀ v, v ∉ f.outputs → callOn sem N given (done ++ [f.name]) v =
        callOn sem N given done v := by
      intro v hv; rw [hcall]; exact writeOuts_other _ _ _ _ hv
    constructor
    · intro g hg hgd
      by_cases hgf : g = f
      · subst hgf
        have hin : g.inputs.map (callOn sem N given (done ++ [g.name])) =
            g.inputs.map (callOn sem N given done) :=
          List.map_congr_left fun v hv => hsame v (hself v hv)
        rw [hin, hcall]
        exact writeOuts_map _ _ _ (outputs_nodup hp hg) (har g hg _)
      · have hgd' : g.name ∈ done := by
          rw [List.mem_append, List.mem_singleton] at hgd
          rcases hgd with h | h
          · exact h
          · exact absurd (fn_name_inj hp hg hf h) hgf
        have ho : g.outputs.map (callOn sem N given (done ++ [f.name])) =
            g.outputs.map (callOn sem N given done) :=
          List.map_congr_left fun v hv => hsame v fun hvf =>
            hgf (producer_unique hp ⟨hg, hv⟩ ⟨hf, hvf⟩)
        have hi : g.inputs.map (callOn sem N given (done ++ [f.name])) =
            g.inputs.map (callOn sem N given done) := by
          refine List.map_congr_left fun v hv => hsame v fun hvf => ?_
          obtain ⟨a, b, hab⟩ := List.append_of_mem hgd'
          have := hord a (b ++ f.name :: todo) g hg (by rw [hfs, hab]; simp) v hv f ⟨hf, hvf⟩
          exact hfd (by rw [hab]; exact List.mem_append_left _ this)
        rw [ho, hi]; exact ih1 g hg hgd'
    · intro v hv
      have hvf : v ∉ f.outputs := fun h => hv f ⟨hf, h⟩ (by simp)
      rw [hsame v hvf]
      exact ih2 v fun g hg hgd => hv g hg (by simp [hgd])

/-- **C113.** Calling a loaded acyclic network computes, for all functions, inputs and parameters,
values which obey every function of the network. -/
theorem c113_call_obeys_network {V : Type} (p : Proto) (hp : WF p) (hac : Acyclic p)
    (sem : String → List V → List V) (har : ArityOK sem p) (given : String → V) :
    ∃ N, fromProto p = some N ∧ ∃ fs, N.ForwardSequence fs ∧
      IsSolution sem p given (callOn sem N given fs) := by
  obtain ⟨N, hN, fs, h1, h2, h3⟩ := c112_forward_sequence p hp hac
  obtain ⟨N', hN', hB⟩ := fromProto_built p hp
  rw [hN] at hN'; cases hN'
  refine ⟨N, hN, fs, h1, ?_⟩
  have := callOn_solves hp hB.wired sem har given (fun n hn => h2.mem_iff.mp hn)
    (h2.nodup_iff.mpr hp.fnNodup) h3 fs [] (by simp)
  refine ⟨fun f hf => this.1 f hf (h2.mem_iff.mpr (List.mem_map.mpr ⟨f, hf, rfl⟩)), ?_⟩
  exact fun v hv => this.2 v fun f hf _ => hv f hf

/-- The values are determined by the network: not by the order of its functions and variables. -/
theorem solution_unique {V : Type} (p : Proto) (hac : Acyclic p)
    (sem : String → List V → List V) (given a b : String → V)
    (ha : IsSolution sem p given a) (hb : IsSolution sem p given b) : a = b := by
  obtain ⟨rank, hr⟩ := hac
  have key : ∀ r f, rank f < r → f ∈ p.functions → ∀ v ∈ f.outputs, a v = b v := by
    intro r
    induction r with
    | zero => intro f h; omega
    | succ r ih =>
      intro f hfr hf
      have hin : f.inputs.map a = f.inputs.map b := by
        refine List.map_congr_left fun v hv => ?_
        by_cases hpv : ∃ g, Produces p g v
        · obtain ⟨g, hg⟩ := hpv
          have := hr g f v hg hf hv
          exact ih g (by omega) hg.1 v hg.2
        · rw [ha.2 v fun g hg => hpv ⟨g, hg⟩, hb.2 v fun g hg => hpv ⟨g, hg⟩]
      have : f.outputs.map a = f.outputs.map b := by rw [ha.1 f hf, hb.1 f hf, hin]
      exact List.map_inj_left.mp this
  funext v
  by_cases hpv : ∃ g, Produces p g v
  · obtain ⟨g, hg⟩ := hpv
    exact key _ g (Nat.lt_succ_self _) hg.1 v hg.2
  · rw [ha.2 v fun g hg => hpv ⟨g, hg⟩, hb.2 v fun g hg => hpv ⟨g, hg⟩]

/-- **C113.** Two files which list the same functions in different orders (and the same or other
variables in any order) give, when called on the same inputs and parameters, the same value for
every variable. -/
theorem c113_order_in_file_irrelevant {V : Type} (p q : Proto) (hp : WF p) (hq : WF q)
    (hac : Acyclic p) (hpq : p.functions.Perm q.functions)
    (sem : String → List V → List V) (har : ArityOK sem p) (given : String → V) :
    ∃ N M fs gs, fromProto p = some N ∧ fromProto q = some M ∧ N.ForwardSequence fs ∧
      M.ForwardSequence gs ∧ callOn sem N given fs = callOn sem M given gs := by
  have hpr : ∀ f v, Produces q f v ↔ Produces p f v := by
    intro f v; unfold Produces; rw [hpq.mem_iff]
  have hacq : Acyclic q := by
    obtain ⟨rank, hr⟩ := hac
    exact ⟨rank, fun f g v hf hg hv => hr f g v ((hpr f v).mp hf) (hpq.mem_iff.mpr hg) hv⟩
  have harq : ArityOK sem q := fun f hf => har f (hpq.mem_iff.mpr hf)
  obtain ⟨N, hN, fs, h1, h2⟩ := c113_call_obeys_network p hp hac sem har given
  obtain ⟨M, hM, gs, h3, h4⟩ := c113_call_obeys_network q hq hacq sem harq given
  refine ⟨N, M, fs, gs, hN, hM, h1, h3, ?_⟩
  refine solution_unique p hac sem given _ _ h2 ⟨?_, ?_⟩
  · exact fun f hf => h4.1 f (hpq.mem_iff.mp hf)
  · exact fun v hv => h4.2 v fun f hf => hv f ((hpr f v).mp hf)

/-! ## Saving and loading -/

theorem asProto_functions {p : Proto} {N : Net} (h : Built p.variables p.functions N) :
    N.asProto.functions = p.functions := by
  show N.fnKeys.map N.fn = _
  rw [h.fnKeys, List.map_map]
  conv_rhs => rw [← List.map_id p.functions]
  exact List.map_congr_left fun f hf => h.fn f hf

theorem asProto_variables {p : Proto} {N : Net} (h : Built p.variables p.functions N) :
    N.asProto.variables = p.variables.filter (fun v => !v.isParam) ++
      p.variables.filter (fun v => v.isParam) := by
  show N.varKeys.map (fun k => (⟨k, false⟩ : PVar)) ++ N.paramKeys.map (fun k => (⟨k, true⟩ : PVar))
    = _
  rw [h.varKeys, h.paramKeys, List.map_map, List.map_map]
  congr 1
  · conv_rhs => rw [← List.map_id (p.variables.filter fun v => !v.isParam)]
    refine List.map_congr_left fun v hv => ?_
    have := (List.mem_filter.mp hv).2
    cases v; simp_all
  · conv_rhs => rw [← List.map_id (p.variables.filter fun v => v.isParam)]
    refine List.map_congr_left fun v hv => ?_
    have := (List.mem_filter.mp hv).2
    cases v; simp_all

theorem asProto_perm {p : Proto} {N : Net} (h : Built p.variables p.functions N) :
    N.asProto.variables.Perm p.variables := by
  rw [asProto_variables h]
  refine (List.perm_append_comm).trans ?_
  have := List.filter_append_perm (fun v : PVar => v.isParam) p.variables
  simpa using this

/-- **C114.** Loading a network and exporting it again keeps the functions with their inputs and
outputs, in order, and the variables with their types; the exported file is again well-formed, and a
network loaded from it has the same inputs, outputs, variables, parameters and functions, in the
same orders; a further export changes nothing at all. -/
theorem c114_export_round_trip (p : Proto) (hp : WF p) :
    ∃ N, fromProto p = some N ∧
      N.asProto.functions = p.functions ∧ N.asProto.variables.Perm p.variables ∧ WF N.asProto ∧
      ∃ M, fromProto N.asProto = some M ∧
        M.inputs = N.inputs ∧ M.outputs = N.outputs ∧ M.varKeys = N.varKeys ∧
        M.paramKeys = N.paramKeys ∧ M.asProto = N.asProto := by
  obtain ⟨N, hN, hB⟩ := fromProto_built p hp
  have hf := asProto_functions hB
  have hv := asProto_perm hB
  have hwf : WF N.asProto := by
    refine ⟨?_, ?_, ?_, ?_, ?_, ?_⟩
    · exact (hv.map PVar.name).nodup_iff.mpr hp.varNodup
    · rw [hf]; exact hp.fnNodup
    · rw [hf]; intro f h v hv'; exact (hv.map PVar.name).mem_iff.mpr (hp.inDecl f h v hv')
    · rw [hf]; intro f h v hv'; exact hv.mem_iff.mpr (hp.outDecl f h v hv')
    · rw [hf]; exact hp.outNodup
    · rw [hf]; exact hp.outNonempty
  obtain ⟨M, hM, hC⟩ := fromProto_built N.asProto hwf
  have hvk : M.varKeys = N.varKeys := by
    rw [hC.varKeys, hB.varKeys, asProto_variables hB, List.filter_append, List.filter_filter,
      List.filter_filter]
    have : (p.variables.filter fun a => !a.isParam && a.isParam) = [] := by simp
    rw [this]; simp
  have hpk : M.paramKeys = N.paramKeys := by
    rw [hC.paramKeys, hB.paramKeys, asProto_variables hB, List.filter_append, List.filter_filter,
      List.filter_filter]
    have : (p.variables.filter fun a => a.isParam && !a.isParam) = [] := by simp
    rw [this]; simp
  have hpar : ∀ v, (M.node v).parent = (N.node v).parent := by
    intro v
    apply Option.ext
    intro n
    have h1 := hC.parent v n
    have h2 := hB.parent v n
    rw [hf] at h1
    rw [h1, ← h2]
  have hreq : ∀ v, (M.node v).required.isEmpty = (N.node v).required.isEmpty := by
    intro v
    have h1 : ∀ n, n ∈ (M.node v).required ↔ n ∈ (N.node v).required := by
      intro n
      have h1 := hC.required v n
      have h2 := hB.required v n
      rw [hf] at h1
      rw [h1, ← h2]
    rw [Bool.eq_iff_iff, List.isEmpty_iff, List.isEmpty_iff, List.eq_nil_iff_forall_not_mem,
      List.eq_nil_iff_forall_not_mem]
    exact forall_congr' fun n => not_congr (h1 n)
  refine ⟨N, hN, hf, hv, hwf, M, hM, ?_, ?_, hvk, hpk, ?_⟩
  · unfold Net.inputs
    rw [hvk]
    refine List.filter_congr fun k _ => ?_
    rw [hpar, hreq]
  · unfold Net.outputs
    rw [hvk]
    refine List.filter_congr fun k _ => ?_
    rw [hpar, hreq]
  · have h1 := asProto_functions hC
    have h2 := asProto_variables hC
    have h3 := asProto_variables hB
    cases hMp : M.asProto with
    | mk mv mf =>
      cases hNp : N.asProto with
      | mk nv nf =>
        rw [hMp, hNp] at h1 h2
        rw [hNp] at h3
        simp only at h1 h2 h3
        subst h1
        rw [h3] at h2
        rw [h2, h3]
        simp [List.filter_append, List.filter_filter]

/-- **C114.** The network inputs and outputs of a loaded network are what the names say: variables
which some function reads and none writes, and variables which some function writes and none
reads. -/
theorem c114_ports (p : Proto) (hp : WF p) :
    ∃ N, fromProto p = some N ∧
      (∀ v, v ∈ N.inputs ↔ (⟨v, false⟩ : PVar) ∈ p.variables ∧ (∀ f, ¬ Produces p f v) ∧
        ∃ f ∈ p.functions, v ∈ f.inputs) ∧
      (∀ v, v ∈ N.outputs ↔ (∃ f, Produces p f v) ∧ ∀ f ∈ p.functions, v ∉ f.inputs) := by
  obtain ⟨N, hN, hB⟩ := fromProto_built p hp
  have hkey : ∀ v, v ∈ N.varKeys ↔ (⟨v, false⟩ : PVar) ∈ p.variables := by
    intro v
    rw [hB.varKeys, List.mem_map]
    constructor
    · rintro ⟨w, hw, rfl⟩
      obtain ⟨h1, h2⟩ := List.mem_filter.mp hw
      have he : w = ⟨w.name, false⟩ := by cases w; simp_all
      rw [← he]; exact h1
    · intro h; exact ⟨_, List.mem_filter.mpr ⟨h, rfl⟩, rfl⟩
  have hpar : ∀ v, (N.node v).parent = none ↔ ∀ f, ¬ Produces p f v := by
    intro v
    constructor
    · intro h f hf; rw [parent_of_produces hB.wired hf] at h; cases h
    · intro h
      cases hn : (N.node v).parent with
      | none => rfl
      | some n => obtain ⟨f, hf, _⟩ := produces_of_parent hB.wired hn; exact absurd hf (h f)
  have hreq : ∀ v, (N.node v).required = [] ↔ ∀ f ∈ p.functions, v ∉ f.inputs := by
    intro v
    rw [List.eq_nil_iff_forall_not_mem]
    constructor
    · intro h f hf hv; exact h f.name ((hB.required v f.name).mpr ⟨f, hf, rfl, hv⟩)
    · intro h n hn
      obtain ⟨f, hf, _, hv⟩ := (hB.required v n).mp hn
      exact h f hf hv
  refine ⟨N, hN, ?_, ?_⟩
  · intro v
    unfold Net.inputs
    rw [List.mem_filter, hkey, Bool.and_eq_true, Option.isNone_iff_eq_none, hpar]
    refine and_congr_right fun _ => and_congr_right fun _ => ?_
    rw [Bool.not_eq_true', ← Bool.not_eq_true, List.isEmpty_iff, hreq]
    push Not
    rfl
  · intro v
    unfold Net.outputs
    rw [List.mem_filter, Bool.and_eq_true, List.isEmpty_iff, hreq]
    have hsome : (N.node v).parent.isSome = true ↔ ∃ f, Produces p f v := by
      have := hpar v
      rw [← Option.isNone_iff_eq_none] at this
      constructor
      · intro h
        by_contra hc
        push Not at hc
        have := this.mpr hc
        cases hn : (N.node v).parent <;> simp_all
      · rintro ⟨f, hf⟩; rw [parent_of_produces hB.wired hf]; rfl
    rw [hsome]
    constructor
    · rintro ⟨_, h1, h2⟩; exact ⟨h2, h1⟩
    · rintro ⟨⟨f, hf⟩, h2⟩
      exact ⟨(hkey v).mpr (hp.outDecl f hf.1 v hf.2), h2, ⟨f, hf⟩⟩

/-! ## A network to which all this applies -/

/-- `h = affine(x, w); y = relu(h); z = add2(h, y)`, listed backwards -/
def exProto : Proto :=
  ⟨[⟨"x", false⟩, ⟨"w", true⟩, ⟨"h", false⟩, ⟨"y", false⟩, ⟨"z", false⟩],
    [⟨"Add2", ["h", "y"], ["z"]⟩, ⟨"ReLU", ["h"], ["y"]⟩, ⟨"Affine", ["x", "w"], ["h"]⟩]⟩

theorem exProto_wf : WF exProto := by
  refine ⟨by decide, by decide, by decide, by decide, by decide, by decide⟩

theorem exProto_acyclic : Acyclic exProto := by
  refine ⟨fun f => if f.name = "Affine" then 0 else if f.name = "ReLU" then 1 else 2, ?_⟩
  intro f g v hf hg hv
  obtain ⟨hf1, hf2⟩ := hf
  simp only [exProto, List.mem_cons, List.not_mem_nil, or_false] at hf1 hg
  rcases hf1 with rfl | rfl | rfl <;> rcases hg with rfl | rfl | rfl <;>
    simp at hf2 hv ⊢ <;> subst hf2 <;> simp at hv

example : (fromProto exProto).map (fun N => (N.inputs, N.outputs, N.start.stack)) =
    some (["x"], ["z"], ["Add2"]) := by decide

example : (fromProto exProto).map (fun N => match N.run 20 N.start with
    | .finished s => s.executed | _ => []) = some ["Affine", "ReLU", "Add2"] := by decide

example : ((fromProto exProto).map (fun N => N.withStops (· == "y"))).map
    (fun N => match N.run 20 N.start with | .finished s => s.executed | _ => []) =
    some ["Affine", "ReLU"] := by decide

example : ∃ N, fromProto exProto = some N ∧ ∃ fs, N.ForwardSequence fs ∧ IsSchedule exProto fs :=
  c112_forward_sequence exProto exProto_wf exProto_acyclic

example : ArityOK (fun _ (xs : List Nat) => [xs.sum]) exProto := by
  intro f hf xs
  simp only [exProto, List.mem_cons, List.not_mem_nil, or_false] at hf
  rcases hf with rfl | rfl | rfl <;> rfl

end Verif.GraphDef
