import Verif.GraphDef.Load

/-!
# `execute_on_proto` visits every function once, after the producers of its inputs
-/

namespace Verif.GraphDef

/-- The wiring of `p`, with whatever `stop` flags. -/
structure Wired (p : Proto) (N : Net) : Prop where
  varKeys : N.varKeys = (p.variables.filter fun v => !v.isParam).map PVar.name
  fnKeys : N.fnKeys = p.functions.map PFn.name
  fn : ∀ f ∈ p.functions, N.fn f.name = f
  parent : ∀ v n, (N.node v).parent = some n ↔ ∃ f ∈ p.functions, f.name = n ∧ v ∈ f.outputs
  required : ∀ v n, n ∈ (N.node v).required ↔ ∃ f ∈ p.functions, f.name = n ∧ v ∈ f.inputs

theorem Built.wired {p : Proto} {N : Net} (h : Built p.variables p.functions N) : Wired p N :=
  ⟨h.varKeys, h.fnKeys, h.fn, h.parent, h.required⟩

/-- A function is cut off when one of its inputs has been stopped, or is produced by a function
which is cut off (specification of the effect of `stop`). -/
inductive Blocked (p : Proto) (stopped : String → Bool) : PFn → Prop
  | direct {f : PFn} {v : String} : f ∈ p.functions → v ∈ f.inputs → stopped v = true →
      Blocked p stopped f
  | upstream {f g : PFn} {v : String} : f ∈ p.functions → v ∈ f.inputs → Produces p g v →
      Blocked p stopped g → Blocked p stopped f

theorem owner_unique : ∀ {fs : List PFn}, (fs.flatMap PFn.outputs).Nodup → ∀ {f g : PFn}, f ∈ fs →
    g ∈ fs → ∀ {v : String}, v ∈ f.outputs → v ∈ g.outputs → f = g := by
  intro fs
  induction fs with
  | nil => intro _ f g hf; simp at hf
  | cons a fs ih =>
    intro hnd f g hf hg v hv hv'
    rw [List.flatMap_cons, List.nodup_append] at hnd
    obtain ⟨_, h2, h3⟩ := hnd
    rw [List.mem_cons] at hf hg
    rcases hf with rfl | hf <;> rcases hg with rfl | hg
    · rfl
    · exact absurd rfl (h3 v hv v (List.mem_flatMap.mpr ⟨g, hg, hv'⟩))
    · exact absurd rfl (h3 v hv' v (List.mem_flatMap.mpr ⟨f, hf, hv⟩))
    · exact ih h2 hf hg hv hv'

section
variable {p : Proto} {N : Net} (hp : WF p) (hw : Wired p N)

include hp in
theorem fn_name_inj {f g : PFn} (hf : f ∈ p.functions) (hg : g ∈ p.functions)
    (h : f.name = g.name) : f = g :=
  List.inj_on_of_nodup_map hp.fnNodup hf hg h

include hp in
theorem producer_unique {f g : PFn} {v : String} (hf : Produces p f v) (hg : Produces p g v) :
    f = g :=
  owner_unique hp.outNodup hf.1 hg.1 hf.2 hg.2

include hw in
theorem parent_of_produces {f : PFn} {v : String} (h : Produces p f v) :
    (N.node v).parent = some f.name := (hw.parent v f.name).mpr ⟨f, h.1, rfl, h.2⟩

include hw in
theorem produces_of_parent {n v : String} (h : (N.node v).parent = some n) :
    ∃ f, Produces p f v ∧ f.name = n := by
  obtain ⟨f, h1, h2, h3⟩ := (hw.parent v n).mp h
  exact ⟨f, ⟨h1, h3⟩, h2⟩

/-- Invariant of the loop, apart from the stack. -/
structure Inv (p : Proto) (N : Net) (s : TState) : Prop where
  /-- outputs of a function are evaluated together -/
  together : ∀ f v w, Produces p f v → v ∈ s.evaluated → w ∈ f.outputs → w ∈ s.evaluated
  /-- producers first -/
  closed : ∀ f v w g, Produces p f v → v ∈ s.evaluated → w ∈ f.inputs → Produces p g w →
    w ∈ s.evaluated
  /-- executed are exactly the evaluated functions which are not cut off -/
  executed : ∀ n, n ∈ s.executed ↔ ∃ f ∈ p.functions, f.name = n ∧
    (∀ v ∈ f.outputs, v ∈ s.evaluated) ∧ ¬ Blocked p (fun v => (N.node v).stop) f
  nodup : s.executed.Nodup
  order : ∀ a b f, f ∈ p.functions → s.executed = a ++ f.name :: b → ∀ v ∈ f.inputs, ∀ g,
    Produces p g v → g.name ∈ a
  stopSound : ∀ v, s.stop v = true → (N.node v).stop = true ∨
    ∃ g, Produces p g v ∧ Blocked p (fun v => (N.node v).stop) g
  stopKeep : ∀ v, (N.node v).stop = true → s.stop v = true
  stopDone : ∀ g v, Produces p g v → v ∈ s.evaluated →
    Blocked p (fun v => (N.node v).stop) g → s.stop v = true

theorem stopOf_sound {s : TState} (h : Inv p N s) {f : PFn} (hf : f ∈ p.functions)
    (hs : stopOf s f = true) : Blocked p (fun v => (N.node v).stop) f := by
  unfold stopOf at hs
  rw [List.any_eq_true] at hs
  obtain ⟨v, hv, hsv⟩ := hs
  rcases h.stopSound v hsv with h1 | ⟨g, h1, h2⟩
  · exact Blocked.direct hf hv h1
  · exact Blocked.upstream hf hv h1 h2

theorem stopOf_complete {s : TState} (h : Inv p N s) {f : PFn}
    (hres : ∀ v ∈ f.inputs, ∀ g, Produces p g v → v ∈ s.evaluated)
    (hb : Blocked p (fun v => (N.node v).stop) f) : stopOf s f = true := by
  unfold stopOf
  rw [List.any_eq_true]
  cases hb with
  | direct hf hv hs => exact ⟨_, hv, h.stopKeep _ hs⟩
  | upstream hf hv hg hb => exact ⟨_, hv, h.stopDone _ _ hg (hres _ hv _ hg) hb⟩

/-- setting the `stop` flags of the outputs of a function keeps the invariant -/
theorem inv_stop {s : TState} (h : Inv p N s) {f : PFn} (hf : f ∈ p.functions) (stk : List String) :
    Inv p N { s with stack := stk, stop := stopAfter s f } := by
  refine ⟨h.together, h.closed, h.executed, h.nodup, h.order, ?_, ?_, ?_⟩
  · intro v hv
    simp only [stopAfter, Bool.or_eq_true, Bool.and_eq_true] at hv
    rcases hv with hv | ⟨hv, hs⟩
    · exact h.stopSound v hv
    · exact Or.inr ⟨f, ⟨hf, List.contains_iff_mem.mp hv⟩, stopOf_sound h hf hs⟩
  · intro v hv; simp [stopAfter, h.stopKeep v hv]
  · intro g v hg hv hb
    have := h.stopDone g v hg hv hb
    simp [stopAfter, this]

include hp in
/-- executing a function whose inputs are resolved keeps the invariant -/
theorem inv_exec {s : TState} (h : Inv p N s) {f : PFn} (hf : f ∈ p.functions)
    (hres : ∀ v ∈ f.inputs, ∀ g, Produces p g v → v ∈ s.evaluated)
    (hneed : ∀ v ∈ f.outputs, v ∉ s.evaluated) (stk : List String) :
    Inv p N { stack := stk, stop := stopAfter s f, evaluated := s.evaluated ++ f.outputs,
              executed := if !stopOf s f then s.executed ++ [f.name] else s.executed } := by
  have hb : Blocked p (fun v => (N.node v).stop) f ↔ stopOf s f = true :=
    ⟨stopOf_complete h hres, stopOf_sound h hf⟩
  have hself : ∀ v ∈ f.outputs, v ∉ f.inputs := fun v hv hi =>
    hneed v hv (hres v hi f ⟨hf, hv⟩)
  have hex : f.name ∉ s.executed := by
    intro hm
    obtain ⟨g, hg, he, hall, _⟩ := (h.executed f.name).mp hm
    have := fn_name_inj hp hg hf he; subst this
    cases ho : g.outputs with
    | nil => exact hp.outNonempty g hg ho
    | cons o os => exact hneed o (by simp [ho]) (hall o (by simp [ho]))
  refine ⟨?_, ?_, ?_, ?_, ?_, ?_, ?_, ?_⟩
  · intro g v w hg hv hwo
    simp only [List.mem_append] at hv ⊢
    rcases hv with hv | hv
    · exact Or.inl (h.together g v w hg hv hwo)
    · have := producer_unique hp hg ⟨hf, hv⟩; subst this
      exact Or.inr hwo
  · intro g v w g' hg hv hwi hg'
    simp only [List.mem_append] at hv ⊢
    rcases hv with hv | hv
    · exact Or.inl (h.closed g v w g' hg hv hwi hg')
    · have := producer_unique hp hg ⟨hf, hv⟩; subst this
      exact Or.inl (hres w hwi g' hg')
  · intro n
    have hkey : (∃ g ∈ p.functions, g.name = n ∧
        (∀ v ∈ g.outputs, v ∈ s.evaluated ++ f.outputs) ∧
        ¬ Blocked p (fun v => (N.node v).stop) g) ↔
        (n ∈ s.executed ∨ (n = f.name ∧ ¬ Blocked p (fun v => (N.node v).stop) f)) := by
      rw [h.executed]
      constructor
      · rintro ⟨g, hg, rfl, hall, hnb⟩
        by_cases hgf : g = f
        · subst hgf; exact Or.inr ⟨rfl, hnb⟩
        · left
          refine ⟨g, hg, rfl, ?_, hnb⟩
          intro v hv
          rcases List.mem_append.mp (hall v hv) with h1 | h1
          · exact h1
          · exact absurd (producer_unique hp ⟨hg, hv⟩ ⟨hf, h1⟩) hgf
      · rintro (⟨g, hg, he, hall, hnb⟩ | ⟨rfl, hnb⟩)
        · exact ⟨g, hg, he, fun v hv => List.mem_append_left _ (hall v hv), hnb⟩
        · exact ⟨f, hf, rfl, fun v hv => List.mem_append_right _ hv, hnb⟩
    show n ∈ (if !stopOf s f then s.executed ++ [f.name] else s.executed) ↔ _
    rw [hkey, hb]
    cases stopOf s f <;> simp
  · show (if !stopOf s f then s.executed ++ [f.name] else s.executed).Nodup
    cases stopOf s f with
    | true => simpa using h.nodup
    | false =>
      simp only [Bool.not_false, if_true]
      rw [List.nodup_append]
      refine ⟨h.nodup, by simp, ?_⟩
      intro a ha b hb' hab
      simp only [List.mem_singleton] at hb'
      subst hb'; subst hab; exact hex ha
  · intro a b g hg heq v hv g' hg'
    change (if !stopOf s f then s.executed ++ [f.name] else s.executed) = a ++ g.name :: b at heq
    cases hs : stopOf s f with
    | true => rw [hs] at heq; simp at heq; exact h.order a b g hg heq v hv g' hg'
    | false =>
      rw [hs] at heq
      simp only [Bool.not_false, if_true] at heq
      rcases List.eq_nil_or_concat b with rfl | ⟨b', x, rfl⟩
      · have := List.append_inj' heq (by simp)
        have hname : f.name = g.name := by simpa using this.2
        have := fn_name_inj hp hf hg hname
        subst this
        have ha : s.executed = a := (List.append_inj' heq (by simp)).1
        rw [← ha, h.executed]
        have hev := hres v hv g' hg'
        refine ⟨g', hg'.1, rfl, fun w hwo => h.together g' v w hg' hev hwo, ?_⟩
        intro hbl
        have := hb.mp (Blocked.upstream hf hv hg' hbl)
        rw [hs] at this; cases this
      · have h1 : s.executed ++ [f.name] = (a ++ g.name :: b') ++ [x] := by
          rw [heq]; simp
        have := (List.append_inj' h1 (by simp)).1
        exact h.order a b' g hg this v hv g' hg'
  · intro v hv
    change stopAfter s f v = true at hv
    simp only [stopAfter, Bool.or_eq_true, Bool.and_eq_true] at hv
    rcases hv with hv | ⟨hv, hs⟩
    · exact h.stopSound v hv
    · exact Or.inr ⟨f, ⟨hf, List.contains_iff_mem.mp hv⟩, stopOf_sound h hf hs⟩
  · intro v hv; simp [stopAfter, h.stopKeep v hv]
  · intro g v hg hv hbl
    show stopAfter s f v = true
    simp only [List.mem_append] at hv
    rcases hv with hv | hv
    · simp [stopAfter, h.stopDone g v hg hv hbl]
    · have := producer_unique hp hg ⟨hf, hv⟩; subst this
      simp [stopAfter, hv, hb.mp hbl]

/-- `n` turns lead from `s` to `s'` (not counting the final one) -/
inductive Reach (N : Net) : TState → TState → Prop
  | refl (s) : Reach N s s
  | step {s s' s''} : N.step s = .running s' → Reach N s' s'' → Reach N s s''

theorem Reach.trans {N : Net} {a b c : TState} (h1 : Reach N a b) (h2 : Reach N b c) :
    Reach N a c := by
  induction h1 with
  | refl => exact h2
  | step hs _ ih => exact Reach.step hs (ih h2)

theorem Reach.run {N : Net} {a b : TState} (h : Reach N a b) (hb : N.step b = .finished b) :
    ∃ n, N.run n a = .finished b := by
  induction h with
  | refl s => exact ⟨1, by simp [Net.run, hb]⟩
  | step hs _ ih =>
    obtain ⟨n, hn⟩ := ih hb
    exact ⟨n + 1, by simp [Net.run, hs, hn]⟩

/-- the functions `fs` (by name) are all on top of the stack: processing them -/
def Clears (p : Proto) (N : Net) (f : PFn) : Prop :=
  ∀ s rest, s.stack = f.name :: rest → Inv p N s →
    ∃ s', Reach N s s' ∧ s'.stack = rest ∧ Inv p N s' ∧
      (∀ v ∈ s.evaluated, v ∈ s'.evaluated) ∧ (∀ v ∈ f.outputs, v ∈ s'.evaluated)

theorem clears_list (fs : List PFn) (hc : ∀ f ∈ fs, Clears p N f) : ∀ s rest,
    s.stack = fs.map PFn.name ++ rest → Inv p N s →
    ∃ s', Reach N s s' ∧ s'.stack = rest ∧ Inv p N s' ∧
      (∀ v ∈ s.evaluated, v ∈ s'.evaluated) ∧ (∀ f ∈ fs, ∀ v ∈ f.outputs, v ∈ s'.evaluated) := by
  induction fs with
  | nil => intro s rest hs hi; exact ⟨s, .refl s, by simpa using hs, hi, fun v h => h, by simp⟩
  | cons f fs ih =>
    intro s rest hs hi
    obtain ⟨s1, r1, k1, i1, m1, o1⟩ := hc f (by simp) s (fs.map PFn.name ++ rest)
      (by simpa using hs) hi
    obtain ⟨s2, r2, k2, i2, m2, o2⟩ := ih (fun g hg => hc g (by simp [hg])) s1 rest k1 i1
    refine ⟨s2, r1.trans r2, k2, i2, fun v hv => m2 v (m1 v hv), ?_⟩
    intro g hg v hv
    rw [List.mem_cons] at hg
    rcases hg with rfl | hg
    · exact m2 v (o1 v hv)
    · exact o2 g hg v hv

include hp hw in
/-- a function whose inputs are all resolved is dealt with in one turn -/
theorem clear_resolved {f : PFn} (hf : f ∈ p.functions) {s : TState} {rest : List String}
    (hs : s.stack = f.name :: rest) (hi : Inv p N s)
    (hu : N.unresolved s f = []) :
    ∃ s', Reach N s s' ∧ s'.stack = rest ∧ Inv p N s' ∧
      (∀ v ∈ s.evaluated, v ∈ s'.evaluated) ∧ (∀ v ∈ f.outputs, v ∈ s'.evaluated) := by
  have hk : N.fnKeys.contains f.name = true := by
    rw [hw.fnKeys, List.contains_iff_mem]; exact List.mem_map.mpr ⟨f, hf, rfl⟩
  have hfn : N.fn f.name = f := hw.fn f hf
  have hres : ∀ v ∈ f.inputs, ∀ g, Produces p g v → v ∈ s.evaluated := by
    intro v hv g hg
    unfold Net.unresolved at hu
    rw [List.filter_eq_nil_iff] at hu
    have := hu v hv
    rw [parent_of_produces hw hg] at this
    simpa using this
  by_cases hall : ∀ v ∈ f.outputs, v ∈ s.evaluated
  · have hn : (f.outputs.all fun v => s.evaluated.contains v) = true := by
      rw [List.all_eq_true]; intro v hv; exact List.contains_iff_mem.mpr (hall v hv)
    refine ⟨{ s with stack := rest, stop := stopAfter s f }, ?_, rfl, inv_stop hi hf rest,
      fun v h => h, hall⟩
    refine Reach.step ?_ (.refl _)
    unfold Net.step
    rw [hs]
    simp only [hk, hfn, hu, hn]
    simp
  · have hnone : ∀ v ∈ f.outputs, v ∉ s.evaluated := by
      intro v hv hev
      exact hall fun w hwo => hi.together f v w ⟨hf, hv⟩ hev hwo
    have hn : (f.outputs.all fun v => s.evaluated.contains v) = false := by
      rw [← Bool.not_eq_true, List.all_eq_true]
      intro h; exact hall fun v hv => List.contains_iff_mem.mp (h v hv)
    have hneed : (f.outputs.all fun v => !s.evaluated.contains v) = true := by
      rw [List.all_eq_true]; intro v hv
      have := hnone v hv
      simpa using this
    refine ⟨_, Reach.step ?_ (.refl _), ?_, inv_exec hp hi hf hres hnone rest, ?_, ?_⟩
    · unfold Net.step
      rw [hs]
      simp only [hk, hfn, hu, hn, hneed]
      simp
    · rfl
    · intro v hv; exact List.mem_append_left _ hv
    · intro v hv; exact List.mem_append_right _ hv

include hp hw in
theorem clears_all (rank : PFn → Nat)
    (hr : ∀ f g v, Produces p f v → g ∈ p.functions → v ∈ g.inputs → rank f < rank g) :
    ∀ r f, rank f < r → f ∈ p.functions → Clears p N f := by
  intro r
  induction r with
  | zero => intro f h; omega
  | succ r ih =>
    intro f hfr hf s rest hs hi
    by_cases hu : N.unresolved s f = []
    · exact clear_resolved hp hw hf hs hi hu
    · -- push the producers of the unresolved inputs
      have hk : N.fnKeys.contains f.name = true := by
        rw [hw.fnKeys, List.contains_iff_mem]; exact List.mem_map.mpr ⟨f, hf, rfl⟩
      have hfn : N.fn f.name = f := hw.fn f hf
      let us := N.unresolved s f
      have hprod : ∀ v ∈ us, ∃ g, Produces p g v ∧ (N.node v).parent = some g.name := by
        intro v hv
        have := (List.mem_filter.mp hv).2
        simp only [Bool.and_eq_true] at this
        obtain ⟨n, hn⟩ := Option.isSome_iff_exists.mp this.1
        obtain ⟨g, hg, he⟩ := produces_of_parent hw hn
        exact ⟨g, hg, by rw [hn, he]⟩
      have hlist : ∀ vs : List String, (∀ v ∈ vs, v ∈ us) →
          ∃ gs : List PFn, (∀ g ∈ gs, ∃ v ∈ vs, Produces p g v) ∧
            (∀ v ∈ vs, ∃ g ∈ gs, Produces p g v) ∧
            vs.filterMap (fun v => (N.node v).parent) = gs.map PFn.name := by
        intro vs
        induction vs with
        | nil => intro _; exact ⟨[], by simp, by simp, rfl⟩
        | cons v vs ihv =>
          intro hvs
          obtain ⟨gs, h1, h2, h3⟩ := ihv (fun w hw' => hvs w (by simp [hw']))
          obtain ⟨g, hg, hpar⟩ := hprod v (hvs v (by simp))
          refine ⟨g :: gs, ?_, ?_, ?_⟩
          · intro g' hg'
            rw [List.mem_cons] at hg'
            rcases hg' with rfl | hg'
            · exact ⟨v, by simp, hg⟩
            · obtain ⟨w, hw', hpw⟩ := h1 g' hg'; exact ⟨w, by simp [hw'], hpw⟩
          · intro w hw'
            rw [List.mem_cons] at hw'
            rcases hw' with rfl | hw'
            · exact ⟨g, by simp, hg⟩
            · obtain ⟨g', hg', hpw⟩ := h2 w hw'; exact ⟨g', by simp [hg'], hpw⟩
          · rw [List.filterMap_cons, hpar]; simp [h3]
      obtain ⟨gs, g1, g2, g3⟩ := hlist us (fun v h => h)
      let s1 : TState := { s with
        stop := stopAfter s f
        stack := (us.filterMap fun v => (N.node v).parent).reverse ++ (f.name :: rest) }
      have hstep : N.step s = .running s1 := by
        have hu' : (N.unresolved s f).isEmpty = false := by
          rw [← Bool.not_eq_true, List.isEmpty_iff]; exact hu
        unfold Net.step
        rw [hs]
        simp only [hk, hfn, hu']
        rfl
      have hi1 : Inv p N s1 := inv_stop hi hf _
      have hs1 : s1.stack = gs.reverse.map PFn.name ++ (f.name :: rest) := by
        show (us.filterMap fun v => (N.node v).parent).reverse ++ (f.name :: rest) = _
        rw [g3, List.map_reverse]
      have hcl : ∀ g ∈ gs.reverse, Clears p N g := by
        intro g hg
        rw [List.mem_reverse] at hg
        obtain ⟨v, hv, hpv⟩ := g1 g hg
        have hvi : v ∈ f.inputs := (List.mem_filter.mp hv).1
        have := hr g f v hpv hf hvi
        exact ih g (by omega) hpv.1
      obtain ⟨s2, r2, k2, i2, m2, o2⟩ := clears_list gs.reverse hcl s1 _ hs1 hi1
      have hu2 : N.unresolved s2 f = [] := by
        unfold Net.unresolved
        rw [List.filter_eq_nil_iff]
        intro v hv
        by_cases hvu : v ∈ us
        · obtain ⟨g, hg, hpv⟩ := g2 v hvu
          have := o2 g (List.mem_reverse.mpr hg) v hpv.2
          simp [this]
        · have hnu : ¬ ((N.node v).parent.isSome && !s.evaluated.contains v) = true := by
            intro hc; exact hvu (List.mem_filter.mpr ⟨hv, hc⟩)
          intro hc
          apply hnu
          rw [Bool.and_eq_true] at hc ⊢
          refine ⟨hc.1, ?_⟩
          have h2 : v ∉ s2.evaluated := by simpa using hc.2
          have h1 : v ∉ s.evaluated := fun h => h2 (m2 v h)
          simpa using h1
      obtain ⟨s3, r3, k3, i3, m3, o3⟩ := clear_resolved hp hw hf k2 i2 hu2
      exact ⟨s3, Reach.step hstep (r2.trans r3), k3, i3, fun v hv => m3 v (m2 v hv), o3⟩

include hp hw in
theorem inv_start : Inv p N N.start := by
  have hin : ∀ f v, Produces p f v → v ∉ N.start.evaluated := by
    intro f v hf hv
    have := (List.mem_filter.mp hv).2
    rw [parent_of_produces hw hf] at this
    simp at this
  refine ⟨?_, ?_, ?_, ?_, ?_, ?_, ?_, ?_⟩
  · intro f v w hf hv; exact absurd hv (hin f v hf)
  · intro f v w g hf hv; exact absurd hv (hin f v hf)
  · intro n
    constructor
    · intro h; simp [Net.start] at h
    · rintro ⟨f, hf, rfl, hall, _⟩
      exfalso
      obtain ⟨o, ho'⟩ := List.exists_mem_of_ne_nil _ (hp.outNonempty f hf)
      exact hin f o ⟨hf, ho'⟩ (hall o ho')
  · simp [Net.start]
  · intro a b f _ h; simp [Net.start] at h
  · intro v hv; exact Or.inl hv
  · intro v hv; exact hv
  · intro g v hg hv; exact absurd hv (hin g v hg)

end
end Verif.GraphDef
