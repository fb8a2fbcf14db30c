import Verif.SaveBuffer.Assign
/-
C20: shared buffers are sound. C21: execution on shared buffers computes the same outputs.
-/
namespace Verif.SaveBuffer

/-- **C20, assignment.** Every variable of type Buffer used by some function is assigned an existing actual
buffer that is at least as large as the variable. -/
theorem C20_assigned (n : Net) (v : Nat) (hv : n.isBuf v = true) (hu : Used n v) :
    ∃ ab sz, (saveVariableBuffer n).2 v = some ab ∧ (saveVariableBuffer n).1[ab]? = some sz ∧
      (n.sizeOf v : Int) ≤ sz := by
  obtain ⟨s, hi, e⟩ := saveVariableBuffer_inv n
  rw [e]
  obtain ⟨g, hg⟩ := hu
  have hlive : LiveAt n v g := ⟨⟨g, hg⟩, Or.inl ⟨g, Nat.le_refl _, hg⟩, Or.inl ⟨g, Nat.le_refl _, hg⟩⟩
  have hn := (neededAt_iff n v g hv (Nat.le_of_lt hg.lt)).mpr hlive
  have hb := bufId_lt n v hv
  have hd := hi.done (n.bufId v) g hb hg.lt hn
  rw [bufVar_bufId n v hv] at hd
  obtain ⟨ab, hab⟩ := Option.ne_none_iff_exists'.mp hd
  have hf := hi.fits (n.bufId v) ab hb (by rw [bufVar_bufId n v hv]; exact hab)
  rw [bufVar_bufId n v hv] at hf
  refine ⟨ab, s.sizes ab, hab, ?_, hf.2⟩
  rw [List.getElem?_map, List.getElem?_range hf.1]; rfl

/-- **C20, no aliasing.** Two different variables of type Buffer that are live at the same function never
share an actual buffer. -/
theorem C20_no_alias (n : Net) (u v f : Nat) (hu : n.isBuf u = true) (hv : n.isBuf v = true) (huv : u ≠ v)
    (hf : f < n.fns.length) (h1 : LiveAt n u f) (h2 : LiveAt n v f) :
    (saveVariableBuffer n).2 u ≠ (saveVariableBuffer n).2 v := by
  obtain ⟨a1, _, e1, _⟩ := C20_assigned n u hu h1.1
  obtain ⟨a2, _, e2, _⟩ := C20_assigned n v hv h2.1
  intro he
  obtain ⟨s, hi, e⟩ := saveVariableBuffer_inv n
  rw [e] at e1 e2 he
  simp only at e1 e2 he
  refine hi.disj (n.bufId u) (n.bufId v) a1 (bufId_lt n u hu) (bufId_lt n v hv)
    (fun h => huv (bufId_inj n u v hu hv h)) ?_ ?_ f ⟨?_, ?_⟩
  · rw [bufVar_bufId n u hu]; exact e1
  · rw [bufVar_bufId n v hv, ← he]; exact e1
  · exact (neededAt_iff n u f hu (Nat.le_of_lt hf)).mpr h1
  · exact (neededAt_iff n v f hv (Nat.le_of_lt hf)).mpr h2

/-- The number of actual buffers is the largest number of variables live at one function: no scheme
that keeps simultaneously live variables apart can do with fewer. -/
theorem C20_optimal (n : Net) (h : n.fns ≠ []) :
    ∃ f, f < n.fns.length ∧ ∃ vs : List Nat, vs.Nodup ∧ vs.length = (saveVariableBuffer n).1.length ∧
      ∀ v ∈ vs, n.isBuf v = true ∧ LiveAt n v f := by
  obtain ⟨s, _, e⟩ := saveVariableBuffer_inv n
  rw [e]
  have hmax : ∀ (g : Nat → Nat) (l : List Nat) (m0 : Nat), l.foldl (fun m f => max m (g f)) m0 = m0 ∨
      ∃ f ∈ l, l.foldl (fun m f => max m (g f)) m0 = g f := by
    intro g l
    induction l with
    | nil => intro m0; exact Or.inl rfl
    | cons a l ih =>
      intro m0
      rw [List.foldl_cons]
      rcases ih (max m0 (g a)) with h | ⟨f, hf, h⟩
      · rw [h]
        by_cases hc : g a ≤ m0
        · left; omega
        · right; exact ⟨a, List.mem_cons_self, by omega⟩
      · exact Or.inr ⟨f, List.mem_cons_of_mem _ hf, h⟩
  have hpos : 0 < n.fns.length := List.length_pos_iff.mpr h
  have hex : ∃ f, f < n.fns.length ∧ countActual n (makeLives n) = (refs n (makeLives n) f).length := by
    rcases hmax (fun f => (refs n (makeLives n) f).length) (List.range n.fns.length) 0 with h | ⟨f, hf, h⟩
    · refine ⟨0, hpos, ?_⟩
      have h0 := refs_le n (makeLives n) 0 hpos
      have h' : countActual n (makeLives n) = 0 := h
      omega
    · exact ⟨f, List.mem_range.mp hf, h⟩
  obtain ⟨f, hf, hk⟩ := hex
  refine ⟨f, hf, (refs n (makeLives n) f).map n.bufVar, ?_, ?_, ?_⟩
  · have hnd : (refs n (makeLives n) f).Nodup := List.nodup_range.filter _
    rw [List.nodup_iff_pairwise_ne] at hnd ⊢
    rw [List.pairwise_map]
    refine List.Pairwise.imp_of_mem ?_ hnd
    intro a b ha hb hab h
    exact hab (bufVar_inj n a b ((mem_refs _ _ _ _).mp ha).1 ((mem_refs _ _ _ _).mp hb).1 h)
  · simp [hk]
  · intro v hv
    obtain ⟨b, hb, rfl⟩ := List.mem_map.mp hv
    obtain ⟨h1, h2⟩ := (mem_refs _ _ _ _).mp hb
    have hb' := isBuf_bufVar n b h1
    refine ⟨hb', ?_⟩
    rw [← neededAt_iff n _ f hb' (Nat.le_of_lt hf), bufId_bufVar n b h1]
    exact h2

/-- A diamond-shaped network: x(10) → a(20), b(30); a,b → c(5); c → y(8). -/
def exNet : Net where
  vars := [⟨true, 10⟩, ⟨false, 7⟩, ⟨true, 20⟩, ⟨true, 30⟩, ⟨true, 5⟩, ⟨true, 8⟩]
  fns := [⟨[0, 1], [2]⟩, ⟨[0], [3]⟩, ⟨[2, 3], [4]⟩, ⟨[4], [5]⟩]
  inputs := [0]
  outputs := [5]
  gens := []

example : LiveAt exNet 0 1 ∧ LiveAt exNet 2 1 ∧ exNet.isBuf 0 = true ∧ exNet.isBuf 2 = true := by
  refine ⟨⟨⟨0, ⟨[0, 1], [2]⟩, rfl, by decide⟩, Or.inr (by decide), Or.inl ⟨1, Nat.le_refl _, ⟨[0], [3]⟩, rfl, by decide⟩⟩,
    ⟨⟨0, ⟨[0, 1], [2]⟩, rfl, by decide⟩, Or.inl ⟨0, by omega, ⟨[0, 1], [2]⟩, rfl, by decide⟩,
      Or.inl ⟨2, by omega, ⟨[2, 3], [4]⟩, rfl, by decide⟩⟩, rfl, rfl⟩

example : (saveVariableBuffer exNet).1 = [10, 20, 30] ∧
    [0, 2, 3, 4, 5].map (saveVariableBuffer exNet).2 = [some 0, some 1, some 2, some 0, some 1] := by
  decide +kernel

/-! ### C21 -/

theorem storeAll_sim {P V : Type} [DecidableEq P] (loc : Nat → P) (vs : List Nat) (xs : List V)
    (m : P → V) (p : Nat → V) (v : Nat) (hinj : ∀ o ∈ vs, loc o = loc v → o = v)
    (h : m (loc v) = p v ∨ (v ∈ vs ∧ xs.length = vs.length)) :
    storeAll (vs.map loc) xs m (loc v) = storeAll vs xs p v := by
  induction vs generalizing xs m p with
  | nil =>
    rcases h with h | ⟨h, _⟩
    · exact h
    · cases h
  | cons o vs ih =>
    cases xs with
    | nil =>
      rcases h with h | ⟨_, h⟩
      · exact h
      · simp at h
    | cons x xs =>
      simp only [List.map_cons, storeAll]
      apply ih
      · exact fun o' ho' => hinj o' (List.mem_cons_of_mem _ ho')
      · by_cases e : v = o
        · subst e; left; simp
        · have e' : ¬ loc v = loc o := fun he => e (hinj o List.mem_cons_self he.symm).symm
          rcases h with h | ⟨h1, h2⟩
          · left; simp only [if_neg e, if_neg e']; exact h
          · right
            exact ⟨(List.mem_cons.mp h1).resolve_left e, by simpa using h2⟩

theorem inBuf_isBuf {n : Net} {v : Nat} (h : n.inBuf v = true) : n.isBuf v = true := by
  simp only [Net.inBuf, Bool.and_eq_true] at h
  exact h.1

/-- Distinct places of simultaneously live variables. -/
theorem loc_inj (n : Net) (f u v : Nat) (hf : f < n.fns.length) (h1 : LiveAt n u f)
    (h2 : LiveAt n v f ∨ n.inBuf v = false)
    (h : locOf n (saveVariableBuffer n).2 u = locOf n (saveVariableBuffer n).2 v) : u = v := by
  simp only [locOf] at h
  by_cases hu : n.inBuf u = true
  · by_cases hv : n.inBuf v = true
    · rw [if_pos hu, if_pos hv] at h
      injection h with h
      have h2 := h2.resolve_right (by rw [hv]; simp)
      apply Classical.byContradiction
      intro huv
      obtain ⟨a1, _, e1, _⟩ := C20_assigned n u (inBuf_isBuf hu) h1.1
      obtain ⟨a2, _, e2, _⟩ := C20_assigned n v (inBuf_isBuf hv) h2.1
      have := C20_no_alias n u v f (inBuf_isBuf hu) (inBuf_isBuf hv) huv hf h1 h2
      rw [placedIn, placedIn, e1, e2] at h
      rw [e1, e2] at this
      exact this (congrArg some h)
    · rw [if_pos hu, if_neg hv] at h; cases h
  · by_cases hv : n.inBuf v = true
    · rw [if_neg hu, if_pos hv] at h; cases h
    · rw [if_neg hu, if_neg hv] at h
      injection h

/-- Simulation relation before function `f`. -/
def Sim {V : Type} (n : Net) (f : Nat) (m : Loc → V) (p : Nat → V) : Prop :=
  ∀ v, (n.inBuf v = false ∨
      (Used n v ∧ (v ∈ n.inputs ∨ ∃ (g : Nat) (gn : Fn), g < f ∧ n.fns[g]? = some gn ∧ v ∈ gn.outs) ∧
        ((∃ g, f ≤ g ∧ Uses n g v) ∨ v ∈ n.outputs))) →
    m (locOf n (saveVariableBuffer n).2 v) = p v

theorem sim_live {n : Net} {v f : Nat} (hu : Used n v)
    (hw : v ∈ n.inputs ∨ ∃ (g : Nat) (gn : Fn), g < f ∧ n.fns[g]? = some gn ∧ v ∈ gn.outs)
    (hl : (∃ g, f ≤ g ∧ Uses n g v) ∨ v ∈ n.outputs) : LiveAt n v f := by
  refine ⟨hu, ?_, hl⟩
  rcases hw with h | ⟨g, gn, h1, h2, h3⟩
  · exact Or.inr h
  · exact Or.inl ⟨g, Nat.le_of_lt h1, gn, h2, Or.inr h3⟩

theorem sim_step {V : Type} (n : Net) (sem : Nat → List V → List V) (hsem : Computes n sem)
    (hrd : ReadsDefined n) (f : Nat) (fn : Fn) (hfn : n.fns[f]? = some fn) (m : Loc → V) (p : Nat → V)
    (h : Sim n f m p) :
    Sim n (f + 1)
      (storeAll (fn.outs.map (locOf n (saveVariableBuffer n).2))
        (sem f (fn.ins.map fun v => m (locOf n (saveVariableBuffer n).2 v))) m)
      (storeAll fn.outs (sem f (fn.ins.map p)) p) := by
  have hf : f < n.fns.length := (List.getElem?_eq_some_iff.mp hfn).1
  have hins : (fn.ins.map fun v => m (locOf n (saveVariableBuffer n).2 v)) = fn.ins.map p := by
    apply List.map_congr_left
    intro v hv
    apply h
    by_cases hb : n.inBuf v = true
    · right
      exact ⟨⟨f, fn, hfn, Or.inl hv⟩, hrd f fn v hfn hv hb, Or.inl ⟨f, Nat.le_refl _, fn, hfn, Or.inl hv⟩⟩
    · left; simpa using hb
  rw [hins]
  intro v hv
  have hlo : ∀ o ∈ fn.outs, LiveAt n o f := fun o ho =>
    ⟨⟨f, fn, hfn, Or.inr ho⟩, Or.inl ⟨f, Nat.le_refl _, fn, hfn, Or.inr ho⟩, Or.inl ⟨f, Nat.le_refl _, fn, hfn, Or.inr ho⟩⟩
  by_cases hmem : v ∈ fn.outs
  · apply storeAll_sim
    · intro o ho he
      exact loc_inj n f o v hf (hlo o ho) (Or.inl (hlo v hmem)) he
    · exact Or.inr ⟨hmem, hsem f fn _ hfn⟩
  · have hpre : n.inBuf v = false ∨
      (Used n v ∧ (v ∈ n.inputs ∨ ∃ (g : Nat) (gn : Fn), g < f ∧ n.fns[g]? = some gn ∧ v ∈ gn.outs) ∧
        ((∃ g, f ≤ g ∧ Uses n g v) ∨ v ∈ n.outputs)) := by
      rcases hv with hv | ⟨hu, hw, hl⟩
      · exact Or.inl hv
      · refine Or.inr ⟨hu, ?_, ?_⟩
        · rcases hw with hw | ⟨g, gn, h1, h2, h3⟩
          · exact Or.inl hw
          · refine Or.inr ⟨g, gn, ?_, h2, h3⟩
            by_cases e : g = f
            · subst e
              rw [hfn] at h2
              injection h2 with h2
              subst h2
              exact absurd h3 hmem
            · omega
        · rcases hl with ⟨g, h1, h2⟩ | hl
          · exact Or.inl ⟨g, by omega, h2⟩
          · exact Or.inr hl
    apply storeAll_sim
    · intro o ho he
      refine loc_inj n f o v hf (hlo o ho) ?_ he
      rcases hpre with hb | ⟨hu, hw, hl⟩
      · exact Or.inr hb
      · exact Or.inl (sim_live hu hw hl)
    · exact Or.inl (h v hpre)

theorem sim_exec {V : Type} (n : Net) (sem : Nat → List V → List V) (hsem : Computes n sem)
    (hrd : ReadsDefined n) (fns : List Fn) (f : Nat) (hd : n.fns.drop f = fns) (hf : f ≤ n.fns.length)
    (m : Loc → V) (p : Nat → V) (h : Sim n f m p) :
    Sim n n.fns.length (exec (locOf n (saveVariableBuffer n).2) sem f fns m) (exec id sem f fns p) := by
  induction fns generalizing f m p with
  | nil =>
    have : f = n.fns.length := by
      have := congrArg List.length hd
      simp at this
      omega
    subst this; exact h
  | cons fn fns ih =>
    have hfn : n.fns[f]? = some fn := by
      have := congrArg (fun l => l[0]?) hd
      simpa using this
    have hlt : f < n.fns.length := (List.getElem?_eq_some_iff.mp hfn).1
    simp only [exec]
    apply ih (f + 1)
    · rw [← List.drop_drop, hd]; rfl
    · omega
    · have := sim_step n sem hsem hrd f fn hfn m p h
      simpa using this

/-- **C21.** Take any network whose inputs are used and whose functions read only parameters, generators,
network inputs and results of earlier functions. Load the input values into the shared storage (whose other
contents are arbitrary, except that parameters are in place) and run the functions in order. Every used
network output then has the value it gets when every variable has storage of its own. -/
theorem C21_same_outputs {V : Type} (n : Net) (sem : Nat → List V → List V) (hsem : Computes n sem)
    (hrd : ReadsDefined n) (hin : ∀ v ∈ n.inputs, n.inBuf v = true → Used n v)
    (xs : List V) (hx : xs.length = n.inputs.length)
    (m0 : Loc → V) (p0 : Nat → V) (hpar : ∀ v, n.inBuf v = false → m0 (.own v) = p0 v)
    (o : Nat) (ho : o ∈ n.outputs) (huo : Used n o)
    (hdef : n.inBuf o = true → o ∈ n.inputs ∨ ∃ fn ∈ n.fns, o ∈ fn.outs) :
    exec (locOf n (saveVariableBuffer n).2) sem 0 n.fns
        (storeAll (n.inputs.map (locOf n (saveVariableBuffer n).2)) xs m0)
        (locOf n (saveVariableBuffer n).2 o) =
      exec id sem 0 n.fns (storeAll n.inputs xs p0) o := by
  have hpos : ∀ v, Used n v → 0 < n.fns.length := fun v ⟨g, hg⟩ => Nat.lt_of_le_of_lt (Nat.zero_le _) hg.lt
  have h0 : Sim n 0 (storeAll (n.inputs.map (locOf n (saveVariableBuffer n).2)) xs m0)
      (storeAll n.inputs xs p0) := by
    intro v hv
    have hlin : ∀ i ∈ n.inputs, n.inBuf i = true → LiveAt n i 0 := by
      intro i hi hb
      obtain ⟨g, hg⟩ := hin i hi hb
      exact ⟨⟨g, hg⟩, Or.inr hi, Or.inl ⟨g, Nat.zero_le _, hg⟩⟩
    have hnb : ∀ i v, n.inBuf i = false → locOf n (saveVariableBuffer n).2 i = locOf n (saveVariableBuffer n).2 v → i = v := by
      intro i v hb he
      have e1 : locOf n (saveVariableBuffer n).2 i = .own i := by simp [locOf, hb]
      rw [e1] at he
      simp only [locOf] at he
      split at he
      · cases he
      · injection he
    by_cases hb : n.inBuf v = true
    · obtain ⟨hu, hw, hl⟩ := hv.resolve_left (by rw [hb]; simp)
      have hvi : v ∈ n.inputs := by
        rcases hw with h | ⟨g, _, h, _⟩
        · exact h
        · omega
      apply storeAll_sim
      · intro i hi he
        by_cases hib : n.inBuf i = true
        · exact loc_inj n 0 i v (hpos v hu) (hlin i hi hib) (Or.inl (hlin v hvi hb)) he
        · exact hnb i v (by simpa using hib) he
      · exact Or.inr ⟨hvi, hx⟩
    · have hb' : n.inBuf v = false := by simpa using hb
      apply storeAll_sim
      · intro i hi he
        exact (hnb v i hb' he.symm).symm
      · left
        simp only [locOf, hb']
        exact hpar v hb'
  have := sim_exec n sem hsem hrd n.fns 0 rfl (Nat.zero_le _) _ _ h0
  apply this
  by_cases hb : n.inBuf o = true
  · right
    refine ⟨huo, ?_, Or.inr ho⟩
    rcases hdef hb with h | ⟨fn, h1, h2⟩
    · exact Or.inl h
    · obtain ⟨g, hg, e⟩ := List.mem_iff_getElem.mp h1
      exact Or.inr ⟨g, fn, hg, by rw [List.getElem?_eq_getElem hg, e], h2⟩
  · left; simpa using hb

/-- The example network meets the hypotheses of C21. -/
example : ReadsDefined exNet ∧ (∀ v ∈ exNet.inputs, exNet.inBuf v = true → Used exNet v) ∧
    Computes exNet (fun f (xs : List Nat) => [xs.sum + f]) := by
  refine ⟨?_, ?_, ?_⟩
  · intro f fn v h1 h2 h3
    match f, h1 with
    | 0, h1 =>
      injection h1 with h1; subst h1
      simp at h2; rcases h2 with rfl | rfl
      · left; decide
      · exact absurd h3 (by decide)
    | 1, h1 => injection h1 with h1; subst h1; simp at h2; subst h2; left; decide
    | 2, h1 =>
      injection h1 with h1; subst h1
      simp at h2; rcases h2 with rfl | rfl
      · exact Or.inr ⟨0, ⟨[0, 1], [2]⟩, by omega, rfl, by decide⟩
      · exact Or.inr ⟨1, ⟨[0], [3]⟩, by omega, rfl, by decide⟩
    | 3, h1 =>
      injection h1 with h1; subst h1; simp at h2; subst h2
      exact Or.inr ⟨2, ⟨[2, 3], [4]⟩, by omega, rfl, by decide⟩
    | _ + 4, h1 => simp [exNet] at h1
  · intro v hv _
    simp [exNet] at hv
    subst hv
    exact ⟨0, ⟨[0, 1], [2]⟩, rfl, by decide⟩
  · intro f fn xs h
    match f, h with
    | 0, h => injection h with h; subst h; rfl
    | 1, h => injection h with h; subst h; rfl
    | 2, h => injection h with h; subst h; rfl
    | 3, h => injection h with h; subst h; rfl
    | _ + 4, h => simp [exNet] at h

/-- Network with an unused input `u`: y = f(x). -/
def unusedNet : Net where
  vars := [⟨true, 4⟩, ⟨true, 9⟩, ⟨true, 4⟩]
  fns := [⟨[0], [2]⟩]
  inputs := [0, 1]
  outputs := [2]
  gens := []

/-- **C20/C21, refutation for unused inputs.** A network input that no function uses gets no actual buffer; the
exporter places it in buffer 0 (nnb.py:222-225), which is too small for it and shared with the live input
0: loading both inputs makes the network compute its output from the wrong data. -/
theorem C21_refuted_unused_input :
    (saveVariableBuffer unusedNet).2 1 = none ∧
    locOf unusedNet (saveVariableBuffer unusedNet).2 1 = locOf unusedNet (saveVariableBuffer unusedNet).2 0 ∧
    (saveVariableBuffer unusedNet).1[0]? = some 4 ∧
    exec (locOf unusedNet (saveVariableBuffer unusedNet).2) (fun _ (xs : List Nat) => xs) 0 unusedNet.fns
        (storeAll (unusedNet.inputs.map (locOf unusedNet (saveVariableBuffer unusedNet).2)) [5, 7] (fun _ => 0))
        (locOf unusedNet (saveVariableBuffer unusedNet).2 2) = 7 ∧
    exec id (fun _ (xs : List Nat) => xs) 0 unusedNet.fns (storeAll unusedNet.inputs [5, 7] (fun _ => 0)) 2 = 5 := by
  decide +kernel

end Verif.SaveBuffer
