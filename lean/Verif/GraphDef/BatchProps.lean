import Verif.GraphDef.Batch
import Mathlib.Algebra.BigOperators.Group.List.Basic

/-!
# C117: variable batch sizes
-/

namespace Verif.GraphDef.Batch

/-- Every function treats the first axis as the batch axis, and every data-dependent function has a
variable among its inputs. -/
def BatchFirst (N : BNet) : Prop :=
  ∀ f ∈ N.fns, (f.baseAxis = none ∨ f.baseAxis = some 1) ∧ f.inputs.any N.vars.contains = true

/-- the shape argument of a function with the batch size `B` fixed -/
def WritesBatch (B : Int) (N : BNet) (f : BFn) : Prop :=
  ∀ arg, f.shapeArg = some arg →
    (f.type = "Reshape" → ∃ rest, arg = B :: rest) ∧
    (f.type = "Broadcast" → ∃ rest, arg = B :: rest ∧
      rest.length = ((N.shape (f.inputs.headD "")).drop 1).length)

/-- A `Broadcast` that adds axes in front: the leading axes that come before the last `n - 1` ones, where `n` is the rank of the
input, are merged into one free axis exactly when their product is the batch size; otherwise exporting raises. -/
theorem c117_broadcast_adds_axes (B : Int) (st : VState) (f : BFn) (lead rest : List Int) (ht : f.type = "Broadcast")
    (ha : f.shapeArg = some (lead ++ rest)) (hr : rest.length = ((st.shape (f.inputs.headD "")).drop 1).length)
    (hl : 2 ≤ lead.length) :
    (lead.prod = B → freeArg B st f = some { f with shapeArg := some (-1 :: rest) }) ∧
    (lead.prod ≠ B → freeArg B st f = none) := by
  unfold freeArg
  rw [ha]
  simp only [ht]
  have h1 : 1 + ((st.shape (f.inputs.headD "")).drop 1).length < (lead ++ rest).length := by
    rw [List.length_append, hr]; omega
  have h2 : (lead ++ rest).length - (1 + ((st.shape (f.inputs.headD "")).drop 1).length) + 1 = lead.length := by
    rw [List.length_append, hr]; omega
  simp only [h1, h2, List.take_left, List.drop_left]
  constructor
  · intro h; simp [h]
  · intro h; simp [h]

/-- Broadcasting a scalar per sample (shape (-1, 1), batch 6 written as 2 × 3) to 2 × 3 × 4. -/
example : freeArg 6 ⟨fun _ => [6, 1], [], []⟩ { type := "Broadcast", inputs := ["x"], outputs := ["y"], baseAxis := none, shapeArg := some [2, 3, 4] } =
    some { type := "Broadcast", inputs := ["x"], outputs := ["y"], baseAxis := none, shapeArg := some [-1, 4] } := by
  rfl

theorem secondLoop_batchFirst (N : BNet) (B : Int) (fs : List BFn)
    (h1 : ∀ f ∈ fs, (f.baseAxis = none ∨ f.baseAxis = some 1) ∧
      f.inputs.any N.vars.contains = true)
    (h2 : ∀ f ∈ fs, WritesBatch B N f) :
    ∃ fs', secondLoop N.vars B ⟨N.shape, [], []⟩ fs = some (⟨N.shape, [], []⟩, fs') ∧
      fs' = fs.map (fun f => if f.type = "Reshape" ∨ f.type = "Broadcast" then
        { f with shapeArg := f.shapeArg.map fun a => -1 :: a.tail } else f) := by
  induction fs with
  | nil => exact ⟨[], rfl, rfl⟩
  | cons f fs ih =>
    obtain ⟨fs', hfs', he⟩ := ih (fun g hg => h1 g (by simp [hg])) (fun g hg => h2 g (by simp [hg]))
    obtain ⟨hb, hn⟩ := h1 f (by simp)
    have hw := h2 f (by simp)
    have hany : (f.inputs.any fun v => N.vars.contains v && !([] : List String).contains v) = true := by
      simpa using hn
    have hflat : flattenFn N.vars ⟨N.shape, [], []⟩ f = (⟨N.shape, [], []⟩, f) := by
      unfold flattenFn
      rcases hb with hb | hb <;> rw [hb] <;> simp
    have hfree : freeArg B ⟨N.shape, [], []⟩ f = some (if f.type = "Reshape" ∨ f.type = "Broadcast"
        then { f with shapeArg := f.shapeArg.map fun a => -1 :: a.tail } else f) := by
      unfold freeArg
      cases ha : f.shapeArg with
      | none =>
        cases f
        simp only at ha
        subst ha
        simp
      | some arg =>
        obtain ⟨w1, w2⟩ := hw arg ha
        simp only
        by_cases ht : f.type = "Reshape"
        · obtain ⟨rest, rfl⟩ := w1 ht
          simp [ht]
        · rw [if_neg ht]
          by_cases hb' : f.type = "Broadcast"
          · obtain ⟨rest, rfl, hl⟩ := w2 hb'
            rw [if_pos hb']
            have : ¬ (1 + ((N.shape (f.inputs.headD "")).drop 1).length < (B :: rest).length) := by
              rw [← hl, List.length_cons]; omega
            simp only [this, if_false]
            simp [hb']
          · rw [if_neg hb']; simp [ht, hb']
    refine ⟨_, ?_, rfl⟩
    unfold secondLoop
    rw [if_pos hany]
    simp only [hflat, hfree, hfs', Option.bind_some, Option.map_some, he, List.map_cons]

/-- **C117 (partial).** For every network whose functions all treat the first axis as the batch axis
(and whose `Reshape` and `Broadcast` arguments start with the batch size `B`): exporting succeeds and
records `B`; the leading dimension of exactly those variables which start with `B` becomes free, and
that of the shape arguments; all other dimensions are unchanged.  Missing from the full claim:
networks with functions that merge several leading axes (`c117_two_base_axes_refuted`). -/
theorem c117_export_frees_batch_partial (N : BNet) (B : Int) (hbf : BatchFirst N)
    (hB : expectBatch N = some B) (hw : ∀ f ∈ N.fns, WritesBatch B N f) :
    ∃ M, variableBatchSize N = some M ∧ M.batchSize = some B ∧ M.vars = N.vars ∧
      (∀ v ∈ N.vars, ∀ rest, N.shape v = B :: rest → M.shape v = -1 :: rest) ∧
      (∀ v ∈ N.vars, (N.shape v).head? ≠ some B → M.shape v = N.shape v) ∧
      M.fns = N.fns.map (fun f => if f.type = "Reshape" ∨ f.type = "Broadcast" then
        { f with shapeArg := f.shapeArg.map fun a => -1 :: a.tail } else f) := by
  obtain ⟨fs', h1, h2⟩ := secondLoop_batchFirst N B N.fns hbf hw
  refine ⟨{ N with
      shape := fun v => if N.vars.contains v then freeVar B [] v (N.shape v) else N.shape v
      fns := fs', batchSize := some B }, ?_, rfl, rfl, ?_, ?_, ?_⟩
  · unfold variableBatchSize; rw [hB]; simp only [h1, Option.map_some]
  · intro v hv rest hs
    have : N.vars.contains v = true := List.contains_iff_mem.mpr hv
    simp only [this, if_true, freeVar, hs]
    simp
  · intro v hv hne
    have : N.vars.contains v = true := List.contains_iff_mem.mpr hv
    simp only [this, if_true, freeVar]
    simp [hne]
  · exact h2

/-- **C117 (partial).** Such an exported network, freshly loaded and called with batch size `b ≥ 1`:
the placeholder of every network input which had a leading batch dimension gets the leading
dimension `b`, all other dimensions as they were, and so do the shape arguments of `Reshape` and
`Broadcast`.  Missing from the full claim: later calls on the same network
(`c117_second_call_refuted`). -/
theorem c117_first_call_partial (N : BNet) (B b : Int) (hbf : BatchFirst N)
    (hB : expectBatch N = some B) (hw : ∀ f ∈ N.fns, WritesBatch B N f)
    (inputs : List String) (hin : ∀ v ∈ inputs, v ∈ N.vars) :
    ∃ M, variableBatchSize N = some M ∧
      (∀ v ∈ inputs, ∀ rest, N.shape v = B :: rest → (∀ d ∈ rest, 1 ≤ d) →
        (callNet M inputs (effectiveBatch M (some b)) (freshCall M)).inst v = some (b :: rest)) ∧
      (callNet M inputs (effectiveBatch M (some b)) (freshCall M)).args =
        N.fns.map (fun f => if f.type = "Reshape" ∨ f.type = "Broadcast" then
          f.shapeArg.map fun a => b :: a.tail else resolveArg b f.shapeArg) ∧
      effectiveBatch M none = B := by
  obtain ⟨M, h1, h2, h3, h4, h5, h6⟩ := c117_export_frees_batch_partial N B hbf hB hw
  refine ⟨M, h1, ?_, ?_, ?_⟩
  · intro v hv rest hs hpos
    have hc : inputs.contains v = true := List.contains_iff_mem.mpr hv
    simp only [callNet, hc, if_true, freshCall, effectiveBatch, Option.getD_some]
    rw [h4 v (hin v hv) rest hs]
    simp only [placeholder, List.map_cons]
    have : rest.map (fun d => if 1 ≤ d then d else b) = rest := by
      conv_rhs => rw [← List.map_id rest]
      exact List.map_congr_left fun d hd => by rw [if_pos (hpos d hd)]; rfl
    rw [this]; simp
  · simp only [callNet, freshCall, effectiveBatch, Option.getD_some, h6, List.map_map]
    refine List.map_congr_left fun f _ => ?_
    show resolveArg b (BFn.shapeArg _) = _
    beta_reduce
    by_cases ht : f.type = "Reshape" ∨ f.type = "Broadcast"
    · rw [if_pos ht, if_pos ht]
      cases f.shapeArg with
      | none => rfl
      | some a => simp [resolveArg]
    · rw [if_neg ht, if_neg ht]
  · simp [effectiveBatch, h2]

/-- a network with an affine function and a reshape -/
def exNet : BNet :=
  { vars := ["x", "h", "y"]
    shape := fun v => if v = "x" then [8, 3, 4] else if v = "h" then [8, 6] else if v = "y" then [8, 2, 3]
      else [12, 6]
    fns := [⟨"Affine", ["x", "w"], ["h"], some 1, none⟩,
      ⟨"Reshape", ["h"], ["y"], none, some [8, 2, 3]⟩] }

theorem exNet_batchFirst : BatchFirst exNet := by
  intro f hf
  simp only [exNet, List.mem_cons, List.not_mem_nil, or_false] at hf
  rcases hf with rfl | rfl <;> simp [exNet]

theorem exNet_writes : ∀ f ∈ exNet.fns, WritesBatch 8 exNet f := by
  intro f hf arg ha
  simp only [exNet, List.mem_cons, List.not_mem_nil, or_false] at hf
  rcases hf with rfl | rfl
  · simp at ha
  · simp only [Option.some.injEq] at ha
    subst ha
    exact ⟨fun _ => ⟨_, rfl⟩, fun h => absurd h (by decide)⟩

example := c117_first_call_partial exNet 8 32 exNet_batchFirst (by decide) exNet_writes ["x"] (by decide)

example : (variableBatchSize exNet).map (fun M =>
    (M.shape "x", M.shape "y", (callNet M ["x"] 32 (freshCall M)).inst "x")) =
    some ([-1, 3, 4], [-1, 2, 3], some [32, 3, 4]) := by decide

/-- The full claim fails for a second call: the network which has been called with batch size 32
keeps batch size 32 when it is called with batch size 16. -/
theorem c117_second_call_refuted :
    (variableBatchSize exNet).map (fun M =>
      let s1 := callNet M ["x"] 32 (freshCall M)
      let s2 := callNet M ["x"] 16 s1
      (s2.inst "x", s2.args)) = some (some [32, 3, 4], [none, some [32, 2, 3]]) := by decide

/-- Exporting is not idempotent: exporting the loaded network again records the batch size `-1`
(shapes and arguments stay as they are). -/
theorem c117_second_export_refuted :
    ((variableBatchSize exNet).bind variableBatchSize).map
      (fun M => (M.batchSize, M.shape "x", M.fns.map BFn.shapeArg)) =
      some (some (-1), [-1, 3, 4], [none, some [-1, 2, 3]]) := by decide

/-- ... and once the network has been called, exporting it fails: the `Reshape` argument has been
fixed to the batch size of the call, and the assertion of the exporter compares it with `-1`. -/
theorem c117_export_after_call_refuted :
    ((variableBatchSize exNet).bind fun M =>
      let s := callNet M ["x"] 32 (freshCall M)
      variableBatchSize { M with fns := List.zipWith (fun f a => { f with shapeArg := a }) M.fns s.args
        }).isNone = true := by decide

/-- Two functions in a row which merge the first two axes: the variable between them is flattened
twice, its exported shape is `(60)` instead of `(-1, 5)` - the outputs of the first function are not
remembered as resolved. -/
theorem c117_two_base_axes_refuted :
    (variableBatchSize
      { vars := ["x", "h", "y"]
        shape := fun v => if v = "x" then [3, 4, 6] else if v = "h" then [3, 4, 5] else [3, 4, 2]
        fns := [⟨"Affine", ["x", "w"], ["h"], some 2, none⟩,
          ⟨"Affine", ["h", "u"], ["y"], some 2, none⟩] }).map
      (fun M => (M.batchSize, M.shape "x", M.shape "h", M.shape "y")) =
      some (some 12, [-1, 6], [60], [-1, 2]) := by decide

theorem flattenInput_spec (vars : List String) (a : Nat) (l : List String) (st : VState) :
    let r := l.foldl (flattenInput vars a) st
    (∀ u, r.shape u = if u ∈ l ∧ u ∈ vars ∧ u ∉ st.resolved ∧ u ∉ st.special then flatten a (st.shape u) else st.shape u) ∧
    (∀ u, u ∈ r.resolved ↔ u ∈ st.resolved ∨ (u ∈ l ∧ u ∈ vars ∧ u ∉ st.special)) ∧ r.special = st.special := by
  induction l generalizing st with
  | nil => simp
  | cons v l ih =>
    rw [List.foldl_cons]
    obtain ⟨h1, h2, h3⟩ := ih (flattenInput vars a st v)
    by_cases c : v ∈ vars ∧ v ∉ st.resolved ∧ v ∉ st.special
    · have e : flattenInput vars a st v = { st with shape := upd st.shape v (flatten a (st.shape v)), resolved := st.resolved ++ [v] } := by
        unfold flattenInput
        rw [if_pos (by simp [c.1, c.2.1, c.2.2])]
      rw [e] at h1 h2 h3 ⊢
      refine ⟨fun u => ?_, fun u => ?_, h3⟩
      · rw [h1 u]
        by_cases hu : u = v
        · subst hu
          simp [upd, c.1, c.2.1, c.2.2]
        · simp [upd, hu]
      · rw [h2 u]
        simp only [List.mem_append, List.mem_singleton, List.mem_cons]
        by_cases hu : u = v
        · subst hu; simp [c.1, c.2.2]
        · simp [hu]
    · have e : flattenInput vars a st v = st := by
        unfold flattenInput
        rw [if_neg]
        simp only [Bool.and_eq_true, Bool.not_eq_true', List.contains_eq_mem, decide_eq_true_eq, decide_eq_false_iff_not]
        rintro ⟨⟨x, y⟩, z⟩
        exact c ⟨x, y, z⟩
      rw [e] at h1 h2 h3 ⊢
      refine ⟨fun u => ?_, fun u => ?_, h3⟩
      · rw [h1 u]
        by_cases hu : u = v
        · subst hu
          rw [if_neg (fun x => c x.2), if_neg (fun x => c x.2)]
        · simp [hu]
      · rw [h2 u]
        by_cases hu : u = v
        · subst hu
          simp only [List.mem_cons, true_or, true_and]
          constructor
          · rintro (x | x)
            · exact .inl x
            · exact .inr x.2
          · rintro (x | x)
            · exact .inl x
            · refine .inl ?_
              by_contra hr
              exact c ⟨x.1, hr, x.2⟩
        · simp [hu]

theorem flattenOutput_spec (a : Nat) (l : List String) (hn : l.Nodup) (st : VState) (hr : ∀ v ∈ l, v ∉ st.resolved) :
    ∀ u, (l.foldl (flattenOutput a) st).shape u = if u ∈ l then flatten a (st.shape u) else st.shape u := by
  induction l generalizing st with
  | nil => simp
  | cons v l ih =>
    rw [List.nodup_cons] at hn
    have e : flattenOutput a st v = { st with shape := upd st.shape v (flatten a (st.shape v)) } := by
      unfold flattenOutput
      rw [if_pos (by simpa using hr v (by simp))]
    intro u
    rw [List.foldl_cons, e, ih hn.2 { st with shape := upd st.shape v (flatten a (st.shape v)) } (fun w hw => hr w (by simp [hw]))]
    by_cases hu : u = v
    · subst hu; simp [upd, hn.1]
    · simp [upd, hu]

/-- **C117 (merging axes).** A function whose batch is the first `a` ≠ 1 axes gets `base_axis = 1`, and each of its variables, on its
first use, gets these axes merged: the extent of axis 0 is their product and the other axes stay. All other shapes stay. -/
theorem c117_merge_axes (vars : List String) (st : VState) (f : BFn) (a : Nat) (ha : f.baseAxis = some a) (h1 : a ≠ 1)
    (hne : f.outputs ≠ []) (hn : f.outputs.Nodup) (hd : ∀ v ∈ f.outputs, v ∉ f.inputs ∧ v ∉ st.resolved) :
    let r := flattenFn vars st f
    r.2 = { f with baseAxis := some 1 } ∧
    (∀ u, (u ∈ f.outputs ∨ u ∈ f.inputs ∧ u ∈ vars ∧ u ∉ st.resolved ∧ u ∉ st.special) →
      (r.1.shape u).head? = some ((st.shape u).take a).prod ∧ (r.1.shape u).tail = (st.shape u).drop a) ∧
    ∀ u, u ∉ f.outputs → ¬ (u ∈ f.inputs ∧ u ∈ vars ∧ u ∉ st.resolved ∧ u ∉ st.special) → r.1.shape u = st.shape u := by
  intro r
  have hi := flattenInput_spec vars a f.inputs st
  obtain ⟨i1, i2, i3⟩ := hi
  have ho := flattenOutput_spec a f.outputs hn (f.inputs.foldl (flattenInput vars a) st) (fun v hv => by
    rw [i2]; rintro (x | x)
    · exact (hd v hv).2 x
    · exact (hd v hv).1 x.1)
  have er : r = (f.outputs.foldl (flattenOutput a) (f.inputs.foldl (flattenInput vars a) st), { f with baseAxis := some 1 }) := by
    simp only [r, flattenFn, ha, if_neg h1]
    rw [if_neg (by simpa using hne)]
  rw [er]
  refine ⟨rfl, fun u hu => ?_, fun u h2 h3 => ?_⟩
  · dsimp only
    rw [ho u]
    have : (if u ∈ f.outputs then flatten a ((f.inputs.foldl (flattenInput vars a) st).shape u) else (f.inputs.foldl (flattenInput vars a) st).shape u) = flatten a (st.shape u) := by
      by_cases c : u ∈ f.outputs
      · rw [if_pos c, i1 u, if_neg (fun x => (hd u c).1 x.1)]
      · rw [if_neg c, i1 u, if_pos (hu.resolve_left c)]
    rw [this]
    exact ⟨rfl, rfl⟩
  · dsimp only
    rw [ho u, if_neg h2, i1 u, if_neg h3]

example : (flattenFn ["x", "y"] ⟨fun v => if v = "x" then [3, 4, 6] else [3, 4, 5], [], []⟩ ⟨"Affine", ["x", "w"], ["y"], some 2, none⟩).1.shape "y" = [12, 5] := by decide

end Verif.GraphDef.Batch
