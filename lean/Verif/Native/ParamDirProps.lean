/-
C146: the C++ parameter directory. C147: the C++ parametric functions.
-/
import Verif.Native.ParamDir

namespace Verif.Native
variable {D : Type}

/-- **C146 (registry).** In any state a program can reach, a request for a parameter that is not registered creates it with the given
shape, initializer and flag; one for a registered parameter returns that variable and changes nothing if the shape is the same, and
fails and changes nothing otherwise. No other path and no other directory is affected. -/
theorem C146_get_or_create {s : State D} {h : Handle} (hd : h.dir < s.dirs.length) (name : Str) (shape : Shape)
    (init : Shape → D) (ng : Bool) :
    let r := getOrCreate s h name shape init ng
    (∀ v, getParameter s h name = some v → r.1 = s ∧ (r.2 = some v ∧ (s.heap[v]?).map Var.shape = some shape ∨ r.2 = none ∧ (s.heap[v]?).map Var.shape ≠ some shape)) ∧
    (getParameter s h name = none → ∃ v, r.2 = some v ∧ s.heap.length ≤ v ∧ getParameter r.1 h name = some v ∧ r.1.heap[v]? = some ⟨shape, init shape, ng⟩ ∧
      (∀ w < s.heap.length, r.1.heap[w]? = s.heap[w]?) ∧
      ∀ h' name', (h'.dir ≠ h.dir ∨ path h'.scope name' ≠ path h.scope name) → getParameter r.1 h' name' = getParameter s h' name') := by
  refine ⟨fun v e => ?_, fun e => ?_⟩
  · simp only [getOrCreate, e]
    by_cases c : (s.heap[v]?).map Var.shape = some shape
    · rw [if_pos c]; exact ⟨rfl, .inl ⟨rfl, c⟩⟩
    · rw [if_neg c]; exact ⟨rfl, .inr ⟨rfl, c⟩⟩
  · simp only [getOrCreate, e]
    have g : ∀ h' n, getParameter { s with heap := s.heap ++ [⟨shape, init shape, ng⟩] } h' n = getParameter s h' n := fun _ _ => rfl
    refine ⟨_, rfl, Nat.le_refl _, ?_, ?_, fun w hw => ?_, fun h' n' hne => ?_⟩
    · rw [getParameter_insert (s := { s with heap := s.heap ++ [⟨shape, init shape, ng⟩] }) hd, if_pos rfl, g, e]; simp
    · simp [insert]
    · simp [insert, List.getElem?_append_left hw]
    · rw [getParameter_insert (s := { s with heap := s.heap ++ [⟨shape, init shape, ng⟩] }) hd, g]
      by_cases c : h'.dir = h.dir
      · rw [if_pos c, if_neg (fun c2 => (hne.resolve_left (fun x => x c)) c2.symm)]; simp
      · rw [if_neg c]

/-- **C146 (registry).** The same for registering an existing variable. -/
theorem C146_get_or_put {s : State D} {h : Handle} (hd : h.dir < s.dirs.length) (name : Str) (v : Nat) :
    let r := getOrPut s h name v
    (∀ w, getParameter s h name = some w → r.1 = s ∧
      (r.2 = some w ∧ (s.heap[v]?).map Var.shape = (s.heap[w]?).map Var.shape ∨ r.2 = none ∧ (s.heap[v]?).map Var.shape ≠ (s.heap[w]?).map Var.shape)) ∧
    (getParameter s h name = none → r.2 = some v ∧ getParameter r.1 h name = some v ∧ r.1.heap = s.heap ∧
      ∀ h' name', (h'.dir ≠ h.dir ∨ path h'.scope name' ≠ path h.scope name) → getParameter r.1 h' name' = getParameter s h' name') := by
  refine ⟨fun w e => ?_, fun e => ?_⟩
  · simp only [getOrPut, e]
    by_cases c : (s.heap[v]?).map Var.shape = (s.heap[w]?).map Var.shape
    · rw [if_pos c]; exact ⟨rfl, .inl ⟨rfl, c⟩⟩
    · rw [if_neg c]; exact ⟨rfl, .inr ⟨rfl, c⟩⟩
  · simp only [getOrPut, e]
    refine ⟨trivial, ?_, rfl, fun h' n' hne => ?_⟩
    · rw [getParameter_insert hd, if_pos rfl, e]; simp
    · rw [getParameter_insert hd]
      by_cases c : h'.dir = h.dir
      · rw [if_pos c, if_neg (fun c2 => (hne.resolve_left (fun x => x c)) c2.symm)]; simp
      · rw [if_neg c]

/-- **C146 (stability).** Whatever calls follow, a registered parameter stays registered, as the same variable with the same shape. -/
theorem C146_stable {s t : State D} (hs : Reach s) (h : Later s t) {h₀ : Handle} (hd : h₀.dir < s.dirs.length) {name : Str} {v : Nat}
    (hg : getParameter s h₀ name = some v) : getParameter t h₀ name = some v ∧ (t.heap[v]?).map Var.shape = (s.heap[v]?).map Var.shape ∧ v < s.heap.length := by
  have hv : v < s.heap.length := (reach_inv hs _ (dirOf_mem hd)).inb _ (find_mem hg)
  suffices getParameter t h₀ name = some v ∧ (t.heap[v]?).map Var.shape = (s.heap[v]?).map Var.shape ∧ s.dirs.length ≤ t.dirs.length ∧ s.heap.length ≤ t.heap.length from
    ⟨this.1, this.2.1, hv⟩
  induction h with
  | refl => exact ⟨hg, rfl, Nat.le_refl _, Nat.le_refl _⟩
  | @step t op _ hvl ih =>
    obtain ⟨i1, i2, i3, i4⟩ := ih
    have := dirs_step t op
    exact ⟨getParameter_step op hvl (by omega) i1, by rw [(heap_step op (by omega)).1, i2], by omega, by omega⟩

/-- **C146 (scopes).** A nested scope is the scope of the joined path, and a name with slashes is the name in the nested scope. -/
theorem C146_nesting (s : State D) (h : Handle) (a b name : Str) (ha : a ≠ []) :
    (h.sub a).sub b = h.sub (a ++ '/' :: b) ∧ getParameter s (h.sub a) name = getParameter s h (a ++ '/' :: name) := by
  have p1 : ∀ sc b : Str, path (path sc a) b = path sc (a ++ '/' :: b) := by
    intro sc b
    unfold path
    cases sc with
    | nil => cases a with
      | nil => exact absurd rfl ha
      | cons c a => simp
    | cons c sc => simp
  refine ⟨by simp [Handle.sub, p1], ?_⟩
  show find _ (path (path h.scope a) name) = find _ _
  rw [p1]
  rfl

/-- What `get_parameters` lists in general: the registered paths, in order of registration, each once, that begin with the scope's string. -/
theorem C146_listing {s : State D} (hs : Reach s) {h : Handle} (hd : h.dir < s.dirs.length) :
    ((getParameters s h).map Prod.fst).Nodup ∧
    (getParameters s h).map Prod.fst = (getParameters s ⟨h.dir, []⟩ |>.map Prod.fst).filter (fun k => h.scope.isPrefixOf k) ∧
    ∀ k o, (k, o) ∈ getParameters s h ↔ ∃ v, o = some v ∧ getParameter s ⟨h.dir, []⟩ k = some v ∧ h.scope <+: k := by
  have ok := reach_inv hs _ (dirOf_mem hd)
  have pre : ∀ k : Str, (h.scope.isEmpty || (decide (h.scope.length ≤ k.length) && (k.take h.scope.length == h.scope))) = h.scope.isPrefixOf k := by
    intro k
    rw [Bool.eq_iff_iff, List.isPrefixOf_iff_prefix]
    simp only [Bool.or_eq_true, List.isEmpty_iff, Bool.and_eq_true, decide_eq_true_eq, beq_iff_eq]
    constructor
    · rintro (e | ⟨h1, h2⟩)
      · rw [e]; exact List.nil_prefix
      · rw [← h2]; exact List.take_prefix _ _
    · intro hp
      exact .inr ⟨hp.length_le, (List.prefix_iff_eq_take.1 hp).symm⟩
  have e1 : ∀ h' : Handle, (getParameters s h').map Prod.fst = (dirOf s h').keys.filter fun k => h'.scope.isEmpty || (decide (h'.scope.length ≤ k.length) && (k.take h'.scope.length == h'.scope)) := by
    intro h'
    unfold getParameters
    rw [List.map_map]
    exact List.map_id _
  refine ⟨?_, ?_, fun k o => ?_⟩
  · rw [e1]; exact ok.nodup.filter _
  · rw [e1, e1, List.filter_congr (fun k _ => pre k)]
    simp [dirOf]
  · unfold getParameters
    simp only [List.mem_map, List.mem_filter, pre, List.isPrefixOf_iff_prefix, Prod.mk.injEq]
    have fk : ∀ k, k ∈ (dirOf s h).keys ↔ ∃ v, find (dirOf s h).dict k = some v := by
      intro k
      rw [ok.keys, ← Option.ne_none_iff_exists', Ne, find_none, Classical.not_not]
    have gk : ∀ k, getParameter s ⟨h.dir, []⟩ k = find (dirOf s h).dict k := by
      intro k; simp [getParameter, path, dirOf]
    constructor
    · rintro ⟨k', ⟨hk, hp⟩, rfl, rfl⟩
      obtain ⟨v, hv⟩ := (fk _).1 hk
      exact ⟨v, hv, by rw [gk, hv], hp⟩
    · rintro ⟨v, rfl, hv, hp⟩
      rw [gk] at hv
      exact ⟨k, ⟨(fk k).2 ⟨v, hv⟩, hp⟩, rfl, hv⟩

/-- The handle, name and kind of a registering call. -/
def Op.target : Op D → Option (Handle × Str)
  | .create h n _ _ _ => some (h, n)
  | .put h n _ => some (h, n)
  | _ => none

/-- **C146 (order).** A registration of a new path is appended to its directory's listing; no other call changes the listing of an
existing directory. So (with `C146_listing`) parameters are listed in order of registration. -/
theorem C146_order {s : State D} (op : Op D) (hv : Op.valid s op) (d : Nat) (hd : d < s.dirs.length) :
    (getParameters (step s op) ⟨d, []⟩).map Prod.fst = (getParameters s ⟨d, []⟩).map Prod.fst ++
      (match op.target with
      | some (h, n) => if h.dir = d ∧ getParameter s h n = none then [path h.scope n] else []
      | none => []) := by
  have e1 : ∀ t : State D, (getParameters t ⟨d, []⟩).map Prod.fst = (dirOf t ⟨d, []⟩).keys := by
    intro t
    unfold getParameters
    rw [List.map_map]
    simp only [List.isEmpty_nil, Bool.true_or, List.filter_eq_self.2 (fun _ _ => rfl)]
    exact List.map_id _
  rw [e1, e1]
  have ins : ∀ (t : State D) (h : Handle) (p : Str) (v : Nat), h.dir < t.dirs.length →
      (dirOf (insert t h p v) ⟨d, []⟩).keys = (dirOf t ⟨d, []⟩).keys ++ if h.dir = d then [p] else [] := by
    intro t h p v ht
    unfold dirOf insert
    by_cases c : h.dir = d
    · rw [if_pos c]; subst c
      simp [List.getD_eq_getElem?_getD, List.getElem?_set_self ht, dirOf]
    · rw [if_neg c]
      simp [List.getD_eq_getElem?_getD, List.getElem?_set_ne c]
  cases op with
  | newVar v => simp [step, Op.target, dirOf]
  | newDir => simp [step, Op.target, dirOf, List.getD_eq_getElem?_getD, List.getElem?_append_left hd]
  | create h n sh i ng =>
    simp only [step, getOrCreate, Op.target]
    cases e : getParameter s h n with
    | some v =>
      dsimp only
      by_cases c : (s.heap[v]?).map Var.shape = some sh
      · rw [if_pos c]; simp
      · rw [if_neg c]; simp
    | none =>
      dsimp only
      rw [ins { s with heap := s.heap ++ [⟨sh, i sh, ng⟩] } h _ _ hv]
      simp [dirOf]
  | put h n v =>
    simp only [step, getOrPut, Op.target]
    cases e : getParameter s h n with
    | some w =>
      dsimp only
      by_cases c : (s.heap[v]?).map Var.shape = (s.heap[w]?).map Var.shape
      · rw [if_pos c]; simp
      · rw [if_neg c]; simp
    | none =>
      dsimp only
      rw [ins s h _ _ hv.1]
      simp
  | write v x => simp [step, Op.target, dirOf]
  | setNeedGrad v b => simp [step, Op.target, dirOf]
  | copy h => simp [step, deepCopy, Op.target, dirOf, List.getD_eq_getElem?_getD, List.getElem?_append_left hd]

/-- **C146 (listing), partial.** If no registered path begins with the scope's string without being in the scope, `get_parameters`
lists exactly the parameters of the scope: those obtained by some name in it. Missing: the condition (see `C146_listing_refuted`). -/
theorem C146_listing_partial {s : State D} (hs : Reach s) {h : Handle} (hd : h.dir < s.dirs.length)
    (hno : ∀ k v, getParameter s ⟨h.dir, []⟩ k = some v → h.scope <+: k → h.scope = [] ∨ ∃ name, k = path h.scope name) (v : Nat) (k : Str) :
    (k, some v) ∈ getParameters s h ↔ ∃ name, k = path h.scope name ∧ getParameter s h name = some v := by
  rw [(C146_listing hs hd).2.2]
  have gk : ∀ n, getParameter s ⟨h.dir, []⟩ (path h.scope n) = getParameter s h n := by
    intro n; simp [getParameter, path, dirOf]
  constructor
  · rintro ⟨w, e, hw, hp⟩
    cases e
    rcases hno k v hw hp with h0 | ⟨n, rfl⟩
    · exact ⟨k, by simp [path, h0], by rw [← gk]; simpa [path, h0] using hw⟩
    · exact ⟨n, rfl, by rw [← gk]; exact hw⟩
  · rintro ⟨n, rfl, hv⟩
    refine ⟨v, rfl, by rw [gk]; exact hv, ?_⟩
    unfold path
    split
    · rename_i c; rw [List.isEmpty_iff.1 c]; exact List.nil_prefix
    · exact List.prefix_append _ _

/-- conv1 and conv10, each with a parameter W, in one directory. -/
def twoLayers : State Unit :=
  step (step (step ⟨[], []⟩ .newDir) (.create ⟨0, "conv1".toList⟩ "W".toList [3] (fun _ => ()) true)) (.create ⟨0, "conv10".toList⟩ "W".toList [5] (fun _ => ()) true)

/-- **C146 (listing), refuted.** The parameters of scope conv1 include that of scope conv10. -/
theorem C146_listing_refuted : Reach twoLayers ∧ (0 : Nat) < twoLayers.dirs.length ∧
    getParameters twoLayers ⟨0, "conv1".toList⟩ = [("conv1/W".toList, some 0), ("conv10/W".toList, some 1)] ∧
    ∀ name, "conv10/W".toList ≠ path "conv1".toList name := by
  refine ⟨.step (.step (.step .init trivial) (by show 0 < 1; decide)) (by show 0 < 1; decide), by decide, by decide, ?_⟩
  intro name
  simp [path]

/-- **C146 (deep copy).** The copy has the same paths in the same order, every parameter a new variable with the same shape, flag and
data; the original is as before. (The copy is a directory of the whole registry, whatever the scope of the handle.) -/
theorem C146_deep_copy {s : State D} (hs : Reach s) {h : Handle} (hd : h.dir < s.dirs.length) :
    let r := deepCopy s h
    (getParameters r.1 r.2).map Prod.fst = (getParameters s ⟨h.dir, []⟩).map Prod.fst ∧
    (∀ k, getParameter s ⟨h.dir, []⟩ k = none → getParameter r.1 r.2 k = none) ∧
    (∀ k v, getParameter s ⟨h.dir, []⟩ k = some v → ∃ w, getParameter r.1 r.2 k = some w ∧ s.heap.length ≤ w ∧ (s.heap[v]?).isSome ∧ r.1.heap[w]? = s.heap[v]?) ∧
    (∀ k k' w, getParameter r.1 r.2 k = some w → getParameter r.1 r.2 k' = some w → k = k') ∧
    (∀ h' k, h'.dir < s.dirs.length → getParameter r.1 h' k = getParameter s h' k) ∧ ∀ v < s.heap.length, r.1.heap[v]? = s.heap[v]? := by
  have ok := reach_inv hs _ (dirOf_mem hd)
  have eD : dirOf (deepCopy s h).1 (deepCopy s h).2 = ⟨(dirOf s h).dict.zipIdx.map fun e => (e.1.1, s.heap.length + e.2), (dirOf s h).keys⟩ := by
    simp [dirOf, deepCopy, List.getD_eq_getElem?_getD]
  have gk : ∀ k, getParameter s ⟨h.dir, []⟩ k = find (dirOf s h).dict k := by intro k; simp [getParameter, path, dirOf]
  have gk' : ∀ k, getParameter (deepCopy s h).1 (deepCopy s h).2 k = find ((dirOf s h).dict.zipIdx.map fun e => (e.1.1, s.heap.length + e.2)) k := by
    intro k
    unfold getParameter
    rw [eD]
    simp [path, deepCopy]
  have hkeys : ((dirOf s h).dict.zipIdx.map fun e => (e.1.1, s.heap.length + e.2)).map Prod.fst = (dirOf s h).dict.map Prod.fst := by
    rw [List.map_map]; exact zipIdx_fst _ _
  have hnd : (((dirOf s h).dict.zipIdx.map fun e => (e.1.1, s.heap.length + e.2)).map Prod.fst).Nodup := by rw [hkeys, ← ok.keys]; exact ok.nodup
  have hget : ∀ (l : List (Str × Nat)) (hl : ∀ e ∈ l, e.2 < s.heap.length) (i : Nat), (l.filterMap fun e => s.heap[e.2]?)[i]? = (l[i]?).bind fun e => s.heap[e.2]? := by
    intro l hl
    induction l with
    | nil => simp
    | cons e l ih =>
      intro i
      have he := hl e (by simp)
      rw [List.filterMap_cons, List.getElem?_eq_getElem he]
      cases i with
      | zero => simp [List.getElem?_eq_getElem he]
      | succ i => simpa using ih (fun e he => hl e (by simp [he])) i
  intro r
  refine ⟨?_, fun k hk => ?_, fun k v hk => ?_, fun k k' w hk hk' => ?_, fun h' k hh => ?_, fun v hv => ?_⟩
  · unfold getParameters
    rw [eD, List.map_map, List.map_map]
    simp only [r, deepCopy, List.isEmpty_nil, Bool.true_or]
    rfl
  · rw [gk, find_none] at hk
    rw [gk', find_none, hkeys]; exact hk
  · rw [gk] at hk
    obtain ⟨i, hi, hie⟩ := List.mem_iff_getElem.1 (find_mem hk)
    have hv : v < s.heap.length := ok.inb _ (find_mem hk)
    refine ⟨s.heap.length + i, ?_, by omega, by simp [List.getElem?_eq_getElem hv], ?_⟩
    · rw [gk']
      refine find_of_mem hnd (List.mem_map.2 ⟨((k, v), i), ?_, rfl⟩)
      rw [List.mem_zipIdx_iff_getElem?, List.getElem?_eq_getElem hi, hie]
    · show (s.heap ++ _)[s.heap.length + i]? = _
      rw [List.getElem?_append_right (by omega), show s.heap.length + i - s.heap.length = i by omega, hget _ ok.inb, List.getElem?_eq_getElem hi, hie]
      rfl
  · rw [gk'] at hk hk'
    obtain ⟨⟨e, i⟩, he, e1⟩ := List.mem_map.1 (find_mem hk)
    obtain ⟨⟨e', i'⟩, he', e1'⟩ := List.mem_map.1 (find_mem hk')
    simp only [Prod.mk.injEq] at e1 e1'
    obtain rfl : i = i' := by omega
    rw [List.mem_zipIdx_iff_getElem?] at he he'
    rw [he] at he'
    simp only [Option.some.injEq] at he'
    rw [← e1.1, ← e1'.1, he']
  · show find (dirOf (deepCopy s h).1 h').dict _ = find (dirOf s h').dict _
    simp [dirOf, deepCopy, List.getD_eq_getElem?_getD, List.getElem?_append_left hh]
  · show (s.heap ++ _)[v]? = _
    exact List.getElem?_append_left hv

/-- **C146 (deep copy).** After a deep copy, writing to one side's variables does not change the other's: a variable keeps its data
through all calls that do not write to it. -/
theorem C146_deep_copy_independent {s t : State D} (h : Later s t) {v : Nat} (hv : v < s.heap.length)
    (hw : ∀ t' op, Later s t' → Later (step t' op) t → (∀ x, op ≠ .write v x) ∧ (∀ b, op ≠ .setNeedGrad v b)) : t.heap[v]? = s.heap[v]? := by
  suffices H : t.heap[v]? = s.heap[v]? ∧ s.heap.length ≤ t.heap.length from H.1
  induction h with
  | refl => exact ⟨rfl, Nat.le_refl _⟩
  | @step t op hl hvl ih =>
    obtain ⟨i1, i2⟩ := ih fun t' op' h1 h2 => hw t' op' h1 (.step h2 hvl)
    obtain ⟨n1, n2⟩ := hw t op hl .refl
    have := dirs_step t op
    exact ⟨by rw [(heap_step op (by omega)).2 n1 n2, i1], by omega⟩

/-- **C146 (deep copy), sharing refuted.** One variable registered under two names becomes two variables. -/
theorem C146_deep_copy_sharing_refuted :
    let s : State Nat := step (step (step (step ⟨[], []⟩ .newDir) (.newVar ⟨[1], 7, true⟩)) (.put ⟨0, []⟩ "a".toList 0)) (.put ⟨0, []⟩ "b".toList 0)
    let r := deepCopy s ⟨0, []⟩
    Reach s ∧ getParameter s ⟨0, []⟩ "a".toList = getParameter s ⟨0, []⟩ "b".toList ∧ getParameter r.1 r.2 "a".toList = some 1 ∧ getParameter r.1 r.2 "b".toList = some 2 := by
  refine ⟨.step (.step (.step (.step .init trivial) trivial) ⟨by show 0 < 1; decide, by show 0 < 1; decide⟩) ⟨by show 0 < 1; decide, by show 0 < 1; decide⟩, by decide, by decide, by decide⟩

/-! ### Parametric functions -/

/-- A parameter a layer asks for: name, shape, initial value, need_grad. -/
structure Req (D : Type) where
  name : Str
  shape : Shape
  init : Shape → D
  needGrad : Bool

/-- Requests in order, each in the handle's scope; the first failure throws (parameters registered before it stay). -/
def request (s : State D) (h : Handle) : List (Req D) → State D × Option (List Nat)
  | [] => (s, some [])
  | q :: qs =>
    match getOrCreate s h q.name q.shape q.init q.needGrad with
    | (s, none) => (s, none)
    | (s, some v) => match request s h qs with
      | (s, none) => (s, none)
      | (s, some vs) => (s, some (v :: vs))

/-- cpp:352-402 affine: the parameters; `get_parameter_or_create`'s need_grad is left at its default, true (cpp:105), whatever
`fix_parameters`. -/
def affineReqs (xShape : Shape) (baseAxis nOut : Nat) (withBias _fixParameters : Bool) (wInit bInit : Shape → D) : List (Req D) :=
  ⟨"affine/W".toList, [(xShape.drop baseAxis).foldl (· * ·) 1, nOut], wInit, true⟩ ::
    if withBias then [⟨"affine/b".toList, [nOut], bInit, true⟩] else []

/-- cpp:413-467 convolution and cpp:480-540 deconvolution (`de`): weight (out, in / group, kernel) or (in, out / group, kernel). -/
def convReqs (de : Bool) (xShape : Shape) (baseAxis nOut group : Nat) (kernel : List Nat) (withBias _fixParameters : Bool) (wInit bInit : Shape → D) : List (Req D) :=
  let nIn := xShape.getD baseAxis 0
  ⟨(if de then "deconv/W" else "conv/W").toList, (if de then [nIn, nOut / group] else [nOut, nIn / group]) ++ kernel, wInit, true⟩ ::
    if withBias then [⟨(if de then "deconv/b" else "conv/b").toList, [nOut], bInit, true⟩] else []

/-- cpp:559-596 batch_normalization: x's shape with 1 except on the one axis; the running statistics need no gradient. -/
def bnReqs (xShape : Shape) (axis : Nat) (_fixParameters : Bool) (zero one : D) : List (Req D) :=
  let sh := (List.range xShape.length).map fun i => if i = axis then xShape.getD i 0 else 1
  [⟨"bn/beta".toList, sh, fun _ => zero, true⟩, ⟨"bn/gamma".toList, sh, fun _ => one, true⟩,
    ⟨"bn/mean".toList, sh, fun _ => zero, false⟩, ⟨"bn/variance".toList, sh, fun _ => one, false⟩]

theorem Later.trans {a b c : State D} (h : Later a b) (h' : Later b c) : Later a c := by
  induction h' with
  | refl => exact h
  | step _ hv ih => exact .step ih hv

theorem request_mono {s : State D} (hs : Reach s) {h : Handle} (hd : h.dir < s.dirs.length) (qs : List (Req D)) : Later s (request s h qs).1 ∧ Reach (request s h qs).1 := by
  suffices Later s (request s h qs).1 from ⟨this, this.reach hs⟩
  suffices H : ∀ t : State D, Later s t → h.dir < t.dirs.length → Later s (request t h qs).1 from H s .refl hd
  induction qs with
  | nil => intro t ht _; exact ht
  | cons q qs ih =>
    intro t ht hd
    have hl : Later s (getOrCreate t h q.name q.shape q.init q.needGrad).1 := .step (op := .create h q.name q.shape q.init q.needGrad) ht hd
    have hdd := (dirs_step t (.create h q.name q.shape q.init q.needGrad)).1
    simp only [step] at hdd
    rw [request]
    rcases e : getOrCreate t h q.name q.shape q.init q.needGrad with ⟨t', o⟩
    rw [e] at hl hdd
    cases o with
    | none => exact hl
    | some v =>
      have := ih t' hl (by simp only at hdd; omega)
      dsimp only
      rcases e2 : request t' h qs with ⟨t2, o2⟩
      rw [e2] at this
      cases o2 <;> exact this

/-- **C147 (sharing).** A second call of a layer in the same scope, with the same sizes, uses the variables of the first one and changes
nothing, whatever happened in between. -/
theorem C147_sharing {s t : State D} (hs : Reach s) {h : Handle} (hd : h.dir < s.dirs.length) (qs qs' : List (Req D)) (vs : List Nat)
    (hr : (request s h qs).2 = some vs) (ht : Later (request s h qs).1 t) (hq : qs'.map (fun q => (q.name, q.shape)) = qs.map fun q => (q.name, q.shape)) :
    request t h qs' = (t, some vs) := by
  induction qs generalizing s qs' vs with
  | nil =>
    simp only [List.map_nil, List.map_eq_nil_iff] at hq
    subst hq
    simp only [request, Option.some.injEq] at hr
    simp [request, ← hr]
  | cons q qs ih =>
    cases qs' with
    | nil => simp at hq
    | cons q' qs' =>
      simp only [List.map_cons, List.cons.injEq, Prod.mk.injEq] at hq
      obtain ⟨⟨hn, hsh⟩, hq⟩ := hq
      rw [request] at hr ht
      have hl : Reach (getOrCreate s h q.name q.shape q.init q.needGrad).1 := .step (op := .create h q.name q.shape q.init q.needGrad) hs hd
      have hdd := (dirs_step s (.create h q.name q.shape q.init q.needGrad)).1
      simp only [step] at hdd
      obtain ⟨g1, g2⟩ := C146_get_or_create hd q.name q.shape q.init q.needGrad
      rcases e : getOrCreate s h q.name q.shape q.init q.needGrad with ⟨s', o⟩
      rw [e] at hr ht hl hdd g1 g2
      cases o with
      | none => simp at hr
      | some v =>
        dsimp only at hr ht hdd hl g1 g2
        have hd' : h.dir < s'.dirs.length := by omega
        obtain ⟨m1, -⟩ := request_mono hl hd' qs
        rcases e2 : request s' h qs with ⟨s2, o2⟩
        rw [e2] at hr ht m1
        cases o2 with
        | none => simp at hr
        | some vs' =>
          simp only [Option.some.injEq] at hr
          dsimp only at ht m1
          have hs'v : getParameter s' h q.name = some v ∧ (s'.heap[v]?).map Var.shape = some q.shape := by
            cases hg : getParameter s h q.name with
            | some w =>
              obtain ⟨rfl, h2⟩ := g1 w hg
              rcases h2 with ⟨h2, h3⟩ | ⟨h2, -⟩
              · simp only [Option.some.injEq] at h2; subst h2; exact ⟨hg, h3⟩
              · simp at h2
            | none =>
              obtain ⟨w, h1, -, h3, h4, -, -⟩ := g2 hg
              simp only [Option.some.injEq] at h1; subst h1
              exact ⟨h3, by rw [h4]; rfl⟩
          have hst : Later s' t := by
            exact m1.trans ht
          obtain ⟨f1, f2, -⟩ := C146_stable hl hst hd' hs'v.1
          have r1 : getOrCreate t h q'.name q'.shape q'.init q'.needGrad = (t, some v) := by
            rw [hn, hsh]
            simp only [getOrCreate, f1]
            rw [if_pos (by rw [f2]; exact hs'v.2)]
          have r2 := ih hl hd' qs' vs' (by rw [e2]) (by rw [e2]; exact ht) hq
          rw [request, r1]
          simp only [r2, hr]

theorem path_inj {sc a b : Str} (h : path sc a = path sc b) : a = b := by
  unfold path at h
  split at h
  · exact h
  · simpa using h

/-- **C147 (creation).** A layer in a scope where none of its parameters is registered gets new variables with the requested shapes,
initial values and flags, registered under the requested names. -/
theorem C147_creates {s : State D} (hs : Reach s) {h : Handle} (hd : h.dir < s.dirs.length) (qs : List (Req D)) (hg : ∀ q ∈ qs, getParameter s h q.name = none)
    (hn : (qs.map Req.name).Nodup) :
    ∃ vs, (request s h qs).2 = some vs ∧ (∀ w < s.heap.length, (request s h qs).1.heap[w]? = s.heap[w]?) ∧
      ∀ (i : Nat) (q : Req D), qs[i]? = some q → ∃ v, vs[i]? = some v ∧ getParameter (request s h qs).1 h q.name = some v ∧
        (request s h qs).1.heap[v]? = some ⟨q.shape, q.init q.shape, q.needGrad⟩ := by
  induction qs generalizing s with
  | nil => exact ⟨[], rfl, fun _ _ => rfl, by simp⟩
  | cons q qs ih =>
    simp only [List.map_cons, List.nodup_cons] at hn
    obtain ⟨-, g2⟩ := C146_get_or_create hd q.name q.shape q.init q.needGrad
    obtain ⟨v, h1, -, h3, h4, h5, h6⟩ := g2 (hg q (by simp))
    have hl : Reach (getOrCreate s h q.name q.shape q.init q.needGrad).1 := .step (op := .create h q.name q.shape q.init q.needGrad) hs hd
    have hdd := dirs_step s (.create h q.name q.shape q.init q.needGrad)
    simp only [step] at hdd
    rw [request]
    rcases e : getOrCreate s h q.name q.shape q.init q.needGrad with ⟨s', o⟩
    rw [e] at h1 h3 h4 h5 h6 hl hdd
    dsimp only at h1 h3 h4 h5 h6 hl hdd
    subst h1
    have hd' : h.dir < s'.dirs.length := by omega
    obtain ⟨vs, i1, i2, i3⟩ := ih hl hd' (fun p hp => by
      rw [h6 h p.name (.inr ?_)]
      · exact hg p (by simp [hp])
      · intro c
        exact hn.1 (List.mem_map.2 ⟨p, hp, path_inj c⟩)) hn.2
    obtain ⟨m1, -⟩ := request_mono hl hd' qs
    have hst := (C146_stable hl m1 hd' h3).1
    dsimp only
    rcases e2 : request s' h qs with ⟨s2, o2⟩
    rw [e2] at i1 i2 i3 hst
    dsimp only at i1 i2 i3 hst
    subst i1
    have hv : v < s'.heap.length := (List.getElem?_eq_some_iff.1 h4).1
    refine ⟨v :: vs, rfl, fun w hw => ?_, fun i p hp => ?_⟩
    · dsimp only
      rw [i2 w (by omega), h5 w hw]
    · cases i with
      | zero =>
        simp only [List.getElem?_cons_zero, Option.some.injEq] at hp
        subst hp
        exact ⟨v, rfl, hst, by dsimp only; rw [i2 v hv, h4]⟩
      | succ i =>
        simp only [List.getElem?_cons_succ] at hp ⊢
        exact i3 i p hp

/-- Which parameters are trained: those with need_grad. The documented effect of `fix_parameters`: none of a layer's. -/
def Trained (s : State D) (h : Handle) (name : Str) : Prop := ∃ v x, getParameter s h name = some v ∧ s.heap[v]? = some x ∧ x.needGrad = true

/-- **C147 (layers), partial.** In an empty scope, affine, convolution, deconvolution and batch normalization register the parameters
with the documented names and shapes; with `fix_parameters = false` the weights are trained and the running statistics are not.
Missing: `fix_parameters = true` (see `C147_fix_parameters_refuted`). -/
theorem C147_layers_partial {s : State D} (hs : Reach s) {h : Handle} (hd : h.dir < s.dirs.length) (he : ∀ n, getParameter s h n = none)
    (x : Shape) (base nOut : Nat) (kernel : List Nat) (group : Nat) (w b : Shape → D) (zero one : D) :
    (let r := request s h (affineReqs x base nOut true false w b);
      r.2.isSome = true ∧ Trained r.1 h "affine/W".toList ∧ Trained r.1 h "affine/b".toList ∧
      ∃ v, getParameter r.1 h "affine/W".toList = some v ∧ (r.1.heap[v]?).map Var.shape = some [(x.drop base).foldl (· * ·) 1, nOut]) ∧
    (let r := request s h (convReqs false x base nOut group kernel true false w b);
      r.2.isSome = true ∧ Trained r.1 h "conv/W".toList ∧ Trained r.1 h "conv/b".toList ∧
      ∃ v, getParameter r.1 h "conv/W".toList = some v ∧ (r.1.heap[v]?).map Var.shape = some ([nOut, x.getD base 0 / group] ++ kernel)) ∧
    (let r := request s h (convReqs true x base nOut group kernel true false w b);
      r.2.isSome = true ∧ Trained r.1 h "deconv/W".toList ∧ Trained r.1 h "deconv/b".toList ∧
      ∃ v, getParameter r.1 h "deconv/W".toList = some v ∧ (r.1.heap[v]?).map Var.shape = some ([x.getD base 0, nOut / group] ++ kernel)) ∧
    (let r := request s h (bnReqs x base false zero one);
      r.2.isSome = true ∧ Trained r.1 h "bn/beta".toList ∧ Trained r.1 h "bn/gamma".toList ∧ ¬ Trained r.1 h "bn/mean".toList ∧ ¬ Trained r.1 h "bn/variance".toList ∧
      ∀ n ∈ ["bn/beta".toList, "bn/gamma".toList, "bn/mean".toList, "bn/variance".toList], ∃ v, getParameter r.1 h n = some v ∧
        ∃ sh, (r.1.heap[v]?).map Var.shape = some sh ∧ sh.length = x.length ∧ ∀ i (hi : i < x.length), sh[i]? = some (if i = base then x[i] else 1)) := by
  refine ⟨?_, ?_, ?_, ?_⟩
  · obtain ⟨vs, h1, -, h3⟩ := C147_creates hs hd (affineReqs x base nOut true false w b) (fun _ _ => he _) (by simp [affineReqs])
    obtain ⟨v0, -, a1, a2⟩ := h3 0 _ rfl
    obtain ⟨v1, -, b1, b2⟩ := h3 1 _ rfl
    exact ⟨by rw [h1]; rfl, ⟨v0, _, a1, a2, rfl⟩, ⟨v1, _, b1, b2, rfl⟩, v0, a1, by rw [a2]; rfl⟩
  · obtain ⟨vs, h1, -, h3⟩ := C147_creates hs hd (convReqs false x base nOut group kernel true false w b) (fun _ _ => he _) (by simp [convReqs])
    obtain ⟨v0, -, a1, a2⟩ := h3 0 _ rfl
    obtain ⟨v1, -, b1, b2⟩ := h3 1 _ rfl
    exact ⟨by rw [h1]; rfl, ⟨v0, _, a1, a2, rfl⟩, ⟨v1, _, b1, b2, rfl⟩, v0, a1, by rw [a2]; rfl⟩
  · obtain ⟨vs, h1, -, h3⟩ := C147_creates hs hd (convReqs true x base nOut group kernel true false w b) (fun _ _ => he _) (by simp [convReqs])
    obtain ⟨v0, -, a1, a2⟩ := h3 0 _ rfl
    obtain ⟨v1, -, b1, b2⟩ := h3 1 _ rfl
    exact ⟨by rw [h1]; rfl, ⟨v0, _, a1, a2, rfl⟩, ⟨v1, _, b1, b2, rfl⟩, v0, a1, by rw [a2]; rfl⟩
  · obtain ⟨vs, h1, -, h3⟩ := C147_creates hs hd (bnReqs x base false zero one) (fun _ _ => he _) (by simp [bnReqs])
    obtain ⟨v0, -, a1, a2⟩ := h3 0 _ rfl
    obtain ⟨v1, -, b1, b2⟩ := h3 1 _ rfl
    obtain ⟨v2, -, c1, c2⟩ := h3 2 _ rfl
    obtain ⟨v3, -, d1, d2⟩ := h3 3 _ rfl
    dsimp only at a1 b1 c1 d1
    refine ⟨by rw [h1]; rfl, ⟨v0, _, a1, a2, rfl⟩, ⟨v1, _, b1, b2, rfl⟩, ?_, ?_, ?_⟩
    · rintro ⟨v, y, e1, e2, e3⟩
      rw [c1] at e1; cases e1
      rw [c2] at e2; cases e2
      cases e3
    · rintro ⟨v, y, e1, e2, e3⟩
      rw [d1] at e1; cases e1
      rw [d2] at e2; cases e2
      cases e3
    · have sp : ((List.range x.length).map fun i => if i = base then x.getD i 0 else 1).length = x.length ∧
          ∀ i (hi : i < x.length), ((List.range x.length).map fun i => if i = base then x.getD i 0 else 1)[i]? = some (if i = base then x[i] else 1) :=
        ⟨by simp, fun i hi => by simp [hi]⟩
      intro n hn
      simp only [List.mem_cons, List.not_mem_nil, or_false] at hn
      rcases hn with rfl | rfl | rfl | rfl
      · exact ⟨v0, a1, _, by rw [a2]; rfl, sp⟩
      · exact ⟨v1, b1, _, by rw [b2]; rfl, sp⟩
      · exact ⟨v2, c1, _, by rw [c2]; rfl, sp⟩
      · exact ⟨v3, d1, _, by rw [d2]; rfl, sp⟩

/-- **C147 (freezing), refuted.** With `fix_parameters = true` the weights of affine, convolution and batch normalization are trained
all the same. -/
theorem C147_fix_parameters_refuted {s : State D} (hs : Reach s) {h : Handle} (hd : h.dir < s.dirs.length) (he : ∀ n, getParameter s h n = none)
    (x : Shape) (base nOut : Nat) (kernel : List Nat) (group : Nat) (w b : Shape → D) (zero one : D) :
    Trained (request s h (affineReqs x base nOut true true w b)).1 h "affine/W".toList ∧
    Trained (request s h (convReqs false x base nOut group kernel true true w b)).1 h "conv/W".toList ∧
    Trained (request s h (convReqs true x base nOut group kernel true true w b)).1 h "deconv/W".toList ∧
    Trained (request s h (bnReqs x base true zero one)).1 h "bn/gamma".toList := by
  obtain ⟨h1, h2, h3, h4⟩ := C147_layers_partial hs hd he x base nOut kernel group w b zero one
  exact ⟨h1.2.1, h2.2.1, h3.2.1, h4.2.2.1⟩

/-- Such a scope exists. -/
example : ∃ s : State Nat, Reach s ∧ (0 : Nat) < s.dirs.length ∧ ∀ n, getParameter s ⟨0, "net".toList⟩ n = none :=
  ⟨step ⟨[], []⟩ .newDir, .step .init trivial, by decide, fun _ => rfl⟩

/-- Two calls in one scope: the second returns the variables of the first; another width fails. -/
example :
    let s : State Nat := step ⟨[], []⟩ .newDir
    let r := request s ⟨0, "fc".toList⟩ (affineReqs [8, 3, 4] 1 5 true false (fun _ => 1) fun _ => 0)
    r.2 = some [0, 1] ∧ (request r.1 ⟨0, "fc".toList⟩ (affineReqs [2, 12] 1 5 true false (fun _ => 9) fun _ => 9)).2 = some [0, 1] ∧
    (request r.1 ⟨0, "fc".toList⟩ (affineReqs [2, 12] 1 6 true false (fun _ => 9) fun _ => 9)).2 = none := by decide

end Verif.Native
