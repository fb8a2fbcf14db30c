/-
Model of the C++ parameter registry and parametric functions: /repo/include/nbla/parametric_functions.hpp ("hpp") and
/repo/src/nbla/parametric_functions.cpp ("cpp").

A ParameterDirectory object is a scope path and two shared pointers (dictionary and key order). Directories that share them are
given by the number of the pair and the path. Strings are lists of characters.

Simplifications: the dictionary is a list of entries, iterated (create_deep_copy only) in that order: the order of an
unordered_map is unspecified, and only decides the numbers of the fresh variables. A variable's data is a value of any type `D`;
initializers are functions of the shape. Gradients are not modelled.
-/
namespace Verif.Native

abbrev Str := List Char
abbrev Shape := List Nat

/-- A CgVariable holding a parameter. -/
structure Var (D : Type) where
  shape : Shape
  data : D
  needGrad : Bool
deriving DecidableEq, Repr

/-- hpp:45-50: `param_dict_` and `ordered_keys_`. -/
structure Dir where
  dict : List (Str × Nat)
  keys : List Str
deriving DecidableEq, Repr

/-- A ParameterDirectory: which (shared) pair, and `scope_path_`. -/
structure Handle where
  dir : Nat
  scope : Str
deriving DecidableEq, Repr

structure State (D : Type) where
  heap : List (Var D)
  dirs : List Dir
deriving DecidableEq, Repr

/-- cpp:59-63, 86-92, 110-116, 143-149: the path of a name. -/
def path (scope name : Str) : Str := if scope.isEmpty then name else scope ++ '/' :: name

/-- cpp:56-64 `operator[]`. -/
def Handle.sub (h : Handle) (name : Str) : Handle := ⟨h.dir, path h.scope name⟩

/-- unordered_map::find. -/
def find : List (Str × Nat) → Str → Option Nat
  | [], _ => none
  | (k, v) :: l, p => if k = p then some v else find l p

variable {D : Type}

def dirOf (s : State D) (h : Handle) : Dir := s.dirs.getD h.dir ⟨[], []⟩

/-- cpp:84-100 get_parameter. -/
def getParameter (s : State D) (h : Handle) (name : Str) : Option Nat := find (dirOf s h).dict (path h.scope name)

/-- Insert in the dictionary (which has no entry for the path) and append to the key order (cpp:133-134, 165-166). -/
def insert (s : State D) (h : Handle) (p : Str) (v : Nat) : State D :=
  { s with dirs := s.dirs.set h.dir ⟨(dirOf s h).dict ++ [(p, v)], (dirOf s h).keys ++ [p]⟩ }

/-- cpp:102-137 get_parameter_or_create with an initializer (make_parameter: cpp:38-43). `none`: exception. -/
def getOrCreate (s : State D) (h : Handle) (name : Str) (shape : Shape) (init : Shape → D) (needGrad : Bool) : State D × Option Nat :=
  match getParameter s h name with
  | some v => if (s.heap[v]?).map Var.shape = some shape then (s, some v) else (s, none)
  | none =>
    let s' := { s with heap := s.heap ++ [⟨shape, init shape, needGrad⟩] }
    (insert s' h (path h.scope name) s.heap.length, some s.heap.length)

/-- cpp:139-169 get_parameter_or_create with a variable. -/
def getOrPut (s : State D) (h : Handle) (name : Str) (v : Nat) : State D × Option Nat :=
  match getParameter s h name with
  | some w => if (s.heap[v]?).map Var.shape = (s.heap[w]?).map Var.shape then (s, some w) else (s, none)
  | none => (insert s h (path h.scope name) v, some v)

/-- cpp:66-82 get_parameters: `std::equal` on the first scope_path_.size() characters. -/
def getParameters (s : State D) (h : Handle) : List (Str × Option Nat) :=
  ((dirOf s h).keys.filter fun k => h.scope.isEmpty || (decide (h.scope.length ≤ k.length) && (k.take h.scope.length == h.scope))).map
    fun k => (k, find (dirOf s h).dict k)

/-- cpp:171-184 create_deep_copy: every variable is copied (data, shape, need_grad), the key order too; the result has the root scope. -/
def deepCopy (s : State D) (h : Handle) : State D × Handle :=
  let d := dirOf s h
  let vars := d.dict.filterMap fun e => s.heap[e.2]?
  ({ heap := s.heap ++ vars, dirs := s.dirs ++ [⟨d.dict.zipIdx.map fun e => (e.1.1, s.heap.length + e.2), d.keys⟩] }, ⟨s.dirs.length, []⟩)

/-- What a program can do with directories and the variables it gets from them. -/
inductive Op (D : Type) where
  | newVar (v : Var D)
  | newDir
  | create (h : Handle) (name : Str) (shape : Shape) (init : Shape → D) (needGrad : Bool)
  | put (h : Handle) (name : Str) (v : Nat)
  | write (v : Nat) (data : D)
  | setNeedGrad (v : Nat) (b : Bool)
  | copy (h : Handle)

/-- A call is only possible with directories and variables that exist. -/
def Op.valid (s : State D) : Op D → Prop
  | .create h _ _ _ _ => h.dir < s.dirs.length
  | .put h _ v => h.dir < s.dirs.length ∧ v < s.heap.length
  | .copy h => h.dir < s.dirs.length
  | _ => True

def step (s : State D) : Op D → State D
  | .newVar v => { s with heap := s.heap ++ [v] }
  | .newDir => { s with dirs := s.dirs ++ [⟨[], []⟩] }
  | .create h name shape init ng => (getOrCreate s h name shape init ng).1
  | .put h name v => (getOrPut s h name v).1
  | .write v data => { s with heap := s.heap.modify v fun x => { x with data := data } }
  | .setNeedGrad v b => { s with heap := s.heap.modify v fun x => { x with needGrad := b } }
  | .copy h => (deepCopy s h).1

/-- The states programs reach. -/
inductive Reach : State D → Prop where
  | init : Reach ⟨[], []⟩
  | step {s op} : Reach s → Op.valid s op → Reach (step s op)

/-- Further calls. -/
inductive Later : State D → State D → Prop where
  | refl {s} : Later s s
  | step {s t op} : Later s t → Op.valid t op → Later s (step t op)

/-! ### Invariant -/

theorem find_append (l m : List (Str × Nat)) (p : Str) : find (l ++ m) p = (find l p).or (find m p) := by
  induction l with
  | nil => simp [find]
  | cons e l ih =>
    rw [List.cons_append, find, find]
    by_cases h : e.1 = p
    · simp [h]
    · rw [if_neg h, if_neg h, ih]

theorem find_none (l : List (Str × Nat)) (p : Str) : find l p = none ↔ p ∉ l.map Prod.fst := by
  induction l with
  | nil => simp [find]
  | cons e l ih =>
    rw [find]
    by_cases h : e.1 = p
    · simp [h]
    · rw [if_neg h, ih]; simp [Ne.symm h]

theorem find_mem {l : List (Str × Nat)} {p : Str} {v : Nat} (h : find l p = some v) : (p, v) ∈ l := by
  induction l with
  | nil => simp [find] at h
  | cons e l ih =>
    rw [find] at h
    by_cases c : e.1 = p
    · rw [if_pos c] at h
      simp only [Option.some.injEq] at h
      simp [← c, ← h]
    · rw [if_neg c] at h; exact List.mem_cons_of_mem _ (ih h)

theorem find_of_mem {l : List (Str × Nat)} (hn : (l.map Prod.fst).Nodup) {p : Str} {v : Nat} (h : (p, v) ∈ l) : find l p = some v := by
  induction l with
  | nil => simp at h
  | cons e l ih =>
    simp only [List.map_cons, List.nodup_cons] at hn
    rw [find]
    rcases List.mem_cons.1 h with rfl | h
    · simp
    · rw [if_neg, ih hn.2 h]
      intro c
      exact hn.1 (List.mem_map.2 ⟨_, h, c.symm⟩)

/-- In every reachable state: the keys are those of the dictionary, once each, in the order of insertion; entries name variables
that exist. -/
structure DirOK (n : Nat) (d : Dir) : Prop where
  keys : d.keys = d.dict.map Prod.fst
  nodup : d.keys.Nodup
  inb : ∀ e ∈ d.dict, e.2 < n

theorem DirOK.mono {n m : Nat} {d : Dir} (h : DirOK n d) (hnm : n ≤ m) : DirOK m d := ⟨h.keys, h.nodup, fun e he => Nat.lt_of_lt_of_le (h.inb e he) hnm⟩

def Inv (s : State D) : Prop := ∀ d ∈ s.dirs, DirOK s.heap.length d

theorem dirOf_mem {s : State D} {h : Handle} (hd : h.dir < s.dirs.length) : dirOf s h ∈ s.dirs := by
  unfold dirOf
  rw [List.getD_eq_getElem?_getD, List.getElem?_eq_getElem hd]
  exact List.getElem_mem _

theorem inv_insert {s : State D} (hi : Inv s) {h : Handle} (hd : h.dir < s.dirs.length) {p : Str} {v : Nat} (hv : v < s.heap.length)
    (hf : find (dirOf s h).dict p = none) : Inv (insert s h p v) := by
  intro d hd'
  have ok := hi _ (dirOf_mem hd)
  rcases List.mem_or_eq_of_mem_set hd' with hd' | rfl
  · exact hi _ hd'
  · refine ⟨by simp [ok.keys], ?_, ?_⟩
    · rw [List.nodup_append]
      refine ⟨ok.nodup, by simp, ?_⟩
      intro a ha b hb e
      simp only [List.mem_singleton] at hb
      subst hb; subst e
      rw [find_none, ← ok.keys] at hf
      exact hf ha
    · intro e he
      rcases List.mem_append.1 he with he | he
      · exact ok.inb e he
      · simp only [List.mem_singleton] at he; subst he; exact hv

theorem filterMap_length {s : State D} {l : List (Str × Nat)} (h : ∀ e ∈ l, e.2 < s.heap.length) : (l.filterMap fun e => s.heap[e.2]?).length = l.length := by
  induction l with
  | nil => rfl
  | cons e l ih =>
    have he := h e (by simp)
    rw [List.filterMap_cons, List.getElem?_eq_getElem he]
    simp [ih fun e he => h e (by simp [he])]

theorem zipIdx_fst (l : List (Str × Nat)) (k : Nat) : (l.zipIdx k).map (fun e => e.1.1) = l.map Prod.fst := by
  induction l generalizing k with
  | nil => rfl
  | cons e l ih => simp [ih]

theorem inv_step {s : State D} (hi : Inv s) (op : Op D) (hv : Op.valid s op) : Inv (step s op) := by
  cases op with
  | newVar v => intro d hd; exact (hi d hd).mono (by simp [step])
  | newDir =>
    intro d hd
    rcases List.mem_append.1 hd with hd | hd
    · exact hi d hd
    · simp only [List.mem_singleton] at hd; subst hd; exact ⟨rfl, by simp, by simp⟩
  | create h name shape init ng =>
    simp only [step, getOrCreate]
    cases e : getParameter s h name with
    | some v =>
      dsimp only
      by_cases c : (s.heap[v]?).map Var.shape = some shape
      · rw [if_pos c]; exact hi
      · rw [if_neg c]; exact hi
    | none =>
      refine inv_insert (s := { s with heap := s.heap ++ [⟨shape, init shape, ng⟩] }) ?_ hv (by simp) e
      intro d hd
      exact (hi d hd).mono (by simp)
  | put h name v =>
    simp only [step, getOrPut]
    cases e : getParameter s h name with
    | some w =>
      dsimp only
      by_cases c : (s.heap[v]?).map Var.shape = (s.heap[w]?).map Var.shape
      · rw [if_pos c]; exact hi
      · rw [if_neg c]; exact hi
    | none => exact inv_insert hi hv.1 hv.2 e
  | write v data => intro d hd; exact (hi d hd).mono (by simp [step])
  | setNeedGrad v b => intro d hd; exact (hi d hd).mono (by simp [step])
  | copy h =>
    have ok := hi _ (dirOf_mem hv)
    intro d hd
    simp only [step, deepCopy] at hd ⊢
    have hl := filterMap_length (s := s) ok.inb
    rcases List.mem_append.1 hd with hd | hd
    · exact (hi d hd).mono (by simp)
    · simp only [List.mem_singleton] at hd
      subst hd
      have hk : (List.map (fun e : (Str × Nat) × Nat => (e.1.1, s.heap.length + e.2)) (dirOf s h).dict.zipIdx).map Prod.fst = (dirOf s h).dict.map Prod.fst := by
        rw [List.map_map]
        exact zipIdx_fst _ _
      refine ⟨by rw [hk]; exact ok.keys, ok.nodup, ?_⟩
      intro e he
      obtain ⟨e', he', rfl⟩ := List.mem_map.1 he
      have := List.snd_lt_of_mem_zipIdx he'
      simp only [List.length_append, hl]
      omega

theorem reach_inv {s : State D} (h : Reach s) : Inv s := by
  induction h with
  | init => intro d hd; simp at hd
  | step _ hv ih => exact inv_step ih _ hv

theorem Later.reach {s t : State D} (hs : Reach s) (h : Later s t) : Reach t := by
  induction h with
  | refl => exact hs
  | step _ hv ih => exact .step ih hv

theorem getParameter_insert {s : State D} {h h' : Handle} (hd : h.dir < s.dirs.length) (p : Str) (v : Nat) (name : Str) :
    getParameter (insert s h p v) h' name =
      if h'.dir = h.dir then (getParameter s h' name).or (if p = path h'.scope name then some v else none) else getParameter s h' name := by
  unfold getParameter insert dirOf
  by_cases c : h'.dir = h.dir
  · rw [if_pos c, c]
    simp only [List.getD_eq_getElem?_getD, List.getElem?_set_self hd, Option.getD_some, find_append]
    rfl
  · rw [if_neg c]
    simp [List.getD_eq_getElem?_getD, List.getElem?_set_ne (Ne.symm c)]

/-- A call never changes or removes an entry. -/
theorem getParameter_step {s : State D} (op : Op D) (hv : Op.valid s op) {h : Handle} (hd : h.dir < s.dirs.length) {name : Str} {v : Nat}
    (hg : getParameter s h name = some v) : getParameter (step s op) h name = some v := by
  cases op with
  | newVar v => exact hg
  | newDir =>
    simp only [step, getParameter, dirOf, List.getD_eq_getElem?_getD, List.getElem?_append_left hd] at hg ⊢; exact hg
  | create h' n sh init ng =>
    simp only [step, getOrCreate]
    cases e : getParameter s h' n with
    | some w =>
      dsimp only
      by_cases c : (s.heap[w]?).map Var.shape = some sh
      · rw [if_pos c]; exact hg
      · rw [if_neg c]; exact hg
    | none =>
      dsimp only
      rw [getParameter_insert (s := { s with heap := s.heap ++ [⟨sh, init sh, ng⟩] }) hv]
      have : getParameter { s with heap := s.heap ++ [⟨sh, init sh, ng⟩] } h name = some v := hg
      rw [this]
      simp
  | put h' n w =>
    simp only [step, getOrPut]
    cases e : getParameter s h' n with
    | some u =>
      dsimp only
      by_cases c : (s.heap[w]?).map Var.shape = (s.heap[u]?).map Var.shape
      · rw [if_pos c]; exact hg
      · rw [if_neg c]; exact hg
    | none =>
      dsimp only
      rw [getParameter_insert hv.1, hg]
      simp
  | write w x => exact hg
  | setNeedGrad w b => exact hg
  | copy h' =>
    simp only [step, deepCopy, getParameter, dirOf, List.getD_eq_getElem?_getD, List.getElem?_append_left hd] at hg ⊢; exact hg

theorem dirs_step (s : State D) (op : Op D) : s.dirs.length ≤ (step s op).dirs.length ∧ s.heap.length ≤ (step s op).heap.length := by
  cases op with
  | newVar v => simp [step]
  | newDir => simp [step]
  | create h n sh init ng =>
    simp only [step, getOrCreate]
    cases getParameter s h n with
    | some w => dsimp only; split <;> simp
    | none => simp [insert]
  | put h n w =>
    simp only [step, getOrPut]
    cases getParameter s h n with
    | some w => dsimp only; split <;> simp
    | none => simp [insert]
  | write w x => simp [step]
  | setNeedGrad w b => simp [step]
  | copy h => simp [step, deepCopy]

/-- The data and flag of a variable change only by writing to it; its shape never. -/
theorem heap_step {s : State D} (op : Op D) {v : Nat} (hv : v < s.heap.length) :
    ((step s op).heap[v]?).map Var.shape = (s.heap[v]?).map Var.shape ∧
    ((∀ x, op ≠ .write v x) → (∀ b, op ≠ .setNeedGrad v b) → (step s op).heap[v]? = s.heap[v]?) := by
  have app : ∀ l : List (Var D), (s.heap ++ l)[v]? = s.heap[v]? := fun l => List.getElem?_append_left hv
  cases op with
  | newVar w => simp [step, app]
  | newDir => simp [step]
  | create h n sh init ng =>
    simp only [step, getOrCreate]
    cases getParameter s h n with
    | some w => dsimp only; split <;> simp
    | none => simp [insert, app]
  | put h n w =>
    simp only [step, getOrPut]
    cases getParameter s h n with
    | some w => dsimp only; split <;> simp
    | none => simp [insert]
  | write w x =>
    simp only [step]
    refine ⟨?_, fun h1 _ => ?_⟩
    · rw [List.getElem?_modify]
      cases s.heap[v]? <;> simp [apply_ite]
    · have : w ≠ v := by rintro rfl; exact h1 x rfl
      rw [List.getElem?_modify]
      simp only [if_neg this]
      cases s.heap[v]? <;> rfl
  | setNeedGrad w x =>
    simp only [step]
    refine ⟨?_, fun _ h1 => ?_⟩
    · rw [List.getElem?_modify]
      cases s.heap[v]? <;> simp [apply_ite]
    · have : w ≠ v := by rintro rfl; exact h1 x rfl
      rw [List.getElem?_modify]
      simp only [if_neg this]
      cases s.heap[v]? <;> rfl
  | copy h => simp [step, deepCopy, app]

end Verif.Native
