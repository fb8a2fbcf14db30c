import Verif.Cache.Model
import Mathlib.Data.List.Nodup
import Mathlib.Data.List.Induction
import Mathlib.Data.List.Perm.Lattice
import Mathlib.Tactic.Common
/-
CreateCache and CacheDataSource: what is written and what is read back.
-/
namespace Verif.Cache

section
variable {R D : Type}

theorem chunks_flat (cs : Int) (pos : Nat) (todo cur : List R) : (chunks cs pos todo cur).flatMap (·.2) = cur ++ todo := by
  induction todo generalizing pos cur with
  | nil =>
    rw [chunks]
    by_cases h : cur.length ≠ 0
    · rw [if_pos h]; simp
    · rw [if_neg h]
      simp only [ne_eq, not_not, List.length_eq_zero_iff] at h
      simp [h]
  | cons r todo ih =>
    rw [chunks]
    by_cases h : ((cur ++ [r]).length : Int) = cs
    · rw [if_pos h, List.flatMap_cons, ih]; simp
    · rw [if_neg h, ih]; simp

theorem chunks_ge (cs : Int) (pos : Nat) (todo cur : List R) :
    ∀ t ∈ chunks cs pos todo cur, (cur = [] → pos ≤ t.1) ∧ pos ≤ t.1 + 1 := by
  induction todo generalizing pos cur with
  | nil =>
    intro t ht
    rw [chunks] at ht
    by_cases h : cur.length ≠ 0
    · rw [if_pos h, List.mem_singleton] at ht
      subst ht
      refine ⟨fun e => ?_, ?_⟩
      · subst e; simp at h
      · show pos ≤ pos - 1 + 1; omega
    · rw [if_neg h] at ht; simp at ht
  | cons r todo ih =>
    intro t ht
    rw [chunks] at ht
    by_cases h : ((cur ++ [r]).length : Int) = cs
    · rw [if_pos h, List.mem_cons] at ht
      rcases ht with rfl | ht
      · exact ⟨fun _ => Nat.le_refl _, Nat.le_succ _⟩
      · have := (ih (pos + 1) [] t ht).1 rfl
        exact ⟨fun _ => by omega, by omega⟩
    · rw [if_neg h] at ht
      have := (ih (pos + 1) (cur ++ [r]) t ht).2
      exact ⟨fun _ => by omega, by omega⟩

theorem chunks_nodup (cs : Int) (pos : Nat) (todo cur : List R) : ((chunks cs pos todo cur).map (·.1)).Nodup := by
  induction todo generalizing pos cur with
  | nil =>
    rw [chunks]
    by_cases h : cur.length ≠ 0
    · rw [if_pos h]; simp
    · rw [if_neg h]; simp
  | cons r todo ih =>
    rw [chunks]
    by_cases h : ((cur ++ [r]).length : Int) = cs
    · rw [if_pos h, List.map_cons, List.nodup_cons]
      refine ⟨?_, ih _ _⟩
      intro hm
      obtain ⟨t, ht, e⟩ := List.mem_map.mp hm
      have := (chunks_ge cs (pos + 1) todo [] t ht).1 rfl
      simp only at e
      omega
    · rw [if_neg h]; exact ih _ _

/-- No file holds more than `cache_size` examples, and every file but the last holds exactly that many. -/
theorem chunks_sizes (cs : Int) (h : 0 < cs) (pos : Nat) (todo cur : List R) (hc : (cur.length : Int) < cs) :
    ∀ (k : Nat) (t : Nat × List R), (chunks cs pos todo cur)[k]? = some t → (t.2.length : Int) ≤ cs ∧
      (k + 1 < (chunks cs pos todo cur).length → (t.2.length : Int) = cs) ∧ t.2 ≠ [] := by
  induction todo generalizing pos cur with
  | nil =>
    intro k t ht
    rw [chunks] at ht ⊢
    by_cases h : cur.length ≠ 0
    · rw [if_pos h] at ht ⊢
      cases k with
      | zero =>
        simp only [List.getElem?_cons_zero, Option.some.injEq] at ht
        subst ht
        exact ⟨Int.le_of_lt hc, by simp, by simpa using h⟩
      | succ k => simp at ht
    · rw [if_neg h] at ht; simp at ht
  | cons r todo ih =>
    intro k t ht
    rw [chunks] at ht ⊢
    by_cases e : ((cur ++ [r]).length : Int) = cs
    · rw [if_pos e] at ht ⊢
      cases k with
      | zero =>
        simp only [List.getElem?_cons_zero, Option.some.injEq] at ht
        subst ht
        exact ⟨Int.le_of_eq e, fun _ => e, by simp⟩
      | succ k =>
        rw [List.getElem?_cons_succ] at ht
        have := ih (pos + 1) [] (by simpa using h) k t ht
        refine ⟨this.1, fun hk => this.2.1 (by simpa using hk), this.2.2⟩
    · rw [if_neg e] at ht ⊢
      refine ih (pos + 1) (cur ++ [r]) ?_ k t ht
      simp only [List.length_append, List.length_cons, List.length_nil] at e ⊢
      push_cast at e ⊢
      omega

theorem saves_lookup (process : R → D) (l : List (Nat × List R)) (hn : (l.map (·.1)).Nodup) (dir : Dir D) (t : Nat × List R)
    (ht : t ∈ l) : l.foldl (saveCache process) dir (fileOf process t).1 = some (fileOf process t).2 := by
  have hout : ∀ (l : List (Nat × List R)) (dir : Dir D) n, (∀ t ∈ l, (fileOf process t).1 ≠ n) →
      l.foldl (saveCache process) dir n = dir n := by
    intro l
    induction l with
    | nil => intro dir n _; rfl
    | cons u l ih =>
      intro dir n h
      rw [List.foldl_cons, ih _ _ fun t ht => h t (List.mem_cons_of_mem _ ht)]
      rw [saveCache, if_neg (Ne.symm (h u List.mem_cons_self))]
  induction l generalizing dir with
  | nil => cases ht
  | cons u l ih =>
    rw [List.map_cons, List.nodup_cons] at hn
    rw [List.foldl_cons]
    rcases List.mem_cons.mp ht with rfl | ht
    · rw [hout]
      · simp [saveCache]
      · intro v hv e
        have : v.1 = t.1 := congrArg Prod.snd e
        exact hn.1 (this ▸ List.mem_map.mpr ⟨v, hv, rfl⟩)
    · exact ih hn.2 _ ht

theorem ordered_perm (rows : List R) (order : List Nat) (h : order.Perm (List.range rows.length)) :
    (order.filterMap fun i => rows[i]?).Perm rows ∧ ∀ p, p < rows.length →
      (order.filterMap fun i => rows[i]?)[p]? = (order[p]?).bind fun i => rows[i]? := by
  constructor
  · refine (h.filterMap _).trans ?_
    rw [show (List.range rows.length).filterMap (fun i => rows[i]?) = rows from ?_]
    clear h
    induction rows using List.reverseRecOn with
    | nil => rfl
    | append_singleton l a ih =>
      rw [List.length_append, List.length_singleton, List.range_succ, List.filterMap_append]
      have : (List.range l.length).filterMap (fun i => (l ++ [a])[i]?) = (List.range l.length).filterMap fun i => l[i]? := by
        apply List.filterMap_congr
        intro i hi
        rw [List.getElem?_append_left (List.mem_range.mp hi)]
      rw [this, ih]; simp
  · intro p _
    have hall : ∀ i ∈ order, ∃ r, rows[i]? = some r := by
      intro i hi
      have := List.mem_range.mp (h.mem_iff.mp hi)
      exact ⟨rows[i], List.getElem?_eq_getElem this⟩
    clear h
    induction order generalizing p with
    | nil => simp
    | cons i order ih =>
      obtain ⟨r, hr⟩ := hall i (by simp)
      rw [List.filterMap_cons, hr]
      cases p with
      | zero => simp [hr]
      | succ p => simpa using ih p (by omega) fun j hj => hall j (List.mem_cons_of_mem _ hj)

/-- C189: CreateCache. For every csv file, order, cache size, number of threads and schedule of the threads: the files named in
cache_index.csv have distinct names and hold the number of examples written there; put together in the order of the index they
are the processed rows in the requested order, every row once; no file holds more than cache_size examples and all but the last
hold exactly that many; entry p of order.csv is (p, the csv row that example p comes from). -/
theorem C189_create_cache (process : R → D) (cs : Int) (rows : List R) (order : List Nat)
    (schedule : List (Nat × List R) → List (Nat × List R)) (old : Dir D)
    (ho : order.Perm (List.range rows.length)) (hs : ∀ l, (schedule l).Perm l) :
    ∃ files : List (Name × List D),
      (create process cs rows order schedule old).index = files.map (fun f => (f.1, f.2.length)) ∧
      (files.map (·.1)).Nodup ∧
      (∀ f ∈ files, (create process cs rows order schedule old).dir f.1 = some f.2) ∧
      (files.flatMap (·.2)).length = rows.length ∧
      (∀ p i : Nat, order[p]? = some i → (files.flatMap (·.2))[p]? = (rows[i]?).map process) ∧
      (files.flatMap (·.2)).Perm (rows.map process) ∧
      (0 < cs → ∀ (k : Nat) f, files[k]? = some f → (f.2.length : Int) ≤ cs ∧ (k + 1 < files.length → (f.2.length : Int) = cs)) ∧
      ∀ p : Nat, (create process cs rows order schedule old).orderCsv[p]? = (order[p]?).map fun i => (p, i) := by
  let tasks := chunks cs 0 (order.filterMap fun i => rows[i]?) []
  have hflat : tasks.flatMap (·.2) = order.filterMap fun i => rows[i]? := by
    show (chunks cs 0 _ []).flatMap (·.2) = _
    rw [chunks_flat]; rfl
  have hnod : (tasks.map (·.1)).Nodup := chunks_nodup _ _ _ _
  have hperm := ordered_perm rows order ho
  have hlen : order.length = rows.length := by simpa using ho.length_eq
  have hff : (tasks.map (fileOf process)).flatMap (·.2) = (order.filterMap fun i => rows[i]?).map process := by
    rw [← hflat, List.map_flatMap, List.flatMap_map]; rfl
  refine ⟨tasks.map (fileOf process), ?_, ?_, ?_, ?_, ?_, ?_, ?_, ?_⟩
  · show tasks.map _ = _
    rw [List.map_map]
    apply List.map_congr_left
    intro t _
    simp [fileOf]
  · rw [List.map_map]
    refine List.Nodup.of_map (fun n : Name => n.2) ?_
    rw [List.map_map]
    exact hnod
  · intro f hf
    obtain ⟨t, ht, rfl⟩ := List.mem_map.mp hf
    exact saves_lookup process (schedule tasks) (((hs tasks).map _).nodup_iff.mpr hnod) old t ((hs tasks).mem_iff.mpr ht)
  · rw [hff, List.length_map, hperm.1.length_eq]
  · intro p i hp
    have hlt : p < rows.length := by
      rw [← hlen]
      exact (List.getElem?_eq_some_iff.mp hp).1
    rw [hff, List.getElem?_map, hperm.2 p hlt, hp]
    rfl
  · rw [hff]; exact hperm.1.map _
  · intro hcs k f hf
    rw [List.getElem?_map] at hf
    cases ht : tasks[k]? with
    | none => rw [ht] at hf; simp at hf
    | some t =>
      rw [ht] at hf
      simp only [Option.map_some, Option.some.injEq] at hf
      have := chunks_sizes cs hcs 0 (order.filterMap fun i => rows[i]?) [] (by simpa using hcs) k t ht
      subst hf
      simp only [fileOf, List.length_map]
      exact ⟨this.1, this.2.1⟩
  · intro p
    show ((List.range rows.length).zip order)[p]? = _
    by_cases hp : p < rows.length
    · have h1 : order[p]? = some order[p] := List.getElem?_eq_getElem (by omega)
      rw [h1, Option.map_some, List.getElem?_zip_eq_some]
      exact ⟨by simp [hp], h1⟩
    · have h1 : order[p]? = none := List.getElem?_eq_none (by omega)
      rw [h1, Option.map_none]
      exact List.getElem?_eq_none (by simp; omega)

example : (create (fun r : Nat => r + 100) 2 [10, 11, 12, 13, 14] [4, 2, 0, 1, 3] List.reverse fun _ => none).index =
    [((0, 1), 2), ((2, 3), 2), ((4, 4), 1)] ∧
    (create (fun r : Nat => r + 100) 2 [10, 11, 12, 13, 14] [4, 2, 0, 1, 3] List.reverse fun _ => none).dir (2, 3) =
      some [110, 111] := by decide

/-- C189: without shuffle the order is that of the csv file, with shuffle it is the generator's permutation. -/
theorem C189_create_order (shuffle : Bool) (perm : List Nat) (n : Nat) (h : perm.Perm (List.range n)) :
    (createOrder shuffle perm n).Perm (List.range n) ∧ (shuffle = false → ∀ p, p < n → (createOrder shuffle perm n)[p]? = some p) := by
  cases shuffle
  · exact ⟨List.Perm.refl _, fun _ p hp => by simp [createOrder, hp]⟩
  · exact ⟨h, fun e => by cases e⟩

end

/-! ### Reading back -/

section
variable {D : Type}

/-- The element a pair (file, position in the file) stands for. -/
def look (dir : Dir D) (e : Name × Nat) : Option D := (dir e.1).bind fun ds => ds[e.2]?

theorem base_look (dir : Dir D) (files : List (Name × List D)) (hd : ∀ f ∈ files, dir f.1 = some f.2) :
    (((files.map fun f => (f.1, f.2.length)).flatMap fun f => (List.range f.2).map fun j => (f.1, j)).map (look dir)) =
      (files.flatMap (·.2)).map some := by
  induction files with
  | nil => rfl
  | cons f files ih =>
    rw [List.map_cons, List.flatMap_cons, List.map_append, ih fun g hg => hd g (List.mem_cons_of_mem _ hg), List.flatMap_cons,
      List.map_append, List.map_map]
    congr 1
    apply List.ext_getElem?
    intro k
    rw [List.getElem?_map, List.getElem?_map]
    by_cases hk : k < f.2.length
    · rw [List.getElem?_range hk]
      simp [look, hd f (by simp), hk]
    · rw [List.getElem?_eq_none (by simp; omega), List.getElem?_eq_none (by omega)]
      rfl

theorem shuffled_perm (rng : Nat → Nat → List Nat) (hr : ∀ k n, (rng k n).Perm (List.range n)) (files : List (Name × Nat))
    (k : Nat) (todo : List Nat) : (shuffled rng files k todo).Perm (todo.flatMap fun i =>
      match files[i]? with
      | none => []
      | some (n, len) => (List.range len).map fun j => (n, j)) := by
  induction todo generalizing k with
  | nil => exact List.Perm.refl _
  | cons i todo ih =>
    rw [shuffled, List.flatMap_cons]
    refine List.Perm.append ?_ (ih _)
    cases files[i]? with
    | none => exact List.Perm.refl _
    | some f => exact (hr k f.2).map _

theorem range_files (files : List (Name × Nat)) : ((List.range files.length).flatMap fun i =>
      match files[i]? with
      | none => []
      | some (n, len) => (List.range len).map fun j => (n, j)) =
    files.flatMap fun f => (List.range f.2).map fun j => (f.1, j) := by
  induction files using List.reverseRecOn with
  | nil => rfl
  | append_singleton l a ih =>
    rw [List.length_append, List.length_singleton, List.range_succ, List.flatMap_append, List.flatMap_append, ← ih]
    congr 1
    · have : ∀ (s : List Nat), (∀ i ∈ s, i < l.length) → (s.flatMap fun i => match (l ++ [a])[i]? with
          | none => []
          | some (n, len) => (List.range len).map fun j => (n, j)) = s.flatMap fun i => match l[i]? with
          | none => []
          | some (n, len) => (List.range len).map fun j => (n, j) := by
        intro s hs
        induction s with
        | nil => rfl
        | cons i s ih =>
          rw [List.flatMap_cons, List.flatMap_cons, ih fun j hj => hs j (List.mem_cons_of_mem _ hj),
            List.getElem?_append_left (hs i (by simp))]
      exact this _ fun i hi => List.mem_range.mp hi
    · simp

/-- What holds of a data source after any calls. -/
structure Good (shuffle : Bool) (dir : Dir D) (base : List (Name × Nat)) (s : Src D) : Prop where
  perm : s.order.Perm base
  same : shuffle = false → s.order = base
  cur : ∀ n d, s.current = some (n, d) → dir n = some d

theorem reset_good (shuffle : Bool) (rng : Nat → Nat → List Nat) (hr : ∀ k n, (rng k n).Perm (List.range n)) (dir : Dir D)
    (files : List (Name × Nat)) (s : Src D) :
    Good shuffle dir (files.flatMap fun f => (List.range f.2).map fun j => (f.1, j)) (s.reset shuffle rng files) := by
  cases shuffle
  · exact ⟨List.Perm.refl _, fun _ => rfl, fun n d h => by simp [Src.reset] at h⟩
  · refine ⟨?_, fun e => (by cases e), fun n d h => by simp [Src.reset] at h⟩
    show (shuffled rng files (s.drawn + 1) (rng s.drawn files.length)).Perm _
    refine (shuffled_perm rng hr files _ _).trans ?_
    rw [← range_files]
    exact (hr _ _).flatMap_right _

theorem get_good {shuffle : Bool} {dir : Dir D} {base : List (Name × Nat)} {s : Src D} (h : Good shuffle dir base s)
    (post : D → D) (p : Nat) :
    (s.get dir post p).1 = ((s.order[p]?).bind (look dir)).map post ∧ Good shuffle dir base (s.get dir post p).2 := by
  cases ho : s.order[p]? with
  | none => simp only [Src.get, ho]; exact ⟨rfl, h⟩
  | some e =>
    obtain ⟨n, j⟩ := e
    have key : s.loaded dir n = (dir n).map fun d => (n, d) := by
      rw [Src.loaded]
      cases hc : s.current with
      | none => rfl
      | some md =>
        obtain ⟨m, d⟩ := md
        simp only []
        by_cases hm : m = n
        · subst hm; rw [if_pos rfl, h.cur m d hc]; rfl
        · rw [if_neg hm]
    cases hd : dir n with
    | none =>
      simp only [Src.get, ho, key, hd, Option.map_none]
      exact ⟨by simp [look, hd], h⟩
    | some d =>
      simp only [Src.get, ho, key, hd, Option.map_some]
      refine ⟨by simp [look, hd], h.perm, h.same, ?_⟩
      intro n' d' e
      simp only [Option.some.injEq, Prod.mk.injEq] at e
      rw [← e.1, ← e.2, hd]

variable {R : Type}

/-- C191: create a cache, read it back. Whatever calls were made on the data source before (epochs, random positions): without
shuffle, position p returns the processed csv row that CreateCache put at position p; with shuffle, the positions of one epoch
return every row exactly once; the data source has as many positions as the csv file has rows. -/
theorem C191_cache_round_trip (process : R → D) (post : D → D) (cs : Int) (rows : List R) (order : List Nat)
    (schedule : List (Nat × List R) → List (Nat × List R)) (old : Dir D) (ho : order.Perm (List.range rows.length))
    (hs : ∀ l, (schedule l).Perm l) (shuffle : Bool) (rng : Nat → Nat → List Nat) (hr : ∀ k n, (rng k n).Perm (List.range n))
    (disk : Disk D) (hdisk : disk = create process cs rows order schedule old) (ops : List Op) (s : Src D)
    (hst : s = ops.foldl (Src.step shuffle rng disk.index disk.dir post) (Src.init shuffle rng disk)) :
    s.order.length = rows.length ∧
    ((List.range rows.length).map fun p => (s.get disk.dir post p).1).Perm (rows.map fun r => some (post (process r))) ∧
    (∀ p, rows.length ≤ p → (s.get disk.dir post p).1 = none) ∧
    (shuffle = false → ∀ (p i : Nat) (r : R), order[p]? = some i → rows[i]? = some r →
      (s.get disk.dir post p).1 = some (post (process r))) := by
  obtain ⟨files, h1, h2, h3, h4, h5, h6, -, -⟩ := C189_create_cache process cs rows order schedule old ho hs
  rw [← hdisk] at h1 h3
  have hb := base_look disk.dir files h3
  rw [← h1] at hb
  have hgood : Good shuffle disk.dir (disk.index.flatMap fun f => (List.range f.2).map fun j => (f.1, j)) s := by
    rw [hst]
    have hi := reset_good shuffle rng hr disk.dir disk.index (⟨[], none, 0⟩ : Src D)
    show Good _ _ _ (ops.foldl _ (Src.reset shuffle rng disk.index ⟨[], none, 0⟩))
    clear hst
    revert hi
    generalize Src.reset shuffle rng disk.index (⟨[], none, 0⟩ : Src D) = s0
    induction ops generalizing s0 with
    | nil => exact id
    | cons op ops ih =>
      intro hi
      refine ih _ ?_
      cases op with
      | get p => exact (get_good hi post p).2
      | reset => exact reset_good shuffle rng hr disk.dir disk.index s0
  have hbl : (disk.index.flatMap fun f => (List.range f.2).map fun j => (f.1, j)).length = rows.length := by
    have := congrArg List.length hb
    simpa [h4] using this
  have hol : s.order.length = rows.length := by rw [hgood.perm.length_eq, hbl]
  refine ⟨hol, ?_, ?_, ?_⟩
  · have e : ((List.range rows.length).map fun p => (s.get disk.dir post p).1) = s.order.map fun x => (look disk.dir x).map post := by
      apply List.ext_getElem?
      intro k
      rw [List.getElem?_map, List.getElem?_map]
      by_cases hk : k < rows.length
      · rw [List.getElem?_range hk, List.getElem?_eq_getElem (by omega : k < s.order.length), Option.map_some, Option.map_some,
          (get_good hgood post k).1, List.getElem?_eq_getElem (by omega : k < s.order.length)]
        rfl
      · rw [List.getElem?_eq_none (by simp; omega), List.getElem?_eq_none (by omega)]
        rfl
    rw [e]
    refine (hgood.perm.map _).trans ?_
    have e2 : ((disk.index.flatMap fun f => (List.range f.2).map fun j => (f.1, j)).map fun x => (look disk.dir x).map post) =
        ((files.flatMap (·.2)).map fun d => some (post d)) := by
      have := congrArg (List.map (Option.map post)) hb
      rw [List.map_map, List.map_map] at this
      exact this
    rw [e2]
    have := h6.map fun d => some (post d)
    rw [List.map_map] at this
    exact this
  · intro p hp
    rw [(get_good hgood post p).1, List.getElem?_eq_none (by omega)]
    rfl
  · intro hsh p i r hp hi
    have := congrArg (fun l => l[p]?) hb
    simp only [List.getElem?_map] at this
    rw [h5 p i hp, hi, Option.map_some, Option.map_some] at this
    rw [(get_good hgood post p).1, hgood.same hsh]
    revert this
    cases (disk.index.flatMap fun f => (List.range f.2).map fun j => (f.1, j))[p]? with
    | none => intro h; simp at h
    | some x =>
      intro h
      simp only [Option.map_some, Option.some.injEq] at h
      simp [h]

/-- Five rows, shuffled creation, files of two written last to first; unshuffled reading of position 1 after a random access and
a new epoch. -/
example : let disk := create (fun r : Nat => r + 100) 2 [10, 11, 12, 13, 14] [4, 2, 0, 1, 3] List.reverse fun _ => none
    ((([Op.get 3, .reset, .get 4].foldl (Src.step false (fun _ n => List.range n) disk.index disk.dir id)
      (Src.init false (fun _ n => List.range n) disk))).get disk.dir id 1).1 = some 112 := by decide

end

end Verif.Cache
