import Verif.Nnb.Lemmas
/-
C22: memory image lookups. C41: reading an exported NNB file gives back the network.
-/
namespace Verif.Nnb

/-! ### C22 -/

/-- The memory after a sequence of allocations, starting from an empty one. -/
def allocs (ds : List (List Nat)) : Mem := ds.foldl (fun m d => (alloc m d).1) ⟨[], []⟩

theorem allocs_snoc (ds : List (List Nat)) (d : List Nat) : allocs (ds ++ [d]) = (alloc (allocs ds) d).1 := by
  simp [allocs]

theorem align_spec (n : Nat) : align n % 4 = 0 ∧ n ≤ align n ∧ align n < n + 4 := by
  simp only [align]; omega

theorem allocs_inv (ds : List (List Nat)) :
    (allocs ds).index.length = ds.length ∧ (allocs ds).data.length % 4 = 0 ∧
    (∀ o ∈ (allocs ds).index, o % 4 = 0) ∧ ∀ (i : Nat) (d : List Nat), ds[i]? = some d → Has (allocs ds) i d := by
  have : ∃ rs : List (List Nat), ds = rs.reverse := ⟨ds.reverse, by simp⟩
  obtain ⟨rs, rfl⟩ := this
  induction rs with
  | nil => exact ⟨rfl, rfl, by simp [allocs], by simp⟩
  | cons d rs ih =>
    rw [List.reverse_cons, allocs_snoc]
    obtain ⟨h1, h2, h3, h4⟩ := ih
    generalize rs.reverse = ds at *
    have ha := align_spec d.length
    refine ⟨by simp [alloc, h1], ?_, ?_, ?_⟩
    · simp only [alloc, List.length_append, List.length_replicate]; omega
    · intro o ho
      simp only [alloc, List.mem_append, List.mem_singleton] at ho
      rcases ho with ho | rfl
      · exact h3 o ho
      · exact h2
    · intro i x hi
      by_cases hlt : i < ds.length
      · rw [List.getElem?_append_left hlt] at hi
        exact (h4 i x hi).mono (alloc_ext _ _)
      · rw [List.getElem?_append_right (by omega)] at hi
        have : i - ds.length = 0 := by
          cases hh : i - ds.length with
          | zero => rfl
          | succ k => rw [hh] at hi; simp at hi
        rw [this] at hi
        simp at hi
        subst hi
        have hi' : i = (alloc (allocs ds) d).2 := by simp only [alloc]; omega
        rw [hi']
        exact alloc_has _ _

/-- **C22.** After any sequence of allocations, the block with index `i` has an offset that is a multiple of 4,
and the bytes of the final image at that offset are exactly the `i`-th allocated data. -/
theorem C22_lookup (ds : List (List Nat)) (i : Nat) (d : List Nat) (h : ds[i]? = some d) :
    ∃ off, (allocs ds).index[i]? = some off ∧ off % 4 = 0 ∧
      ((allocs ds).data.drop off).take d.length = d ∧ off + align d.length ≤ (allocs ds).data.length := by
  obtain ⟨h1, h2, h3, h4⟩ := allocs_inv ds
  obtain ⟨off, a1, a2, a3⟩ := h4 i d h
  have hm : off % 4 = 0 := h3 off (List.mem_of_getElem? a1)
  refine ⟨off, a1, hm, ?_, ?_⟩
  · rw [← List.prefix_iff_eq_take.mp a3]
  · have := a3.length_le
    rw [List.length_drop] at this
    have ha := align_spec d.length
    omega

/-- Blocks do not overlap and are in order of allocation. -/
theorem C22_disjoint (ds : List (List Nat)) (i j : Nat) (d : List Nat) (oi oj : Nat) (hij : i < j)
    (h : ds[i]? = some d) (hi : (allocs ds).index[i]? = some oi) (hj : (allocs ds).index[j]? = some oj) :
    oi + align d.length ≤ oj := by
  have : ∃ rs : List (List Nat), ds = rs.reverse := ⟨ds.reverse, by simp⟩
  obtain ⟨rs, rfl⟩ := this
  induction rs generalizing i j d oi oj with
  | nil => simp at h
  | cons x rs ih =>
    rw [List.reverse_cons] at h hi hj
    rw [allocs_snoc] at hi hj
    obtain ⟨h1, _, _, _⟩ := allocs_inv rs.reverse
    generalize hds : rs.reverse = ds at *
    have hj' : j < (allocs ds).index.length + 1 := by
      have := (List.getElem?_eq_some_iff.mp hj).1
      simpa [alloc] using this
    have hil : i < (allocs ds).index.length := by omega
    rw [List.getElem?_append_left (by omega)] at h
    simp only [alloc] at hi hj
    rw [List.getElem?_append_left hil] at hi
    by_cases hjl : j < (allocs ds).index.length
    · rw [List.getElem?_append_left hjl] at hj
      exact ih i j d oi oj hij h hi hj
    · rw [List.getElem?_append_right (by omega)] at hj
      have : j - (allocs ds).index.length = 0 := by omega
      rw [this] at hj
      simp at hj
      obtain ⟨off, a1, _, _, a4⟩ := C22_lookup ds i d h
      rw [hi] at a1
      injection a1 with a1
      subst a1
      omega

example : (allocs [[1, 2, 3], [], [4, 5, 6, 7, 8]]) =
    ⟨[0, 4, 4], [1, 2, 3, 0, 4, 5, 6, 7, 8, 0, 0, 0]⟩ := by rfl

/-! ### C41 -/

theorem writeVar_ok (dataLen : List Nat → Nat → Nat) (m : Mem) (n : Nat) (v : NVar) :
    Ext m (writeVar m n v).1 ∧ (∃ d, Has (writeVar m n v).1 (writeVar m n v).2 d) ∧
    ∀ f, Rep f (writeVar m n v).1 → v.OK dataLen → readVar dataLen f (blockAt f (writeVar m n v).2) = v := by
  obtain ⟨shape, typ, fp, content⟩ := v
  cases content with
  | stored d =>
    simp only [writeVar]
    have e1 := alloc_ext m (encWords shape)
    have e2 := alloc_ext (alloc m (encWords shape)).1 d
    generalize hrec : (enc32 n ++ encI shape.length ++ enc32 (alloc m (encWords shape)).2 ++ [fp % 16 * 16 + typ % 16] ++
      [0, 0, 0] ++ encI (alloc (alloc m (encWords shape)).1 d).2) = rec
    have e3 := alloc_ext (alloc (alloc m (encWords shape)).1 d).1 rec
    refine ⟨(e1.trans e2).trans e3, ⟨_, alloc_has _ _⟩, ?_⟩
    intro f hf hok
    obtain ⟨k1, k2, k3, k4, k5⟩ := hok
    simp only at k1 k2 k3 k4 k5
    obtain ⟨r1, _⟩ := hf _ _ (alloc_has (alloc (alloc m (encWords shape)).1 d).1 rec)
    obtain ⟨r2, i2⟩ := hf _ _ ((alloc_has m (encWords shape)).mono (e2.trans e3))
    obtain ⟨r3, i3⟩ := hf _ _ ((alloc_has (alloc m (encWords shape)).1 d).mono e3)
    generalize (alloc (alloc (alloc m (encWords shape)).1 d).1 rec).2 = ri at *
    generalize (alloc m (encWords shape)).2 = si at *
    generalize (alloc _ d).2 = di at *
    rw [← hrec] at r1
    obtain ⟨r1, p6⟩ := at_append r1
    obtain ⟨r1, p5⟩ := at_append r1
    obtain ⟨r1, p4⟩ := at_append r1
    obtain ⟨r1, p3⟩ := at_append r1
    obtain ⟨p1, p2⟩ := at_append r1
    simp only [List.length_append, enc32_length, encI_length, List.length_cons, List.length_nil] at p2 p3 p4 p5 p6
    have hsh : listAt f (blockAt f ri + 4) = shape :=
      listAt_of k2 k1 i2 (i32_of (by simp only [I32]; omega) p2) (u32_of (by simp only [U32]; omega) p3) r2
    have hb := byteAt_of p4
    have hd : i32 f (blockAt f ri + 16) = (di : Int) := i32_of (by simp only [I32]; omega) p6
    have t1 : (fp % 16 * 16 + typ % 16) % 16 = typ := by omega
    have t2 : (fp % 16 * 16 + typ % 16) / 16 = fp := by omega
    simp only [readVar, hsh, hb, hd, t1, t2]
    rw [if_neg (by omega), Int.toNat_natCast, ← k5.1, bytes_of r3]
  | buffer ab =>
    simp only [writeVar]
    have e1 := alloc_ext m (encWords shape)
    generalize hrec : (enc32 n ++ encI shape.length ++ enc32 (alloc m (encWords shape)).2 ++ [fp % 16 * 16 + typ % 16] ++
      [0, 0, 0] ++ encI (((ab : Int) + 1) * -1)) = rec
    have e3 := alloc_ext (alloc m (encWords shape)).1 rec
    refine ⟨e1.trans e3, ⟨_, alloc_has _ _⟩, ?_⟩
    intro f hf hok
    obtain ⟨k1, k2, k3, k4, k5⟩ := hok
    simp only at k1 k2 k3 k4 k5
    obtain ⟨r1, _⟩ := hf _ _ (alloc_has (alloc m (encWords shape)).1 rec)
    obtain ⟨r2, i2⟩ := hf _ _ ((alloc_has m (encWords shape)).mono e3)
    generalize (alloc (alloc m (encWords shape)).1 rec).2 = ri at *
    generalize (alloc m (encWords shape)).2 = si at *
    rw [← hrec] at r1
    obtain ⟨r1, p6⟩ := at_append r1
    obtain ⟨r1, p5⟩ := at_append r1
    obtain ⟨r1, p4⟩ := at_append r1
    obtain ⟨r1, p3⟩ := at_append r1
    obtain ⟨p1, p2⟩ := at_append r1
    simp only [List.length_append, enc32_length, encI_length, List.length_cons, List.length_nil] at p2 p3 p4 p5 p6
    have hsh : listAt f (blockAt f ri + 4) = shape :=
      listAt_of k2 k1 i2 (i32_of (by simp only [I32]; omega) p2) (u32_of (by simp only [U32]; omega) p3) r2
    have hb := byteAt_of p4
    have hd : i32 f (blockAt f ri + 16) = ((ab : Int) + 1) * -1 := i32_of (by simp only [I32]; omega) p6
    have t1 : (fp % 16 * 16 + typ % 16) % 16 = typ := by omega
    have t2 : (fp % 16 * 16 + typ % 16) / 16 = fp := by omega
    simp only [readVar, hsh, hb, hd, t1, t2]
    rw [if_pos (by omega)]
    have : (-(((ab : Int) + 1) * -1) - 1).toNat = ab := by omega
    rw [this]

theorem writeVars_ok (dataLen : List Nat → Nat → Nat) (vs : List NVar) (m : Mem) (n : Nat) :
    Ext m (writeVars m n vs).1 ∧ (writeVars m n vs).2.length = vs.length ∧
    ∀ f, Rep f (writeVars m n vs).1 → (∀ v ∈ vs, v.OK dataLen) →
      (∀ i ∈ (writeVars m n vs).2, U32 i) ∧
      (writeVars m n vs).2.map (fun i => readVar dataLen f (blockAt f i)) = vs := by
  induction vs generalizing m n with
  | nil => exact ⟨Ext.refl _, rfl, fun f _ _ => ⟨by simp [writeVars], rfl⟩⟩
  | cons v vs ih =>
    obtain ⟨a1, ⟨d, a2⟩, a3⟩ := writeVar_ok dataLen m n v
    obtain ⟨b1, b2, b3⟩ := ih (writeVar m n v).1 (n + 1)
    simp only [writeVars]
    refine ⟨a1.trans b1, by simp [b2], ?_⟩
    intro f hf hok
    obtain ⟨c1, c2⟩ := b3 f hf (fun w hw => hok w (List.mem_cons_of_mem _ hw))
    refine ⟨?_, ?_⟩
    · intro i hi
      rcases List.mem_cons.mp hi with rfl | hi
      · have := (hf _ _ (a2.mono b1)).2
        simp only [U32]; omega
      · exact c1 i hi
    · rw [List.map_cons, c2, a3 f (hf.mono b1) (hok v List.mem_cons_self)]

theorem writeArgs_ok (args : List Arg) (m : Mem) :
    Ext m (writeArgs m args).1 ∧
    ∀ f, Rep f (writeArgs m args).1 → (∀ a ∈ args, a.OK) → ∀ base pos,
      At f (base + pos) (packItems pos (writeArgs m args).2) →
      readArgs f base pos (args.map Arg.code) = args := by
  induction args generalizing m with
  | nil => exact ⟨Ext.refl _, fun _ _ _ _ _ _ => rfl⟩
  | cons a args ih =>
    cases a with
    | byte b =>
      obtain ⟨h1, h2⟩ := ih m
      simp only [writeArgs]
      refine ⟨h1, ?_⟩
      intro f hf hok base pos hat
      simp only [packItems] at hat
      obtain ⟨q1, q2⟩ := at_cons hat
      have hb : b < 256 := hok (.byte b) List.mem_cons_self
      simp only [List.map_cons, Arg.code, readArgs]
      rw [q1, Nat.mod_eq_of_lt hb, h2 f hf (fun x hx => hok x (List.mem_cons_of_mem _ hx)) base (pos + 1) q2]
    | word w =>
      obtain ⟨h1, h2⟩ := ih m
      simp only [writeArgs]
      refine ⟨h1, ?_⟩
      intro f hf hok base pos hat
      simp only [packItems] at hat
      obtain ⟨hat, q3⟩ := at_append hat
      obtain ⟨_, q2⟩ := at_append hat
      simp only [List.length_append, List.length_replicate, encI_length] at q2 q3
      obtain ⟨u1, u2⟩ := up4_eq pos
      have hw : I32 w := hok (.word w) List.mem_cons_self
      have e2 : base + pos + (align pos - pos) = base + align pos := by omega
      have e3 : base + pos + (align pos - pos + 4) = base + (align pos + 4) := by omega
      rw [e2] at q2
      rw [e3] at q3
      simp only [List.map_cons, Arg.code, readArgs]
      rw [u1, i32_of hw q2, h2 f hf (fun x hx => hok x (List.mem_cons_of_mem _ hx)) base (align pos + 4) q3]
    | list l =>
      obtain ⟨h1, h2⟩ := ih (alloc m (encInts l)).1
      simp only [writeArgs]
      refine ⟨(alloc_ext m (encInts l)).trans h1, ?_⟩
      intro f hf hok base pos hat
      obtain ⟨r1, r2⟩ := hf _ _ ((alloc_has m (encInts l)).mono h1)
      obtain ⟨l1, l2⟩ := hok (.list l) List.mem_cons_self
      simp only [packItems] at hat
      obtain ⟨hat, q3⟩ := at_append hat
      obtain ⟨_, q2⟩ := at_append hat
      obtain ⟨hat', q5⟩ := at_append q3
      obtain ⟨_, q4⟩ := at_append hat'
      have ha : align (align pos + 4) = align pos + 4 := by simp only [align]; omega
      simp only [List.length_append, List.length_replicate, encI_length, ha] at q2 q4 q5
      obtain ⟨u1, u2⟩ := up4_eq pos
      have e2 : base + pos + (align pos - pos) = base + align pos := by omega
      have e4 : base + pos + (align pos - pos + 4) + (align pos + 4 - (align pos + 4)) = base + align pos + 4 := by omega
      have e5 : base + pos + (align pos - pos + 4) + (align pos + 4 - (align pos + 4) + 4) = base + (align pos + 8) := by
        omega
      rw [e2] at q2
      rw [e4] at q4
      rw [e5] at q5
      simp only [List.map_cons, Arg.code, readArgs]
      rw [u1, i32_of (by simp only [I32]; omega) q2, i32_of (by simp only [I32]; omega) q4, Int.toNat_natCast,
        Int.toNat_natCast, ints_of l2 r1,
        h2 f hf (fun x hx => hok x (List.mem_cons_of_mem _ hx)) base (align pos + 8) q5]

theorem writeFn_ok (codes : Nat → List Code) (m : Mem) (g : NFn) :
    Ext m (writeFn m g).1 ∧ (∃ d, Has (writeFn m g).1 (writeFn m g).2 d) ∧
    ∀ f, Rep f (writeFn m g).1 → g.OK codes → readFn codes f (blockAt f (writeFn m g).2) = g := by
  obtain ⟨id, impl, ins, outs, args⟩ := g
  simp only [writeFn]
  have e1 := alloc_ext m (encWords ins)
  have e2 := alloc_ext (alloc m (encWords ins)).1 (encWords outs)
  obtain ⟨e3, hargs⟩ := writeArgs_ok args (alloc (alloc m (encWords ins)).1 (encWords outs)).1
  generalize hrec : enc16 id ++ enc16 impl ++ encI ins.length ++ enc32 (alloc m (encWords ins)).2 ++
    encI outs.length ++ enc32 (alloc (alloc m (encWords ins)).1 (encWords outs)).2 ++
    packItems 0 (writeArgs (alloc (alloc m (encWords ins)).1 (encWords outs)).1 args).2 = rec
  have e4 := alloc_ext (writeArgs (alloc (alloc m (encWords ins)).1 (encWords outs)).1 args).1 rec
  refine ⟨((e1.trans e2).trans e3).trans e4, ⟨_, alloc_has _ _⟩, ?_⟩
  intro f hf hok
  obtain ⟨k1, k2, k3, k4, k5, k6, k7, k8⟩ := hok
  simp only at k1 k2 k3 k4 k5 k6 k7 k8
  obtain ⟨r1, _⟩ := hf _ _ (alloc_has (writeArgs (alloc (alloc m (encWords ins)).1 (encWords outs)).1 args).1 rec)
  obtain ⟨r2, i2⟩ := hf _ _ ((alloc_has m (encWords ins)).mono ((e2.trans e3).trans e4))
  obtain ⟨r3, i3⟩ := hf _ _ ((alloc_has (alloc m (encWords ins)).1 (encWords outs)).mono (e3.trans e4))
  have hargs := hargs f (hf.mono e4) k8
  generalize (alloc (writeArgs (alloc (alloc m (encWords ins)).1 (encWords outs)).1 args).1 rec).2 = ri at *
  generalize (alloc (alloc m (encWords ins)).1 (encWords outs)).2 = oi at *
  generalize (alloc m (encWords ins)).2 = ii at *
  generalize (writeArgs (alloc (alloc m (encWords ins)).1 (encWords outs)).1 args).2 = items at *
  rw [← hrec] at r1
  obtain ⟨r1, p7⟩ := at_append r1
  obtain ⟨r1, p6⟩ := at_append r1
  obtain ⟨r1, p5⟩ := at_append r1
  obtain ⟨r1, p4⟩ := at_append r1
  obtain ⟨r1, p3⟩ := at_append r1
  obtain ⟨p1, p2⟩ := at_append r1
  simp only [List.length_append, enc32_length, encI_length, enc16_length] at p2 p3 p4 p5 p6 p7
  have h1 := u16_of k1 p1
  have h2 := u16_of k2 p2
  have h3 : listAt f (blockAt f ri + 4) = ins :=
    listAt_of k5 k3 i2 (i32_of (by simp only [I32]; omega) p3) (u32_of (by simp only [U32]; omega) p4) r2
  have h4 : listAt f (blockAt f ri + 12) = outs :=
    listAt_of k6 k4 i3 (i32_of (by simp only [I32]; omega) p5) (u32_of (by simp only [U32]; omega) p6) r3
  simp only [readFn, h1, h2, h3, h4, ← k7]
  rw [hargs (blockAt f ri + 20) 0 p7]

theorem writeFns_ok (codes : Nat → List Code) (gs : List NFn) (m : Mem) :
    Ext m (writeFns m gs).1 ∧ (writeFns m gs).2.length = gs.length ∧
    ∀ f, Rep f (writeFns m gs).1 → (∀ v ∈ gs, v.OK codes) →
      (∀ i ∈ (writeFns m gs).2, U32 i) ∧
      (writeFns m gs).2.map (fun i => readFn codes f (blockAt f i)) = gs := by
  induction gs generalizing m with
  | nil => exact ⟨Ext.refl _, rfl, fun f _ _ => ⟨by simp [writeFns], rfl⟩⟩
  | cons v vs ih =>
    obtain ⟨a1, ⟨d, a2⟩, a3⟩ := writeFn_ok codes m v
    obtain ⟨b1, b2, b3⟩ := ih (writeFn m v).1
    simp only [writeFns]
    refine ⟨a1.trans b1, by simp [b2], ?_⟩
    intro f hf hok
    obtain ⟨c1, c2⟩ := b3 f hf (fun w hw => hok w (List.mem_cons_of_mem _ hw))
    refine ⟨?_, ?_⟩
    · intro i hi
      rcases List.mem_cons.mp hi with rfl | hi
      · have := (hf _ _ (a2.mono b1)).2
        simp only [U32]; omega
      · exact c1 i hi
    · rw [List.map_cons, c2, a3 f (hf.mono b1) (hok v List.mem_cons_self)]

/-- A file made of a 56-byte header with the number of blocks at byte 48, the index table and the data
represents the memory. -/
theorem rep_file (hdr : List Nat) (m : Mem) (h56 : hdr.length = 56)
    (h48 : At hdr 48 (enc32 m.index.length))
    (hlen : (hdr ++ encWords m.index ++ m.data).length < 2147483648) :
    Rep (hdr ++ encWords m.index ++ m.data) m := by
  intro i d ⟨off, h1, h2, h3⟩
  simp only [List.length_append, encWords_length] at hlen
  have hi := (List.getElem?_eq_some_iff.mp h1).1
  have hat : At (hdr ++ encWords m.index ++ m.data) 56 (encWords m.index) := by
    refine ⟨m.data, ?_⟩
    rw [List.append_assoc, ← h56, List.drop_left]
  have hnum : u32 (hdr ++ encWords m.index ++ m.data) 48 = m.index.length := by
    refine u32_of (by simp only [U32]; omega) ?_
    obtain ⟨t, ht⟩ := h48
    refine ⟨t ++ (encWords m.index ++ m.data), ?_⟩
    rw [List.append_assoc, List.drop_append_of_le_length (by omega), ← List.append_assoc, ← ht]
  have hoff : u32 (hdr ++ encWords m.index ++ m.data) (56 + 4 * i) = off :=
    words_getElem (by simp only [U32]; omega) hat h1
  refine ⟨?_, by omega⟩
  simp only [At, blockAt, hnum, hoff]
  have : 56 + 4 * m.index.length + off = (hdr ++ encWords m.index).length + off := by
    rw [List.length_append, encWords_length, h56]
  rw [this, ← List.drop_drop, List.drop_left]
  exact h3

/-- **C41.** For every network whose numbers fit their fields, a reader that follows the pointers of the
exported file recovers the whole network: version, API level, buffer sizes, every variable (shape, type,
fixed-point position, stored data or buffer), every function (id, implementation, inputs, outputs,
arguments), the network inputs and outputs. -/
theorem C41_roundtrip (dataLen : List Nat → Nat → Nat) (codes : Nat → List Code) (n : NNet)
    (h : NetOK dataLen codes n) : readNet dataLen codes (exportNnb n) = n := by
  obtain ⟨version, level, buffers, vars, fns, inputs, outputs⟩ := n
  obtain ⟨k1, k2, k3, k4, k5, k6, k7, k8⟩ := h
  simp only at k1 k2 k3 k4 k5 k6 k7
  simp only [exportNnb] at k8 ⊢
  have x1 := alloc_ext ⟨[], []⟩ (encWords inputs)
  have y1 := alloc_has ⟨[], []⟩ (encWords inputs)
  generalize alloc ⟨[], []⟩ (encWords inputs) = a1 at *
  obtain ⟨m1, inI⟩ := a1
  simp only at *
  have x2 := alloc_ext m1 (encWords outputs)
  have y2 := alloc_has m1 (encWords outputs)
  generalize alloc m1 (encWords outputs) = a2 at *
  obtain ⟨m2, outI⟩ := a2
  simp only at *
  have x3 := alloc_ext m2 (encWords buffers)
  have y3 := alloc_has m2 (encWords buffers)
  generalize alloc m2 (encWords buffers) = a3 at *
  obtain ⟨m3, bufI⟩ := a3
  simp only at *
  obtain ⟨x4, z4, y4⟩ := writeVars_ok dataLen vars m3 0
  generalize writeVars m3 0 vars = a4 at *
  obtain ⟨m4, vix⟩ := a4
  simp only at *
  have x5 := alloc_ext m4 (encWords vix)
  have y5 := alloc_has m4 (encWords vix)
  generalize alloc m4 (encWords vix) = a5 at *
  obtain ⟨m5, varI⟩ := a5
  simp only at *
  obtain ⟨x6, z6, y6⟩ := writeFns_ok codes fns m5
  generalize writeFns m5 fns = a6 at *
  obtain ⟨m6, fix⟩ := a6
  simp only at *
  have x7 := alloc_ext m6 (encWords fix)
  have y7 := alloc_has m6 (encWords fix)
  generalize alloc m6 (encWords fix) = a7 at *
  obtain ⟨m7, fnI⟩ := a7
  simp only at *
  generalize hF : enc32 version ++ enc32 level ++ encI buffers.length ++ enc32 bufI ++
    encI vix.length ++ enc32 varI ++ encI fix.length ++ enc32 fnI ++ encI inputs.length ++ enc32 inI ++
    encI outputs.length ++ enc32 outI ++ enc32 m7.index.length ++ enc32 m7.data.length ++
    encWords m7.index ++ m7.data = F at *
  have hrep : Rep F m7 := by
    rw [← hF] at k8 ⊢
    apply rep_file
    · rfl
    · exact ⟨enc32 m7.data.length, rfl⟩
    · exact k8
  have h67 := x7
  have h57 := x6.trans x7
  have h47 := x5.trans h57
  have h37 := x4.trans h47
  have h27 := x3.trans h37
  have h17 := x2.trans h27
  obtain ⟨b1, i1⟩ := hrep _ _ (y1.mono h17)
  obtain ⟨b2, i2⟩ := hrep _ _ (y2.mono h27)
  obtain ⟨b3, i3⟩ := hrep _ _ (y3.mono h37)
  obtain ⟨b5, i5⟩ := hrep _ _ (y5.mono h57)
  obtain ⟨b7, i7⟩ := hrep _ _ y7
  obtain ⟨v1, v2⟩ := y4 F (hrep.mono h47) k6
  obtain ⟨g1, g2⟩ := y6 F (hrep.mono h67) k7
  -- lengths
  have hlenw : ∀ off (l : List Nat), At F off (encWords l) → l.length < 2147483648 := by
    intro off l hat
    have := hat.length_le
    rw [encWords_length, List.length_drop] at this
    omega
  have c1 := hlenw _ _ b1
  have c2 := hlenw _ _ b2
  have c3 := hlenw _ _ b3
  have c5 := hlenw _ _ b5
  have c7 := hlenw _ _ b7
  have hat : At F 0 (enc32 version ++ enc32 level ++ encI buffers.length ++ enc32 bufI ++
    encI vix.length ++ enc32 varI ++ encI fix.length ++ enc32 fnI ++ encI inputs.length ++ enc32 inI ++
    encI outputs.length ++ enc32 outI ++ enc32 m7.index.length ++ enc32 m7.data.length) := by
    refine ⟨encWords m7.index ++ m7.data, ?_⟩
    rw [← hF, List.drop_zero, ← List.append_assoc]
  obtain ⟨hat, _⟩ := at_append hat
  obtain ⟨hat, _⟩ := at_append hat
  obtain ⟨hat, q12⟩ := at_append hat
  obtain ⟨hat, q11⟩ := at_append hat
  obtain ⟨hat, q10⟩ := at_append hat
  obtain ⟨hat, q9⟩ := at_append hat
  obtain ⟨hat, q8⟩ := at_append hat
  obtain ⟨hat, q7⟩ := at_append hat
  obtain ⟨hat, q6⟩ := at_append hat
  obtain ⟨hat, q5⟩ := at_append hat
  obtain ⟨hat, q4⟩ := at_append hat
  obtain ⟨hat, q3⟩ := at_append hat
  obtain ⟨q1, q2⟩ := at_append hat
  simp only [List.length_append, enc32_length, encI_length, Nat.zero_add, Nat.reduceAdd] at q2 q3 q4 q5 q6 q7 q8 q9 q10 q11 q12
  have l3 : listAt F 8 = buffers :=
    listAt_of k3 c3 i3 (i32_of (by simp only [I32]; omega) q3) (u32_of (by simp only [U32]; omega) q4) b3
  have l5 : listAt F 16 = vix :=
    listAt_of v1 c5 i5 (i32_of (by simp only [I32]; omega) q5) (u32_of (by simp only [U32]; omega) q6) b5
  have l7 : listAt F 24 = fix :=
    listAt_of g1 c7 i7 (i32_of (by simp only [I32]; omega) q7) (u32_of (by simp only [U32]; omega) q8) b7
  have l1 : listAt F 32 = inputs :=
    listAt_of k4 c1 i1 (i32_of (by simp only [I32]; omega) q9) (u32_of (by simp only [U32]; omega) q10) b1
  have l2 : listAt F 40 = outputs :=
    listAt_of k5 c2 i2 (i32_of (by simp only [I32]; omega) q11) (u32_of (by simp only [U32]; omega) q12) b2
  simp only [readNet, u32_of k1 q1, u32_of k2 q2, l1, l2, l3, l5, l7, v2, g2]

/-- A small network: y = f(x, w), f with a bool, a list and an int argument. -/
def exNet : NNet where
  version := 2
  level := 5
  buffers := [10, 20]
  vars := [⟨[2, 5], 0, 0, .buffer 0⟩, ⟨[3], 2, 7, .stored [1, 2, 255]⟩, ⟨[20], 0, 0, .buffer 1⟩]
  fns := [⟨300, 0, [0, 1], [2], [.byte 1, .list [3, -1], .word (-7)]⟩]
  inputs := [0]
  outputs := [2]

def exLen : List Nat → Nat → Nat := fun s _ => s.foldl (· * ·) 1
def exCodes : Nat → List Code := fun _ => [.b, .l, .w]

example : NetOK exLen exCodes exNet := by
  refine ⟨by simp [U32, exNet], by simp [U32, exNet], by simp [U32, exNet], by simp [U32, exNet], by simp [U32, exNet],
    ?_, ?_, by decide +kernel⟩
  · intro v hv
    simp [exNet] at hv
    rcases hv with rfl | rfl | rfl <;> simp [NVar.OK, U32, exLen]
  · intro f hf
    simp [exNet] at hf
    subst hf
    simp [NFn.OK, U32, exCodes, Arg.code, Arg.OK, I32]


end Verif.Nnb
