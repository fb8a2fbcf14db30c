import Verif.Nnb.Spec
namespace Verif.Nnb

/-! ### memory -/

/-- Memory block `i` starts with the bytes `d`. -/
def Has (m : Mem) (i : Nat) (d : List Nat) : Prop :=
  ∃ off, m.index[i]? = some off ∧ off ≤ m.data.length ∧ d <+: m.data.drop off

/-- `m'` extends `m`. -/
def Ext (m m' : Mem) : Prop := m.index <+: m'.index ∧ m.data <+: m'.data

theorem Ext.refl (m : Mem) : Ext m m := ⟨List.prefix_refl _, List.prefix_refl _⟩
theorem Ext.trans {a b c : Mem} (h1 : Ext a b) (h2 : Ext b c) : Ext a c :=
  ⟨h1.1.trans h2.1, h1.2.trans h2.2⟩

theorem Has.mono {m m' : Mem} {i : Nat} {d : List Nat} (h : Has m i d) (e : Ext m m') : Has m' i d := by
  obtain ⟨off, h1, h2, h3⟩ := h
  obtain ⟨t, ht⟩ := e.1
  obtain ⟨u, hu⟩ := e.2
  refine ⟨off, ?_, ?_, ?_⟩
  · rw [← ht, List.getElem?_append_left (List.getElem?_eq_some_iff.mp h1).1]; exact h1
  · rw [← hu, List.length_append]; omega
  · rw [← hu, List.drop_append_of_le_length h2]
    exact h3.trans (List.prefix_append _ _)

theorem alloc_ext (m : Mem) (d : List Nat) : Ext m (alloc m d).1 :=
  ⟨List.prefix_append _ _, by simp [alloc, List.append_assoc]⟩

theorem alloc_has (m : Mem) (d : List Nat) : Has (alloc m d).1 (alloc m d).2 d := by
  refine ⟨m.data.length, by simp [alloc], by simp [alloc], ?_⟩
  simp [alloc, List.append_assoc]

/-! ### bytes in a file -/

/-- The bytes `d` are in the file at `off`. -/
def At (f : List Nat) (off : Nat) (d : List Nat) : Prop := d <+: f.drop off

theorem at_append {f : List Nat} {off : Nat} {a b : List Nat} (h : At f off (a ++ b)) :
    At f off a ∧ At f (off + a.length) b := by
  obtain ⟨t, ht⟩ := h
  refine ⟨⟨b ++ t, by rw [← ht, List.append_assoc]⟩, ⟨t, ?_⟩⟩
  rw [← List.drop_drop, ← ht, List.append_assoc, List.drop_left]

theorem byteAt_of {f : List Nat} {off b : Nat} {r : List Nat} (h : At f off (b :: r)) : byteAt f off = b := by
  obtain ⟨t, ht⟩ := h
  have := congrArg (fun l => l[0]?) ht
  simp at this
  rw [byteAt, List.getD_eq_getElem?_getD, ← this]; rfl

theorem at_cons {f : List Nat} {off b : Nat} {r : List Nat} (h : At f off (b :: r)) :
    byteAt f off = b ∧ At f (off + 1) r :=
  ⟨byteAt_of h, (at_append (a := [b]) (b := r) h).2⟩

theorem u32_of {f : List Nat} {off n : Nat} (hn : U32 n) (h : At f off (enc32 n)) : u32 f off = n := by
  obtain ⟨h0, h⟩ := at_cons h
  obtain ⟨h1, h⟩ := at_cons h
  obtain ⟨h2, h⟩ := at_cons h
  obtain ⟨h3, _⟩ := at_cons h
  simp only [u32]
  rw [h0, h1, show off + 2 = off + 1 + 1 from rfl, h2, show off + 3 = off + 1 + 1 + 1 from rfl, h3]
  simp only [U32] at hn
  omega

theorem u16_of {f : List Nat} {off n : Nat} (hn : n < 65536) (h : At f off (enc16 n)) : u16 f off = n := by
  obtain ⟨h0, h⟩ := at_cons h
  obtain ⟨h1, _⟩ := at_cons h
  simp only [u16]
  rw [h0, h1]; omega

theorem i32_of {f : List Nat} {off : Nat} {z : Int} (hz : I32 z) (h : At f off (encI z)) : i32 f off = z := by
  simp only [I32] at hz
  have hu := u32_of (n := (z % 4294967296).toNat) (by simp only [U32]; omega) h
  simp only [i32, hu]
  split <;> omega

theorem enc32_length (n : Nat) : (enc32 n).length = 4 := rfl
theorem encI_length (z : Int) : (encI z).length = 4 := rfl
theorem enc16_length (n : Nat) : (enc16 n).length = 2 := rfl

theorem encWords_length (l : List Nat) : (encWords l).length = 4 * l.length := by
  induction l with
  | nil => rfl
  | cons x l ih =>
    have : encWords (x :: l) = enc32 x ++ encWords l := rfl
    rw [this, List.length_append, ih, enc32_length, List.length_cons]; omega

theorem words_of {f : List Nat} {off : Nat} {l : List Nat} (hl : ∀ x ∈ l, U32 x) (h : At f off (encWords l)) :
    words f off l.length = l := by
  induction l generalizing off with
  | nil => rfl
  | cons x l ih =>
    have : encWords (x :: l) = enc32 x ++ encWords l := rfl
    rw [this] at h
    obtain ⟨h1, h2⟩ := at_append h
    have e1 := u32_of (hl x List.mem_cons_self) h1
    have e2 := ih (fun y hy => hl y (List.mem_cons_of_mem _ hy)) h2
    rw [enc32_length] at e2
    simp only [words] at e2 ⊢
    rw [List.length_cons, List.range_succ_eq_map, List.map_cons, List.map_map]
    congr 1
    rw [← e2]
    simp only [List.length_map, List.length_range]
    apply List.map_congr_left
    intro k _
    simp only [Function.comp]
    congr 1; omega

theorem words_getElem {f : List Nat} {off : Nat} {l : List Nat} {i x : Nat} (hx : U32 x)
    (h : At f off (encWords l)) (hi : l[i]? = some x) : u32 f (off + 4 * i) = x := by
  induction l generalizing off i with
  | nil => simp at hi
  | cons y l ih =>
    have : encWords (y :: l) = enc32 y ++ encWords l := rfl
    rw [this] at h
    obtain ⟨h1, h2⟩ := at_append h
    cases i with
    | zero => simp at hi; subst hi; exact u32_of hx h1
    | succ i =>
      rw [List.getElem?_cons_succ] at hi
      have := ih h2 hi
      rw [enc32_length] at this
      rw [← this]; congr 1; omega

theorem ints_of {f : List Nat} {off : Nat} {l : List Int} (hl : ∀ x ∈ l, I32 x) (h : At f off (encInts l)) :
    ints f off l.length = l := by
  induction l generalizing off with
  | nil => rfl
  | cons x l ih =>
    have : encInts (x :: l) = encI x ++ encInts l := rfl
    rw [this] at h
    obtain ⟨h1, h2⟩ := at_append h
    have e1 := i32_of (hl x List.mem_cons_self) h1
    have e2 := ih (fun y hy => hl y (List.mem_cons_of_mem _ hy)) h2
    rw [encI_length] at e2
    simp only [ints] at e2 ⊢
    rw [List.length_cons, List.range_succ_eq_map, List.map_cons, List.map_map]
    congr 1
    conv => rhs; rw [← e2]
    apply List.map_congr_left
    intro k _
    simp only [Function.comp]
    congr 1; omega

theorem bytes_of {f : List Nat} {off : Nat} {l : List Nat} (h : At f off l) : bytes f off l.length = l := by
  induction l generalizing off with
  | nil => rfl
  | cons x l ih =>
    obtain ⟨e1, h2⟩ := at_cons h
    have e2 := ih h2
    simp only [bytes] at e2 ⊢
    rw [List.length_cons, List.range_succ_eq_map, List.map_cons, List.map_map]
    congr 1
    conv => rhs; rw [← e2]
    apply List.map_congr_left
    intro k _
    simp only [Function.comp]
    congr 1; omega

/-- The file `f` represents memory `m`. -/
def Rep (f : List Nat) (m : Mem) : Prop := ∀ i d, Has m i d → At f (blockAt f i) d ∧ i < 2147483648

theorem Rep.mono {f : List Nat} {m m' : Mem} (h : Rep f m') (e : Ext m m') : Rep f m :=
  fun i d hd => h i d (hd.mono e)

theorem listAt_of {f : List Nat} {off i : Nat} {l : List Nat} (hl : ∀ x ∈ l, U32 x)
    (hlen : l.length < 2147483648) (hi : i < 2147483648) (h1 : i32 f off = l.length) (h2 : u32 f (off + 4) = i)
    (h3 : At f (blockAt f i) (encWords l)) : listAt f off = l := by
  simp only [listAt, h1, h2, Int.toNat_natCast]
  exact words_of hl h3

theorem up4_eq (p : Nat) : up4 p = align p ∧ p ≤ align p := by
  simp only [up4, align]
  split <;> omega

end Verif.Nnb
