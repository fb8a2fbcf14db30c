/- The blocks of one chunk: a doubly linked list tiling it. -/
import Mathlib.Data.List.Chain
import Verif.Alloc.Model

namespace Verif.Alloc

/-- `b` follows `a`. -/
def Adj (s : St) (a b : Nat) : Prop :=
  (s.mem a).next = some b ∧ (s.mem b).prev = some a ∧ (s.mem b).off = (s.mem a).off + (s.mem a).bytes

/-- What holds of every block of chunk `c`. -/
structure Good (s : St) (c m : Nat) : Prop where
  chunk : (s.mem m).chunk = c
  null : (s.mem m).null = false
  pos : 0 < (s.mem m).bytes
  lt : m < s.count
  dev : (s.mem m).dev = s.chunkDev c
  large : smallAlloc < s.chunkSize c → smallAlloc < (s.mem m).bytes

structure Layout (s : St) (c : Nat) (l : List Nat) : Prop where
  adj : l.IsChain (Adj s)
  first : ∀ a, l.head? = some a → (s.mem a).prev = none ∧ (s.mem a).off = 0
  last : ∀ z, l.getLast? = some z → (s.mem z).next = none ∧ (s.mem z).off + (s.mem z).bytes = s.chunkSize c
  each : ∀ m ∈ l, Good s c m

/-- `a` lies before `b`. -/
def Before (s : St) (a b : Nat) : Prop := (s.mem a).off + (s.mem a).bytes ≤ (s.mem b).off

instance (s : St) : Trans (Before s) (Before s) (Before s) := ⟨fun h1 h2 => by unfold Before at *; omega⟩

theorem Layout.ordered {s : St} {c l} (h : Layout s c l) : l.Pairwise (Before s) := by
  rw [← List.isChain_iff_pairwise]
  exact h.adj.imp (fun a b hab => by unfold Before; rw [hab.2.2])

theorem Layout.nodup {s : St} {c l} (h : Layout s c l) : l.Nodup := by
  refine List.Pairwise.imp_of_mem ?_ h.ordered
  intro a b ha _ hb hx
  subst hx
  have := (h.each a ha).pos
  unfold Before at hb; omega

theorem Layout.prev_eq {s : St} {c m A B} (h : Layout s c (A ++ m :: B)) : (s.mem m).prev = A.getLast? := by
  rcases List.eq_nil_or_concat A with rfl | ⟨A', a, rfl⟩
  · exact (h.first m rfl).1
  · have := h.adj
    rw [List.concat_eq_append, List.append_assoc, List.isChain_append] at this
    have := this.2.1
    simp only [List.cons_append, List.nil_append, List.isChain_cons] at this
    rw [(this.1 m rfl).2.1]; simp

theorem Layout.next_eq {s : St} {c m A B} (h : Layout s c (A ++ m :: B)) : (s.mem m).next = B.head? := by
  cases B with
  | nil => exact (h.last m (by simp)).1
  | cons b B =>
    have := (List.isChain_append.1 h.adj).2.1
    rw [List.isChain_cons] at this
    rw [(this.1 b rfl).1]; rfl

theorem Layout.end_le {s : St} {c l} (h : Layout s c l) {m} (hm : m ∈ l) :
    (s.mem m).off + (s.mem m).bytes ≤ s.chunkSize c := by
  obtain ⟨A, B, rfl⟩ := List.mem_iff_append.1 hm
  rcases List.eq_nil_or_concat B with rfl | ⟨B', z, rfl⟩
  · exact Nat.le_of_eq (h.last m (by simp)).2
  · have o := h.ordered
    rw [List.pairwise_append] at o
    have := (List.pairwise_cons.1 o.2.1).1 z (by simp)
    have := (h.last z (by
      have e : A ++ m :: B'.concat z = (A ++ m :: B') ++ [z] := by simp
      rw [e, List.getLast?_append_of_ne_nil _ (by simp)]; rfl)).2
    unfold Before at *; omega

/-- Replace consecutive blocks of a chunk by others covering the same range. -/
theorem Layout.replace {s s' : St} {c : Nat} {A M M' B : List Nat} (h : Layout s c (A ++ M ++ B))
    (f z f' z' : Nat) (hf : M.head? = some f) (hz : M.getLast? = some z) (hf' : M'.head? = some f')
    (hz' : M'.getLast? = some z')
    (hsz : s'.chunkSize c = s.chunkSize c)
    (hA : ∀ x ∈ A, (s'.mem x).off = (s.mem x).off ∧ (s'.mem x).bytes = (s.mem x).bytes ∧
      (s'.mem x).prev = (s.mem x).prev ∧ (s'.mem x).next = if A.getLast? = some x then some f' else (s.mem x).next)
    (hB : ∀ x ∈ B, (s'.mem x).off = (s.mem x).off ∧ (s'.mem x).bytes = (s.mem x).bytes ∧
      (s'.mem x).next = (s.mem x).next ∧ (s'.mem x).prev = if B.head? = some x then some z' else (s.mem x).prev)
    (hM : M'.IsChain (Adj s'))
    (h1 : (s'.mem f').off = (s.mem f).off ∧ (s'.mem f').prev = A.getLast?)
    (h2 : (s'.mem z').off + (s'.mem z').bytes = (s.mem z).off + (s.mem z).bytes ∧ (s'.mem z').next = B.head?)
    (he : ∀ x ∈ A ++ M' ++ B, Good s' c x) : Layout s' c (A ++ M' ++ B) := by
  have nd := h.nodup
  have hMne : M ≠ [] := by rintro rfl; cases hf
  have hM'ne : M' ≠ [] := by rintro rfl; cases hf'
  have adj := h.adj
  rw [List.append_assoc, List.isChain_append, List.isChain_append] at adj
  obtain ⟨aA, ⟨aM, aB, aMB⟩, aAM⟩ := adj
  have cA : A.IsChain (Adj s') := by
    rw [List.isChain_iff_forall_rel_of_append_cons_cons] at aA ⊢
    intro x y l1 l2 e
    have xy := aA e
    have hx := hA x (by rw [e]; simp)
    have hy := hA y (by rw [e]; simp)
    have nx : A.getLast? ≠ some x := by
      rw [e] at nd ⊢
      intro hl
      have : x ∈ y :: l2 := by
        rw [show l1 ++ x :: y :: l2 = (l1 ++ [x]) ++ (y :: l2) by simp] at hl
        rw [List.getLast?_append_of_ne_nil _ (by simp)] at hl
        exact List.mem_of_getLast? hl
      simp only [List.append_assoc, List.nodup_append, List.cons_append, List.nodup_cons] at nd
      have := nd.2.1.1
      simp only [List.mem_cons, List.mem_append, not_or] at this
      rcases List.mem_cons.1 ‹x ∈ y :: l2› with hh | hh
      · exact this.1 hh
      · exact this.2.1 hh
    refine ⟨?_, ?_, ?_⟩
    · rw [hx.2.2.2, if_neg nx]; exact xy.1
    · rw [hy.2.2.1]; exact xy.2.1
    · rw [hy.1, hx.1, hx.2.1]; exact xy.2.2
  have cB : B.IsChain (Adj s') := by
    rw [List.isChain_iff_forall_rel_of_append_cons_cons] at aB ⊢
    intro x y l1 l2 e
    have xy := aB e
    have hx := hB x (by rw [e]; simp)
    have hy := hB y (by rw [e]; simp)
    have ny : B.head? ≠ some y := by
      rw [e] at nd ⊢
      intro hl
      have : y ∈ l1 ++ [x] := by
        cases l1 with
        | nil => simp at hl; subst hl; simp
        | cons w l1 => simp at hl; subst hl; simp
      rw [show A ++ M ++ (l1 ++ x :: y :: l2) = A ++ M ++ ((l1 ++ [x]) ++ y :: l2) by simp] at nd
      have nd' := (List.nodup_append.1 nd).2.1
      exact (List.nodup_append.1 nd').2.2 y this y (by simp) rfl
    refine ⟨?_, ?_, ?_⟩
    · rw [hx.2.2.1]; exact xy.1
    · rw [hy.2.2.2, if_neg ny]; exact xy.2.1
    · rw [hy.1, hx.1, hx.2.1]; exact xy.2.2
  have hd : ∀ (X Y : List Nat), X ≠ [] → (X ++ Y).head? = X.head? := by
    intro X Y hX
    cases X with
    | nil => exact absurd rfl hX
    | cons _ _ => rfl
  constructor
  · rw [List.append_assoc, List.isChain_append, List.isChain_append]
    refine ⟨cA, ⟨hM, cB, ?_⟩, ?_⟩
    · intro x hx y hy
      rw [hz'] at hx
      cases hx
      have hyB : y ∈ B := List.mem_of_mem_head? hy
      have y1 := hB y hyB
      have o := (aMB z (by rw [hz]; rfl) y hy).2.2
      refine ⟨?_, ?_, ?_⟩
      · rw [h2.2]; exact hy
      · rw [y1.2.2.2, if_pos (Option.mem_def.1 hy)]
      · rw [y1.1, o, h2.1]
    · intro x hx y hy
      rw [hd _ _ hM'ne, hf'] at hy
      cases hy
      have hxA : x ∈ A := List.mem_of_getLast? hx
      have x1 := hA x hxA
      have o := (aAM x hx f (by rw [hd _ _ hMne, hf]; rfl)).2.2
      refine ⟨?_, ?_, ?_⟩
      · rw [x1.2.2.2, if_pos (Option.mem_def.1 hx)]
      · rw [h1.2]; exact hx
      · rw [h1.1, o, x1.1, x1.2.1]
  · intro a ha
    cases A with
    | nil =>
      rw [List.nil_append, hd _ _ hM'ne, hf'] at ha
      cases ha
      have := h.first f (by rw [List.nil_append, hd _ _ hMne, hf])
      exact ⟨h1.2, by rw [h1.1]; exact this.2⟩
    | cons a' A =>
      have := h.first a (by simpa using ha)
      have ha' : a' = a := by simpa using ha
      have a1 := hA a (by simp [ha'])
      exact ⟨by rw [a1.2.2.1]; exact this.1, by rw [a1.1]; exact this.2⟩
  · intro w hw
    rcases List.eq_nil_or_concat B with rfl | ⟨B', b, rfl⟩
    · rw [List.append_nil, List.getLast?_append_of_ne_nil _ hM'ne, hz'] at hw
      cases hw
      have := h.last z (by rw [List.append_nil, List.getLast?_append_of_ne_nil _ hMne, hz])
      exact ⟨h2.2, by rw [h2.1, hsz]; exact this.2⟩
    · have hw' : b = w := by simpa using hw
      have := h.last w (by simpa using hw)
      have b1 := hB w (by simp [hw'])
      exact ⟨by rw [b1.2.2.1]; exact this.1, by rw [b1.1, b1.2.1, hsz]; exact this.2⟩
  · exact he

/-- A layout depends only on the blocks in it. -/
theorem Layout.congr {s s' : St} {c : Nat} {l : List Nat} (h : Layout s c l) (hm : ∀ x ∈ l, s'.mem x = s.mem x)
    (hsz : s'.chunkSize c = s.chunkSize c) (hd : s'.chunkDev c = s.chunkDev c) (hc : s.count ≤ s'.count) :
    Layout s' c l := by
  constructor
  · refine List.IsChain.imp_of_mem_imp ?_ h.adj
    intro a b ha hb hab
    unfold Adj; rw [hm a ha, hm b hb]; exact hab
  · intro a ha; rw [hm a (List.mem_of_mem_head? ha)]; exact h.first a ha
  · intro a ha; rw [hm a (List.mem_of_getLast? ha), hsz]; exact h.last a ha
  · intro m hx
    have := h.each m hx
    refine ⟨?_, ?_, ?_, Nat.lt_of_lt_of_le this.lt hc, ?_, ?_⟩
    · rw [hm m hx]; exact this.chunk
    · rw [hm m hx]; exact this.null
    · rw [hm m hx]; exact this.pos
    · rw [hm m hx, hd]; exact this.dev
    · rw [hm m hx, hsz]; exact this.large

end Verif.Alloc
