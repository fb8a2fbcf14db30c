import Verif.Graph.Grad
/-
Lemmas on one call of the backward callback.
-/
namespace Verif.Graph
variable {α : Type} [AddCommMonoid α]

theorem queryInputs_length (pr : Bool) : ∀ (ins : List VarId) (seen : List (VarId × Bool)),
    (queryInputs pr seen ins).2.length = ins.length := by
  intro ins
  induction ins with
  | nil => intro seen; rfl
  | cons v vs ih => intro seen; simp [queryInputs, ih]

theorem seen2_keys (pr : Bool) (seen : List (VarId × Bool)) (v : VarId) :
    (seen.map (fun x => if x.1 = v then (x.1, x.2 && !pr) else x)).map Prod.fst =
      seen.map Prod.fst := by
  rw [List.map_map]
  apply List.map_congr_left
  intro x _
  simp only [Function.comp]
  split <;> rfl

theorem queryInputs_keys (pr : Bool) : ∀ (ins : List VarId) (seen : List (VarId × Bool)) (u : VarId),
    u ∈ (queryInputs pr seen ins).1.map Prod.fst ↔ u ∈ seen.map Prod.fst ∨ u ∈ ins := by
  intro ins
  induction ins with
  | nil => intro seen u; simp [queryInputs]
  | cons v vs ih =>
    intro seen u
    simp only [queryInputs]
    rw [ih, seen2_keys]
    by_cases hv : v ∈ seen.map Prod.fst
    · rw [if_neg (by rw [decide_eq_true_eq]; exact not_not.mpr hv)]
      constructor
      · rintro (h | h)
        · exact Or.inl h
        · exact Or.inr (by simp [h])
      · rintro (h | h)
        · exact Or.inl h
        · rcases List.mem_cons.mp h with rfl | h
          · exact Or.inl hv
          · exact Or.inr h
    · rw [if_pos (by simpa using hv)]
      simp only [List.map_cons, List.mem_cons]
      constructor
      · rintro ((h | h) | h) <;> simp [h]
      · rintro (h | h | h) <;> simp [h]

/-- flags of a variable seen before are false -/
theorem queryInputs_seen (pr : Bool) : ∀ (ins : List VarId) (seen : List (VarId × Bool)) (v : VarId) b,
    v ∈ seen.map Prod.fst → (v, b) ∈ ins.zip (queryInputs pr seen ins).2 → b = false := by
  intro ins
  induction ins with
  | nil => intro seen v b _ h; simp [queryInputs] at h
  | cons u vs ih =>
    intro seen v b hv h
    simp only [queryInputs, List.zip_cons_cons, List.mem_cons] at h
    rcases h with h | h
    · simp only [Prod.mk.injEq] at h
      obtain ⟨rfl, rfl⟩ := h
      rw [decide_eq_false_iff_not]; exact not_not.mpr hv
    · apply ih _ v b _ h
      rw [seen2_keys]
      split
      · simp [hv]
      · exact hv

/-- flags of an unseen variable: the first is true, the others false -/
theorem queryInputs_new (pr : Bool) : ∀ (ins : List VarId) (seen : List (VarId × Bool)) (v : VarId),
    v ∉ seen.map Prod.fst → v ∈ ins →
    ∃ a b, ins.zip (queryInputs pr seen ins).2 = a ++ (v, true) :: b ∧
      (∀ x, x ∈ a → x.1 ≠ v) ∧ (∀ c, (v, c) ∈ b → c = false) := by
  intro ins
  induction ins with
  | nil => intro seen v _ h; simp at h
  | cons u vs ih =>
    intro seen v hv hm
    simp only [queryInputs, List.zip_cons_cons]
    by_cases huv : u = v
    · subst huv
      refine ⟨[], _, by rw [List.nil_append]; congr 2; simpa using hv, by simp, ?_⟩
      intro c hc
      apply queryInputs_seen pr vs _ u c _ hc
      rw [seen2_keys, if_pos (by simpa using hv)]
      simp
    · have hm' : v ∈ vs := by
        rcases List.mem_cons.mp hm with h | h
        · exact absurd h.symm huv
        · exact h
      obtain ⟨a, b, hab, h1, h2⟩ := ih _ v (by
        show v ∉ List.map Prod.fst
          (List.map (fun x => if x.1 = u then (x.1, x.2 && !pr) else x)
            (if decide (u ∉ seen.map Prod.fst) = true then (u, !pr) :: seen else seen))
        rw [seen2_keys]
        split
        · simp only [List.map_cons, List.mem_cons, not_or]
          exact ⟨fun h => huv h.symm, hv⟩
        · exact hv) hm'
      refine ⟨(u, _) :: a, b, by rw [hab]; rfl, ?_, h2⟩
      intro x hx
      rcases List.mem_cons.mp hx with rfl | hx
      · exact huv
      · exact h1 x hx

/-! ### the kernel -/

theorem implStep_other {vg : VarId → Bool} {c : Nat → Option α} {v : VarId} :
    ∀ (l : List ((VarId × Bool) × Nat)) (g : VarId → GArr α),
      (∀ x, x ∈ l → x.1.1 = v → vg v = false) → l.foldl (implStep vg c) g v = g v := by
  intro l
  induction l with
  | nil => intro g _; rfl
  | cons x l ih =>
    intro g h
    rw [List.foldl_cons, ih _ (fun y hy => h y (by simp [hy]))]
    unfold implStep
    split
    · rename_i hg
      cases c x.2 with
      | none => rfl
      | some d =>
        simp only [upd]
        split
        · rename_i he
          have := h x (by simp) he.symm
          rw [he, hg] at this
          cases this
        · rfl
    · rfl

theorem implStep_accum {vg : VarId → Bool} {c : Nat → Option α} {v : VarId} (hvg : vg v = true) :
    ∀ (l : List ((VarId × Bool) × Nat)) (g : VarId → GArr α),
      (∀ x, x ∈ l → x.1.1 = v → x.1.2 = true) →
      (l.foldl (implStep vg c) g v).read =
        (g v).read + (l.map (fun x => if x.1.1 = v then (c x.2).getD 0 else 0)).sum := by
  intro l
  induction l with
  | nil => intro g _; simp
  | cons x l ih =>
    intro g h
    rw [List.foldl_cons, ih _ (fun y hy => h y (by simp [hy])), List.map_cons, List.sum_cons,
      ← add_assoc]
    congr 1
    unfold implStep
    by_cases hx : x.1.1 = v
    · have hacc := h x (by simp) hx
      rw [if_pos (by rw [hx]; exact hvg), if_pos hx]
      cases c x.2 with
      | none => simp
      | some d => simp [upd, hx, hacc, GArr.read]
    · rw [if_neg hx, add_zero]
      split
      · cases c x.2 with
        | none => rfl
        | some d => simp only [upd]; rw [if_neg (fun h => hx h.symm)]
      · rfl

omit [AddCommMonoid α] in
theorem zeroStep_true {vg : VarId → Bool} {v : VarId} :
    ∀ (l : List (VarId × Bool)) (g : VarId → GArr α),
      (∀ b, (v, b) ∈ l → b = true ∨ vg v = false) → zeroStep vg g l v = g v := by
  intro l
  induction l with
  | nil => intro g _; rfl
  | cons x l ih =>
    intro g h
    unfold zeroStep
    rw [List.foldl_cons]
    have := ih (if vg x.1 && !x.2 then upd g x.1 (g x.1).zeroed else g)
      (fun b hb => h b (by simp [hb]))
    unfold zeroStep at this
    rw [this]
    split
    · rename_i hc
      simp only [Bool.and_eq_true, Bool.not_eq_true'] at hc
      simp only [upd]
      split
      · rename_i he
        rcases h x.2 (by rw [he]; simp) with h' | h'
        · rw [h'] at hc; simp at hc
        · rw [he] at h'; rw [h'] at hc; simp at hc
      · rfl
    · rfl

theorem zeroStep_false {vg : VarId → Bool} {v : VarId} (hvg : vg v = true) :
    ∀ (l : List (VarId × Bool)) (g : VarId → GArr α),
      (v, false) ∈ l ∨ (g v).read = 0 → (zeroStep vg g l v).read = 0 := by
  intro l
  induction l with
  | nil => intro g h; simpa [zeroStep] using h
  | cons x l ih =>
    intro g h
    unfold zeroStep
    rw [List.foldl_cons]
    have := ih (if vg x.1 && !x.2 then upd g x.1 (g x.1).zeroed else g) ?_
    · exact this
    · rcases h with h | h
      · rcases List.mem_cons.mp h with h | h
        · right
          rw [← h]
          simp [hvg, upd, GArr.zeroed, GArr.read]
        · exact Or.inl h
      · right
        split
        · simp only [upd]
          split
          · simp [GArr.zeroed, GArr.read]
          · exact h
        · exact h

/-- sum over the entries = contribution -/
theorem contrib_eq {G : Graph} {vjp : FnId → Nat → List α → Option α} {D : VarId → α} {v : VarId}
    {f : FnId} {l : List (VarId × Bool)} (hl : l.map Prod.fst = (G.fn f).inputs.map Prod.fst) :
    contrib G vjp D v f =
      (l.zipIdx.map (fun x => if x.1.1 = v then
        (vjp f x.2 ((G.fn f).outputs.map D)).getD 0 else 0)).sum := by
  unfold contrib
  rw [← hl, List.zipIdx_map, List.map_map]
  rfl

theorem contrib_zero {G : Graph} {vjp : FnId → Nat → List α → Option α} {D : VarId → α} {v : VarId}
    {f : FnId} (hv : v ∉ (G.fn f).inputs.map Prod.fst) : contrib G vjp D v f = 0 := by
  unfold contrib
  apply List.sum_eq_zero
  intro x hx
  obtain ⟨y, hy, rfl⟩ := List.mem_map.mp hx
  have : y.1 ∈ (G.fn f).inputs.map Prod.fst := List.fst_mem_of_mem_zipIdx hy
  rw [if_neg]
  rintro rfl
  exact hv this

/-- Effect of the accumulation logic of one call on a variable that requires a gradient. -/
theorem kernel_read {G : Graph} {vg : VarId → Bool} {ins : List VarId} {seen : List (VarId × Bool)}
    {pr pz : Bool} {g0 g1 : VarId → GArr α} {c : Nat → Option α} {v : VarId} (hvg : vg v = true)
    (hg : v ∈ ins → g1 v = g0 v)
    (hc : pz = true → ∀ i, i < ins.length → c i ≠ none)
    {l : List (VarId × Bool)}
    (hl : l = (ins.zip (queryInputs pr seen ins).2).map
      (fun x => (x.1, accumOf G vg g0 ins x.1 x.2))) :
    (l.zipIdx.foldl (implStep vg c) (if pz then g1 else zeroStep vg g1 l) v).read =
      (if v ∈ ins ∧ (G.parent v).isSome = true ∧ v ∉ seen.map Prod.fst then 0 else (g1 v).read) +
        (l.zipIdx.map (fun x => if x.1.1 = v then (c x.2).getD 0 else 0)).sum := by
  have hlf : l.map Prod.fst = ins := by
    rw [hl, List.map_map]
    have : (Prod.fst ∘ fun x : VarId × Bool => (x.1, accumOf G vg g0 ins x.1 x.2)) = Prod.fst := rfl
    rw [this, List.map_fst_zip]
    rw [queryInputs_length]
    exact Nat.le_refl _
  have hzip : ∀ x, x ∈ l.zipIdx → x.1 ∈ l := fun x hx => List.fst_mem_of_mem_zipIdx hx
  by_cases hv : v ∈ ins
  · have hge := hg hv
    -- is it the case "first entry overwrites"?
    by_cases hcase : ((g0 v).zeroing = true ∧ ins.count v ≤ 1) ∨
        ((G.parent v).isSome = true ∧ v ∉ seen.map Prod.fst)
    · -- base is zero
      have hbase : (if v ∈ ins ∧ (G.parent v).isSome = true ∧ v ∉ seen.map Prod.fst then 0
          else (g1 v).read) = 0 := by
        split
        · rfl
        · rename_i hn
          rcases hcase with ⟨hz, _⟩ | h
          · rw [hge]; simp [GArr.read, hz]
          · exact absurd ⟨hv, h⟩ hn
      rw [hbase, zero_add]
      -- shape of the flags
      have hshape : ∃ a b, l = a ++ (v, false) :: b ∧ (∀ x, x ∈ a → x.1 ≠ v) ∧
          (∀ d, (v, d) ∈ b → d = true) := by
        by_cases hone : (g0 v).zeroing = true ∧ ins.count v ≤ 1
        · -- a single occurrence
          have hvl : v ∈ l.map Prod.fst := by rw [hlf]; exact hv
          obtain ⟨x, hx, hxv⟩ := List.mem_map.mp hvl
          obtain ⟨a, b, hab⟩ := List.append_of_mem hx
          have hcnt : (l.map Prod.fst).count v ≤ 1 := by rw [hlf]; exact hone.2
          rw [hab] at hcnt
          simp only [List.map_append, List.map_cons, hxv, List.count_append, List.count_cons_self]
            at hcnt
          have ha : v ∉ a.map Prod.fst := by
            intro h; have := List.count_pos_iff.mpr h; omega
          have hb : v ∉ b.map Prod.fst := by
            intro h; have := List.count_pos_iff.mpr h; omega
          have hx2 : x = (v, false) := by
            have : x ∈ (ins.zip (queryInputs pr seen ins).2).map
              (fun x => (x.1, accumOf G vg g0 ins x.1 x.2)) := by rw [← hl]; exact hx
            obtain ⟨y, _, rfl⟩ := List.mem_map.mp this
            simp only at hxv
            rw [hxv]
            congr 1
            simp only [accumOf, hvg]
            rw [if_neg (by simp), if_pos]
            simp [hone.1]; omega
          refine ⟨a, b, by rw [← hx2]; exact hab, ?_, ?_⟩
          · intro y hy hyv; exact ha (List.mem_map.mpr ⟨y, hy, hyv⟩)
          · intro d hd; exact absurd (List.mem_map.mpr ⟨_, hd, rfl⟩) hb
        · have hpar : (G.parent v).isSome = true ∧ v ∉ seen.map Prod.fst := by
            rcases hcase with h | h
            · exact absurd h hone
            · exact h
          obtain ⟨a, b, hab, h1, h2⟩ := queryInputs_new pr ins seen v hpar.2 hv
          refine ⟨a.map (fun x => (x.1, accumOf G vg g0 ins x.1 x.2)),
            b.map (fun x => (x.1, accumOf G vg g0 ins x.1 x.2)), ?_, ?_, ?_⟩
          · rw [hl, hab, List.map_append, List.map_cons]
            congr 3
            simp only [accumOf, hvg]
            rw [if_neg (by simp)]
            split
            · rfl
            · rw [if_pos (by simp [hpar.1])]
          · intro x hx
            obtain ⟨y, hy, rfl⟩ := List.mem_map.mp hx
            exact h1 y hy
          · intro d hd
            obtain ⟨y, hy, hye⟩ := List.mem_map.mp hd
            simp only [Prod.mk.injEq] at hye
            obtain ⟨hy1, rfl⟩ := hye
            have hyf : y.2 = false := h2 y.2 (by rw [← hy1]; exact hy)
            rw [hy1, hyf]
            simp only [accumOf, hvg]
            rw [if_neg (by simp), if_neg, if_neg (by simp)]
            intro hz
            apply hone
            simp only [Bool.and_eq_true, Bool.not_eq_true', decide_eq_false_iff_not] at hz
            exact ⟨hz.1, by omega⟩
      obtain ⟨a, b, hab, h1, h2⟩ := hshape
      have hz0 : pz = false → (zeroStep vg g1 l v).read = 0 := fun _ =>
        zeroStep_false hvg l g1 (Or.inl (by rw [hab]; simp))
      generalize hg2 : (if pz = true then g1 else zeroStep vg g1 l) = g2
      have hg2z : pz = false → (g2 v).read = 0 := by
        intro h; rw [← hg2, h]; exact hz0 h
      rw [hab, List.zipIdx_append, List.foldl_append, List.map_append, List.sum_append]
      simp only [List.zipIdx_cons, List.foldl_cons, List.map_cons, List.sum_cons]
      have ha : ∀ x, x ∈ a.zipIdx → x.1.1 ≠ v := fun x hx => h1 x.1 (List.fst_mem_of_mem_zipIdx hx)
      have hsa : (a.zipIdx.map (fun x => if x.1.1 = v then (c x.2).getD 0 else 0)).sum = 0 := by
        apply List.sum_eq_zero
        intro y hy
        obtain ⟨x, hx, rfl⟩ := List.mem_map.mp hy
        rw [if_neg (ha x hx)]
      rw [hsa]
      simp only [zero_add]
      rw [implStep_accum hvg]
      · congr 1
        have hbefore : (a.zipIdx.foldl (implStep vg c) g2) v = g2 v :=
          implStep_other _ _ (fun x hx h => absurd h (ha x hx))
        generalize a.zipIdx.foldl (implStep vg c) g2 = g3 at hbefore
        unfold implStep
        simp only [hvg, if_true]
        cases hci : c a.length with
        | none =>
          have hpz : pz = false := by
            cases hpz : pz with
            | false => rfl
            | true =>
              exfalso
              refine hc hpz a.length ?_ hci
              have : l.length = ins.length := by rw [← hlf]; simp
              rw [← this, hab]; simp
          simp [hbefore, hg2z hpz]
        | some d => simp [upd, GArr.read]
      · intro x hx hxv
        have := List.fst_mem_of_mem_zipIdx hx
        apply h2 x.1.2
        rw [← hxv]; exact this
    · -- always accumulated
      have hno : ¬(v ∈ ins ∧ (G.parent v).isSome = true ∧ v ∉ seen.map Prod.fst) := by
        rintro ⟨_, h⟩; exact hcase (Or.inr h)
      rw [if_neg hno]
      have hall : ∀ b, (v, b) ∈ l → b = true := by
        intro b hb
        rw [hl] at hb
        obtain ⟨y, hy, hye⟩ := List.mem_map.mp hb
        simp only [Prod.mk.injEq] at hye
        obtain ⟨hy1, rfl⟩ := hye
        rw [hy1]
        simp only [accumOf, hvg]
        rw [if_neg (by simp), if_neg, if_neg]
        · rintro hp
          simp only [Bool.and_eq_true] at hp
          apply hcase
          right
          refine ⟨hp.1, ?_⟩
          intro hs
          have := queryInputs_seen pr ins seen v y.2 hs (by rw [← hy1]; exact hy)
          rw [this] at hp; simp at hp
        · intro hz
          apply hcase
          left
          simp only [Bool.and_eq_true, Bool.not_eq_true', decide_eq_false_iff_not] at hz
          exact ⟨hz.1, by omega⟩
      rw [implStep_accum hvg]
      · congr 1
        split
        · rfl
        · rw [zeroStep_true l g1 (fun b hb => Or.inl (hall b hb))]
      · intro x hx hxv
        apply hall x.1.2
        rw [← hxv]; exact hzip x hx
  · -- not an input
    have hnl : ∀ x, x ∈ l → x.1 ≠ v := by
      rintro x hx rfl
      apply hv
      rw [← hlf]; exact List.mem_map.mpr ⟨x, hx, rfl⟩
    have hno : ¬(v ∈ ins ∧ (G.parent v).isSome = true ∧ v ∉ seen.map Prod.fst) := by
      rintro ⟨h, _⟩; exact hv h
    rw [if_neg hno]
    rw [implStep_accum hvg _ _ (fun x hx h => absurd h (hnl _ (hzip x hx)))]
    congr 1
    split
    · rfl
    · rw [zeroStep_true l g1 (fun b hb => absurd rfl (hnl _ hb))]

end Verif.Graph
