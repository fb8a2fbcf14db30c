import Verif.ModuleTree.Lemmas
namespace Verif.ModuleTree
open Verif.Params

theorem putPath_same {p : List Str} {v : Nat} {d : Dict} (h : varAt d p = some v) : putPath p v d = d := by
  induction p generalizing d with
  | nil => rfl
  | cons k p ih =>
    cases hg : dget d k with
    | none => simp [varAt, lookup, hg] at h
    | some n =>
      cases n with
      | var u =>
        cases p with
        | nil =>
          simp [varAt, lookup, hg] at h
          subst h
          exact dset_same hg
        | cons a t => simp [varAt, lookup, hg] at h
      | dict s =>
        cases p with
        | nil => simp [varAt, lookup, hg] at h
        | cons a t =>
          have hs : varAt s (a :: t) = some v := by simpa [varAt, lookup, hg] using h
          have hc : childDict d k = s := by simp [childDict, hg]
          rw [putPath, hc, ih hs, dset_same hg]

theorem hput_same (h : PHeap) (i : Nat) : hput h i (h i) = h := by
  funext j; simp only [hput]; split
  · next e => rw [e]
  · rfl

theorem reach_unique {t m m' : MTree} {ms : List Str} (ht : WFTree t) (h1 : Reach t ms m)
    (h2 : Reach t ms m') : m = m' := by
  induction h1 with
  | here t => cases h2; rfl
  | step hm hr ih =>
    cases h2 with
    | step hm' hr' =>
      cases ht with
      | node a b c =>
        have : ∀ {l : List (Str × MTree)} {n : Str} {x y : MTree}, (l.map Prod.fst).Nodup →
            (n, x) ∈ l → (n, y) ∈ l → x = y := by
          intro l n x y hn hx hy
          induction l with
          | nil => simp at hx
          | cons e l ih =>
            simp only [List.map_cons, List.nodup_cons] at hn
            rcases List.mem_cons.mp hx with hx1 | hx1 <;> rcases List.mem_cons.mp hy with hy1 | hy1
            · rw [← hx1] at hy1; cases hy1; rfl
            · subst hx1
              exact absurd (List.mem_map.mpr ⟨(n, y), hy1, rfl⟩ : n ∈ l.map Prod.fst) hn.1
            · subst hy1
              exact absurd (List.mem_map.mpr ⟨(n, x), hx1, rfl⟩ : n ∈ l.map Prod.fst) hn.1
            · exact ih hn.2 hx1 hy1
        have := this b hm hm'
        subst this
        exact ih (c _ hm) hr'

/-- One assignment: module path, module identity, parameter path, new variable. -/
structure Asg where
  ms : List Str
  i : Nat
  p : List Str
  w : Nat

def Asg.entry (a : Asg) : Str × Nat := (keyOf a.ms a.p, a.w)

/-- The assignment addresses a live parameter. -/
def Asg.Ok (t : MTree) (h : PHeap) (a : Asg) : Prop :=
  ∃ m, Reach t a.ms m ∧ m.id = a.i ∧ ∃ u, varAt (h a.i) a.p = some u

/-- Value left at (j, p) by a list of assignments. -/
def ov : List Asg → Nat → List Str → Nat → Nat
  | [], _, _, u => u
  | a :: rest, j, p, u => ov rest j p (if j = a.i ∧ p = a.p then a.w else u)

theorem ov_none {L : List Asg} {j : Nat} {p : List Str} {u : Nat}
    (h : ∀ a ∈ L, ¬ (j = a.i ∧ p = a.p)) : ov L j p u = u := by
  induction L generalizing u with
  | nil => rfl
  | cons a L ih =>
    rw [ov, if_neg (h a (by simp)), ih (fun a ha => h a (by simp [ha]))]

theorem ov_same {L : List Asg} {j : Nat} {p : List Str} {w : Nat}
    (h : ∀ a ∈ L, j = a.i ∧ p = a.p → a.w = w) : ov L j p w = w := by
  induction L with
  | nil => rfl
  | cons a L ih =>
    rw [ov]
    by_cases hc : j = a.i ∧ p = a.p
    · rw [if_pos hc, h a (by simp) hc, ih (fun a ha => h a (by simp [ha]))]
    · rw [if_neg hc, ih (fun a ha => h a (by simp [ha]))]

theorem ov_hit {L : List Asg} {j : Nat} {p : List Str} {w u : Nat}
    (h : ∀ a ∈ L, j = a.i ∧ p = a.p → a.w = w) (he : ∃ a ∈ L, j = a.i ∧ p = a.p) : ov L j p u = w := by
  induction L generalizing u with
  | nil => simp at he
  | cons a L ih =>
    rw [ov]
    by_cases hc : j = a.i ∧ p = a.p
    · rw [if_pos hc, h a (by simp) hc, ov_same (fun a ha => h a (by simp [ha]))]
    · obtain ⟨b, hb, hbc⟩ := he
      rcases List.mem_cons.mp hb with rfl | hb
      · exact absurd hbc hc
      · exact ih (fun a ha => h a (by simp [ha])) ⟨b, hb, hbc⟩

theorem varAt_put {d : Dict} (hw : WFScope d) {p : List Str} {u : Nat} (hv : varAt d p = some u) (w : Nat) :
    WFScope (putPath p w d) ∧ ∀ q, varAt (putPath p w d) q = if q = p then some w else varAt d q := by
  have hc := varAt_comps hw.1 hv
  have hp : path (join p) = p := path_join (varAt_ne_nil hv) hc.1 hc.2
  have hset := own_scope hw hv w
  have hwf : WF (putPath p w d) := by
    have := setParameter_WF (σ := Unit) (join p) w () d hw.1
    rw [hset] at this
    exact this
  have hent := entries_putPath_old (v := w) hw.1 hv
  have key : ∀ q, varAt (putPath p w d) q = if q = p then some w else varAt d q := by
    intro q
    have fwd : ∀ x, varAt (putPath p w d) q = some x ↔ (if q = p then some w else varAt d q) = some x := by
      intro x
      rw [← mem_entries _ hwf, hent, List.mem_map]
      constructor
      · rintro ⟨⟨q', y⟩, he, heq⟩
        simp only at heq
        split at heq
        · next hqp =>
          simp only [Prod.mk.injEq] at heq
          obtain ⟨rfl, rfl⟩ := heq
          rw [if_pos hqp]
        · next hqp =>
          simp only [Prod.mk.injEq] at heq
          obtain ⟨rfl, rfl⟩ := heq
          rw [if_neg hqp]; exact (mem_entries _ hw.1 _ _).mp he
      · intro hx
        split at hx
        · next hqp =>
          subst hqp
          cases hx
          exact ⟨(q, u), (mem_entries _ hw.1 _ _).mpr hv, by simp⟩
        · next hqp =>
          exact ⟨(q, x), (mem_entries _ hw.1 _ _).mpr hx, by simp [hqp]⟩
    cases h1 : varAt (putPath p w d) q with
    | some x => exact ((fwd x).mp h1).symm
    | none =>
      cases h2 : (if q = p then some w else varAt d q) with
      | none => rfl
      | some x => rw [(fwd x).mpr h2] at h1; cases h1
  refine ⟨⟨hwf, ?_⟩, key⟩
  intro q x hx a rest hq
  rw [key] at hx
  split at hx
  · next hqp => exact hw.2 p u hv a rest (hqp ▸ hq)
  · exact hw.2 q x hx a rest hq

theorem setParams_run (raise : Bool) {t : MTree} : ∀ (L : List Asg) (h : PHeap), Good h t →
    (∀ a ∈ L, a.Ok t h) →
    ∃ h', setParams raise t (L.map Asg.entry) h = (.ok (), h') ∧ Good h' t ∧
      (∀ j, entries (h' j) = (entries (h j)).map (fun e => (e.1, ov L j e.1 e.2)))
  | [], h, hg, _ => ⟨h, rfl, hg, fun j => by simp [ov]⟩
  | a :: L, h, hg, hok => by
    obtain ⟨m, hr, hid, u, hu⟩ := hok a (by simp)
    have hw : WFScope (h m.id) := hg.2 _ _ hr
    rw [← hid] at hu
    have hset := setParam_reach raise hr hg.1 hw hu a.w
    have hput' := varAt_put hw hu a.w
    have hg1 : Good (hput h m.id (putPath a.p a.w (h m.id))) t := by
      refine ⟨hg.1, fun ms m' hr' => ?_⟩
      simp only [hput]
      split
      · exact hput'.1
      · exact hg.2 _ _ hr'
    have hok1 : ∀ b ∈ L, b.Ok t (hput h m.id (putPath a.p a.w (h m.id))) := by
      intro b hb
      obtain ⟨mb, hrb, hidb, ub, hub⟩ := hok b (by simp [hb])
      refine ⟨mb, hrb, hidb, ?_⟩
      simp only [hput]
      split
      · next e =>
        rw [hput'.2]
        split
        · exact ⟨_, rfl⟩
        · exact ⟨ub, by rw [← e]; exact hub⟩
      · exact ⟨ub, hub⟩
    obtain ⟨h', hs, hg', hent⟩ := setParams_run raise L _ hg1 hok1
    refine ⟨h', ?_, hg', fun j => ?_⟩
    · rw [List.map_cons]
      have : a.entry = (keyOf a.ms a.p, a.w) := rfl
      rw [this, setParams, hset]
      exact hs
    · rw [hent]
      simp only [hput]
      by_cases hj : j = m.id
      · rw [if_pos hj, entries_putPath_old hw.1 hu, List.map_map, hj]
        apply List.map_congr_left
        intro e _
        simp only [Function.comp, ov, hid, true_and]
        by_cases he : e.1 = a.p
        · simp [he]
        · simp [he]
      · rw [if_neg hj]
        apply List.map_congr_left
        intro e _
        rw [ov, if_neg]
        rw [← hid]
        exact fun hc => hj hc.1

theorem list_choice {α β : Type} {f : α → β} {P : α → Prop} : ∀ (L : List β),
    (∀ x ∈ L, ∃ a, f a = x ∧ P a) → ∃ Q : List α, Q.map f = L ∧ ∀ a ∈ Q, P a
  | [], _ => ⟨[], rfl, by simp⟩
  | x :: L, h => by
    obtain ⟨a, ha, hp⟩ := h x (by simp)
    obtain ⟨Q, hQ, hPQ⟩ := list_choice L (fun y hy => h y (by simp [hy]))
    exact ⟨a :: Q, by simp [ha, hQ], by
      intro b hb
      rcases List.mem_cons.mp hb with rfl | hb
      · exact hp
      · exact hPQ b hb⟩

theorem dd_inj {α : Type} (g : Nat → Nat) (l : List (α × Nat)) (memo : List Nat)
    (hg : ∀ a b, a ∈ l.map Prod.snd → b ∈ l.map Prod.snd ++ memo → g a = g b → a = b) :
    dd (l.map (fun e => (e.1, g e.2))) (memo.map g) =
      ((dd l memo).1.map (fun e => (e.1, g e.2)), (dd l memo).2.map g) := by
  induction l generalizing memo with
  | nil => rfl
  | cons e rest ih =>
    obtain ⟨k, v⟩ := e
    have hc : (memo.map g).contains (g v) = memo.contains v := by
      rw [Bool.eq_iff_iff]
      simp only [List.contains_iff_mem, List.mem_map]
      constructor
      · rintro ⟨x, hx, he⟩
        have := hg v x (by simp) (by simp [hx]) he.symm
        rw [this]; exact hx
      · intro hv; exact ⟨v, hv, rfl⟩
    simp only [List.map_cons, dd, hc]
    by_cases hm : memo.contains v
    · rw [if_pos hm, if_pos hm, ih memo]
      intro a b ha hb
      refine hg a b (by simp only [List.map_cons, List.mem_cons]; exact Or.inr ha) ?_
      rcases List.mem_append.mp hb with hb | hb
      · exact List.mem_append.mpr (Or.inl (List.mem_cons.mpr (Or.inr hb)))
      · exact List.mem_append.mpr (Or.inr hb)
    · rw [if_neg hm, if_neg hm]
      have := ih (v :: memo) (by
        intro a b ha hb
        refine hg a b (by simp only [List.map_cons, List.mem_cons]; exact Or.inr ha) ?_
        rcases List.mem_append.mp hb with hb | hb
        · exact List.mem_append.mpr (Or.inl (List.mem_cons.mpr (Or.inr hb)))
        · rcases List.mem_cons.mp hb with rfl | hb
          · simp
          · exact List.mem_append.mpr (Or.inr hb))
      rw [List.map_cons] at this
      rw [this]
      rfl

mutual
theorem locs_map (g : Nat → Nat) (h h' : PHeap) : ∀ (t : MTree),
    (∀ ms m, Reach t ms m → entries (h' m.id) = (entries (h m.id)).map (fun e => (e.1, g e.2))) →
    locs (fun _ => true) h' t = (locs (fun _ => true) h t).map (fun e => (e.1, g e.2))
  | .node i subs, he => by
    have h1 := locsSubs_map g h h' subs (fun n m hm ms m' hr => he (n :: ms) m' (.step hm hr))
    have h2 := he [] _ (.here _)
    simp only [MTree.id] at h2
    have hf : ∀ l : List (List Str × Nat), l.filter (fun _ => true) = l :=
      fun l => List.filter_eq_self.mpr (by simp)
    simp only [locs, h1, h2, hf, List.map_append, List.map_map]
    rfl
theorem locsSubs_map (g : Nat → Nat) (h h' : PHeap) : ∀ (subs : List (Str × MTree)),
    (∀ n m, (n, m) ∈ subs → ∀ ms m', Reach m ms m' →
      entries (h' m'.id) = (entries (h m'.id)).map (fun e => (e.1, g e.2))) →
    locsSubs (fun _ => true) h' subs = (locsSubs (fun _ => true) h subs).map (fun e => (e.1, g e.2))
  | [], _ => by simp [locsSubs]
  | (n, m) :: rest, he => by
    have h1 := locs_map g h h' m (he n m (by simp))
    have h2 := locsSubs_map g h h' rest (fun n m hm => he n m (by simp [hm]))
    simp only [locsSubs, h1, h2, List.map_append, List.map_map]
    rfl
end

end Verif.ModuleTree
