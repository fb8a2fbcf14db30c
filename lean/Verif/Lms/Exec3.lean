/-
The planner's simulation of the device memory: swap out and the whole attempt.
-/
import Verif.Lms.Exec2

namespace Verif.Lms

variable {S D : Type} [DecidableEq S] [DecidableEq D] [Fintype D] [Fintype S] {z : Nat}

/-- A swap out of `s0` is inserted where the rest neither waits for nor creates its buffer. -/
theorem XInv.insert {c : Cfg S D} {dt : S → D} {v v' : S → AState} {A Q : List Ev} {x : Sched} (s0 : S) (a : AState)
    (h : XInv c dt v (A ++ Q)) (hx : isSwapOutOf c s0 x = true)
    (hQw : ∀ y, Ev.cmd y ∈ Q → y.tag = .wait → ¬ cmdOn c s0 y)
    (hQo : ∀ y, Ev.cmd y ∈ Q → isSwapOutOf c s0 y = false)
    (hQs : ∀ y ∈ Q, ¬ sets c s0 y)
    (hv : v' = Function.update v s0 a) (ha : a.state = .out) : XInv c dt v' (A ++ .cmd x :: Q) := by
  have hd := erase_dev c s0 x A Q hx hQw
  have hxo := (isSwapOutOf_iff c s0 x).mp hx
  have hns : ∀ s, s ≠ s0 → ¬ cmdOn c s x := by
    rintro s e ⟨r, h1, h1'⟩
    obtain ⟨r', h2, h2'⟩ := hxo.2
    rw [h1] at h2; cases h2; exact e (h1'.symm.trans h2')
  refine ⟨fun l hl => ?_, fun s hs => ?_, fun s hs A' w Q' hE hw' hQ' y hy hyw => ?_, fun s hs hs1 => ?_⟩
  · rcases prefix_append_cases hl with e | ⟨Q1, e1, e2⟩
    · exact h.usage l (e.trans (List.prefix_append _ _))
    · cases Q1 with
      | nil => subst e2; rw [List.append_nil]; exact h.usage A (List.prefix_append _ _)
      | cons b Q1 =>
        obtain ⟨hb, hQ1⟩ := List.cons_prefix_cons.mp e1
        subst hb
        subst e2
        have h1 : Verif.Lms.usage c dt (A ++ Q1) = Verif.Lms.usage c dt (A ++ .cmd x :: Q1) :=
          usage_congr c dt _ _ fun s => (erase_dev c s0 x A Q1 hx (fun y hy => hQw y (hQ1.subset hy)) s).1
        rw [← h1]
        apply h.usage
        obtain ⟨t, ht⟩ := hQ1
        exact ⟨t, by rw [← ht]; simp⟩
  · by_cases e : s = s0
    · subst e; right; rw [hv, Function.update_self]; exact ha
    · rw [hv, Function.update_of_ne e]
      rw [← (hd s).1] at hs; exact h.dev s hs
  · by_cases e : s = s0
    · subst e
      rcases List.append_eq_append_iff.mp hE with ⟨m, h1, h2⟩ | ⟨m, h1, h2⟩
      · cases m with
        | nil =>
          have h2' : x = w ∧ Q = Q' := by simpa using h2
          exact hQw y (by rw [h2'.2]; exact hy) hyw
        | cons m0 m =>
          have h2' : Ev.cmd x = m0 ∧ Q = m ++ Ev.cmd w :: Q' := by simpa using h2
          have := hQo w (by rw [h2'.2]; simp)
          rw [hw'] at this; cases this
      · cases m with
        | nil =>
          have h2' : w = x ∧ Q' = Q := by simpa using h2
          exact hQw y (by rw [← h2'.2]; exact hy) hyw
        | cons m0 m =>
          have h2' : Ev.cmd w = m0 ∧ Q' = m ++ Ev.cmd x :: Q := by simpa using h2
          have := hQ' x (by rw [h2'.2]; simp)
          rw [hx] at this; cases this
    · rw [hv, Function.update_of_ne e] at hs
      have hxs : isSwapOutOf c s x = false := by
        by_contra hb
        exact hns s e ((isSwapOutOf_iff c s x).mp (by simpa using hb)).2
      rcases List.append_eq_append_iff.mp hE with ⟨m, h1, h2⟩ | ⟨m, h1, h2⟩
      · cases m with
        | nil =>
          have h2' : x = w ∧ Q = Q' := by simpa using h2
          rw [h2'.1, hw'] at hxs; cases hxs
        | cons m0 m =>
          have h2' : Ev.cmd x = m0 ∧ Q = m ++ Ev.cmd w :: Q' := by simpa using h2
          exact h.wt s hs (A ++ m) w Q' (by rw [h2'.2]; simp) hw' hQ' y hy hyw
      · cases m with
        | nil =>
          have h2' : w = x ∧ Q' = Q := by simpa using h2
          rw [← h2'.1, hw'] at hxs; cases hxs
        | cons m0 m =>
          have h2' : Ev.cmd w = m0 ∧ Q' = m ++ Ev.cmd x :: Q := by simpa using h2
          obtain ⟨e1, e2⟩ := h2'
          subst e1
          have hyx : y = x → ¬ cmdOn c s y := fun e' => by rw [e']; exact hns s e
          rw [e2] at hy
          rcases List.mem_append.mp hy with k | k
          · exact h.wt s hs A' w (m ++ Q) (by rw [h1]; simp) hw' (fun y' hy' => by
              apply hQ'
              rw [e2]
              rcases List.mem_append.mp hy' with k | k
              · exact List.mem_append_left _ k
              · exact List.mem_append_right _ (List.mem_cons_of_mem _ k)) y (List.mem_append_left _ k) hyw
          · rcases List.mem_cons.mp k with k | k
            · exact hyx (by simpa using k)
            · exact h.wt s hs A' w (m ++ Q) (by rw [h1]; simp) hw' (fun y' hy' => by
                apply hQ'
                rw [e2]
                rcases List.mem_append.mp hy' with k | k
                · exact List.mem_append_left _ k
                · exact List.mem_append_right _ (List.mem_cons_of_mem _ k)) y (List.mem_append_right _ k) hyw
  · by_cases e : s = s0
    · subst e
      rw [devAt_append, List.foldl_cons] at hs1 ⊢
      refine fold_fly c s Q hQs _ ?_ hs1
      obtain ⟨t, i⟩ := x
      obtain ⟨hx1, r, ho, hr⟩ := hxo
      simp only at hx1 ho
      subst hx1
      unfold stepDev; simp only [ho, if_pos hr]
      exact id
    · rw [hv, Function.update_of_ne e] at hs
      rw [← (hd s).2 e] at hs1 ⊢; exact h.fl s hs hs1

/-- The simulation while the end of function `g` is planned; `Q` is what follows. -/
structure XO (c : Cfg S D) (dt : S → D) (p : P S D) (g : Nat) (Q : List Ev) : Prop where
  x : XInv c dt (view dt p.st) (flat c p.beg p.en (g + 1) ++ Q)
  len : p.en.length = c.fe.length
  enE : ∀ k, g < k → p.en.getD k [] = []
  enOk : ∀ k x, x ∈ p.en.getD k [] → x.tag = .swapOut ∨ x.tag = .preclear

theorem getD_modify {α : Type} (l : List (List α)) (g : Nat) (x : α) (hg : g < l.length) (k : Nat) :
    (l.modify g (· ++ [x])).getD k [] = if k = g then l.getD k [] ++ [x] else l.getD k [] := by
  rw [List.getD_eq_getElem?_getD, List.getD_eq_getElem?_getD, List.getElem?_modify]
  by_cases e : g = k
  · subst e
    simp [List.getElem?_eq_getElem hg]
  · rw [if_neg (fun h => e h.symm)]
    simp [e]

theorem flat_push (c : Cfg S D) (beg : Nat → List Sched) (en : List (List Sched)) (g : Nat) (x : Sched) (hg : g < en.length) :
    flat c beg (en.modify g (· ++ [x])) (g + 1) = flat c beg en (g + 1) ++ [.cmd x] := by
  rw [flat_succ, flat_succ, flat_congr c beg beg _ en g (fun _ _ => rfl) (fun k hk => by
    rw [getD_modify _ _ _ hg, if_neg (by omega)])]
  unfold seg
  rw [getD_modify _ _ _ hg, if_pos rfl]
  simp

/-- After the block has run no event of the block's end creates a buffer. -/
theorem en_nosets {c : Cfg S D} {dt : S → D} {p : P S D} {g : Nat} {Q : List Ev} (h : XO c dt p g Q) (s : S) :
    ∀ y ∈ (p.en.getD g []).map Ev.cmd, ¬ sets c s y := by
  intro y hy
  obtain ⟨x, hx, e⟩ := List.mem_map.mp hy
  subst e
  rintro ⟨h1, -⟩
  rcases h.enOk g x hx with e | e <;> rw [e] at h1 <;> simp at h1

theorem foldl_append_false {c : Cfg S D} {s : S} {A l : List Ev} (hA : (devAt c s A).1 = false) (hl : ∀ y ∈ l, ¬ sets c s y) :
    (devAt c s (A ++ l)).1 = false := by
  rw [devAt_append]; exact fold_false c s l hl _ hA

theorem swapOutStep_x (c : Cfg S D) (dt : S → D) (w : c.WF) (u : Uni c dt) (p : P S D) (i g : Nat) (Q : List Ev)
    (h : Inv c dt p i z) (hi : i < z) (hb : i ∈ c.block g) (hgl : g < c.fe.length) (hgz : c.fend g ≤ z) (hf : p.fid = g)
    (hx : XO c dt p g Q) (hQ2 : g < 2 ∨ Q = [])
    (hQw : ∀ y, Ev.cmd y ∈ Q → y.tag ≠ .wait ∧ y.tag ≠ .swapOut)
    (hQs : ∀ y ∈ Q, ∀ s, sets c s y → cnt c s (c.fend g) < cnt c s p.head) :
    XO c dt (swapOutStep c (clearInfo c) p i) g Q := by
  have hz := h.hz
  have hlen : i < c.order.length := by have := h.hl; omega
  obtain ⟨r, ho⟩ : ∃ r, c.order[i]? = some r := ⟨_, List.getElem?_eq_getElem hlen⟩
  have hbm := (mem_block c g i).mp hb
  have hInv := (swapOutStep_inv c dt u (clearInfo c) p i h hi).1
  have hglen : g < p.en.length := by rw [hx.len]; exact hgl
  revert hInv
  unfold swapOutStep
  rw [ho]
  simp only
  by_cases hcl : r.tag = .clear
  · rw [if_pos hcl]; exact fun _ => hx
  · rw [if_neg hcl]
    intro hInv
    have hd : r.dtype = dt r.said := u.recs r (List.mem_of_getElem? ho) hcl
    have hlt := cnt_lt c r.said r (le_refl i) (show i < z by omega) ho ⟨hcl, rfl⟩
    have hmono := cnt_mono c r.said hz.2
    have hcount := h.count r.said
    have hin : (view dt p.st r.said).state = .in_ := by
      rcases (h.pos r.said).mp (by omega) with h1 | h1
      · exact h1
      · have := h.unp r.said h1; omega
    have hcs := cnt_succ c r.said i r ho
    rw [if_pos ⟨hcl, rfl⟩] at hcs
    -- removing from the queue changes only the count
    have hdeq : ∀ p1 : P S D, XO c dt p1 g Q → XO c dt (dequeue r p1) g Q := by
      intro p1 h1
      have hst : ∀ s, (view dt (dequeue r p1).st s).state = (view dt p1.st s).state := by
        intro s
        unfold dequeue
        simp only [hd]
        rw [setSt_view]
        by_cases e : s = r.said
        · subst e; rw [Function.update_self]; rfl
        · rw [Function.update_of_ne e]
      exact ⟨h1.x.silent (fun s _ hs => by rw [hst]; exact hs) (fun s hs => by rw [hst] at hs; exact hs), h1.len, h1.enE, h1.enOk⟩
    rw [acc_off h.off r.said] at hInv ⊢
    by_cases h1 : (view dt p.st r.said).count = 1
    · rw [if_pos h1] at hInv ⊢
      have hdst : ∀ s, (view dt (dequeue r (release c (clearInfo c) i r p)).st s).state
          = (view dt (release c (clearInfo c) i r p).st s).state := by
        intro s
        unfold dequeue
        simp only [hd]
        rw [setSt_view]
        by_cases e : s = r.said
        · subst e; rw [Function.update_self]; rfl
        · rw [Function.update_of_ne e]
      have hlimR : tot c dt (view dt (release c (clearInfo c) i r p).st) [.in_] +
          tot c dt (view dt (release c (clearInfo c) i r p).st) [.out] ≤ c.maxBytes := by
        have := hInv.lim'
        unfold tot at this ⊢
        simp only [hdst] at this
        exact this
      apply hdeq
      obtain ⟨a, ha, hoff, hv, hsin, hpre, hsout, hhd, htl, hfd, hbg, hh2, hh1⟩ :=
        release_spec c dt (clearInfo c) i r p h.off hin (h.gd r.said (by omega))
      -- the array has no further use in the queue
      have hend : cnt c r.said p.head = cnt c r.said (i + 1) := by omega
      have hge := cnt_mono c r.said (show c.fend g ≤ p.head by omega)
      have hge2 := cnt_mono c r.said (show i + 1 ≤ c.fend g by omega)
      have hQn : ∀ y ∈ Q, ¬ sets c r.said y := by
        intro y hy hs
        have := hQs y hy r.said hs
        omega
      have hnouse : ∀ j rj, i < j → j < p.head → c.order[j]? = some rj → ¬ rj.uses r.said := by
        intro j rj k1 k2 k3 k4
        have := cnt_lt c r.said rj (show i + 1 ≤ j by omega) k2 k3 k4
        omega
      -- the state after a silent release
      have hsil : (devAt c r.said (flat c p.beg p.en (g + 1) ++ Q)).1 = false → ∀ p1 : P S D, p1.beg = p.beg → p1.en = p.en →
          view dt p1.st = Function.update (view dt p.st) r.said { view dt p.st r.said with state := .cleared } →
          XO c dt p1 g Q := by
        intro hdf p1 e1 e2 e3
        refine ⟨?_, by rw [e2]; exact hx.len, by rw [e2]; exact hx.enE, by rw [e2]; exact hx.enOk⟩
        rw [e1, e2]
        refine hx.x.silent (fun s hdv hs => ?_) (fun s hs => ?_)
        · by_cases e : s = r.said
          · subst e; rw [hdf] at hdv; cases hdv
          · rw [e3, Function.update_of_ne e]; exact hs
        · by_cases e : s = r.said
          · subst e; rw [e3, Function.update_self] at hs; cases hs
          · rw [e3, Function.update_of_ne e] at hs; exact hs
      have hcv : view dt (mapSt p.st r.said fun _ e => { e with state := .cleared }) =
          Function.update (view dt p.st) r.said { view dt p.st r.said with state := .cleared } := mapSt_view _ _
      have hmod : ∀ y : Sched, (y.tag = .swapOut ∨ y.tag = .preclear) →
          (∀ k, g < k → (p.en.modify g (· ++ [y])).getD k [] = []) ∧
          (∀ k x, x ∈ (p.en.modify g (· ++ [y])).getD k [] → x.tag = .swapOut ∨ x.tag = .preclear) := by
        intro y hy
        refine ⟨fun k hk => ?_, fun k x hm => ?_⟩
        · rw [getD_modify _ _ _ hglen, if_neg (by omega)]; exact hx.enE k hk
        · rw [getD_modify _ _ _ hglen] at hm
          by_cases e : k = g
          · rw [if_pos e] at hm
            rcases List.mem_append.mp hm with m | m
            · exact hx.enOk k x m
            · have : x = y := by simpa using m
              rw [this]; exact hy
          · rw [if_neg e] at hm; exact hx.enOk k x hm
      revert hlimR
      unfold release
      split
      · -- the scheduler clears the array
        rename_i j hj
        intro hlimR
        have hmem := List.mem_of_find?_eq_some hj
        have hij : j = i := by have := List.find?_some hj; simpa using this
        rw [hf, hij] at hmem
        have hg2 := (clearInfo_spec c w g i true hmem).1
        have hQ0 : Q = [] := hQ2.resolve_left (by omega)
        subst hQ0
        have hview : view dt (dropHead r ((clearAll c r p).pushEnd ⟨.preclear, i⟩)).st =
            Function.update (view dt p.st) r.said { view dt p.st r.said with state := .cleared } := hcv
        have hen : (dropHead r ((clearAll c r p).pushEnd ⟨.preclear, i⟩)).en = p.en.modify g (· ++ [⟨.preclear, i⟩]) := by
          change p.en.modify p.fid _ = _; rw [hf]
        obtain ⟨m1, m2⟩ := hmod ⟨.preclear, i⟩ (.inr rfl)
        refine ⟨?_, by rw [hen, List.length_modify]; exact hx.len, by rw [hen]; exact m1, by rw [hen]; exact m2⟩
        rw [hen]
        change XInv c dt _ (flat c p.beg _ (g + 1) ++ [])
        rw [flat_push c p.beg p.en g _ hglen, List.append_nil]
        have hx' := hx.x
        rw [List.append_nil] at hx'
        refine hx'.cmd ⟨.preclear, i⟩ r.said _ hview ⟨r, ho, rfl⟩ hlimR (fun hdv => ?_) (by simp)
        rw [devAt_snoc] at hdv
        unfold stepDev at hdv
        simp only [ho, if_true] at hdv
        cases hdv
      · -- the array is cleared within the block
        rename_i j hj
        intro _
        have hmem := List.mem_of_find?_eq_some hj
        have hij : j = i := by have := List.find?_some hj; simpa using this
        rw [hf, hij] at hmem
        obtain ⟨hg2, hca⟩ := clearInfo_spec c w g i false hmem
        have hQ0 : Q = [] := hQ2.resolve_left (by omega)
        obtain ⟨-, -, r1, ho1, -, k, r', f', hn, hk, hkc, hk1, hk2, hk3⟩ := hca
        rw [ho] at ho1; cases ho1
        simp only [Bool.false_eq_true, if_false] at hk3
        subst hk3
        refine hsil ?_ _ rfl rfl hcv
        rw [hQ0, List.append_nil, flat_succ]
        unfold seg
        have hsaid : r'.said = r.said := by
          obtain ⟨-, ⟨r2, h2, h2'⟩, -⟩ := hn
          rw [hk] at h2; cases h2; exact h2'
        have hsplit : c.block f' = List.range' (c.fbegin f') (k - c.fbegin f') ++ k :: List.range' (k + 1) (c.fend f' - (k + 1)) := by
          unfold Cfg.block
          rw [← List.range'_succ, show c.fend f' - (k + 1) + 1 = c.fend f' - k by omega]
          have := List.range'_append (s := c.fbegin f') (m := k - c.fbegin f') (n := c.fend f' - k) (step := 1)
          rw [show c.fbegin f' + 1 * (k - c.fbegin f') = k by omega] at this
          rw [this]; congr 1; omega
        have heq : flat c p.beg p.en f' ++ ((p.beg f').map Ev.cmd ++ (c.block f').map Ev.use ++ [.done f'] ++ (p.en.getD f' []).map Ev.cmd)
            = (flat c p.beg p.en f' ++ (p.beg f').map Ev.cmd ++ (List.range' (c.fbegin f') (k - c.fbegin f')).map Ev.use ++ [.use k])
              ++ ((List.range' (k + 1) (c.fend f' - (k + 1))).map Ev.use ++ [.done f'] ++ (p.en.getD f' []).map Ev.cmd) := by
          rw [hsplit]; simp
        rw [heq]
        apply foldl_append_false
        · rw [devAt_snoc]; unfold stepDev; simp only [hk, if_pos hsaid, if_pos hkc]
        · intro y hy
          rcases List.mem_append.mp hy with hy | hy
          · rcases List.mem_append.mp hy with hy | hy
            · obtain ⟨m, hm, e⟩ := List.mem_map.mp hy
              subst e
              rintro ⟨rm, hm1, hm2⟩
              rw [List.mem_range'] at hm
              obtain ⟨t, ht1, ht2⟩ := hm
              exact hnouse m rm (by have := hn.1; omega) (by omega) hm1 hm2
            · have : y = .done f' := by simpa using hy
              subst this; exact id
          · exact en_nosets hx r.said y hy
      · by_cases htp : r.temp = true
        · rw [if_pos htp]
          intro _
          refine hsil ?_ _ rfl rfl hcv
          rw [flat_succ]
          unfold seg
          have heq : flat c p.beg p.en g ++ ((p.beg g).map Ev.cmd ++ (c.block g).map Ev.use ++ [.done g] ++ (p.en.getD g []).map Ev.cmd) ++ Q
              = flat c p.beg p.en g ++ (p.beg g).map Ev.cmd ++ (c.block g).map Ev.use ++ [.done g] ++ (p.en.getD g []).map Ev.cmd ++ Q := by
            simp
          rw [heq]
          apply foldl_append_false
          · apply foldl_append_false
            · rw [devAt_snoc]
              unfold stepDev
              simp only
              rw [if_pos]
              rw [List.any_eq_true]
              exact ⟨i, hb, by rw [ho]; simp [htp, Rec.uses, hcl]⟩
            · exact en_nosets hx r.said
          · exact hQn
        · rw [if_neg htp]
          intro hlimR
          have hview : view dt (pushOut c i r p).st = Function.update (view dt p.st) r.said
              { view dt p.st r.said with state := .out, outR := some i } := by
            unfold pushOut P.pushEnd
            simp only
            rw [mapSt_view, if_pos hin, h.gd r.said (by omega), if_pos rfl]
          have hen : (pushOut c i r p).en = p.en.modify g (· ++ [⟨.swapOut, i⟩]) := by
            change p.en.modify p.fid _ = _; rw [hf]
          obtain ⟨m1, m2⟩ := hmod ⟨.swapOut, i⟩ (.inl rfl)
          refine ⟨?_, by rw [hen, List.length_modify]; exact hx.len, by rw [hen]; exact m1, by rw [hen]; exact m2⟩
          rw [hen]
          change XInv c dt _ (flat c p.beg _ (g + 1) ++ Q)
          rw [flat_push c p.beg p.en g _ hglen, List.append_assoc]
          refine hx.x.insert r.said _ ((isSwapOutOf_iff _ _ _).mpr ⟨rfl, r, ho, rfl⟩) ?_ ?_ hQn hview rfl
          · intro y hy hyw; exact absurd hyw (hQw y hy).1
          · intro y hy
            by_contra hb'
            exact (hQw y hy).2 ((isSwapOutOf_iff c r.said y).mp (by simpa using hb')).1
    · rw [if_neg h1]; exact hdeq p hx

theorem swapOutStep_head (c : Cfg S D) (dt : S → D) (u : Uni c dt) (ci : ClearInfo) (p : P S D) (i : Nat)
    (h : Inv c dt p i z) (hi : i < z) : (swapOutStep c ci p i).beg = p.beg := by
  have hz := h.hz
  have hlen : i < c.order.length := by have := h.hl; omega
  obtain ⟨r, ho⟩ : ∃ r, c.order[i]? = some r := ⟨_, List.getElem?_eq_getElem hlen⟩
  unfold swapOutStep
  rw [ho]
  simp only
  split
  · rfl
  · change (if _ then _ else _ : P S D).beg = _
    split
    · unfold release
      split
      · rfl
      · rfl
      · split <;> rfl
    · rfl

theorem swapOutFold_x (c : Cfg S D) (dt : S → D) (w : c.WF) (u : Uni c dt) (g : Nat) (Q : List Ev) (hgl : g < c.fe.length)
    (hQ2 : g < 2 ∨ Q = []) (hgz : c.fend g ≤ z)
    (hQw : ∀ y, Ev.cmd y ∈ Q → y.tag ≠ .wait ∧ y.tag ≠ .swapOut) (hd : Nat)
    (hQs : ∀ y ∈ Q, ∀ s, sets c s y → cnt c s (c.fend g) < cnt c s hd) (n : Nat) :
    ∀ (p : P S D) (q : Nat), Inv c dt p q z → c.fbegin g ≤ q → q + n ≤ c.fend g → p.fid = g → p.head = hd → XO c dt p g Q →
      XO c dt ((List.range' q n).foldl (swapOutStep c (clearInfo c)) p) g Q ∧
      ((List.range' q n).foldl (swapOutStep c (clearInfo c)) p).beg = p.beg := by
  induction n with
  | zero => intro p q _ _ _ _ _ hx; exact ⟨hx, rfl⟩
  | succ n ih =>
    intro p q h hb hn hf hh hx
    rw [List.range'_succ, List.foldl_cons]
    obtain ⟨h1, h2, h3, h4⟩ := swapOutStep_inv c dt u (clearInfo c) p q h (by omega)
    have hx1 := swapOutStep_x c dt w u p q g Q h (by omega) ((mem_block c g q).mpr ⟨hb, by omega⟩) hgl hgz hf hx hQ2 hQw
      (by rw [hh]; exact hQs)
    obtain ⟨k1, k2⟩ := ih _ (q + 1) h1 (by omega) (by omega) (h2.trans hf) (h3.trans hh) hx1
    exact ⟨k1, k2.trans (swapOutStep_head c dt u (clearInfo c) p q h (by omega))⟩

/-- The simulation before function `f` is planned. -/
structure XS (c : Cfg S D) (dt : S → D) (p : P S D) (f : Nat) : Prop where
  x : XInv c dt (view dt p.st) (flat c p.beg p.en f)
  len : p.en.length = c.fe.length
  enE : ∀ k, f ≤ k → p.en.getD k [] = []
  begE : ∀ k, f ≤ k → p.beg k = []
  begOk : ∀ k x, x ∈ p.beg k → x.tag ≠ .swapOut
  enOk : ∀ k x, x ∈ p.en.getD k [] → x.tag = .swapOut ∨ x.tag = .preclear

theorem XS.toXP {c : Cfg S D} {dt : S → D} {p : P S D} {f : Nat} (h : XS c dt p f) (q : Nat) :
    XP c dt { p with fid := f } q f := by
  refine ⟨?_, ⟨h.len, h.enE, fun k hk => h.begE k (by omega), h.begOk, h.enOk⟩, fun x hx => ?_, fun _ x hx => ?_⟩
  · unfold E1
    change XInv c dt _ (flat c p.beg p.en f ++ (p.beg f).map .cmd)
    rw [h.begE f (le_refl _)]; simpa using h.x
  · change x ∈ p.beg f at hx; rw [h.begE f (le_refl _)] at hx; simp at hx
  · change x ∈ p.beg f at hx; rw [h.begE f (le_refl _)] at hx; simp at hx

theorem Inv.inBlock {c : Cfg S D} {dt : S → D} {p : P S D} {q : Nat} (h : Inv c dt p q z) (i : Nat) (hq : q ≤ i) (hi : i < z)
    (r : Rec S D) (ho : c.order[i]? = some r) (hcl : r.tag ≠ .clear) : (view dt p.st r.said).state = .in_ := by
  have hlt := cnt_lt c r.said r hq hi ho ⟨hcl, rfl⟩
  have hmono := cnt_mono c r.said h.hz.2
  have hcount := h.count r.said
  rcases (h.pos r.said).mp (by omega) with h1 | h1
  · exact h1
  · have := h.unp r.said h1; omega

theorem step_x (c : Cfg S D) (dt : S → D) (w : c.WF) (u : Uni c dt) (stop : Nat → Nat)
    (p p' : P S D) (fid : Nat) (hf : 1 ≤ fid) (hfl : fid < c.fe.length)
    (h : Inv c dt p (qStart c fid) (c.fbegin fid)) (hx : XS c dt p fid)
    (hr : step c (clearInfo c) stop p fid = .ok p') : XS c dt p' (fid + 1) := by
  have hfb : c.fbegin fid = c.fend (fid - 1) := by unfold Cfg.fbegin; rw [if_neg (by omega)]
  have hbe : c.fbegin fid ≤ c.fend fid := by rw [hfb]; exact w.mono _ _ (by omega) hfl
  unfold step at hr
  simp only at hr
  have hqs : qStart c fid ≤ c.fbegin fid := by unfold qStart; split <;> omega
  obtain ⟨h1, h1f⟩ := swapIn_inv c dt u stop (qStart c fid) (c.order.drop p.head) { p with fid := fid } rfl (h.setFid fid) hqs
  have hx1 := swapIn_x c dt u stop (qStart c fid) fid (c.order.drop p.head) { p with fid := fid } rfl (h.setFid fid) hqs rfl
    h.hz.2 (hx.toXP _)
  change (swapIn c stop _ _).fid = fid at h1f
  cases hres : reserve c stop (swapIn c stop (c.order.drop p.head) { p with fid := fid }) with
  | ok p2 =>
    rw [hres] at hr
    simp only at hr
    by_cases hh : p2.head < c.fend fid
    · rw [if_pos hh] at hr; cases hr
    · rw [if_neg hh] at hr
      have hx2 := reserve_x c dt u stop _ p2 (qStart c fid) fid h1 h1f hx1 hres
      obtain ⟨h2, h2f⟩ := reserve_inv c dt u stop _ p2 (qStart c fid) (by rw [h1f]; exact h1) hres
        (by rw [h1f]; exact hbe) (by rw [h1f]; exact hh)
      rw [h1f] at h2 h2f
      have hr := Res.ok.inj hr
      -- the block runs
      have hx3 : XInv c dt (view dt p2.st) (E1 c p2 fid ++ (c.block fid).map .use ++ [.done fid]) := by
        have hl : tot c dt (view dt p2.st) [.in_] + tot c dt (view dt p2.st) [.out] ≤ c.maxBytes := h2.lim'
        refine done_snoc (uses_append _ hx2.x hl fun i hi r ho hcl => ?_) hl fid
        have := (mem_block c fid i).mp hi
        exact h2.inBlock i (by omega) this.2 r ho hcl
      have hE : E1 c p2 fid ++ (c.block fid).map Ev.use ++ [.done fid] = flat c p2.beg p2.en (fid + 1) := by
        rw [flat_succ]; unfold seg E1; rw [hx2.s.enE fid (le_refl _)]; simp
      by_cases hf1 : fid = 1
      · subst hf1
        rw [if_pos rfl] at hr
        have hm01 : c.fend 0 ≤ c.fend 1 := w.mono _ _ (by omega) hfl
        have hX0 : XO c dt { p2 with ht := headTypes c 1 p2.ht, fid := 0 } 0
            ((p2.beg 1).map .cmd ++ (c.block 1).map .use ++ [.done 1]) := by
          refine ⟨?_, hx2.s.len, fun k hk => hx2.s.enE k hk, hx2.s.enOk⟩
          change XInv c dt (view dt p2.st) (flat c p2.beg p2.en 1 ++ _)
          rw [show flat c p2.beg p2.en 1 ++ ((p2.beg 1).map .cmd ++ (c.block 1).map .use ++ [.done 1])
            = E1 c p2 1 ++ (c.block 1).map Ev.use ++ [.done 1] by unfold E1; simp]
          exact hx3
        have hfb1 : c.fbegin 1 = c.fend 0 := hfb
        have hq0 : qStart c 1 = 0 := by unfold qStart; simp
        rw [hq0] at h2 hx2
        have hQw : ∀ y, Ev.cmd y ∈ ((p2.beg 1).map Ev.cmd ++ (c.block 1).map .use ++ [.done 1]) → y.tag ≠ .wait ∧ y.tag ≠ .swapOut := by
          intro y hy
          have hy : y ∈ p2.beg 1 := by simpa using hy
          exact ⟨hx2.nw rfl y hy, hx2.s.begOk 1 y hy⟩
        have hQs : ∀ y ∈ ((p2.beg 1).map Ev.cmd ++ (c.block 1).map .use ++ [.done 1]), ∀ s, sets c s y →
            cnt c s (c.fend 0) < cnt c s p2.head := by
          intro y hy s hs
          have hy : (∃ a ∈ p2.beg 1, Ev.cmd a = y) ∨ (∃ i ∈ c.block 1, Ev.use i = y) ∨ y = .done 1 := by
            simpa [or_assoc] using hy
          rcases hy with ⟨a, ha, e⟩ | ⟨i, hi, e⟩ | e
          · subst e
            obtain ⟨hs1, r, hs2, hs3⟩ := hs
            obtain ⟨k1, k2, r', k3, k4⟩ := hx2.fb a ha (by rcases hs1 with e | e <;> rw [e] <;> simp)
            rw [hs2] at k3; cases k3
            rw [hfb1] at k1
            exact cnt_lt c s r k1 k2 hs2 ⟨k4, hs3⟩
          · subst e
            obtain ⟨r, hs2, hs3⟩ := hs
            have := (mem_block c 1 i).mp hi
            exact cnt_lt c s r (by omega) (by omega) hs2 hs3
          · subst e; exact absurd hs id
        have hI0 : Inv c dt { p2 with ht := headTypes c 1 p2.ht, fid := 0 } 0 (c.fend 1) := h2.setFid 0
        obtain ⟨k1, k2⟩ := swapOutFold_x c dt w u 0 _ (by omega) (.inl (by omega)) hm01 hQw p2.head hQs (c.fend 0) _ 0 hI0
          (Nat.zero_le _) (by omega) rfl rfl hX0
        have hs0 : swapOut c (clearInfo c) { p2 with ht := headTypes c 1 p2.ht, fid := 0 } =
            (List.range' 0 (c.fend 0)).foldl (swapOutStep c (clearInfo c)) { p2 with ht := headTypes c 1 p2.ht, fid := 0 } := rfl
        have h3 := swapOut_inv c dt u (clearInfo c) { p2 with ht := headTypes c 1 p2.ht, fid := 0 }
          (z := c.fend 1) hI0 (Nat.zero_le _) hm01
        rw [← hs0] at k1 k2
        obtain ⟨h3, h3f, h3h, -⟩ := h3
        generalize swapOut c (clearInfo c) { p2 with ht := headTypes c 1 p2.ht, fid := 0 } = p3 at *
        have hX1 : XO c dt { p3 with fid := 1 } 1 [] := by
          refine ⟨?_, k1.len, fun k hk => k1.enE k (by omega), k1.enOk⟩
          change XInv c dt (view dt p3.st) (flat c p3.beg p3.en 2 ++ [])
          have e1 : p3.beg 1 = p2.beg 1 := by rw [k2]
          rw [List.append_nil, flat_succ]
          unfold seg
          rw [k1.enE 1 (by omega), e1]
          simpa using k1.x
        have hI1 : Inv c dt { p3 with fid := 1 } (c.fend 0) (c.fend 1) := h3.setFid 1
        obtain ⟨m1, m2⟩ := swapOutFold_x c dt w u 1 [] hfl (.inl (by omega)) (le_refl _) (by simp) p3.head (by simp)
          (c.fend 1 - c.fend 0) _ (c.fend 0) hI1 (by omega) (by omega) rfl rfl hX1
        have hs1 : swapOut c (clearInfo c) { p3 with fid := 1 } =
            (List.range' (c.fend 0) (c.fend 1 - c.fend 0)).foldl (swapOutStep c (clearInfo c)) { p3 with fid := 1 } := rfl
        rw [← hs1, hr] at m1 m2
        have hbp : p'.beg = p2.beg := m2.trans k2
        refine ⟨by simpa using m1.x, m1.len, fun k hk => m1.enE k (by omega), ?_, ?_, m1.enOk⟩
        · rw [hbp]; exact fun k hk => hx2.s.begE k (by omega)
        · rw [hbp]; exact hx2.s.begOk
      · rw [if_neg hf1] at hr
        have hq : qStart c fid = c.fbegin fid := by unfold qStart; rw [if_neg (by omega)]
        rw [hq] at h2
        have hX : XO c dt { p2 with ht := headTypes c fid p2.ht } fid [] := by
          refine ⟨?_, hx2.s.len, fun k hk => hx2.s.enE k (by omega), hx2.s.enOk⟩
          change XInv c dt (view dt p2.st) (flat c p2.beg p2.en (fid + 1) ++ [])
          rw [List.append_nil, ← hE]; exact hx3
        obtain ⟨m1, m2⟩ := swapOutFold_x c dt w u fid [] hfl (.inr rfl) (le_refl _) (by simp) p2.head (by simp)
          (c.fend fid - c.fbegin fid) _ (c.fbegin fid) h2 (le_refl _) (by omega) h2f rfl hX
        have hs1 : swapOut c (clearInfo c) { p2 with ht := headTypes c fid p2.ht } =
            (List.range' (c.fbegin fid) (c.fend fid - c.fbegin fid)).foldl (swapOutStep c (clearInfo c))
              { p2 with ht := headTypes c fid p2.ht } := by
          unfold swapOut Cfg.block
          change (List.range' (c.fbegin p2.fid) (c.fend p2.fid - c.fbegin p2.fid)).foldl _ _ = _
          rw [h2f]
        rw [← hs1, hr] at m1 m2
        have hbp : p'.beg = p2.beg := m2
        refine ⟨by simpa using m1.x, m1.len, fun k hk => m1.enE k (by omega), ?_, ?_, m1.enOk⟩
        · rw [hbp]; exact fun k hk => hx2.s.begE k (by omega)
        · rw [hbp]; exact hx2.s.begOk
  | resched s => rw [hres] at hr; cases hr
  | outOfMemory => rw [hres] at hr; cases hr
  | notPrefetched => rw [hres] at hr; cases hr
  | stateError => rw [hres] at hr; cases hr
  | unclassified => rw [hres] at hr; cases hr

theorem steps_x (c : Cfg S D) (dt : S → D) (w : c.WF) (u : Uni c dt) (stop : Nat → Nat) (n : Nat) :
    ∀ (fid : Nat) (p p' : P S D), 1 ≤ fid → fid + n = c.fe.length →
      Inv c dt p (qStart c fid) (c.fbegin fid) → XS c dt p fid →
      steps c (clearInfo c) stop (List.range' fid n) p = .ok p' →
      XS c dt p' c.fe.length := by
  induction n with
  | zero =>
    intro fid p p' _ hn _ hx hr
    have : p = p' := by simpa [steps] using hr
    subst this
    rw [← hn]; exact hx
  | succ n ih =>
    intro fid p p' hf hn h hx hr
    rw [List.range'_succ] at hr
    unfold steps at hr
    cases hs : step c (clearInfo c) stop p fid with
    | ok p1 =>
      rw [hs] at hr
      have h1 := step_inv c dt w u (clearInfo c) stop p p1 fid hf (by omega) h hs
      have hx1 := step_x c dt w u stop p p1 fid hf (by omega) h hx hs
      refine ih (fid + 1) p1 p' (by omega) (by omega) ?_ hx1 hr
      have : c.fbegin (fid + 1) = c.fend fid := by unfold Cfg.fbegin; rw [if_neg (by omega)]; rfl
      unfold qStart
      rw [if_neg (by omega), this]; exact h1
    | resched s => rw [hs] at hr; cases hr
    | outOfMemory => rw [hs] at hr; cases hr
    | notPrefetched => rw [hs] at hr; cases hr
    | stateError => rw [hs] at hr; cases hr
    | unclassified => rw [hs] at hr; cases hr

theorem waitAll_x (c : Cfg S D) (dt : S → D) (u : Uni c dt) (q f : Nat) (n : Nat) : ∀ p : P S D,
    Inv c dt p q z → p.tail + n = q → p.fid = f → XP c dt p q f → XP c dt (waitAll c n p) q f := by
  induction n with
  | zero => intro p _ _ _ hx; exact hx
  | succ n ih =>
    intro p h hn hf hx
    obtain ⟨h1, h2, h3⟩ := waitImpl_inv c dt u p q h (by omega)
    exact ih (waitImpl c p) h1 (by omega) (by rw [h2.fid]; exact hf) (waitImpl_x c dt u p q f h (by omega) hf hx)

theorem calcMem_sched (c : Cfg S D) (n : Nat) : ∀ p p' : P S D, calcMem c n p = some p' → p'.beg = p.beg ∧ p'.en = p.en := by
  induction n with
  | zero => intro p p' h; have : p = p' := by simpa [calcMem] using h
            subst this; exact ⟨rfl, rfl⟩
  | succ n ih =>
    intro p p' h
    unfold calcMem at h
    cases ho : c.order[p.head]? with
    | none => rw [ho] at h; simp only at h; have := ih _ p' h; exact this
    | some r =>
      rw [ho] at h
      simp only at h
      split at h
      · have := ih _ p' h; exact this
      · split at h
        · split at h
          · cases h
          · have := ih _ p' h; exact this
        · have := ih _ p' h; exact this

theorem XInv.empty (c : Cfg S D) (dt : S → D) (v : S → AState) : XInv c dt v [] := by
  refine ⟨fun l hl => ?_, fun s hs => by simp [devAt] at hs, fun s _ A x Q hE => by simp at hE, fun s _ hs => by simp [devAt] at hs⟩
  have : l = [] := List.prefix_nil.mp hl
  subst this
  simp [Verif.Lms.usage, devAt]

/-- The state in which planning of the functions begins agrees with the events of block 0. -/
theorem start_x (c : Cfg S D) (dt : S → D) (p : P S D) (hp : calcMem c (c.fend 0) (P.start c) = some p)
    (h : Inv c dt p (qStart c 1) (c.fbegin 1)) : XS c dt p 1 := by
  obtain ⟨hb, he⟩ := calcMem_sched c _ _ _ hp
  have hen : ∀ k, p.en.getD k [] = [] := by
    intro k
    rw [he]
    change (List.replicate c.fe.length ([] : List Sched)).getD k [] = []
    rw [List.getD_eq_getElem?_getD, List.getElem?_replicate]
    split <;> rfl
  have hbeg : ∀ k, p.beg k = [] := by intro k; rw [hb]; rfl
  refine ⟨?_, by rw [he]; exact List.length_replicate, fun k _ => hen k, fun k _ => hbeg k, fun k x hx => ?_, fun k x hx => ?_⟩
  · have : flat c p.beg p.en 1 = [] ++ (c.block 0).map Ev.use ++ [.done 0] := by
      rw [flat_succ]; unfold seg; rw [hen, hbeg]; simp [flat]
    rw [this]
    refine done_snoc (uses_append _ (XInv.empty c dt _) h.lim' fun i hi r ho hcl => ?_) h.lim' 0
    have hm := (mem_block c 0 i).mp hi
    exact h.inBlock i (by unfold qStart; simp) hm.2 r ho hcl
  · rw [hbeg] at hx; simp at hx
  · rw [hen] at hx; simp at hx

/-- A completed attempt: the whole iteration stays within the limit. -/
theorem attempt_usage (c : Cfg S D) (dt : S → D) (w : c.WF) (u : Uni c dt) (hb : blk0 c dt ≤ c.maxBytes)
    (stop : Nat → Nat) (p : P S D) (hr : attempt c stop = .ok p) (l : List Ev) (hl : l <+: timeline c p.beg p.en) :
    Verif.Lms.usage c dt l ≤ c.maxBytes := by
  obtain ⟨p0, h0, hi0, -, -⟩ := calcMem_start c dt w u hb
  unfold attempt at hr
  rw [h0] at hr
  simp only at hr
  have htwo := w.two
  have hx0 := start_x c dt p0 h0 hi0
  cases hs : steps c (clearInfo c) stop (List.range' 1 (c.fe.length - 1)) p0 with
  | ok p1 =>
    rw [hs] at hr
    simp only at hr
    have h1 := steps_inv c dt w u (clearInfo c) stop (c.fe.length - 1) 1 p0 p1 (le_refl _) (by omega) hi0 (by omega) hs
    have hx1 := steps_x c dt w u stop (c.fe.length - 1) 1 p0 p1 (le_refl _) (by omega) hi0 hx0 hs
    have hw := waitAll_x c dt u c.order.length c.fe.length (c.order.length - p1.tail) { p1 with fid := c.fe.length }
      (h1.setFid _) (by have := h1.tailq; change p1.tail + _ = _; omega) rfl (hx1.toXP _)
    split at hr
    · have := Res.ok.inj hr
      rw [this] at hw
      exact hw.x.usage l hl
    · cases hr
  | resched s => rw [hs] at hr; cases hr
  | outOfMemory => rw [hs] at hr; cases hr
  | notPrefetched => rw [hs] at hr; cases hr
  | stateError => rw [hs] at hr; cases hr
  | unclassified => rw [hs] at hr; cases hr

end Verif.Lms
