import Verif.VAlloc.Inv

/-! Every allocation keeps the ownership invariant. -/
namespace Verif.VAlloc

theorem roundUp_ge (sz n : Nat) (h : 0 < sz) : n ≤ roundUp sz n := by
  unfold roundUp
  have := Nat.div_add_mod (n + sz - 1) sz
  have h2 := Nat.mod_lt (n + sz - 1) h
  rw [Nat.mul_comm] at this
  omega

/-- What a successful allocation gives: a memory for the client on device `d`, of at least the bytes asked for, first in `live`. -/
structure Given (s s' : St) (n d : Nat) (v : VM) : Prop where
  live : (s'.dev d).live = (n, v) :: (s.dev d).live
  dev : v.dev = d
  bytes : n ≤ v.bytes

theorem given_of {s s1 : St} {n d : Nat} {v : VM} {a b : Int} (hl : (s1.dev d).live = (s.dev d).live) (hd : v.dev = d) (hb : n ≤ v.bytes) :
    Given s (give s1 d n v a b) n d v := ⟨by rw [(give_dev s1 d n v a b).1, hl], hd, hb⟩

theorem alloc2_inv (s : St) (i : Inv s) (n d : Nat) (lo hi : List Ent) (e : Ent) (hm : (s.dev d).mapped = lo ++ e :: hi) (hn : n ≤ e.size) :
    Inv (alloc2 s n d lo hi e).1 ∧ Given s (alloc2 s n d lo hi e).1 n d e.vm := by
  have hkk : keys (s.dev d) e.vm.key ≠ 0 := by simp [keys, hm]
  have hedev : e.vm.dev = d := by
    by_cases h : e.vm.key.1 = d
    · exact h
    · exact absurd ((i.dev d).dev _ h) hkk
  have heok := (i.dev d).mapped e (by rw [hm]; simp)
  have hb : n ≤ e.vm.bytes := by rw [← heok.1]; exact hn
  refine ⟨give_inv d n e.vm 0 0 i rfl ?_ (Nat.le_refl _) (Nat.le_refl _) ?_ ?_ ?_ ?_ ?_ hedev ⟨hb, heok.2⟩ ?_, given_of ?_ hedev hb⟩
  · intro x hx; simp only [setDev, if_neg hx]; exact i.dev x
  · simp [setDev]
  · intro c; simp [setDev, hm]; omega
  · intro k _; simp [setDev, hm, away]; omega
  · intro k hk; simp [setDev, hk, away]
  · intro k hk
    have := (i.dev d).dev k hk
    simp only [keys, hm, mapV_append, mapV_cons, kk_append, kk_cons] at this
    simp only [setDev, if_true, mapV_append, kk_append]
    omega
  · intro x hx
    simp only [setDev, if_true] at hx
    exact (i.dev d).mapped x (by rw [hm]; simp at hx ⊢; rcases hx with h | h <;> simp [h])
  · simp [setDev]

theorem fresh_key (d m : Nat) (v : VM) (hv : v.key = (d, m)) (k : Key) :
    (if v.key = k then 1 else 0) = if k.1 = d ∧ m ≤ k.2 ∧ k.2 < m + 1 then 1 else 0 := by
  rw [hv]
  by_cases h : (d, m) = k
  · rw [if_pos h, if_pos (by rw [← h]; simp)]
  · rw [if_neg h, if_neg (fun g => h (Prod.ext g.1.symm (by simp only; omega)))]

theorem alloc4_inv (s : St) (i : Inv s) (n d : Nat) (rest : List Ent) (e : Ent) (hm : (s.dev d).mapped = e :: rest) (hn : roundUp s.chunkSize n ≤ e.size) :
    Inv (alloc4 s n d rest e).1 ∧ ∃ v, (alloc4 s n d rest e).2 = some v ∧ Given s (alloc4 s n d rest e).1 n d v := by
  have heok := (i.dev d).mapped e (by rw [hm]; simp)
  have hr := roundUp_ge s.chunkSize n i.size
  have hb := takeUntil_bytes (roundUp s.chunkSize n) e.vm.chunks 0
  have he := takeUntil_enough (roundUp s.chunkSize n) e.vm.chunks 0 (by omega)
  have hp : ∀ k, kk (mapV (pushWait e s.waiting)) k = (if e.vm.key = k then 1 else 0) + kk (mapV s.waiting) k := by
    intro k
    rw [← kk_cons]
    exact kk_perm ((pushWait_perm e s.waiting).map Ent.vm) k
  refine ⟨give_inv d n _ _ 1 i rfl ?_ (Nat.le_refl _) (Nat.le_succ _) ?_ ?_ ?_ ?_ ?_ rfl ⟨hr, by simp only; omega⟩ ?_, _, rfl, given_of ?_ rfl hr⟩
  · intro x hx; simp only [setDev, if_neg hx]; exact i.dev x
  · simp [setDev]
  · intro c
    have h1 := takeUntil_count (roundUp s.chunkSize n) e.vm.chunks 0 c
    simp [setDev, hm]; omega
  · intro k _
    rw [fresh_key d s.nextMem _ rfl k]
    simp only [setDev, if_true, hm, away, mapV_cons, kk_cons, hp]
    omega
  · intro k hk
    have := (i.dev d).dev k hk
    simp only [keys, hm, mapV_cons, kk_cons] at this
    simp only [setDev, if_neg hk, away, hp]
    omega
  · intro k hk
    have := (i.dev d).dev k hk
    simp only [keys, hm, mapV_cons, kk_cons] at this
    simp only [setDev, if_true]
    omega
  · intro x hx
    simp only [setDev, if_true] at hx
    exact (i.dev d).mapped x (by rw [hm]; simp [hx])
  · simp [setDev]

structure ExtOk (alloc d next : Nat) (rest : List Ent) (taken : List Chunk) (have_ : Nat) (r : Ext) : Prop where
  cmapped : ∀ c, cc (mapV r.mapped) c + cc (mapV r.unmapped) c = cc (mapV rest) c
  kmapped : ∀ k, kk (mapV r.mapped) k + kk (mapV r.unmapped) k = kk (mapV rest) k
  sub : ∀ e ∈ r.mapped, e ∈ rest
  chunks : ∀ c, cn r.add c + cn r.back c ≤ cn taken c + cc (mapV r.unmapped) c + if c.1 = d ∧ next ≤ c.2 ∧ c.2 < r.next then 1 else 0
  bytes : r.bytes + csum taken = have_ + csum r.add
  enough : r.done = true → alloc ≤ r.bytes
  next : next ≤ r.next

theorem extend_ok (sz alloc d b next : Nat) (rest : List Ent) (taken : List Chunk) (have_ : Nat)
    (hok : ∀ e ∈ rest, e.size = e.vm.bytes ∧ e.vm.bytes ≤ csum e.vm.chunks) :
    ExtOk alloc d next rest taken have_ (extend sz alloc d b next rest taken have_) := by
  unfold extend
  split
  · rename_i hgt
    have hspl := List.takeWhile_append_dropWhile (p := fun x : Ent => decide (x.size < alloc - have_)) (l := rest)
    split
    · rename_i x hi heq
      rw [heq] at hspl
      have hx : x ∈ rest := by rw [← hspl]; simp
      have hxs : alloc - have_ ≤ x.size := by
        have := List.head?_dropWhile_not (fun x : Ent => decide (x.size < alloc - have_)) rest
        rw [heq] at this
        simpa using this
      have hxo := hok x hx
      have hb := takeUntil_bytes alloc x.vm.chunks have_
      have he := takeUntil_enough alloc x.vm.chunks have_ (by omega)
      refine ⟨?_, ?_, ?_, ?_, ?_, fun _ => he, Nat.le_refl _⟩
      · intro c
        have h := congrArg (fun l => cc (mapV l) c) hspl
        simp at h ⊢; omega
      · intro k
        have h := congrArg (fun l => kk (mapV l) k) hspl
        simp at h ⊢; omega
      · intro e he'
        rw [← hspl]
        rcases List.mem_append.mp he' with h | h
        · exact List.mem_append_left _ h
        · exact List.mem_append_right _ (List.mem_cons_of_mem _ h)
      · intro c
        have := takeUntil_count alloc x.vm.chunks have_ c
        simp only [cn_append, mapV_cons, cc_cons, mapV_nil, cc_nil]
        omega
      · simp only [csum_append]; omega
    · have hsp := transferDown_split alloc rest.reverse have_
      have hrev : ((transferDown alloc rest.reverse have_).2.1 ++ (transferDown alloc rest.reverse have_).1.reverse).Perm rest := by
        refine ((List.reverse_perm _).append_left _).trans ?_
        rw [hsp]; exact List.reverse_perm _
      have hb := transferDown_bytes alloc rest.reverse have_
      have ha := allocPhys_bytes sz alloc d b (transferDown alloc rest.reverse have_).2.2.2.2 next
      refine ⟨?_, ?_, ?_, ?_, ?_, fun h => allocPhys_done _ _ _ _ _ _ h, allocPhys_next _ _ _ _ _ _⟩
      · intro c
        have := cc_perm (hrev.map Ent.vm) c
        change cc (mapV _) c = cc (mapV _) c at this
        rw [mapV_append, cc_append] at this
        simp only
        omega
      · intro k
        have := kk_perm (hrev.map Ent.vm) k
        change kk (mapV _) k = kk (mapV _) k at this
        rw [mapV_append, kk_append] at this
        simp only
        omega
      · intro e he
        exact hrev.subset (List.mem_append_right _ he)
      · intro c
        have h1 := transferDown_count alloc rest.reverse have_ c
        have h2 := allocPhys_count sz alloc d b (transferDown alloc rest.reverse have_).2.2.2.2 next c
        simp only [cn_append]
        omega
      · simp only [csum_append]; omega
  · refine ⟨fun c => by simp, fun k => by simp, fun e he => he, fun c => by simp, rfl, fun _ => by simp only; omega, Nat.le_refl _⟩

theorem alloc3_inv (s : St) (i : Inv s) (n d : Nat) (grows : Bool) (b : Nat) (rest : List Ent) (e : Ent) (hm : (s.dev d).mapped.Perm (e :: rest)) :
    Inv (alloc3 s n d grows b rest e).1 ∧
      ((∃ v, (alloc3 s n d grows b rest e).2 = some v ∧ Given s (alloc3 s n d grows b rest e).1 n d v) ∨
        ((alloc3 s n d grows b rest e).2 = none ∧ ((alloc3 s n d grows b rest e).1.dev d).live = (s.dev d).live)) := by
  have hmem : ∀ x, x ∈ e :: rest → x ∈ (s.dev d).mapped := fun x hx => hm.symm.subset hx
  have heok := (i.dev d).mapped e (hmem e (by simp))
  have hr := roundUp_ge s.chunkSize n i.size
  have hcm : ∀ c, cc (mapV (s.dev d).mapped) c = cn e.vm.chunks c + cc (mapV rest) c := by
    intro c; rw [← cc_cons]; exact cc_perm (hm.map Ent.vm) c
  have hkm : ∀ k, kk (mapV (s.dev d).mapped) k = (if e.vm.key = k then 1 else 0) + kk (mapV rest) k := by
    intro k; rw [← kk_cons]; exact kk_perm (hm.map Ent.vm) k
  have hedev : e.vm.dev = d := by
    by_cases h : e.vm.key.1 = d
    · exact h
    · have := (i.dev d).dev _ h
      simp only [keys, hkm, if_true] at this
      omega
  have htb := takeUntil_bytes (roundUp s.chunkSize n) (s.dev d).pcache e.vm.bytes
  have htc := takeUntil_count (roundUp s.chunkSize n) (s.dev d).pcache e.vm.bytes
  unfold alloc3
  simp only
  generalize takeUntil (roundUp s.chunkSize n) (s.dev d).pcache e.vm.bytes = t at htb htc ⊢
  have hE := extend_ok s.chunkSize (roundUp s.chunkSize n) d b s.nextChunk rest t.1 t.2.2 (fun x hx => (i.dev d).mapped x (hmem x (by simp [hx])))
  generalize extend s.chunkSize (roundUp s.chunkSize n) d b s.nextChunk rest t.1 t.2.2 = r at hE ⊢
  have hpa : ∀ k, kk (mapV (pushAll r.unmapped s.waiting)) k = kk (mapV r.unmapped) k + kk (mapV s.waiting) k := by
    intro k
    rw [← kk_append, ← mapV_append]
    exact kk_perm ((pushAll_perm r.unmapped s.waiting).map Ent.vm) k
  have hzero : ∀ k : Key, k.1 ≠ d → kk (mapV r.mapped) k = 0 ∧ kk (mapV r.unmapped) k = 0 ∧ ¬ (e.vm.key = k) := by
    intro k hk
    have h1 := (i.dev d).dev k hk
    have h2 := hE.kmapped k
    have h3 : ¬ (e.vm.key = k) := fun h => hk (by rw [← h]; exact hedev)
    simp only [keys, hkm, if_neg h3] at h1
    exact ⟨by omega, by omega, h3⟩
  have hmp : ∀ x ∈ r.mapped, x.size = x.vm.bytes ∧ x.vm.bytes ≤ csum x.vm.chunks := fun x hx =>
    (i.dev d).mapped x (hmem x (by simp [hE.sub x hx]))
  have hbytes := hE.bytes
  split
  · rename_i hdone
    have hen := hE.enough hdone
    have hbv : n ≤ r.bytes ∧ r.bytes ≤ csum (e.vm.chunks ++ r.add) := ⟨by omega, by rw [csum_append]; omega⟩
    split
    · refine ⟨give_inv d n _ _ 0 i rfl ?_ hE.next (Nat.le_refl _) ?_ ?_ ?_ ?_ ?_ hedev hbv ?_, Or.inl ⟨_, rfl, given_of ?_ hedev hbv.1⟩⟩
      · intro x hx; simp only [setDev, if_neg hx]; exact i.dev x
      · simp [setDev]
      · intro c
        have h1 := hE.cmapped c
        have h2 := hE.chunks c
        have h3 := htc c
        have h4 := hcm c
        simp only [setDev, if_true, cn_append]
        omega
      · intro k _
        have h1 := hE.kmapped k
        have h4 := hkm k
        have h5 := hpa k
        simp only [setDev, if_true, away]
        change (if e.vm.key = k then 1 else 0) + _ + _ ≤ _
        omega
      · intro k hk
        have h5 := hpa k
        obtain ⟨z1, z2, z3⟩ := hzero k hk
        simp only [setDev, if_neg hk, away]
        omega
      · intro k hk
        simp only [setDev, if_true]
        exact (hzero k hk).1
      · intro x hx
        simp only [setDev, if_true] at hx
        exact hmp x hx
      · simp [setDev]
    · have hpw : ∀ k, kk (mapV (pushWait e (pushAll r.unmapped s.waiting))) k =
          (if e.vm.key = k then 1 else 0) + (kk (mapV r.unmapped) k + kk (mapV s.waiting) k) := by
        intro k
        rw [← hpa, ← kk_cons]
        exact kk_perm ((pushWait_perm e (pushAll r.unmapped s.waiting)).map Ent.vm) k
      refine ⟨give_inv d n _ _ 1 i rfl ?_ hE.next (Nat.le_succ _) ?_ ?_ ?_ ?_ ?_ rfl hbv ?_, Or.inl ⟨_, rfl, given_of ?_ rfl hbv.1⟩⟩
      · intro x hx; simp only [setDev, if_neg hx]; exact i.dev x
      · simp [setDev]
      · intro c
        have h1 := hE.cmapped c
        have h2 := hE.chunks c
        have h3 := htc c
        have h4 := hcm c
        simp only [setDev, if_true, cn_append]
        omega
      · intro k _
        rw [fresh_key d s.nextMem _ rfl k]
        have h1 := hE.kmapped k
        have h4 := hkm k
        have h5 := hpw k
        simp only [setDev, if_true, away]
        omega
      · intro k hk
        have h5 := hpw k
        obtain ⟨z1, z2, z3⟩ := hzero k hk
        rw [if_neg z3] at h5
        simp only [setDev, if_neg hk, away]
        omega
      · intro k hk
        simp only [setDev, if_true]
        exact (hzero k hk).1
      · intro x hx
        simp only [setDev, if_true] at hx
        exact hmp x hx
      · simp [setDev]
  · refine ⟨inv_of_step d i rfl ?_ hE.next (Nat.le_refl _) ?_ ?_ ?_ ?_ ?_, Or.inr ⟨rfl, by simp [setDev]⟩⟩
    · intro x hx; simp only [setDev, if_neg hx]
    · intro c
      have h1 := hE.cmapped c
      have h2 := hE.chunks c
      have h3 := htc c
      have h4 := hcm c
      simp only [own, liveV, setDev, if_true, cn_append]
      omega
    · intro k
      have h1 := hE.kmapped k
      have h4 := hkm k
      have h5 := hpa k
      simp only [keys, liveV, setDev, if_true, away]
      omega
    · intro k hk
      have h1 := (i.dev d).dev k hk
      simp only [keys, liveV, setDev, if_true] at h1 ⊢
      have := (hzero k hk).1
      omega
    · intro p hp
      simp only [setDev, if_true] at hp
      exact (i.dev d).live p hp
    · intro x hx
      simp only [setDev, if_true] at hx
      exact hmp x hx

theorem takeP_inv (s : St) (i : Inv s) (d t : Nat) :
    Inv (setDev s d (fun x => { x with pcache := (takeUntil t (s.dev d).pcache 0).2.1 })) := by
  refine inv_of_step d i rfl ?_ (Nat.le_refl _) (Nat.le_refl _) ?_ ?_ ?_ ?_ ?_
  · intro x hx; simp only [setDev, if_neg hx]
  · intro c
    have := takeUntil_count t (s.dev d).pcache 0 c
    simp only [own, liveV, setDev, if_true]; omega
  · intro k; simp only [keys, liveV, setDev, if_true, away]; omega
  · intro k hk
    have h1 := (i.dev d).dev k hk
    simp only [keys, liveV, setDev, if_true] at h1 ⊢; exact h1
  · intro p hp
    simp only [setDev, if_true] at hp
    exact (i.dev d).live p hp
  · intro x hx
    simp only [setDev, if_true] at hx
    exact (i.dev d).mapped x hx

theorem bump_inv (s : St) (i : Inv s) (m : Nat) (h : s.nextChunk ≤ m) : Inv { s with nextChunk := m } where
  size := i.size
  dev d := ⟨fun c => Nat.le_trans ((i.dev d).chunk c) (by
    by_cases b : c.1 = d ∧ c.2 < s.nextChunk
    · have b' : c.1 = d ∧ c.2 < ({ s with nextChunk := m } : St).nextChunk := ⟨b.1, Nat.lt_of_lt_of_le b.2 h⟩
      rw [if_pos b, if_pos b']; exact Nat.le_refl _
    · rw [if_neg b]; exact Nat.zero_le _), (i.dev d).dev, (i.dev d).live, (i.dev d).mapped⟩
  key := i.key

/-- Finishing case 1 from a state `s2` where the allocator's caches are no larger than after taking the cached physical memories. -/
theorem finish1_inv (s s1 s2 : St) (i : Inv s) (n d t : Nat) (hs1 : s1 = setDev s d (fun x => { x with pcache := (takeUntil t (s.dev d).pcache 0).2.1 }))
    (hsh : Shrink s1 s2) (new : List Chunk) (next total : Nat) (hnext : s.nextChunk ≤ next)
    (hnew : ∀ c, cn new c ≤ if c.1 = d ∧ s.nextChunk ≤ c.2 ∧ c.2 < next then 1 else 0)
    (htot : total = csum ((takeUntil t (s.dev d).pcache 0).1 ++ new)) (hn : n ≤ total) (a b : Int) :
    Inv (give { s2 with nextMem := s2.nextMem + 1, nextChunk := next } d n ⟨s2.nextMem, d, total, n, (takeUntil t (s.dev d).pcache 0).1 ++ new⟩ a b) ∧
    Given s (give { s2 with nextMem := s2.nextMem + 1, nextChunk := next } d n ⟨s2.nextMem, d, total, n, (takeUntil t (s.dev d).pcache 0).1 ++ new⟩ a b) n d
      ⟨s2.nextMem, d, total, n, (takeUntil t (s.dev d).pcache 0).1 ++ new⟩ := by
  have i1 : Inv s1 := by rw [hs1]; exact takeP_inv s i d t
  have i2 : Inv s2 := hsh.inv i1
  have e1 : s1.nextMem = s.nextMem := by rw [hs1]; rfl
  have e2 : s1.nextChunk = s.nextChunk := by rw [hs1]; rfl
  have e3 : s1.chunkSize = s.chunkSize := by rw [hs1]; rfl
  have hlive : (s2.dev d).live = (s.dev d).live := by rw [hsh.live d, hs1]; simp [setDev]
  have haw : ∀ k, away s1 k = away s k := by intro k; rw [hs1]; rfl
  have hd1m : (s1.dev d).mapped = (s.dev d).mapped := by rw [hs1]; simp [setDev]
  have hd1p : (s1.dev d).pcache = (takeUntil t (s.dev d).pcache 0).2.1 := by rw [hs1]; simp [setDev]
  have hkeys1 : ∀ k e, keys (s1.dev e) k = keys (s.dev e) k := by
    intro k e; rw [hs1]; simp only [keys, liveV, setDev]; split
    · rename_i h; rw [h]
    · rfl
  have e4 : s2.nextMem = s.nextMem := hsh.nextMem.trans e1
  refine ⟨give_inv d n _ a b i (hsh.size.trans e3) ?_ hnext ?_ hlive ?_ ?_ ?_ ?_ rfl ⟨hn, by rw [htot]; exact Nat.le_refl _⟩ ?_, given_of hlive rfl hn⟩
  · intro x _
    have := i2.dev x
    rw [hsh.nextChunk, e2] at this
    exact this
  · change s.nextMem ≤ s2.nextMem + 1; omega
  · intro c
    have h1 := takeUntil_count t (s.dev d).pcache 0 c
    have h2 := hnew c
    have h3 : cc (mapV (s2.dev d).mapped) c ≤ cc (mapV (s.dev d).mapped) c := by
      rw [← hd1m]; rcases hsh.mapped d with e | e <;> rw [e] <;> simp
    have h4 : cn (s2.dev d).pcache c ≤ cn (takeUntil t (s.dev d).pcache 0).2.1 c := by
      rw [← hd1p]; rcases hsh.pcache d with e | e <;> rw [e] <;> simp
    simp only [cn_append]
    omega
  · intro k h
    rw [fresh_key d s2.nextMem _ rfl k]
    have h1 := hsh.key k
    rw [hkeys1, haw] at h1
    change _ + kk (mapV (s2.dev d).mapped) k + away s2 k ≤ kk (mapV (s.dev d).mapped) k + away s k + if k.1 = d ∧ s.nextMem ≤ k.2 ∧ k.2 < s2.nextMem + 1 then 1 else 0
    rw [e4]
    have g1 : keys (s2.dev k.1) k = keys (s2.dev d) k := by rw [h]
    have g2 : keys (s.dev k.1) k = keys (s.dev d) k := by rw [h]
    rw [g1, g2] at h1
    simp only [keys, liveV, hlive] at h1
    omega
  · intro k _
    have h1 := hsh.key k
    rw [hkeys1, haw] at h1
    exact h1
  · intro k h
    have z1 := (i2.dev d).dev k h
    simp only [keys] at z1
    change kk (mapV (s2.dev d).mapped) k = 0
    omega
  · intro x hx
    exact (i2.dev d).mapped x hx

theorem alloc1_inv (s : St) (i : Inv s) (n d b1 b2 : Nat) :
    Inv (alloc1 s n d b1 b2).1 ∧
      ((∃ v, (alloc1 s n d b1 b2).2 = some v ∧ Given s (alloc1 s n d b1 b2).1 n d v) ∨
        ((alloc1 s n d b1 b2).2 = none ∧ ((alloc1 s n d b1 b2).1.dev d).live = (s.dev d).live)) := by
  have htb := takeUntil_bytes (roundUp s.chunkSize n) (s.dev d).pcache 0
  unfold alloc1
  simp only
  have hab := allocPhys_bytes s.chunkSize n d b1 (takeUntil (roundUp s.chunkSize n) (s.dev d).pcache 0).2.2 s.nextChunk
  have hac := allocPhys_count s.chunkSize n d b1 (takeUntil (roundUp s.chunkSize n) (s.dev d).pcache 0).2.2 s.nextChunk
  have han := allocPhys_next s.chunkSize n d b1 (takeUntil (roundUp s.chunkSize n) (s.dev d).pcache 0).2.2 s.nextChunk
  have had := allocPhys_done s.chunkSize n d b1 (takeUntil (roundUp s.chunkSize n) (s.dev d).pcache 0).2.2 s.nextChunk
  generalize allocPhys s.chunkSize n d b1 (takeUntil (roundUp s.chunkSize n) (s.dev d).pcache 0).2.2 s.nextChunk = a at hab hac han had ⊢
  generalize hs1 : setDev s d (fun x => { x with pcache := (takeUntil (roundUp s.chunkSize n) (s.dev d).pcache 0).2.1 }) = s1
  have i1 : Inv s1 := by rw [← hs1]; exact takeP_inv s i d _
  split
  · rename_i hd
    obtain ⟨f1, f2⟩ := finish1_inv s s1 s1 i n d _ hs1.symm (.refl s1) a.1 a.2.2.1 a.2.1 han hac (by rw [csum_append]; omega) (had hd) ((a.2.1 : Int) - n) 1
    exact ⟨f1, Or.inl ⟨_, rfl, f2⟩⟩
  · have hsh := freeAll_shrink s1 i1
    generalize freeAll s1 = s2 at hsh ⊢
    have hbb := allocPhys_bytes s2.chunkSize n d b2 a.2.1 a.2.2.1
    have hbc := allocPhys_count s2.chunkSize n d b2 a.2.1 a.2.2.1
    have hbn := allocPhys_next s2.chunkSize n d b2 a.2.1 a.2.2.1
    have hbd := allocPhys_done s2.chunkSize n d b2 a.2.1 a.2.2.1
    generalize allocPhys s2.chunkSize n d b2 a.2.1 a.2.2.1 = a2 at hbb hbc hbn hbd ⊢
    split
    · rename_i hd
      have hcnt : ∀ c, cn (a.1 ++ a2.1) c ≤ if c.1 = d ∧ s.nextChunk ≤ c.2 ∧ c.2 < a2.2.2.1 then 1 else 0 := by
        intro c
        rw [cn_append]
        have h1 := hac c
        have h2 := hbc c
        by_cases hdv : c.1 = d
        · by_cases x1 : c.2 < a.2.2.1
          · rw [if_neg (by omega)] at h2
            by_cases x0 : s.nextChunk ≤ c.2
            · rw [if_pos ⟨hdv, x0, x1⟩] at h1
              rw [if_pos ⟨hdv, x0, by omega⟩]; omega
            · rw [if_neg (by omega)] at h1; omega
          · rw [if_neg (by omega)] at h1
            by_cases x2 : c.2 < a2.2.2.1
            · rw [if_pos ⟨hdv, by omega, x2⟩] at h2
              rw [if_pos ⟨hdv, by omega, x2⟩]; omega
            · rw [if_neg (by omega)] at h2; omega
        · rw [if_neg (fun h => hdv h.1)] at h1 h2; omega
      obtain ⟨f1, f2⟩ := finish1_inv s s1 s2 i n d _ hs1.symm hsh (a.1 ++ a2.1) a2.2.2.1 a2.2.1 (by omega) hcnt
        (by rw [csum_append, csum_append]; omega) (hbd hd) ((a2.2.1 : Int) - n) 1
      rw [← List.append_assoc] at f1 f2
      exact ⟨f1, Or.inl ⟨_, rfl, f2⟩⟩
    · have e2 : s1.nextChunk = s.nextChunk := by rw [← hs1]; rfl
      have e3 := hsh.nextChunk
      refine ⟨bump_inv s2 (hsh.inv i1) _ (by omega), Or.inr ⟨rfl, ?_⟩⟩
      change (s2.dev d).live = _
      rw [hsh.live d, ← hs1]; simp [setDev]

theorem allocImpl_inv (s0 : St) (i0 : Inv s0) (n d : Nat) (grows : Bool) (b1 b2 : Nat) :
    Inv (allocImpl s0 n d grows b1 b2).1 ∧
      ((∃ v, (allocImpl s0 n d grows b1 b2).2 = some v ∧ Given s0 (allocImpl s0 n d grows b1 b2).1 n d v) ∨
        ((allocImpl s0 n d grows b1 b2).2 = none ∧ ((allocImpl s0 n d grows b1 b2).1.dev d).live = (s0.dev d).live)) := by
  have hsy := sync_shrink s0
  have i := hsy.inv i0
  have hl0 : ((sync s0).dev d).live = (s0.dev d).live := hsy.live d
  have conv : ∀ {s' : St} {v : VM}, Given (sync s0) s' n d v → Given s0 s' n d v := fun g => ⟨by rw [g.live, hl0], g.dev, g.bytes⟩
  unfold allocImpl
  simp only
  generalize sync s0 = s at i hl0 conv ⊢
  have hr := roundUp_ge s.chunkSize n i.size
  split
  · obtain ⟨h1, h2⟩ := alloc1_inv s i n d b1 b2
    refine ⟨h1, ?_⟩
    rcases h2 with ⟨v, e, g⟩ | ⟨e, g⟩
    · exact Or.inl ⟨v, e, conv g⟩
    · exact Or.inr ⟨e, g.trans hl0⟩
  · rename_i y ys hys
    have hspl := List.takeWhile_append_dropWhile (p := fun x : Ent => decide (x.size < roundUp s.chunkSize n)) (l := (s.dev d).mapped)
    have key3 : ∀ (l : Ent) (hi : List Ent), ((s.dev d).mapped.takeWhile (fun x => decide (x.size < roundUp s.chunkSize n))).getLast? = some l →
        (s.dev d).mapped.dropWhile (fun x => decide (x.size < roundUp s.chunkSize n)) = hi →
        (s.dev d).mapped.Perm (l :: (((s.dev d).mapped.takeWhile (fun x => decide (x.size < roundUp s.chunkSize n))).dropLast ++ hi)) := by
      intro l hi hl hh
      generalize (s.dev d).mapped.takeWhile (fun x => decide (x.size < roundUp s.chunkSize n)) = lo at hl hspl ⊢
      have hlo : lo = lo.dropLast ++ [l] := by
        obtain ⟨ne, e⟩ := List.getLast?_eq_some_iff.mp hl
        rw [e]; simp
      rw [hh] at hspl
      rw [← hspl]
      conv => lhs; rw [hlo]
      rw [List.append_assoc]
      exact List.perm_middle
    split
    · rename_i e hi heq
      split
      · rename_i hsz
        obtain ⟨h1, h2⟩ := alloc2_inv s i n d ((s.dev d).mapped.takeWhile (fun x => decide (x.size < roundUp s.chunkSize n))) hi e (by rw [heq] at hspl; exact hspl.symm) (by omega)
        exact ⟨h1, Or.inl ⟨e.vm, rfl, conv h2⟩⟩
      · split
        · rename_i l hl
          rw [heq]
          obtain ⟨h1, h2⟩ := alloc3_inv s i n d grows b1 _ l (key3 l _ hl heq)
          refine ⟨h1, ?_⟩
          rcases h2 with ⟨v, e, g⟩ | ⟨e, g⟩
          · exact Or.inl ⟨v, e, conv g⟩
          · exact Or.inr ⟨e, g.trans hl0⟩
        · rename_i hl
          have hlo := List.getLast?_eq_none_iff.mp hl
          rw [hlo, heq] at hspl
          have hge : roundUp s.chunkSize n ≤ e.size := by
            have := List.head?_dropWhile_not (fun x : Ent => decide (x.size < roundUp s.chunkSize n)) (s.dev d).mapped
            rw [heq] at this
            simpa using this
          obtain ⟨h1, v, h2, h3⟩ := alloc4_inv s i n d hi e hspl.symm hge
          exact ⟨h1, Or.inl ⟨v, h2, conv h3⟩⟩
    · rename_i heq
      split
      · rename_i l hl
        rw [heq]
        obtain ⟨h1, h2⟩ := alloc3_inv s i n d grows b1 _ l (key3 l _ hl heq)
        refine ⟨h1, ?_⟩
        rcases h2 with ⟨v, e, g⟩ | ⟨e, g⟩
        · exact Or.inl ⟨v, e, conv g⟩
        · exact Or.inr ⟨e, g.trans hl0⟩
      · exact ⟨i, Or.inr ⟨rfl, hl0⟩⟩

/-- What an allocation on device `d` leaves alone. -/
structure Frame (s s' : St) (d : Nat) : Prop where
  live : ∀ e, e ≠ d → (s'.dev e).live = (s.dev e).live
  unb : ∀ k ∈ s'.unbound, k ∈ s.unbound ∨ s.locked k = false
  locked : s'.locked = s.locked

theorem Shrink.frame {s s' : St} (h : Shrink s s') (d : Nat) : Frame s s' d := ⟨fun e _ => h.live e, h.unb, h.locked⟩

theorem Frame.trans {a b c : St} {d : Nat} (h : Frame a b d) (g : Frame b c d) : Frame a c d where
  live e he := (g.live e he).trans (h.live e he)
  unb k hk := by
    rcases g.unb k hk with e | e
    · exact h.unb k e
    · exact Or.inr (by rw [← h.locked]; exact e)
  locked := g.locked.trans h.locked

theorem alloc1_frame (s : St) (i : Inv s) (n d b1 b2 : Nat) : Frame s (alloc1 s n d b1 b2).1 d := by
  unfold alloc1
  simp only
  split
  · refine ⟨fun e he => by simp [give, setDev, he], fun k h => Or.inl h, rfl⟩
  · have i1 := takeP_inv s i d (roundUp s.chunkSize n)
    have h1 : Frame s (setDev s d (fun x => { x with pcache := (takeUntil (roundUp s.chunkSize n) (s.dev d).pcache 0).2.1 })) d :=
      ⟨fun e he => by simp [setDev, he], fun k h => Or.inl h, rfl⟩
    have h2 := h1.trans ((freeAll_shrink _ i1).frame d)
    refine h2.trans ?_
    split
    · exact ⟨fun e he => by simp [give, setDev, he], fun k h => Or.inl h, rfl⟩
    · exact ⟨fun e he => rfl, fun k h => Or.inl h, rfl⟩

theorem alloc3_frame (s : St) (n d : Nat) (grows : Bool) (b : Nat) (rest : List Ent) (e : Ent) : Frame s (alloc3 s n d grows b rest e).1 d := by
  unfold alloc3
  simp only
  split
  · split
    · exact ⟨fun e he => by simp [give, setDev, he], fun k h => Or.inl h, rfl⟩
    · exact ⟨fun e he => by simp [give, setDev, he], fun k h => Or.inl h, rfl⟩
  · exact ⟨fun e he => by simp [setDev, he], fun k h => Or.inl h, rfl⟩

theorem allocImpl_frame (s0 : St) (i0 : Inv s0) (n d : Nat) (grows : Bool) (b1 b2 : Nat) : Frame s0 (allocImpl s0 n d grows b1 b2).1 d := by
  have hsy := sync_shrink s0
  have i := hsy.inv i0
  refine (hsy.frame d).trans ?_
  unfold allocImpl
  simp only
  generalize sync s0 = s at i ⊢
  split
  · exact alloc1_frame s i n d b1 b2
  · split
    · split
      · exact ⟨fun e he => by simp [alloc2, give, setDev, he], fun k h => Or.inl h, rfl⟩
      · split
        · exact alloc3_frame s n d grows b1 _ _
        · exact ⟨fun e he => by simp [alloc4, give, setDev, he], fun k h => Or.inl h, rfl⟩
    · split
      · exact alloc3_frame s n d grows b1 _ _
      · exact ⟨fun e he => rfl, fun k h => Or.inl h, rfl⟩

/-! ## Histories -/

theorem known_inv (s : St) (i : Inv s) (l : List Nat) : Inv { s with known := l } := ⟨i.size, i.dev, i.key⟩

theorem alloc_inv (s : St) (i : Inv s) (n d : Nat) (grows : Bool) (b1 b2 : Nat) :
    Inv (alloc s n d grows b1 b2).1 ∧ Frame s (alloc s n d grows b1 b2).1 d ∧
      ((∃ v, (alloc s n d grows b1 b2).2 = some v ∧ Given s (alloc s n d grows b1 b2).1 (max n 1) d v) ∨
        ((alloc s n d grows b1 b2).2 = none ∧ ((alloc s n d grows b1 b2).1.dev d).live = (s.dev d).live)) := by
  obtain ⟨h1, h2⟩ := allocImpl_inv s i (max n 1) d grows b1 b2
  have h3 := allocImpl_frame s i (max n 1) d grows b1 b2
  unfold alloc
  simp only
  rcases h2 with ⟨v, e, g⟩ | ⟨e, g⟩
  · rw [e]
    exact ⟨known_inv _ h1 _, ⟨h3.live, h3.unb, h3.locked⟩, Or.inl ⟨v, rfl, g.live, g.dev, g.bytes⟩⟩
  · rw [e]
    exact ⟨h1, h3, Or.inr ⟨rfl, g⟩⟩

theorem free_inv (s : St) (i : Inv s) (d id : Nat) (busy : Bool) : Inv (free s d id busy) := by
  unfold free
  split
  · exact i
  · rename_i p hp
    have hmem : p ∈ (s.dev d).live := List.mem_of_find?_eq_some hp
    have hperm := List.perm_cons_erase hmem
    have hc : ∀ c, cc (liveV (s.dev d)) c = cn p.2.chunks c + cc (((s.dev d).live.erase p).map Prod.snd) c := by
      intro c; rw [← cc_cons]; exact cc_perm (hperm.map Prod.snd) c
    have hk : ∀ k, kk (liveV (s.dev d)) k = (if p.2.key = k then 1 else 0) + kk (((s.dev d).live.erase p).map Prod.snd) k := by
      intro k; rw [← kk_cons]; exact kk_perm (hperm.map Prod.snd) k
    have hmc : ∀ c, cc (mapV (insMapped ⟨p.2.bytes, s.clock, p.2⟩ (s.dev d).mapped)) c = cn p.2.chunks c + cc (mapV (s.dev d).mapped) c := by
      intro c; rw [← cc_cons]; exact cc_perm ((insMapped_perm _ _).map Ent.vm) c
    have hmk : ∀ k, kk (mapV (insMapped ⟨p.2.bytes, s.clock, p.2⟩ (s.dev d).mapped)) k = (if p.2.key = k then 1 else 0) + kk (mapV (s.dev d).mapped) k := by
      intro k; rw [← kk_cons]; exact kk_perm ((insMapped_perm _ _).map Ent.vm) k
    refine inv_of_step d i rfl ?_ (Nat.le_refl _) (Nat.le_refl _) ?_ ?_ ?_ ?_ ?_
    · intro x hx; simp only [setDev, if_neg hx]
    · intro c
      have h1 := hc c
      have h2 := hmc c
      simp only [own, liveV, setDev, if_true] at h1 ⊢
      omega
    · intro k
      have h1 := hk k
      have h2 := hmk k
      simp only [keys, liveV, setDev, if_true, away] at h1 ⊢
      omega
    · intro k hkd
      have h0 := (i.dev d).dev k hkd
      have h1 := hk k
      have h2 := hmk k
      simp only [keys, liveV, setDev, if_true] at h0 h1 ⊢
      omega
    · intro q hq
      simp only [setDev, if_true] at hq
      exact (i.dev d).live q (List.mem_of_mem_erase hq)
    · intro e he
      simp only [setDev, if_true] at he
      rcases List.mem_cons.mp ((insMapped_perm _ _).subset he) with rfl | h
      · exact ⟨rfl, ((i.dev d).live p hmem).2⟩
      · exact (i.dev d).mapped e h

/-- The chunk size stays positive. -/
def okOp : Op → Prop
  | .setChunk sz => 0 < sz
  | _ => True

theorem step_inv (s : St) (i : Inv s) (op : Op) (h : okOp op) : Inv (step s op) := by
  cases op with
  | alloc n d g b1 b2 => exact (alloc_inv s i n d g b1 b2).1
  | free d id busy => exact free_inv s i d id busy
  | done k => exact ⟨i.size, i.dev, i.key⟩
  | freeDev d => exact (freeDev_shrink s i d).inv i
  | freeAll => exact (freeAll_shrink s i).inv i
  | setChunk sz => exact ⟨h, i.dev, i.key⟩

theorem run_inv (ops : List Op) (s : St) (i : Inv s) (h : ∀ op ∈ ops, okOp op) : Inv (run s ops) := by
  induction ops generalizing s with
  | nil => exact i
  | cons op ops ih =>
    exact ih (step s op) (step_inv s i op (h op (by simp))) (fun o ho => h o (by simp [ho]))

end Verif.VAlloc
