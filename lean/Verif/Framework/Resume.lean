import Verif.Framework.Props
/-!
C154: crashes and resuming from a checkpoint (trainer.py:53-82).

The worker is the best one a user can write for the hooks that Trainer offers: save_checkpoint_at_epoch_end stores the number of
finished epochs and the complete training state in one atomic write, load_checkpoint restores both. A crash can happen before or
after any call; it loses everything but the checkpoint.
-/
namespace Verif.Framework

variable {S : Type}

/-- A process and its disk. -/
structure Proc (S : Type) where
  vol : S
  disk : Option (Nat × S)
  start : Nat

/-- A worker with checkpoints: `f` is what each call does to the training state. -/
def resumable (f : Ev → S → S) : User (Proc S) Empty where
  call
    | .loadCheckpoint, p => (match p.disk with | none => { p with start := 0 } | some (e, s) => { p with vol := s, start := e }, none)
    | .saveCheckpoint e, p => ({ p with disk := some (e + 1, f (.saveCheckpoint e) p.vol), vol := f (.saveCheckpoint e) p.vol }, none)
    | v, p => ({ p with vol := f v p.vol }, none)
  startEpoch p := p.start

/-- The calls that train() makes on this process, as a list (C153_order; nothing raises). -/
def calls (c : Conf) (p : Proc S) : List Ev := .loadCheckpoint :: trainOrder c ((match p.disk with | none => 0 | some (e, _) => e))

/-- The process crashes after `n` calls of train() and is started again from the initial state `s0`. -/
def crash (f : Ev → S → S) (c : Conf) (s0 : S) (n : Nat) (p : Proc S) : Proc S :=
  { (execList (resumable f) ((calls c p).take n) p).state with vol := s0 }

/-! ## Specification -/

/-- The training state after `k` uninterrupted epochs. -/
def epochs (f : Ev → S → S) (c : Conf) (s0 : S) : Nat → S
  | 0 => s0
  | k + 1 => (epochOrder c k).foldl (fun s v => f v s) (epochs f c s0 k)

/-! ## Proofs -/

theorem resumable_order (f : Ev → S → S) (c : Conf) (p : Proc S) : train (resumable f) c p = execList (resumable f) (calls c p) p := by
  rw [C153_order]
  rcases hd : p.disk with _ | ⟨e, s⟩ <;> simp [resumable, hd, calls]

/-- Calls that are neither load nor save. -/
def plain (v : Ev) : Prop := v ≠ .loadCheckpoint ∧ ∀ e, v ≠ .saveCheckpoint e

theorem call_plain (f : Ev → S → S) (v : Ev) (h : plain v) (p : Proc S) : (resumable f).call v p = ({ p with vol := f v p.vol }, none) := by
  cases v <;> first | rfl | exact absurd rfl h.1 | exact absurd rfl (h.2 _)

theorem exec_plain (f : Ev → S → S) (vs : List Ev) (h : ∀ v ∈ vs, plain v) (p : Proc S) :
    (execList (resumable f) vs p).exc = none ∧ (execList (resumable f) vs p).state = { p with vol := vs.foldl (fun s v => f v s) p.vol } := by
  induction vs generalizing p with
  | nil => exact ⟨rfl, rfl⟩
  | cons v vs ih =>
    simp only [execList]
    rw [call_plain f v (h v (by simp)) p]
    simp only []
    obtain ⟨h1, h2⟩ := ih (fun v hv => h v (by simp [hv])) { p with vol := f v p.vol }
    exact ⟨h1, h2⟩

theorem exec_ok (f : Ev → S → S) (vs : List Ev) (p : Proc S) : (execList (resumable f) vs p).exc = none := by
  induction vs generalizing p with
  | nil => rfl
  | cons v vs ih =>
    have hc : ((resumable f).call v p).2 = none := by cases v <;> rfl
    simp only [execList]
    rcases h : (resumable f).call v p with ⟨w', _ | x⟩
    · exact ih w'
    · rw [h] at hc; simp at hc

theorem exec_append_state (f : Ev → S → S) (a b : List Ev) (p : Proc S) :
    (execList (resumable f) (a ++ b) p).state = (execList (resumable f) b (execList (resumable f) a p).state).state := by
  rw [exec_append]
  simp [seq, exec_ok]

theorem map_plain (n : Nat) (g : Nat → Ev) (hg : ∀ k, plain (g k)) : ∀ v ∈ (List.range n).map g, plain v := by
  intro v hv
  obtain ⟨k, -, rfl⟩ := List.mem_map.mp hv
  exact hg k

theorem update_plain (c : Conf) (i e : Nat) : ∀ v ∈ updateOrder c i e, plain v := by
  intro v hv
  unfold updateOrder at hv
  simp only [List.mem_append, List.mem_flatMap, List.mem_singleton] at hv
  have mp := fun n g hg => map_plain n g hg v
  rcases hv with ((((rfl | ⟨ag, -, hv⟩) | hv) | hv) | rfl) | hv
  · simp [plain]
  · rcases hv with (((((rfl | hv) | rfl) | hv) | hv) | rfl) | hv
    · simp [plain]
    · exact mp _ _ (by simp [plain]) hv
    · simp [plain]
    · exact mp _ _ (by simp [plain]) hv
    · exact mp _ _ (by simp [plain]) hv
    · simp [plain]
    · exact mp _ _ (by simp [plain]) hv
  · by_cases hr : c.comm = true ∧ c.grads ≠ 0
    · rw [if_pos hr] at hv
      simp only [List.mem_append, List.mem_singleton] at hv
      rcases hv with (hv | rfl) | hv
      · exact mp _ _ (by simp [plain]) hv
      · simp [plain]
      · exact mp _ _ (by simp [plain]) hv
    · rw [if_neg hr] at hv; simp at hv
  · exact mp _ _ (by simp [plain]) hv
  · simp [plain]
  · exact mp _ _ (by simp [plain]) hv

theorem eval_plain (c : Conf) (e : Nat) : ∀ v ∈ evalOrder c e, plain v := by
  intro v hv
  simp only [evalOrder, List.mem_append, List.mem_map, List.mem_flatMap] at hv
  rcases hv with (⟨k, -, rfl⟩ | ⟨k, -, hk⟩) | ⟨k, -, rfl⟩
  · simp [plain]
  · simp only [List.mem_cons, List.not_mem_nil, or_false] at hk
    rcases hk with rfl | rfl <;> simp [plain]
  · simp [plain]

/-- An epoch without its last call. -/
def epochBody (c : Conf) (e : Nat) : List Ev :=
  [.epochStart e] ++ evalOrder c e ++
  (List.range c.iterPerEpoch).flatMap (fun i => [.iterStart i e] ++ updateOrder c i e ++ [.iterEnd i e]) ++ [.epochEnd e]

theorem epoch_split (c : Conf) (e : Nat) : epochOrder c e = epochBody c e ++ [.saveCheckpoint e] := by
  simp [epochOrder, epochBody]

theorem body_plain (c : Conf) (e : Nat) : ∀ v ∈ epochBody c e, plain v := by
  intro v hv
  unfold epochBody at hv
  simp only [List.mem_append, List.mem_singleton, List.mem_flatMap] at hv
  rcases hv with ((rfl | hv) | ⟨i, -, (rfl | hv) | rfl⟩) | rfl
  · simp [plain]
  · exact eval_plain c e v hv
  · simp [plain]
  · exact update_plain c i e v hv
  · simp [plain]
  · simp [plain]

/-- Epochs `k .. k+m-1` on a process in the state after `k` epochs. -/
theorem exec_epochs (f : Ev → S → S) (c : Conf) (s0 : S) (k m : Nat) (p : Proc S) (hv : p.vol = epochs f c s0 k) :
    (execList (resumable f) ((List.range m).flatMap fun j => epochOrder c (k + j)) p).state.vol = epochs f c s0 (k + m) ∧
    (execList (resumable f) ((List.range m).flatMap fun j => epochOrder c (k + j)) p).state.disk =
      if m = 0 then p.disk else some (k + m, epochs f c s0 (k + m)) := by
  induction m with
  | zero => exact ⟨hv, rfl⟩
  | succ m ih =>
    rw [List.range_succ, List.flatMap_append, exec_append_state]
    set q := (execList (resumable f) ((List.range m).flatMap fun j => epochOrder c (k + j)) p).state
    simp only [List.flatMap_cons, List.flatMap_nil, List.append_nil, epoch_split]
    rw [exec_append_state, (exec_plain f _ (body_plain c _) q).2]
    have e : epochs f c s0 (k + (m + 1)) = f (.saveCheckpoint (k + m)) ((epochBody c (k + m)).foldl (fun s v => f v s) (epochs f c s0 (k + m))) := by
      rw [← Nat.add_assoc, epochs, epoch_split, List.foldl_append, List.foldl_cons, List.foldl_nil]
    rw [e, ih.1]
    exact ⟨rfl, rfl⟩

/-- The disk of a process: nothing, or the state after the number of epochs it says. -/
def Consistent (f : Ev → S → S) (c : Conf) (s0 : S) (done : Nat) (p : Proc S) : Prop :=
  (p.disk = none ∧ done = 0) ∨ p.disk = some (done, epochs f c s0 done)

theorem take_flatMap (g : Nat → List Ev) (m n : Nat) : ∃ j t, j ≤ m ∧ (t = 0 ∨ j < m ∧ t < (g j).length) ∧
    ((List.range m).flatMap g).take n = (List.range j).flatMap g ++ (g j).take t := by
  induction m with
  | zero => exact ⟨0, 0, le_refl _, .inl rfl, by simp⟩
  | succ m ih =>
    rw [List.range_succ, List.flatMap_append]
    by_cases h : n ≤ ((List.range m).flatMap g).length
    · obtain ⟨j, t, h1, h2, h3⟩ := ih
      refine ⟨j, t, by omega, ?_, ?_⟩
      · rcases h2 with h2 | ⟨h2, h4⟩
        · exact .inl h2
        · exact .inr ⟨by omega, h4⟩
      · rw [List.take_append_of_le_length h, h3]
    · rw [List.take_append, List.take_of_length_le (by omega)]
      simp only [List.flatMap_cons, List.flatMap_nil, List.append_nil]
      by_cases h2 : n - ((List.range m).flatMap g).length < (g m).length
      · exact ⟨m, n - ((List.range m).flatMap g).length, by omega, .inr ⟨by omega, h2⟩, rfl⟩
      · refine ⟨m + 1, 0, le_refl _, .inl rfl, ?_⟩
        rw [List.take_of_length_le (by omega), List.range_succ, List.flatMap_append]
        simp

/-- Loading from a consistent disk gives the state after the finished epochs. -/
theorem load_ok (f : Ev → S → S) (c : Conf) (s0 : S) (done : Nat) (p : Proc S) (h : Consistent f c s0 done p) (hv : p.vol = s0) :
    calls c p = .loadCheckpoint :: trainOrder c done ∧
    (execList (resumable f) [.loadCheckpoint] p).state.vol = epochs f c s0 done ∧
    (execList (resumable f) [.loadCheckpoint] p).state.disk = p.disk := by
  rcases h with ⟨h, rfl⟩ | h
  · refine ⟨by simp [calls, h], ?_, ?_⟩ <;> simp [execList, resumable, h, hv, epochs]
  · refine ⟨by simp [calls, h], ?_, ?_⟩ <;> simp [execList, resumable, h]

/-- **C154 (one crash).** Whatever the moment of the crash, the disk afterwards holds the state after some number of complete epochs
of uninterrupted training, at least as many as before. -/
theorem C154_crash (f : Ev → S → S) (hp : ∀ s, f .prepare s = s) (hs : ∀ s, f .saveAtStart s = s) (c : Conf) (s0 : S) (done : Nat) (p : Proc S)
    (h : Consistent f c s0 done p) (hv : p.vol = s0) (n : Nat) :
    ∃ done', done ≤ done' ∧ done' ≤ done + c.maxEpoch ∧ Consistent f c s0 done' (crash f c s0 n p) := by
  obtain ⟨h1, h2, h3⟩ := load_ok f c s0 done p h hv
  unfold crash
  rw [h1]
  have keep : ∀ (vs : List Ev) (p : Proc S), (∀ v ∈ vs, plain v) → ∀ t, ((execList (resumable f) (vs.take t) p).state).disk = p.disk := by
    intro vs p hvs t
    rw [(exec_plain f _ (fun v hv => hvs v (List.mem_of_mem_take hv)) p).2]
  rcases n with _ | n
  · exact ⟨done, le_refl _, by omega, by simpa [execList, Consistent] using h⟩
  rw [List.take_succ_cons, show (Ev.loadCheckpoint :: (trainOrder c done).take n) = [.loadCheckpoint] ++ (trainOrder c done).take n from rfl, exec_append_state]
  set q := (execList (resumable f) [.loadCheckpoint] p).state
  have hq : Consistent f c s0 done { q with vol := s0 } := by
    unfold Consistent at h ⊢
    rw [← h3] at h
    exact h
  unfold trainOrder
  rw [List.append_assoc, List.append_assoc, List.take_append, exec_append_state]
  have hpre : ∀ v ∈ [Ev.prepare, .saveAtStart], plain v := by simp [plain]
  rcases Nat.lt_or_ge n 2 with hn | hn
  · refine ⟨done, le_refl _, by omega, ?_⟩
    have : n - [Ev.prepare, Ev.saveAtStart].length = 0 := by simp; omega
    rw [this, List.take_zero]
    unfold Consistent at hq ⊢
    simp only [execList] at hq ⊢
    rw [keep _ q hpre n]
    exact hq
  · rw [List.take_of_length_le (l := [Ev.prepare, .saveAtStart]) (by simpa using hn)]
    rw [(exec_plain f _ hpre q).2]
    simp only [List.foldl_cons, List.foldl_nil, hp, hs]
    rw [List.take_append]
    obtain ⟨j, t, hj, ht, hjt⟩ := take_flatMap (fun k => epochOrder c (done + k)) c.maxEpoch (n - [Ev.prepare, Ev.saveAtStart].length)
    rw [hjt, List.append_assoc, exec_append_state]
    obtain ⟨e1, e2⟩ := exec_epochs f c s0 done j q h2
    have e2' : Consistent f c s0 (done + j) { (execList (resumable f) ((List.range j).flatMap fun k => epochOrder c (done + k)) q).state with vol := s0 } := by
      unfold Consistent at hq ⊢
      by_cases hj0 : j = 0
      · subst hj0; simpa [execList] using hq
      · right; simp only [e2, if_neg hj0]
    set r := (execList (resumable f) ((List.range j).flatMap fun k => epochOrder c (done + k)) q).state
    refine ⟨done + j, by omega, by omega, ?_⟩
    rw [exec_append_state]
    have hb : ∀ t, t < (epochOrder c (done + j)).length → (execList (resumable f) ((epochOrder c (done + j)).take t) r).state.disk = r.disk := by
      intro t ht
      rw [epoch_split] at ht ⊢
      rw [List.take_append_of_le_length (by simp at ht; omega)]
      exact keep _ r (body_plain c _) t
    have hrest : ∀ v ∈ evalOrder c c.maxEpoch ++ [Ev.saveAtEnd, .complete], plain v := by
      intro v hv
      rcases List.mem_append.mp hv with hv | hv
      · exact eval_plain c _ v hv
      · simp only [List.mem_cons, List.not_mem_nil, or_false] at hv
        rcases hv with rfl | rfl <;> simp [plain]
    unfold Consistent at e2' ⊢
    simp only [] at e2' ⊢
    rw [keep _ _ hrest]
    have : (execList (resumable f) ((epochOrder c (done + j)).take t) r).state.disk = r.disk := by
      rcases ht with rfl | ⟨-, ht⟩
      · simp [execList]
      · exact hb t ht
    rw [this]
    exact e2'

/-- Any number of crashes. -/
def crashes (f : Ev → S → S) (c : Conf) (s0 : S) : List Nat → Proc S → Proc S
  | [], p => p
  | n :: ns, p => crashes f c s0 ns (crash f c s0 n p)

/-- **C154 (resume, partial).** After any number of crashes at any moments, train() ends in the state that uninterrupted training of
the finished epochs plus max_epoch more has before its final evaluation: no update is lost or made twice. Partial: this needs a
training_prepare that keeps the loaded state (`C154_prepare_refuted`), and max_epoch is not the total (`C154_total_refuted`). -/
theorem C154_resume_partial (f : Ev → S → S) (hp : ∀ s, f .prepare s = s) (hs : ∀ s, f .saveAtStart s = s) (c : Conf) (s0 : S) (ns : List Nat) :
    ∃ done, done ≤ ns.length * c.maxEpoch ∧ ((crashes f c s0 ns ⟨s0, none, 0⟩).disk.map Prod.fst).getD 0 = done ∧
      let r := train (resumable f) c (crashes f c s0 ns ⟨s0, none, 0⟩)
      r.exc = none ∧ (0 < done + c.maxEpoch → r.state.disk = some (done + c.maxEpoch, epochs f c s0 (done + c.maxEpoch))) ∧
      r.state.vol = (evalOrder c c.maxEpoch ++ [Ev.saveAtEnd, .complete]).foldl (fun s v => f v s) (epochs f c s0 (done + c.maxEpoch)) := by
  have main : ∀ ns p d, Consistent f c s0 d p → p.vol = s0 →
      ∃ d', d' ≤ d + ns.length * c.maxEpoch ∧ Consistent f c s0 d' (crashes f c s0 ns p) ∧ (crashes f c s0 ns p).vol = s0 := by
    intro ns
    induction ns with
    | nil => intro p d h hv; exact ⟨d, by simp, h, hv⟩
    | cons n ns ih =>
      intro p d h hv
      obtain ⟨d1, -, h2, h3⟩ := C154_crash f hp hs c s0 d p h hv n
      obtain ⟨d2, k1, k2, k3⟩ := ih (crash f c s0 n p) d1 h3 rfl
      exact ⟨d2, by rw [List.length_cons, Nat.add_mul]; omega, k2, k3⟩
  obtain ⟨d, hd, hc, hv⟩ := main ns ⟨s0, none, 0⟩ 0 (.inl ⟨rfl, rfl⟩) rfl
  refine ⟨d, by simpa using hd, ?_, ?_⟩
  · rcases hc with ⟨hc, rfl⟩ | hc <;> simp [hc]
  intro r
  obtain ⟨h1, h2, h3⟩ := load_ok f c s0 d _ hc hv
  have hr : r = execList (resumable f) ([.loadCheckpoint] ++ trainOrder c d) (crashes f c s0 ns ⟨s0, none, 0⟩) := by
    show train _ _ _ = _
    rw [resumable_order, h1]; rfl
  have hx : r.exc = none := by rw [hr]; exact exec_ok _ _ _
  refine ⟨hx, ?_⟩
  rw [hr, exec_append_state]
  set q := (execList (resumable f) [.loadCheckpoint] (crashes f c s0 ns ⟨s0, none, 0⟩)).state
  unfold trainOrder
  rw [List.append_assoc, List.append_assoc, exec_append_state, (exec_plain f [.prepare, .saveAtStart] (by simp [plain]) q).2]
  simp only [List.foldl_cons, List.foldl_nil, hp, hs]
  rw [exec_append_state]
  obtain ⟨e1, e2⟩ := exec_epochs f c s0 d c.maxEpoch q h2
  have hrest : ∀ v ∈ evalOrder c c.maxEpoch ++ [Ev.saveAtEnd, .complete], plain v := by
    intro v hv
    rcases List.mem_append.mp hv with hv | hv
    · exact eval_plain c _ v hv
    · simp only [List.mem_cons, List.not_mem_nil, or_false] at hv
      rcases hv with rfl | rfl <;> simp [plain]
  rw [(exec_plain f _ hrest _).2]
  refine ⟨?_, ?_⟩
  · intro hpos
    show (execList (resumable f) ((List.range c.maxEpoch).flatMap fun j => epochOrder c (d + j)) q).state.disk = _
    rw [e2]
    by_cases hm : c.maxEpoch = 0
    · rw [if_pos hm, h3, hm]
      rcases hc with ⟨-, rfl⟩ | hc
      · omega
      · exact hc
    · rw [if_neg hm]
  · show (evalOrder c c.maxEpoch ++ [Ev.saveAtEnd, Ev.complete]).foldl _
      (execList (resumable f) ((List.range c.maxEpoch).flatMap fun j => epochOrder c (d + j)) q).state.vol = _
    rw [e1]

/-- Counting the epochs. -/
def counter : Ev → Nat → Nat
  | .epochEnd _, n => n + 1
  | _, n => n

/-- One epoch without iterations. -/
def tiny : Conf := ⟨1, 0, 1, 0, false, 0, 0, 0, 0, 0, 0, 0, 0, 0, 0, 0⟩

example : (∀ s, counter .prepare s = s) ∧ ∀ s, counter .saveAtStart s = s := ⟨fun _ => rfl, fun _ => rfl⟩

/-- **C154 (refuted: the total).** max_epoch is not the number of epochs of the training: a crash after the last checkpoint of a
training with max_epoch = 1 and a restart give two epochs. -/
theorem C154_total_refuted : (train (resumable counter) tiny (crash counter tiny 0 7 ⟨0, none, 0⟩)).state.vol = 2 ∧
    (train (resumable counter) tiny ⟨0, none, 0⟩).state.vol = 1 := ⟨rfl, rfl⟩

/-- Parameters and solver state; training_prepare makes a new solver, as Worker._solver_init does (worker.py:164-167, 474-489). -/
def withSolver : Ev → Nat × Nat → Nat × Nat
  | .prepare, s => (s.1, 0)
  | .epochEnd _, s => (s.1 + 1, s.2 + 1)
  | _, s => s

/-- **C154 (refuted: training_prepare).** train() loads the checkpoint before training_prepare creates the solver: a solver state that
load_checkpoint restored is replaced by a new one, and the resumed training differs from the uninterrupted one. -/
theorem C154_prepare_refuted : (train (resumable withSolver) tiny (crash withSolver tiny (0, 0) 7 ⟨(0, 0), none, 0⟩)).state.vol = (2, 1) ∧
    epochs withSolver tiny (0, 0) 2 = (2, 2) := ⟨rfl, rfl⟩

end Verif.Framework
