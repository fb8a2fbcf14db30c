import Verif.Data.Lemmas
import Verif.Data.Sources
/-
Generic facts: an iterator over a source that re-orders in `reset` only.
-/
namespace Verif.Data
variable {S D : Type}

/-- `st j` is the source state before sample `j`, `v j` the sample. -/
structure StreamOf (src : Source S D) (size n : Nat) (st : Nat → S) (v : Nat → D) : Prop where
  apply : ∀ s, src.applyOrder s = s
  step : ∀ j, ∃ s1, src.next (st j) = (some (v j), s1) ∧ (src.pos s1 ≥ size ↔ n ∣ j + 1) ∧
    (if n ∣ j + 1 then src.reset s1 else s1) = st (j + 1)

theorem StreamOf.loop {src : Source S D} {size n : Nat} {st : Nat → S} {v : Nat → D}
    (h : StreamOf src size n st v) (B b j : Nat) (acc : List D) (r : Nat) :
    batchLoop src ⟨size, B, false⟩ b (st j) acc r =
      (some (acc ++ (List.range b).map (fun i => v (j + i)), r + ((j + b) / n - j / n)), st (j + b)) := by
  induction b generalizing j acc r with
  | zero => simp [batchLoop, h.apply]
  | succ b ih =>
    obtain ⟨s1, hn, hp, hs⟩ := h.step j
    rw [batchLoop, hn]
    simp only
    have hrange : (List.range (b + 1)).map (fun i => v (j + i))
        = v j :: (List.range b).map (fun i => v (j + 1 + i)) := by
      rw [List.range_succ_eq_map]
      simp only [List.map_cons, List.map_map, Nat.add_zero]
      congr 1
      apply List.map_congr_left
      intro i _
      simp only [Function.comp]
      congr 1; omega
    have hj : j + 1 + b = j + (b + 1) := by omega
    have hd : (j + 1) / n = j / n + if n ∣ j + 1 then 1 else 0 := Nat.succ_div ..
    have hle : (j + 1) / n ≤ (j + (b + 1)) / n := Nat.div_le_div_right (by omega)
    by_cases hdv : n ∣ j + 1
    · rw [if_pos ⟨hp.2 hdv, trivial⟩]
      rw [if_pos hdv] at hs hd
      rw [hs, ih, hrange, hj]
      simp only [List.append_assoc, List.singleton_append]
      have : r + 1 + ((j + (b + 1)) / n - (j + 1) / n) = r + ((j + (b + 1)) / n - j / n) := by omega
      rw [this]
    · rw [if_neg (by rw [hp]; simp [hdv])]
      rw [if_neg hdv] at hs hd
      rw [hs, ih, hrange, hj]
      simp only [List.append_assoc, List.singleton_append]
      have : r + ((j + (b + 1)) / n - (j + 1) / n) = r + ((j + (b + 1)) / n - j / n) := by omega
      rw [this]

theorem StreamOf.after {src : Source S D} {size n : Nat} {st : Nat → S} {v : Nat → D}
    (h : StreamOf src size n st v) (B k : Nat) :
    after (nextPlain src ⟨size, B, false⟩) k ⟨st 0, 0, []⟩
      = ⟨st (k * B), k * B / n, events 0 (k * B / n)⟩ ∧
    nth (nextPlain src ⟨size, B, false⟩) k ⟨st 0, 0, []⟩
      = .batch ((List.range B).map fun i => v (k * B + i)) := by
  have step : ∀ j e log, nextPlain src ⟨size, B, false⟩ ⟨st j, e, log⟩ =
      (.batch ((List.range B).map fun i => v (j + i)),
        ⟨st (j + B), e + ((j + B) / n - j / n), log ++ events e ((j + B) / n - j / n)⟩) := by
    intro j e log
    unfold nextPlain fetch
    rw [if_neg (by simp)]
    simp only
    rw [h.loop B B j [] 0]
    simp [runCallbacks_eq]
  have inv : Verif.Data.after (nextPlain src ⟨size, B, false⟩) k ⟨st 0, 0, []⟩
      = ⟨st (k * B), k * B / n, events 0 (k * B / n)⟩ := by
    induction k with
    | zero => simp [after_zero, events]
    | succ k ih =>
      rw [after_succ, ih, step]
      have hle := mul_div_mono k B n
      rw [Nat.succ_mul] at hle ⊢
      have e : (k * B + B) / n = k * B / n + ((k * B + B) / n - k * B / n) := by omega
      simp only
      congr 1
      · omega
      · conv => rhs; rw [e, events_add, Nat.zero_add]
  exact ⟨inv, by unfold nth; rw [inv, step]⟩

/-- Samples `[a, a+len)` of the stream of outputs: every output is a batch and the batches
concatenated are the stream. -/
theorem StreamOf.stream {src : Source S D} {size n : Nat} {st : Nat → S} {v : Nat → D}
    (h : StreamOf src size n st v) (B k : Nat) :
    (iter (nextPlain src ⟨size, B, false⟩) k ⟨st 0, 0, []⟩).1 =
      (List.range k).map fun q => .batch ((List.range B).map fun i => v (q * B + i)) := by
  rw [iter_eq_map]
  apply List.map_congr_left
  intro q _
  exact (h.after B q).2

theorem window_perm {α : Type} (f : Nat → α) (o : List Nat) (n : Nat) (ho : o.Perm (List.range n))
    (w : Nat → α) (hw : ∀ p < n, w p = f (o[p]?.getD 0)) :
    ((List.range n).map w).Perm ((List.range n).map f) := by
  have h1 : (List.range n).map w = o.map f := by
    have hl : o.length = n := by rw [ho.length_eq]; simp
    apply List.ext_getElem
    · simp [hl]
    · intro i h1 h2
      simp only [List.length_map, List.length_range] at h1
      simp only [List.getElem_map, List.getElem_range]
      rw [hw i h1, List.getElem?_eq_getElem (by omega)]
      rfl
  rw [h1]
  exact ho.map f

theorem iterate_stream (src : Source S D) (size n : Nat) (Inv : Nat → S → Prop) (v : Nat → D) (s0 : S)
    (happ : ∀ s, src.applyOrder s = s) (h0 : Inv 0 s0)
    (hstep : ∀ j s, Inv j s → ∃ s1, src.next s = (some (v j), s1) ∧ (src.pos s1 ≥ size ↔ n ∣ j + 1) ∧
      Inv (j + 1) (if n ∣ j + 1 then src.reset s1 else s1)) :
    ∃ st, st 0 = s0 ∧ StreamOf src size n st v ∧ ∀ j, Inv j (st j) := by
  let st : Nat → S := fun j => Nat.rec s0 (fun j s =>
    if n ∣ j + 1 then src.reset (src.next s).2 else (src.next s).2) j
  have hI : ∀ j, Inv j (st j) := by
    intro j
    induction j with
    | zero => exact h0
    | succ j ih =>
      obtain ⟨s1, hn, -, hi⟩ := hstep j (st j) ih
      show Inv (j + 1) (if n ∣ j + 1 then src.reset (src.next (st j)).2 else (src.next (st j)).2)
      rw [hn]; exact hi
  refine ⟨st, rfl, ⟨happ, ?_⟩, hI⟩
  intro j
  obtain ⟨s1, hn, hp, -⟩ := hstep j (st j) (hI j)
  refine ⟨s1, hn, hp, ?_⟩
  show _ = (if n ∣ j + 1 then src.reset (src.next (st j)).2 else (src.next (st j)).2)
  rw [hn]

theorem dvd_succ_iff_mod {n j : Nat} (hn : 0 < n) : n ∣ j + 1 ↔ j % n + 1 ≥ n := by
  have h1 := Nat.mod_lt j hn
  rw [Nat.dvd_iff_mod_eq_zero]
  by_cases h : j % n + 1 = n
  · have : (j + 1) % n = 0 := by
      have : j + 1 = (j % n + 1) + n * (j / n) := by have := Nat.mod_add_div j n; omega
      rw [this, Nat.add_mul_mod_self_left, h, Nat.mod_self]
    omega
  · have : (j + 1) % n = j % n + 1 := by
      have h2 : j + 1 = (j % n + 1) + n * (j / n) := by have := Nat.mod_add_div j n; omega
      rw [h2, Nat.add_mul_mod_self_left, Nat.mod_eq_of_lt (by omega)]
    omega

theorem succ_mod_div {n j : Nat} (hn : 0 < n) :
    if n ∣ j + 1 then (j + 1) % n = 0 ∧ (j + 1) / n = j / n + 1 ∧ j % n + 1 = n
    else (j + 1) % n = j % n + 1 ∧ (j + 1) / n = j / n ∧ j % n + 1 < n := by
  have hd : (j + 1) / n = j / n + if n ∣ j + 1 then 1 else 0 := Nat.succ_div ..
  have h1 := Nat.mod_lt j hn
  have h2 := dvd_succ_iff_mod (j := j) hn
  split
  · rename_i h
    rw [if_pos h] at hd
    have := Nat.mod_eq_zero_of_dvd h
    have := h2.1 h
    omega
  · rename_i h
    have hd : (j + 1) / n = j / n := by rw [if_neg h] at hd; exact hd
    have h3 : ¬ j % n + 1 ≥ n := fun hh => h (h2.2 hh)
    have e1 := Nat.mod_add_div j n
    have e2 := Nat.mod_add_div (j + 1) n
    have e3 : (j + 1) % n + n * (j / n) = j + 1 := by rw [hd] at e2; exact e2
    clear e2 h2
    refine ⟨?_, hd, by omega⟩
    clear hd
    omega

end Verif.Data
