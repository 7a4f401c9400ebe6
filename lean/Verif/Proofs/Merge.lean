import Verif.Props.FairCluster

/-!
# Sequences of events with times, merged
-/

namespace Verif

local macro "tomega" : tactic => `(tactic| (dsimp only [Time] at *; omega))

/-- The events of several proxies, in the order of their times: `pos n i` events of proxy `i` are among the first `n`, and event `n` is one of proxy `who n`. -/
structure Merged (N : Nat) (f : Nat → Nat → Time) (base : Time) (pos : Nat → Nat → Nat) (who : Nat → Nat) (time : Nat → Time) : Prop where
  pos0 : ∀ j, pos 0 j = 0
  time0 : time 0 = base
  lt : ∀ n, who n < N
  move : ∀ n j, pos (n + 1) j = if j = who n then pos n j + 1 else pos n j
  here : ∀ n, time (n + 1) = f (who n) (pos n (who n) + 1)
  first : ∀ n j, j < N → time (n + 1) ≤ f j (pos n j + 1)

theorem least_of {N : Nat} (h : 0 < N) (g : Nat → Time) : ∃ i, i < N ∧ ∀ j, j < N → g i ≤ g j := by
  induction N with
  | zero => omega
  | succ N ih =>
    by_cases h0 : N = 0
    · subst h0
      exact ⟨0, by omega, fun j hj => by rw [show j = 0 by omega]⟩
    · obtain ⟨i, hi, hmin⟩ := ih (by omega)
      by_cases hle : g i ≤ g N
      · exact ⟨i, by omega, fun j hj => by
          by_cases e : j = N
          · rw [e]; exact hle
          · exact hmin j (by omega)⟩
      · exact ⟨N, by omega, fun j hj => by
          by_cases e : j = N
          · rw [e]
          · have := hmin j (by omega); tomega⟩

theorem merged_exists {N : Nat} (h : 0 < N) (f : Nat → Nat → Time) (base : Time) : ∃ pos who time, Merged N f base pos who time := by
  obtain ⟨pick, hpick⟩ := Classical.axiomOfChoice fun c : Nat → Nat => least_of h fun i => f i (c i + 1)
  let step : (Nat → Nat) → Nat → Nat := fun c j => if j = pick c then c j + 1 else c j
  let pos : Nat → Nat → Nat := fun n => Nat.rec (fun _ => 0) (fun _ c => step c) n
  exact ⟨pos, fun n => pick (pos n), fun | 0 => base | n + 1 => f (pick (pos n)) (pos n (pick (pos n)) + 1),
    ⟨fun _ => rfl, rfl, fun n => (hpick _).1, fun _ _ => rfl, fun _ => rfl, fun n j hj => (hpick (pos n)).2 j hj⟩⟩

theorem sum_update (N w : Nat) (g : Nat → Nat) : ((List.range N).map fun j => if j = w then g j + 1 else g j).sum = ((List.range N).map g).sum + if w < N then 1 else 0 := by
  induction N with
  | zero => rfl
  | succ N ih =>
    rw [List.range_succ, List.map_append, List.map_append, List.sum_append, List.sum_append, ih]
    simp only [List.map_cons, List.map_nil, List.sum_cons, List.sum_nil, Nat.add_zero]
    by_cases h : N = w
    · subst h
      rw [if_pos rfl, if_neg (Nat.lt_irrefl _), if_pos (Nat.lt_succ_self _)]; omega
    · rw [if_neg h]
      by_cases h' : w < N
      · rw [if_pos h', if_pos (by omega)]; omega
      · rw [if_neg h', if_neg (by omega)]; omega

section merged

variable {N : Nat} {f : Nat → Nat → Time} {base : Time} {pos : Nat → Nat → Nat} {who : Nat → Nat} {time : Nat → Time}

theorem Merged.upper (h : Merged N f base pos who time) (hm : ∀ i m, i < N → f i m ≤ f i (m + 1)) (h0 : ∀ i, i < N → f i 0 = base) (n : Nat) {j : Nat} (hj : j < N) : time n ≤ f j (pos n j + 1) := by
  cases n with
  | zero => rw [h.time0, h.pos0, ← h0 j hj]; exact hm j 0 hj
  | succ n =>
    by_cases e : j = who n
    · rw [h.here, h.move, if_pos e, ← e]; exact hm _ _ hj
    · rw [h.move, if_neg e]; exact h.first n j hj

theorem Merged.mono (h : Merged N f base pos who time) (hm : ∀ i m, i < N → f i m ≤ f i (m + 1)) (h0 : ∀ i, i < N → f i 0 = base) (n : Nat) : time n ≤ time (n + 1) := by
  rw [h.here]; exact h.upper hm h0 n (h.lt n)

theorem Merged.lower (h : Merged N f base pos who time) (hm : ∀ i m, i < N → f i m ≤ f i (m + 1)) (h0 : ∀ i, i < N → f i 0 = base) (n : Nat) {j : Nat} (hj : j < N) : f j (pos n j) ≤ time n := by
  induction n with
  | zero => rw [h.time0, h.pos0, h0 j hj]
  | succ n ih =>
    by_cases e : j = who n
    · rw [h.here, h.move, if_pos e, ← e]
    · rw [h.move, if_neg e]; exact Int.le_trans ih (h.mono hm h0 n)

theorem Merged.total (h : Merged N f base pos who time) (n : Nat) : ((List.range N).map (pos n)).sum = n := by
  induction n with
  | zero =>
    rw [show pos 0 = fun _ => 0 from funext h.pos0]
    clear h
    induction N with
    | zero => rfl
    | succ N ih => rw [List.range_succ, List.map_append, List.sum_append, ih]; rfl
  | succ n ih => rw [show pos (n + 1) = fun j => if j = who n then pos n j + 1 else pos n j from funext (h.move n), sum_update, ih, if_pos (h.lt n)]

theorem sum_bound {N : Nat} {P : Nat → Nat → Prop} (h : ∀ i, i < N → ∃ K, ∀ m, P i m → m ≤ K) : ∃ K, ∀ g : Nat → Nat, (∀ i, i < N → P i (g i)) → ((List.range N).map g).sum ≤ K := by
  induction N with
  | zero => exact ⟨0, fun _ _ => Nat.le_refl _⟩
  | succ N ih =>
    obtain ⟨K, hK⟩ := ih fun i hi => h i (by omega)
    obtain ⟨K', hK'⟩ := h N (by omega)
    refine ⟨K + K', fun g hg => ?_⟩
    rw [List.range_succ, List.map_append, List.sum_append]
    have h1 := hK g fun i hi => hg i (by omega)
    have h2 := hK' _ (hg N (by omega))
    simp only [List.map_cons, List.map_nil, List.sum_cons, List.sum_nil]
    omega

/-- Every proxy has its turn again and again. -/
theorem Merged.slow (h : Merged N f base pos who time) (hm : ∀ i m, i < N → f i m ≤ f i (m + 1)) (h0 : ∀ i, i < N → f i 0 = base) (hu : ∀ i, i < N → ∀ T, ∃ m, T < f i m) {j : Nat} (hj : j < N) :
    Slow fun n => pos n j where
  zero := h.pos0 j
  next := fun n => by
    show pos (n + 1) j = _ ∨ pos (n + 1) j = _
    rw [h.move]
    by_cases e : j = who n
    · exact .inr (if_pos e)
    · exact .inl (if_neg e)
  again := fun n => by
    refine Classical.byContradiction fun hn => ?_
    have same : ∀ m, n ≤ m → pos m j = pos n j := fun m hm' => by
      induction hm' with
      | refl => rfl
      | @step m hm' ih =>
        show pos (m + 1) j = _
        by_cases e : j = who m
        · exact absurd ⟨m, hm', by show pos (m + 1) j = _; rw [h.move, if_pos e]⟩ hn
        · rw [h.move, if_neg e]; exact ih
    obtain ⟨K, hK⟩ := sum_bound (N := N) (P := fun i m => f i m ≤ f j (pos n j + 1)) fun i hi => by
      obtain ⟨K, hK⟩ := hu i hi (f j (pos n j + 1))
      refine ⟨K, fun m hm' => Classical.byContradiction fun e => ?_⟩
      have := mono_of_step (f := f i) (fun m => hm i m hi) (show K ≤ m by omega)
      tomega
    have := hK (pos (n + K + 1)) fun i hi => by
      have h1 := h.lower hm h0 (n + K + 1) hi
      have h2 := h.upper hm h0 (n + K + 1) hj
      rw [same _ (by omega)] at h2
      exact Int.le_trans h1 h2
    rw [h.total] at this
    omega

/-- When event `M` of a proxy has its turn, it is the time of this event. -/
theorem Merged.turn (h : Merged N f base pos who time) {n j M : Nat} (h1 : pos n j = M) (h2 : pos (n + 1) j = M + 1) : time (n + 1) = f j (M + 1) := by
  have e : j = who n := Classical.byContradiction fun e => by
    rw [h.move, if_neg e] at h2
    omega
  rw [h.here, ← e, h1]

end merged

end Verif
