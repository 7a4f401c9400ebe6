import Verif.Props.Timely
import Verif.Props.Held
import Verif.Spec.Load

/-!
# Under which load nothing is discarded: C129
-/

namespace Verif

open Spec

variable {κ : Type} {conv : κ → Span → Option Span × κ} {k : κ} {r : Execution conv k} {time : Nat → Time}

local macro "tomega" : tactic => `(tactic| (dsimp only [Time] at *; omega))

/-! ## The steps of the sink -/

/-- What a step does to the sink. -/
inductive SinkMove (w w' : SinkRun) : Prop
  | same : w'.log = w.log → w'.times = w.times → w'.received = w.received → w'.sink.spanCount = w.sink.spanCount → w'.sink.lastFlushTime = w.sink.lastFlushTime → SinkMove w w'
  | more (l : List Span) : w'.log = w.log → w'.times = w.times → w'.received = w.received ++ [l] → w'.sink.spanCount = w.sink.spanCount + l.length →
      w'.sink.lastFlushTime = w.sink.lastFlushTime → SinkMove w w'
  | full (l : List Span) (b : ByTrace) (now : Time) : w'.log = w.log ++ [(decide (w.sink.grouped.length < 8), b)] → w'.times = w.times ++ [now] → w'.received = w.received ++ [l] →
      1000 ≤ w.sink.spanCount + l.length → w'.sink.spanCount = 0 → w'.sink.lastFlushTime = some now → SinkMove w w'
  | flush (b : ByTrace) (now : Time) : w'.log = w.log ++ [(decide (w.sink.grouped.length < 8), b)] → w'.times = w.times ++ [now] → w'.received = w.received →
      w'.sink.spanCount = 0 → w'.sink.lastFlushTime = some now → SinkMove w w'

theorem flush_cases (k : Sink) (f : Bool) (now : Time) :
    ((k.flush f now) = (k, none) ∧ ¬ (f = true ∧ 0 < k.spanCount)) ∨
    (f = true ∧ (k.flush f now).2 = some (decide (k.grouped.length < 8), k.byTrace) ∧ (k.flush f now).1.spanCount = 0 ∧ (k.flush f now).1.lastFlushTime = some now) := by
  unfold Sink.flush
  by_cases h : f = true ∧ k.spanCount > 0
  · right
    rw [if_pos h]
    dsimp only
    by_cases h' : k.grouped.length < 8
    · rw [if_pos h']; exact ⟨h.1, by simp [h'], rfl, rfl⟩
    · rw [if_neg h']; exact ⟨h.1, by simp [h'], rfl, rfl⟩
  · left
    rw [if_neg h]; exact ⟨rfl, h⟩

theorem adds_same : ∀ (l : List Span) (k : Sink), (l.foldl Sink.addSpan k).lastFlushTime = k.lastFlushTime ∧ (l.foldl Sink.addSpan k).spanCount = k.spanCount ∧
    (l.foldl Sink.addSpan k).grouped = k.grouped := by
  intro l
  induction l with
  | nil => intro k; exact ⟨rfl, rfl, rfl⟩
  | cons x l ih => intro k; rw [List.foldl_cons]; exact ih _

theorem sinkRun_receive (w : SinkRun) (l : List Span) (now : Time) : SinkMove w (w.receive l now) := by
  obtain ⟨a1, a2, a3⟩ := adds_same l w.sink
  have hr : w.sink.receive l now = Sink.flush { l.foldl Sink.addSpan w.sink with spanCount := (l.foldl Sink.addSpan w.sink).spanCount + l.length }
      (decide ((l.foldl Sink.addSpan w.sink).spanCount + l.length ≥ 1000)) now := rfl
  unfold SinkRun.receive
  rw [hr]
  rcases flush_cases { l.foldl Sink.addSpan w.sink with spanCount := (l.foldl Sink.addSpan w.sink).spanCount + l.length }
      (decide ((l.foldl Sink.addSpan w.sink).spanCount + l.length ≥ 1000)) now with ⟨h, _⟩ | ⟨h1, h2, h3, h4⟩
  · rw [h]
    exact .more l (by simp) (by simp) rfl (congrArg (· + l.length) a2) a1
  · refine .full l (l.foldl Sink.addSpan w.sink).byTrace now ?_ ?_ rfl ?_ h3 h4
    · dsimp only; rw [h2, a3]; rfl
    · dsimp only; rw [h2]; rfl
    · rw [← a2]; exact of_decide_eq_true h1

theorem sinkRun_tick (w : SinkRun) (since now : Time) : SinkMove w (w.tick since now) := by
  unfold SinkRun.tick Sink.tick
  rcases flush_cases w.sink (w.sink.due since) now with ⟨h, _⟩ | ⟨h1, h2, h3, h4⟩
  · rw [h]
    exact .same (by simp) (by simp) rfl rfl rfl
  · refine .flush w.sink.byTrace now ?_ ?_ rfl h3 h4
    · dsimp only; rw [h2]; rfl
    · dsimp only; rw [h2]; rfl

theorem sink_move {o o' : List Parsed} {s s' : System κ} (h : System.Next conv o s o' s') : SinkMove s.sink s'.sink := by
  cases h with
  | step h =>
    cases h with
    | sinkRead now hb => exact sinkRun_receive _ _ _
    | _ => exact .same rfl rfl rfl rfl rfl
  | event h =>
    cases h with
    | tick i ho hv hc => exact .same rfl rfl rfl rfl rfl
    | sinkTick since now hb => exact sinkRun_tick _ _ _
    | senderTake hn ht =>
      unfold Sink.takeBatch at ht
      split at ht
      · cases ht
      · cases ht
        exact .same rfl rfl rfl rfl rfl
    | senderSend hb hr => exact .same rfl rfl rfl rfl rfl
  | request o => exact .same rfl rfl rfl rfl rfl
  | stay => exact .same rfl rfl rfl rfl rfl

/-- A step makes one batch at most. -/
theorem batch_step (r : Execution conv k) (n : Nat) : (r.state (n + 1)).sink.log = (r.state n).sink.log ∨
    ∃ b, (r.state (n + 1)).sink.log = (r.state n).sink.log ++ [(decide ((r.state n).sink.sink.grouped.length < 8), b)] := by
  cases sink_move (r.next n) with
  | same h => exact .inl h
  | more l h => exact .inl h
  | full l b now h => exact .inr ⟨b, h⟩
  | flush b now h => exact .inr ⟨b, h⟩

theorem batches_step (r : Execution conv k) (n : Nat) : r.batches n ≤ r.batches (n + 1) ∧ r.batches (n + 1) ≤ r.batches n + 1 := by
  unfold Execution.batches
  rcases batch_step r n with h | ⟨b, h⟩ <;> rw [h] <;> simp

/-! ## The queue of the sender -/

/-- While none is discarded, every batch was sent, is being sent, or waits. -/
theorem batches_account (r : Execution conv k) {n : Nat} (h : (r.state n).NoneDiscarded) :
    r.batches n = (r.state n).sent.length + (r.state n).sending.toList.length + (r.state n).sink.sink.grouped.length := by
  obtain ⟨c, d, inv⟩ := (r.reach n).sentInv
  have hlen := congrArg List.length inv.sink.part.sent
  rw [List.filter_eq_self.mpr h, List.length_map, List.length_append, inv.calls] at hlen
  exact hlen

/-- The last moment before at which something held. -/
theorem last_before {Q : Nat → Prop} {m : Nat} (h0 : Q 0) : ∃ n, n ≤ m ∧ Q n ∧ ∀ j, n < j → j ≤ m → ¬ Q j := by
  induction m with
  | zero => exact ⟨0, Nat.le_refl _, h0, fun j h h' => by omega⟩
  | succ m ih =>
    by_cases hq : Q (m + 1)
    · exact ⟨m + 1, Nat.le_refl _, hq, fun j h h' => by omega⟩
    · obtain ⟨n, hn, h1, h2⟩ := ih
      refine ⟨n, by omega, h1, fun j h h' => ?_⟩
      by_cases e : j = m + 1
      · rw [e]; exact hq
      · exact h2 j h (by omega)

/-- As long as the sender is never idle, it makes a call in each period of this length. -/
theorem calls_while_busy (hc : r.Clock time) {limit : Time} (h0 : 0 ≤ limit) (hl : r.SendsIn time limit) {a b : Nat} (hb : ∀ j, a ≤ j → j ≤ b → ¬ (r.state j).SenderIdle) :
    ∀ (c j : Nat), a ≤ j → j ≤ b → time j + c * limit < time (b + 1) → (r.state j).sent.length + c ≤ (r.state b).sent.length
  | 0, j, _, hj, _ => nat_mono_of_step (f := fun n => (r.state n).sent.length) (sent_mono r) hj
  | c + 1, j, ha, hj, ht => by
    have e : ((c + 1 : Nat) : Int) * limit = c * limit + limit := by rw [Int.natCast_add, Int.add_mul]; simp
    have hcl : 0 ≤ (c : Int) * limit := Int.mul_nonneg (Int.natCast_nonneg _) h0
    rw [e] at ht
    obtain ⟨m, hm, htm, hs⟩ := hl j (by
      refine Classical.byContradiction fun hn => ?_
      obtain ⟨e1, e2⟩ := not_or.mp hn
      exact hb j ha hj ⟨Classical.not_not.mp e1, Classical.not_not.mp e2⟩)
    have hmb : m + 1 ≤ b := Classical.byContradiction fun h => by
      have := hc.le (show b + 1 ≤ m + 1 by omega)
      tomega
    have h1 := sends_calls (r.reach m) hs
    have h2 : (r.state j).sent.length ≤ (r.state m).sent.length := nat_mono_of_step (f := fun n => (r.state n).sent.length) (sent_mono r) hm
    have h3 := calls_while_busy hc h0 hl hb c (m + 1) (by omega) hmb (by tomega)
    omega

theorem none_discarded (hc : r.Clock time) {limit : Time} (h0 : 0 ≤ limit) (hl : r.SendsIn time limit) (hi : (r.state 0).SenderIdle) (hn : (r.state 0).NoneDiscarded)
    (hf : ∀ n m, n ≤ m → r.batches (m + 1) ≤ r.batches n + 8 ∨ limit * ((r.batches (m + 1) : Int) - r.batches n - 8) < time (m + 1) - time (n + 1)) :
    ∀ m, (r.state m).NoneDiscarded := by
  intro m
  induction m with
  | zero => exact hn
  | succ m ih =>
    have hall : ∀ j, j ≤ m → (r.state j).NoneDiscarded := by
      intro j hj e he
      obtain ⟨_, _, inv⟩ := (r.reach j).sentInv
      obtain ⟨_, _, _, _, h2, _⟩ := inv.later hj
      exact ih e (h2.subset he)
    rcases batch_step r m with h | ⟨b, h⟩
    · intro e he
      rw [h] at he
      exact ih e he
    · by_cases hroom : (r.state m).sink.sink.grouped.length < 8
      · intro e he
        rw [h] at he
        rcases List.mem_append.mp he with he | he
        · exact ih e he
        · rw [List.mem_singleton.mp he]; exact decide_eq_true hroom
      · exfalso
        have hX : r.batches (m + 1) = r.batches m + 1 := by
          unfold Execution.batches; rw [h]; simp
        have hm := batches_account r (hall m (Nat.le_refl _))
        obtain ⟨n, hnm, hidle, hbusy⟩ := last_before (Q := fun j => (r.state j).SenderIdle) (m := m) hi
        have hn := batches_account r (hall n hnm)
        rw [hidle.1, hidle.2] at hn
        simp only [Option.toList_none, List.length_nil, Nat.add_zero] at hn
        have hlt : n < m := by
          rcases Nat.lt_or_eq_of_le hnm with h | rfl
          · exact h
          · rw [hidle.2] at hroom
            exact absurd (by decide) hroom
        have hs1 : (r.state n).sent.length ≤ (r.state (n + 1)).sent.length := sent_mono r n
        rcases hf n m hnm with h8 | h8
        · have : (r.state n).sent.length ≤ (r.state m).sent.length := nat_mono_of_step (f := fun n => (r.state n).sent.length) (sent_mono r) hnm
          omega
        · by_cases hx : r.batches (m + 1) ≤ r.batches n + 8
          · have : (r.state n).sent.length ≤ (r.state m).sent.length := nat_mono_of_step (f := fun n => (r.state n).sent.length) (sent_mono r) hnm
            omega
          · obtain ⟨c, hcx⟩ : ∃ c : Nat, r.batches (m + 1) = r.batches n + 8 + c := ⟨r.batches (m + 1) - r.batches n - 8, by omega⟩
            have e : (r.batches (m + 1) : Int) - r.batches n - 8 = c := by omega
            rw [e, Int.mul_comm] at h8
            have := calls_while_busy hc h0 hl (a := n + 1) (b := m) (fun j hj hj' => hbusy j (by omega) hj') c (n + 1) (Nat.le_refl _) hlt (by tomega)
            omega

/-- C129: if the sender makes a call in less than the time between two batches, apart from a burst of eight, then no batch is discarded. -/
theorem C129_queue (hc : r.Clock time) {limit every : Time} (h0 : 0 ≤ limit) (hle : limit < every) (hl : r.SendsIn time limit) (hi : (r.state 0).SenderIdle) (hn : (r.state 0).NoneDiscarded)
    (hf : AtMost r.batches time 8 0 every) (m : Nat) : (r.state m).NoneDiscarded := by
  refine none_discarded hc h0 hl hi hn (fun n m hnm => ?_) m
  by_cases hx : r.batches (m + 1) ≤ r.batches n + 8
  · exact .inl hx
  · right
    have := (hf n m hnm).resolve_left hx
    have hpos : 0 < (r.batches (m + 1) : Int) - r.batches n - 8 := by omega
    have h2 := Int.mul_lt_mul_of_pos_right hle hpos
    have e : every * ((r.batches (m + 1) : Int) - r.batches n - (8 : Nat)) = every * ((r.batches (m + 1) : Int) - r.batches n - 8) := rfl
    rw [e] at this
    generalize every * ((r.batches (m + 1) : Int) - r.batches n - 8) = x at *
    generalize limit * ((r.batches (m + 1) : Int) - r.batches n - 8) = y at *
    tomega

/-! ## How many batches there are -/

/-- C129: the batches of a period: `a` of them because of 1000 spans, `b` of them at ticks. -/
theorem C129_batches (hc : r.Clock time) (hk : r.SinkClock time) {n m : Nat} (h : n ≤ m) :
    ∃ a b : Nat, r.batches (m + 1) = r.batches n + a + b ∧ 1000 * a ≤ 999 + (r.sunk (m + 1) - r.sunk n) ∧ (b = 0 ∨ 1800000000 * ((b : Int) - 1) ≤ time (m + 1) - time (n + 1)) := by
  suffices key : ∀ m, n ≤ m → ∃ a b : Nat, r.batches (m + 1) = r.batches n + a + b ∧ r.sunk n ≤ r.sunk (m + 1) ∧
      1000 * a + (r.state (m + 1)).sink.sink.spanCount + r.sunk n ≤ (r.state n).sink.sink.spanCount + r.sunk (m + 1) ∧
      (b = 0 ∨ ∃ t, (r.state (m + 1)).sink.sink.lastFlushTime = some t ∧ time (n + 1) + 1800000000 * ((b : Int) - 1) ≤ t) by
    obtain ⟨a, b, h1, h2, h3, h4⟩ := key m h
    obtain ⟨_, d, inv⟩ := (r.reach n).sentInv
    have hsmall : (r.state n).sink.sink.spanCount < 1000 := by rw [inv.sink.count]; exact inv.sink.small
    refine ⟨a, b, h1, by omega, h4.imp id fun ⟨t, ht, hle⟩ => ?_⟩
    obtain ⟨_, _, inv'⟩ := (r.reach (m + 1)).sentInv
    rw [inv'.sink.last] at ht
    have := hc.flushes (m + 1) t (List.mem_of_getLast? ht)
    tomega
  -- one more step
  have step : ∀ m, n ≤ m → ∀ (a b : Nat), r.batches m = r.batches n + a + b → r.sunk n ≤ r.sunk m →
      1000 * a + (r.state m).sink.sink.spanCount + r.sunk n ≤ (r.state n).sink.sink.spanCount + r.sunk m →
      (b = 0 ∨ ∃ t, (r.state m).sink.sink.lastFlushTime = some t ∧ time (n + 1) + 1800000000 * ((b : Int) - 1) ≤ t) →
      ∃ a b : Nat, r.batches (m + 1) = r.batches n + a + b ∧ r.sunk n ≤ r.sunk (m + 1) ∧
      1000 * a + (r.state (m + 1)).sink.sink.spanCount + r.sunk n ≤ (r.state n).sink.sink.spanCount + r.sunk (m + 1) ∧
      (b = 0 ∨ ∃ t, (r.state (m + 1)).sink.sink.lastFlushTime = some t ∧ time (n + 1) + 1800000000 * ((b : Int) - 1) ≤ t) := by
    intro m hnm a b h1 h2 h3 h4
    have hnow : ∀ t, (r.state m).sink.sink.lastFlushTime = some t → t ≤ time (m + 1) := by
      intro t ht
      obtain ⟨_, _, inv'⟩ := (r.reach m).sentInv
      rw [inv'.sink.last] at ht
      exact Int.le_trans (hc.flushes m t (List.mem_of_getLast? ht)) (hc.mono m)
    have exact : ∀ now, (r.state (m + 1)).sink.times = (r.state m).sink.times ++ [now] → now = time (m + 1) := by
      intro now hnow
      rcases hk.reads m with h | h
      · rw [hnow] at h
        exact absurd (congrArg List.length h) (by simp)
      · rw [hnow] at h
        simpa using List.append_cancel_left h
    have hlen : ∀ (w : List (List Span)) (l : List Span), (w ++ [l]).flatten.length = w.flatten.length + l.length := by
      intro w l
      rw [List.flatten_append, List.length_append]
      simp
    unfold Execution.batches Execution.sunk at *
    cases sink_move (r.next m) with
    | same e1 e2 e3 e4 e5 => exact ⟨a, b, by rw [e1]; exact h1, by rw [e3]; exact h2, by rw [e3, e4]; exact h3, by rw [e5]; exact h4⟩
    | more l e1 e2 e3 e4 e5 =>
      refine ⟨a, b, by rw [e1]; exact h1, ?_, ?_, by rw [e5]; exact h4⟩
      · rw [e3, hlen]; omega
      · rw [e3, e4, hlen]; omega
    | full l x now e1 e2 e3 e4 e5 e6 =>
      refine ⟨a + 1, b, ?_, ?_, ?_, ?_⟩
      · rw [e1]; simp; omega
      · rw [e3, hlen]; omega
      · rw [e3, e5, hlen]; omega
      · refine h4.imp id fun ⟨t, ht, hle⟩ => ⟨now, e6, ?_⟩
        rw [exact now e2]
        exact Int.le_trans hle (hnow t ht)
    | flush x now e1 e2 e3 e4 e5 =>
      refine ⟨a, b + 1, ?_, by rw [e3]; exact h2, by rw [e3, e4]; omega, .inr ⟨now, e5, ?_⟩⟩
      · rw [e1]; simp; omega
      · rw [exact now e2]
        have hmono := hc.le (show n + 1 ≤ m + 1 by omega)
        rcases h4 with rfl | ⟨t, ht, hle⟩
        · tomega
        · obtain ⟨since, hs1, hs2⟩ := hk.ticks m (by rw [e1]; simp) e3
          unfold Sink.due at hs2
          rw [ht] at hs2
          have hs2 := of_decide_eq_true hs2
          tomega
  intro m hm
  induction hm with
  | refl => exact step n (Nat.le_refl _) 0 0 rfl (Nat.le_refl _) (by omega) (.inl rfl)
  | @step m hm ih =>
    obtain ⟨a, b, h1, h2, h3, h4⟩ := ih
    exact step (m + 1) (Nat.le_succ_of_le hm) a b h1 h2 h3 h4

theorem load_arith {limit every q D : Int} {X a b R : Nat} (hev : 0 < every) (hq : 0 < q) (hle : limit * (1800000000 * q + 1000 * every) < 1800000000000 * every) (hX : X = a + b) (h8 : 8 < X)
    (hD : 0 ≤ D) (ha : 1000 * a ≤ 999 + R) (hb : b = 0 ∨ 1800000000 * ((b : Int) - 1) ≤ D) (hR : R ≤ 6001 ∨ every * ((R : Int) - 6001) ≤ q * D) : limit * ((X : Int) - 8) < D := by
  -- the batches because of 1000 spans, beyond seven
  have h1 : every * (1000 * (a : Int) - 7000) ≤ q * D := by
    have hle : every * (1000 * (a : Int) - 7000) ≤ every * ((R : Int) - 6001) := Int.mul_le_mul_of_nonneg_left (by omega) (Int.le_of_lt hev)
    rcases hR with hR | hR
    · have : every * ((R : Int) - 6001) ≤ every * 0 := Int.mul_le_mul_of_nonneg_left (by omega) (Int.le_of_lt hev)
      have : 0 ≤ q * D := Int.mul_nonneg (Int.le_of_lt hq) hD
      omega
    · omega
  -- the batches at ticks, beyond one
  have h2 : 1800000000 * ((b : Int) - 1) ≤ D := by omega
  have hDpos : 0 < D := by
    refine Classical.byContradiction fun hD0 => ?_
    have e : D = 0 := by omega
    subst e
    rw [Int.mul_zero] at h1
    have : a ≤ 7 := Classical.byContradiction fun h => by
      have : 0 < every * (1000 * (a : Int) - 7000) := Int.mul_pos hev (by omega)
      omega
    omega
  have h3 : 1800000000000 * every * ((X : Int) - 8) ≤ D * (1800000000 * q + 1000 * every) := by
    have e : 1800000000000 * every * ((X : Int) - 8) = 1800000000 * (every * (1000 * (a : Int) - 7000)) + 1000 * every * (1800000000 * ((b : Int) - 1)) := by
      have hXi : (X : Int) = a + b := by omega
      rw [hXi]
      clear h1 h2 hle ha hb hR
      grind
    have e' : D * (1800000000 * q + 1000 * every) = 1800000000 * (q * D) + 1000 * every * D := by
      clear h1 h2 hle ha hb hR e
      grind
    rw [e, e']
    exact Int.add_le_add (Int.mul_le_mul_of_nonneg_left h1 (by decide)) (Int.mul_le_mul_of_nonneg_left h2 (by omega))
  by_cases hlim : limit ≤ 0
  · have : limit * ((X : Int) - 8) ≤ 0 := Int.mul_nonpos_of_nonpos_of_nonneg hlim (by omega)
    omega
  · have h4 : limit * (1800000000000 * every * ((X : Int) - 8)) ≤ limit * (D * (1800000000 * q + 1000 * every)) := Int.mul_le_mul_of_nonneg_left h3 (by omega)
    have h5 : D * (limit * (1800000000 * q + 1000 * every)) < D * (1800000000000 * every) := Int.mul_lt_mul_of_pos_left hle hDpos
    have h6 : (1800000000000 * every) * (limit * ((X : Int) - 8)) < (1800000000000 * every) * D := by
      have e1 : limit * (1800000000000 * every * ((X : Int) - 8)) = (1800000000000 * every) * (limit * ((X : Int) - 8)) := Int.mul_left_comm _ _ _
      have e2 : limit * (D * (1800000000 * q + 1000 * every)) = D * (limit * (1800000000 * q + 1000 * every)) := Int.mul_left_comm _ _ _
      have e3 : (1800000000000 * every) * D = D * (1800000000000 * every) := Int.mul_comm _ _
      omega
    exact Int.lt_of_mul_lt_mul_left h6 (by omega)

theorem none_discarded_sink (hc : r.Clock time) (hk : r.SinkClock time) {limit every q : Time} (h0 : 0 ≤ limit) (hev : 0 < every) (hq : 0 < q)
    (hle : limit * (1800000000 * q + 1000 * every) < 1800000000000 * every) (hl : r.SendsIn time limit) (hi : (r.state 0).SenderIdle) (hn : (r.state 0).NoneDiscarded)
    (hf : ∀ n m, n ≤ m → r.sunk (m + 1) ≤ r.sunk n + 6001 ∨ every * (((r.sunk (m + 1) - r.sunk n : Nat) : Int) - 6001) ≤ q * (time (m + 1) - time (n + 1))) (m : Nat) : (r.state m).NoneDiscarded := by
  refine none_discarded hc h0 hl hi hn (fun n m hnm => ?_) m
  by_cases hx : r.batches (m + 1) ≤ r.batches n + 8
  · exact .inl hx
  · right
    obtain ⟨a, b, h1, h2, h3⟩ := C129_batches hc hk hnm
    have hmono := hc.le (show n + 1 ≤ m + 1 by omega)
    have := load_arith (X := r.batches (m + 1) - r.batches n) (a := a) (b := b) (R := r.sunk (m + 1) - r.sunk n) (D := time (m + 1) - time (n + 1)) hev hq hle (by omega) (by omega)
      (by tomega) h2 h3 ((hf n m hnm).imp (fun h => by omega) id)
    have e : ((r.batches (m + 1) - r.batches n : Nat) : Int) - 8 = (r.batches (m + 1) : Int) - r.batches n - 8 := by omega
    rw [e] at this
    exact this

/-- C129: if a call of the transport takes `limit` at most, and in any period the sink gets 6001 spans at most and one more for each `every`, where a call takes less time than the batches for
such a stream have between them, then no batch is discarded. -/
theorem C129_sink (hc : r.Clock time) (hk : r.SinkClock time) {limit every : Time} (h0 : 0 ≤ limit) (hev : 0 < every)
    (hle : limit * (1800000000 + 1000 * every) < 1800000000000 * every) (hl : r.SendsIn time limit) (hi : (r.state 0).SenderIdle) (hn : (r.state 0).NoneDiscarded)
    (hf : AtMost r.sunk time 6001 0 every) (m : Nat) : (r.state m).NoneDiscarded := by
  refine none_discarded_sink hc hk h0 hev (q := 1) (by decide) hle hl hi hn (fun n m hnm => ?_) m
  by_cases hR : r.sunk (m + 1) ≤ r.sunk n + 6001
  · exact .inl hR
  · right
    have := (hf n m hnm).resolve_left hR
    have e : ((r.sunk (m + 1) - r.sunk n : Nat) : Int) - 6001 = (r.sunk (m + 1) : Int) - r.sunk n - (6001 : Nat) := by omega
    rw [e]
    generalize every * ((r.sunk (m + 1) : Int) - r.sunk n - (6001 : Nat)) = x at *
    tomega

/-! ## From the collector to the sink -/

theorem refused_step {o o' : List Parsed} {s s' : System κ} (h : System.Next conv o s o' s') : s.world.refused.length ≤ s'.world.refused.length := by
  cases h with
  | step h =>
    cases h with
    | @collect x rest now1 now2 a b c d =>
      show _ ≤ (if _ then s.world.refused ++ [x] else s.world.refused).length
      split
      · simp
      · exact Nat.le_refl _
    | _ => exact Nat.le_refl _
  | event h => cases h <;> exact Nat.le_refl _
  | request o => exact Nat.le_refl _
  | stay => exact Nat.le_refl _

theorem convertAll_le (l : List Span) : ∀ k : κ, (convertAll conv k l).1.length ≤ l.length := by
  induction l with
  | nil => intro k; exact Nat.le_refl _
  | cons x l ih =>
    intro k
    have h1 := ih (conv k x).2
    have h2 : ((conv k x).1.toList.filter fun c => c.id ≠ 0 ∧ c.trace ≠ 0).length ≤ 1 := by
      refine Nat.le_trans (List.length_filter_le _ _) ?_
      cases (conv k x).1 <;> simp
    show ((_ : List Span) ++ _).length ≤ _
    rw [List.length_append, List.length_cons]
    omega

theorem convertTraces_le (l : List (List Span)) : ∀ k : κ, (convertTraces conv k l).flatten.length ≤ l.flatten.length := by
  induction l with
  | nil => intro k; exact Nat.le_refl _
  | cons t l ih =>
    intro k
    have h1 := ih (convertAll conv k t).2
    have h2 := convertAll_le (conv := conv) t k
    show ((convertAll conv k t).1 :: convertTraces conv (convertAll conv k t).2 l).flatten.length ≤ _
    rw [List.flatten_cons, List.flatten_cons, List.length_append, List.length_append]
    omega

/-- A finished trace has at most one and a half times the spans that were received for it. -/
theorem emitted_size {w : World} (hw : Reachable w) {x : Removal} (hx : x ∈ w.removed) {out : List Span} (ho : x.fate = .emitted out) : 2 * out.length ≤ 3 * x.tree.members.length := by
  obtain ⟨⟨base, r0, h1, _, h3⟩, _⟩ := (removed_spec hw x hx).2 out ho
  have hle := tree_le_members ((reachable_inv hw).gone x hx).inv
  rw [h3.1]
  rcases h1 with ⟨p, f, ⟨⟨a, b, ha, hb, hab⟩, _⟩, _, hperm, _⟩ | ⟨_, rfl⟩
  · have h2 : 2 ≤ x.tree.spans.length := by
      refine Classical.byContradiction fun hn => ?_
      have hab : a ≠ b := fun e => hab (by rw [e])
      generalize x.tree.spans = l at ha hb hn
      have ha := ha.1
      have hb := hb.1
      match l, hn with
      | [], _ => cases ha
      | [y], _ => exact hab ((List.mem_singleton.mp ha).trans (List.mem_singleton.mp hb).symm)
      | _ :: _ :: _, hn => exact hn (by simp)
    rw [hperm.length_eq, List.length_cons]
    omega
  · omega

theorem emitted_sizes {w : World} (hw : Reachable w) : ∀ l : List Removal, (∀ x ∈ l, x ∈ w.removed) →
    2 * (emittedOf l).flatten.length ≤ 3 * (l.flatMap fun x => x.tree.members).length
  | [], _ => Nat.le_refl _
  | x :: l, h => by
    have ih := emitted_sizes hw l (fun y hy => h y (List.mem_cons_of_mem _ hy))
    rw [show x :: l = [x] ++ l from rfl, emittedOf_append, List.flatten_append, List.flatMap_append, List.length_append, List.length_append]
    have : 2 * (emittedOf [x]).flatten.length ≤ 3 * ([x].flatMap fun x => x.tree.members).length := by
      have hone := fun out => emitted_size hw (h x (by simp)) (out := out)
      unfold emittedOf
      rw [List.filterMap_cons, List.filterMap_nil]
      cases hf : x.fate with
      | emitted out => simpa using hone out hf
      | _ => simp
    omega

/-- What the collector finishes between two moments was received after a third one, if everything that was received before left it until the first. -/
theorem finished_between {a b c : Nat} (hab : a ≤ b) (hbc : b ≤ c)
    (hleft : List.Subperm ((r.state a).world.received.filter fun s => decide (Traced s)) (r.state b).world.left) :
    2 * (convertTraces conv k (emittedOf (r.state c).world.removed)).flatten.length ≤
      2 * (convertTraces conv k (emittedOf (r.state b).world.removed)).flatten.length + 3 * (r.collected c - r.collected a) := by
  have hw : ∀ n, Reachable (r.state n).world := fun n => by
    obtain ⟨_, _, _, _, inv⟩ := (r.reach n).inv
    exact inv.world
  obtain ⟨l, hl⟩ := removed_prefix r hbc
  have h1 := emitted_sizes (hw c) l (fun x hx => by rw [← hl]; exact List.mem_append_right _ hx)
  have h2 := convertTraces_le (conv := conv) (emittedOf l) (convAfter conv k (emittedOf (r.state b).world.removed))
  have hb := hleft.length_le
  unfold World.left at hb
  have hc := (reachable_inv (hw c)).conserved.length_eq
  rw [List.length_append, List.length_append, ← hl, List.flatMap_append, List.length_append] at hc
  rw [List.length_append] at hb
  have href : (r.state b).world.refused.length ≤ (r.state c).world.refused.length := nat_mono_of_step (f := fun n => (r.state n).world.refused.length) (fun n => refused_step (r.next n)) hbc
  obtain ⟨y, hy⟩ := (flow r (show a ≤ c by omega)).2
  have hrec : ((r.state c).world.received.filter fun s => decide (Traced s)).length ≤ ((r.state a).world.received.filter fun s => decide (Traced s)).length + (r.collected c - r.collected a) := by
    unfold Execution.collected
    rw [← hy, List.filter_append, List.length_append, List.length_append]
    have : (y.filter fun s => decide (Traced s)).length ≤ y.length := (List.length_filter_le _ _)
    omega
  rw [← hl, emittedOf_append, convertTraces_append, List.flatten_append, List.length_append]
  omega

/-- C129: what the sink gets in a period is at most one and a half times what the collector got in this period and the time before that a span may be on its way. -/
theorem C129_collected (hc : r.Clock time) {period delay : Time} (ht : r.CollectorTicks time period) (hd : r.Responsive time delay) (h0 : (r.state 0).world.received = [])
    {n m : Nat} (hnm : n ≤ m) : ∃ j, j ≤ n ∧ time (n + 1) ≤ time (j + 1) + 40000000001 + period + delay ∧ 2 * (r.sunk (m + 1) - r.sunk n) ≤ 3 * (r.collected (m + 1) - r.collected j) := by
  have hall : ∀ i, r.sunk i ≤ (convertTraces conv k (emittedOf (r.state i).world.removed)).flatten.length := by
    intro i
    obtain ⟨y, hy⟩ := (C61_prefix (r.reach i)).1
    unfold Execution.sunk
    rw [← hy, List.flatten_append, List.length_append]
    omega
  have hdelay : 0 ≤ delay := by
    obtain ⟨q, h1, h2, _⟩ := hd 0
    have := hc.le h1
    tomega
  have hperiod : 0 ≤ period := by
    obtain ⟨q, i, h1, h2, hv, hs, _⟩ := ht (time 0) (Int.le_refl _)
    have h3 := hc.collector (q + 1)
    rw [hs] at h3
    have h3 : i.now2 ≤ time (q + 1) := h3
    have := hv.clock
    tomega
  by_cases hq : time 0 + 40000000001 + period + delay < time (n + 1)
  · obtain ⟨j, hj, hqj, hlast⟩ := last_before (Q := fun j => time j + 40000000001 + period + delay < time (n + 1)) (m := n) hq
    refine ⟨j, hj, ?_, ?_⟩
    · rcases Nat.lt_or_eq_of_le hj with h | rfl
      · have := hlast (j + 1) (by omega) h
        tomega
      · tomega
    · obtain ⟨b, hb, htb, hleft⟩ := C127_left hc ht j
      obtain ⟨q, hbq, htq, hdel, _⟩ := C127_delivered hd b
      have hqn : q ≤ n := by
        have : q < n + 1 := Classical.byContradiction fun h => by
          have := hc.le (show n + 1 ≤ q by omega)
          tomega
        omega
      have hsub := hleft _ (List.Sublist.refl _)
      have h1 := finished_between (conv := conv) (k := k) hb (show b ≤ m + 1 by omega) hsub
      obtain ⟨_, _, inv⟩ := (r.reach q).sentInv
      obtain ⟨_, _, _, _, _, hrec⟩ := inv.later hqn
      obtain ⟨y, hy⟩ := hdel.trans hrec
      have h2 : (convertTraces conv k (emittedOf (r.state b).world.removed)).flatten.length ≤ r.sunk n := by
        unfold Execution.sunk
        rw [← hy, List.flatten_append, List.length_append]
        omega
      have h3 := hall (m + 1)
      omega
  · refine ⟨0, Nat.zero_le _, ?_, ?_⟩
    · have := hc.mono 0
      tomega
    · have h1 := finished_between (r := r) (conv := conv) (k := k) (Nat.le_refl 0) (Nat.zero_le (m + 1)) (by rw [h0]; exact List.nil_subperm)
      have hw : Reachable (r.state 0).world := by
        obtain ⟨_, _, _, _, inv⟩ := (r.reach 0).inv
        exact inv.world
      have h2 : (convertTraces conv k (emittedOf (r.state 0).world.removed)).flatten.length = 0 := by
        have h3 := convertTraces_le (conv := conv) (emittedOf (r.state 0).world.removed) k
        have h4 := emitted_sizes hw _ (fun x hx => hx)
        have h5 := (reachable_inv hw).conserved.length_eq
        rw [h0, List.length_append, List.length_append] at h5
        simp only [List.filter_nil, List.length_nil] at h5
        omega
      have h3 := hall (m + 1)
      omega

/-- A proxy that has received nothing has made no batches, and nothing is to be sent. -/
theorem starts_idle (hi : (r.state 0).world.received = []) : (r.state 0).SenderIdle ∧ (r.state 0).NoneDiscarded := by
  have hw : Reachable (r.state 0).world := by
    obtain ⟨_, _, _, _, inv⟩ := (r.reach 0).inv
    exact inv.world
  obtain ⟨c, d, inv⟩ := (r.reach 0).sentInv
  -- the sink has received nothing
  have hlog : (r.state 0).sink.log = [] := by
    have hnone : r.sunk 0 = 0 := by
      have h3 := convertTraces_le (conv := conv) (emittedOf (r.state 0).world.removed) k
      have h4 := emitted_sizes hw _ (fun x hx => hx)
      have h5 := (reachable_inv hw).conserved.length_eq
      rw [hi, List.length_append, List.length_append] at h5
      simp only [List.filter_nil, List.length_nil] at h5
      obtain ⟨y, hy⟩ := (C61_prefix (r.reach 0)).1
      have := congrArg (fun l => (List.flatten l).length) hy
      rw [List.flatten_append, List.length_append] at this
      unfold Execution.sunk
      omega
    have hall := inv.sink.part.all
    have hlen := congrArg List.length hall
    unfold Execution.sunk at hnone
    rw [hnone, List.length_append] at hlen
    refine List.eq_nil_of_length_eq_zero ?_
    rw [← inv.sink.part.count]
    cases c with
    | nil => rfl
    | cons x c =>
      have hx := List.length_pos_iff.mpr (inv.sink.nonempty x (by simp))
      rw [List.flatten_cons, List.length_append] at hlen
      omega
  have hidle : (r.state 0).SenderIdle := by
    have h1 := inv.sink.part.sent
    rw [hlog] at h1
    have h1 := List.append_eq_nil_iff.mp h1.symm
    refine ⟨?_, h1.2⟩
    have h2 := inv.calls
    rw [h1.1] at h2
    cases hs : (r.state 0).sending with
    | none => rfl
    | some b => rw [hs] at h2; simp at h2
  exact ⟨hidle, by unfold System.NoneDiscarded; rw [hlog]; intro e he; cases he⟩

/-- C129: if in each period of 40 seconds and the delays on the way the proxy gets at most 4000 spans, and in longer ones one more for each `every`, where a call of the transport takes less time than
the batches for such a stream have between them, then no batch is ever discarded. -/
theorem C129_load (hc : r.Clock time) (hk : r.SinkClock time) {period delay limit every : Time} (ht : r.CollectorTicks time period) (hd : r.Responsive time delay) (h0 : 0 ≤ limit) (hev : 0 < every)
    (hle : limit * (5400000000 + 2000 * every) < 3600000000000 * every) (hl : r.SendsIn time limit) (hi : (r.state 0).world.received = [])
    (hf : AtMost r.collected time 4000 (40000000001 + period + delay) every) (m : Nat) : (r.state m).NoneDiscarded := by
  obtain ⟨hidle, hnone⟩ := starts_idle hi
  refine none_discarded_sink hc hk (every := 2 * every) (q := 3) h0 (by tomega) (by decide) ?_ hl hidle hnone (fun n m hnm => ?_) m
  · have e1 : (1800000000 : Int) * 3 + 1000 * (2 * every) = 5400000000 + 2000 * every := by tomega
    have e2 : (1800000000000 : Int) * (2 * every) = 3600000000000 * every := by tomega
    rw [e1, e2]
    exact hle
  · obtain ⟨j, hj, htj, hs⟩ := C129_collected hc ht hd hi hnm
    rcases hf j m (by omega) with h | h
    · exact .inl (by omega)
    · by_cases h' : r.sunk (m + 1) ≤ r.sunk n + 6001
      · exact .inl h'
      · right
        have h1 : 2 * (((r.sunk (m + 1) - r.sunk n : Nat) : Int) - 6001) ≤ 3 * ((r.collected (m + 1) : Int) - r.collected j - (4000 : Nat)) := by omega
        have h2 := Int.mul_le_mul_of_nonneg_left h1 (Int.le_of_lt hev)
        have e1 : every * (2 * (((r.sunk (m + 1) - r.sunk n : Nat) : Int) - 6001)) = 2 * every * (((r.sunk (m + 1) - r.sunk n : Nat) : Int) - 6001) := by
          rw [Int.mul_left_comm, Int.mul_assoc]
        have e2 : every * (3 * ((r.collected (m + 1) : Int) - r.collected j - (4000 : Nat))) = 3 * (every * ((r.collected (m + 1) : Int) - r.collected j - (4000 : Nat))) := Int.mul_left_comm _ _ _
        rw [e1, e2] at h2
        generalize 2 * every * (((r.sunk (m + 1) - r.sunk n : Nat) : Int) - 6001) = x at *
        generalize every * ((r.collected (m + 1) : Int) - r.collected j - (4000 : Nat)) = y at *
        tomega

/-! ## What this means for traces -/

/-- C129: under such a load every trace that the collector finished was soon given to the transport, as a whole. -/
theorem C129_traces (hc : r.Clock time) (hk : r.SinkClock time) {period1 period2 delay limit every : Time} (ht1 : r.CollectorTicks time period1) (hd : r.Responsive time delay)
    (ht2 : r.SinkTicksIn time period2) (h0 : 0 ≤ limit) (hev : 0 < every) (hle : limit * (5400000000 + 2000 * every) < 3600000000000 * every) (hl : r.SendsIn time limit)
    (hi : (r.state 0).world.received = []) (hf : AtMost r.collected time 4000 (40000000001 + period1 + delay) every) (n : Nat) :
    ∃ m, n ≤ m ∧ time m ≤ time n + delay + 1800000000 + period2 + 9 * limit ∧
    ∀ t ∈ convertTraces conv k (emittedOf (r.state n).world.removed), t ≠ [] → ∃ chunk, t <:+: chunk ∧ ∃ call ∈ (r.state m).sent, Call chunk call := by
  obtain ⟨m, chunks, current, hm, hb, _, hall⟩ := C127_traces hc hd ht2 h0 hl n
  refine ⟨m, hm, hb, fun t ht hne => ?_⟩
  obtain ⟨i, chunk, _, hin, ⟨b, hb⟩ | hcall⟩ := hall t ht hne
  · have := C129_load hc hk ht1 hd h0 hev hle hl hi hf m _ (List.mem_of_getElem? hb)
    cases this
  · exact ⟨chunk, hin, hcall⟩

/-- C129: under such a load, when a request parses then soon all its spans with ids have left the collector, whatever comes meanwhile, and what the collector finished until then was given to
the transport. -/
theorem C129_request (hc : r.Clock time) (hk : r.SinkClock time) {period1 period2 delay limit every : Time} (ht1 : r.CollectorTicks time period1) (hd : r.Responsive time delay)
    (ht2 : r.SinkTicksIn time period2) (h0 : 0 ≤ limit) (hev : 0 < every) (hle : limit * (5400000000 + 2000 * every) < 3600000000000 * every) (hl : r.SendsIn time limit)
    (hi : (r.state 0).world.received = []) (hf : AtMost r.collected time 4000 (40000000001 + period1 + delay) every)
    {n i : Nat} {l : List Span} (hp : (r.outcomes n)[i]? = some (.spans l)) :
    ∃ n2 m, n ≤ n2 ∧ n2 ≤ m ∧ time n2 ≤ time n + delay + 40000000001 + period1 ∧ List.Subperm (l.filter fun s => decide (Traced s)) (r.state n2).world.left ∧
      time m ≤ time n + 2 * delay + 41800000001 + period1 + period2 + 9 * limit ∧
      ∀ t ∈ convertTraces conv k (emittedOf (r.state n2).world.removed), t ≠ [] → ∃ chunk, t <:+: chunk ∧ ∃ call ∈ (r.state m).sent, Call chunk call := by
  obtain ⟨n1, hn1, hb1, ha, hs⟩ := C127_received hd hp
  obtain ⟨n2, hn2, hb2, hleft⟩ := C127_left hc ht1 n1
  obtain ⟨m, hm, hb3, hall⟩ := C129_traces hc hk ht1 hd ht2 h0 hev hle hl hi hf n2
  exact ⟨n2, m, by omega, hm, by tomega, hleft l hs, by tomega, hall⟩

/-- C129: a call of the transport that takes 0.1 seconds is fast enough if `every` is 166 microseconds. -/
theorem C129_rate : (100000000 : Int) * (5400000000 + 2000 * 166000) < 3600000000000 * 166000 := by decide

/-- C129: the hypotheses of `C129_traces` and `C129_request` hold together: a proxy gets a request with one span. -/
theorem C129_witness : ∃ (r : Execution plainConverter ()) (time : Nat → Time), r.Clock time ∧ r.SinkClock time ∧ r.CollectorTicks time 100000000 ∧ r.Responsive time 0 ∧
    r.SinkTicksIn time 2000000000 ∧ r.SendsIn time 100000000 ∧ (r.state 0).world.received = [] ∧ AtMost r.collected time 4000 (40000000001 + 100000000 + 0) 166000 ∧
    (r.outcomes 0)[0]? = some (.spans [oneSpan]) := by
  have h : System.Reachable plainConverter () [.spans [oneSpan]] _ := .request (.spans [oneSpan]) (.init (k := ()) 0)
  obtain ⟨r, time, e, hout, c1, c2, c3, c4, c5, c6, _⟩ := timed_execution h
  refine ⟨r, time, c1, c6, c2, c3, c4, fun n hn => ?_, by rw [e]; rfl, fun n m _ => .inl ?_, by rw [hout]; rfl⟩
  · obtain ⟨m, h1, h2, h3⟩ := c5 n hn
    exact ⟨m, h1, by tomega, h3⟩
  · have := (received_of_one hout (m + 1)).length_le
    rw [List.length_singleton] at this
    unfold Execution.collected
    omega

/-- In that execution the span soon is in a call of the transport. -/
theorem C129_example : ∃ (r : Execution plainConverter ()) (time : Nat → Time) (n m : Nat), time n ≤ time 0 + 40100000001 ∧ [oneSpan].Subperm (r.state n).world.left ∧ time m ≤ time 0 + 44800000001 ∧
    ∀ t ∈ convertTraces plainConverter () (emittedOf (r.state n).world.removed), t ≠ [] → ∃ chunk, t <:+: chunk ∧ ∃ call ∈ (r.state m).sent, Call chunk call := by
  obtain ⟨r, time, c1, c2, c3, c4, c5, c6, c7, c8, c9⟩ := C129_witness
  obtain ⟨n2, m, _, _, h1, h2, h3, h4⟩ := C129_request c1 c2 c3 c4 c5 (by decide) (by decide) C129_rate c6 c7 c8 c9
  refine ⟨r, time, n2, m, by tomega, ?_, by tomega, h4⟩
  have e : [oneSpan].filter (fun s => decide (Traced s)) = [oneSpan] := rfl
  rw [e] at h2
  exact h2

end Verif
