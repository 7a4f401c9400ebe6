import Verif.Props.TimelyCluster
import Verif.Props.Pieces
import Verif.Props.Stop

/-!
# A trace that is posted in pieces is with Datadog, in one, in time: C148
-/

namespace Verif

open Spec

local macro "tomega" : tactic => `(tactic| (dsimp only [Time] at *; omega))

/-! ## The events of a collector, with the times -/

theorem Spec.Runs.unique {w u v : World} {es : List CEvent} (h1 : Runs w es u) (h2 : Runs w es v) : u = v := by
  induction h1 generalizing v with
  | nil => exact (runs_nil h2).symm
  | @receive es w' now1 now2 s hr _ _ ih =>
    generalize he : es ++ [CEvent.receive now1 now2 s] = fs at h2
    cases h2 with
    | nil => simp at he
    | receive a b x hr' _ _ =>
      obtain ⟨e1, e2⟩ := List.append_inj' he rfl
      cases e2
      subst e1
      rw [ih hr']
    | tick i hr' _ _ =>
      obtain ⟨_, e2⟩ := List.append_inj' he rfl
      cases e2
  | @tick es w' i hr _ _ ih =>
    generalize he : es ++ [CEvent.tick i] = fs at h2
    cases h2 with
    | nil => simp at he
    | receive a b x hr' _ _ =>
      obtain ⟨_, e2⟩ := List.append_inj' he rfl
      cases e2
    | tick j hr' _ _ =>
      obtain ⟨e1, e2⟩ := List.append_inj' he rfl
      cases e2
      subst e1
      rw [ih hr']

/-- The first and the last time are those of events. -/
theorem timesOf_mem {k : Id} {es : List CEvent} {a b : Time} (h : timesOf k es = some (a, b)) :
    (∃ now2 x, CEvent.receive a now2 x ∈ es) ∧ ∃ now1 y, CEvent.receive now1 b y ∈ es := by
  have go : ∀ (n : Nat) (es : List CEvent), es.length = n → ∀ a b, timesOf k es = some (a, b) → (∃ now2 x, CEvent.receive a now2 x ∈ es) ∧ ∃ now1 y, CEvent.receive now1 b y ∈ es := by
    intro n
    induction n with
    | zero =>
      intro es he a b h
      rw [List.eq_nil_of_length_eq_zero he] at h
      cases h
    | succ n ih =>
      intro es he a b h
      obtain ⟨fs, e, rfl⟩ : ∃ fs e, es = fs ++ [e] := ⟨es.dropLast, es.getLast (fun hn => by rw [hn] at he; cases he), (List.dropLast_append_getLast _).symm⟩
      have hl : fs.length = n := by simpa using he
      have up : ∀ {a b : Time}, timesOf k fs = some (a, b) → (∃ now2 x, CEvent.receive a now2 x ∈ fs ++ [e]) ∧ ∃ now1 y, CEvent.receive now1 b y ∈ fs ++ [e] := fun h => by
        obtain ⟨⟨u, x, h1⟩, v, y, h2⟩ := ih fs hl _ _ h
        exact ⟨⟨u, x, List.mem_append_left _ h1⟩, v, y, List.mem_append_left _ h2⟩
      cases e with
      | tick i => rw [timesOf_snoc_tick] at h; exact up h
      | receive now1 now2 s =>
        rw [timesOf_snoc_receive] at h
        have here : CEvent.receive now1 now2 s ∈ fs ++ [.receive now1 now2 s] := by simp
        by_cases hs : Traced s ∧ s.trace = k
        · rw [if_pos hs] at h
          cases ht : timesOf k fs with
          | none => rw [ht] at h; cases h; exact ⟨⟨_, _, here⟩, _, _, here⟩
          | some p =>
            obtain ⟨a', b'⟩ := p
            rw [ht] at h; cases h
            exact ⟨(up ht).1, _, _, here⟩
        · rw [if_neg hs] at h; exact up h
  exact go _ es rfl a b h

theorem timesOf_some {k : Id} {es : List CEvent} (h : spansOf k es ≠ []) : ∃ a b, timesOf k es = some (a, b) := by
  have go : ∀ (n : Nat) (es : List CEvent), es.length = n → spansOf k es ≠ [] → ∃ a b, timesOf k es = some (a, b) := by
    intro n
    induction n with
    | zero =>
      intro es he h
      rw [List.eq_nil_of_length_eq_zero he] at h
      exact absurd rfl h
    | succ n ih =>
      intro es he h
      obtain ⟨fs, e, rfl⟩ : ∃ fs e, es = fs ++ [e] := ⟨es.dropLast, es.getLast (fun hn => by rw [hn] at he; cases he), (List.dropLast_append_getLast _).symm⟩
      have hl : fs.length = n := by simpa using he
      cases e with
      | tick i => rw [spansOf_snoc_tick] at h; rw [timesOf_snoc_tick]; exact ih fs hl h
      | receive now1 now2 s =>
        rw [timesOf_snoc_receive]
        rw [spansOf_snoc_receive] at h
        by_cases hs : Traced s ∧ s.trace = k
        · rw [if_pos hs]
          cases timesOf k fs with
          | none => exact ⟨_, _, rfl⟩
          | some p => exact ⟨_, _, rfl⟩
        · rw [if_neg hs] at h ⊢
          exact ih fs hl (by simpa using h)
  exact go _ es rfl h

section
variable {κ : Type} {conv : κ → Span → Option Span × κ} {k : κ} {r : Execution conv k} {time : Nat → Time}

/-- What happens to a collector between two states, with the times; it is calm if never too many spans wait. -/
theorem timed_events (hc : r.Clock time) (hcc : r.CollectorClock time) {n m : Nat} (hm : n ≤ m)
    (hcalm : ∀ j, n ≤ j → j ≤ m → counted (r.state j).world.c.traces.toList ≤ 100000) :
    ∃ es, Runs (r.state n).world es (r.state m).world ∧ Calm (r.state n).world es ∧ (∀ i, CEvent.tick i ∈ es → i.now1 ≤ i.now2 ∧ i.now2 ≤ time m) ∧
      ∀ now1 now2 x, CEvent.receive now1 now2 x ∈ es → time n ≤ now1 ∧ now1 ≤ now2 ∧ now2 ≤ time m := by
  induction hm with
  | refl => exact ⟨[], .nil, calm_of_no_tick (by simp), by simp, by simp⟩
  | @step m hm ih =>
    obtain ⟨es, h1, h2, h3, h4⟩ := ih fun j hj hj' => hcalm j hj (Nat.le_succ_of_le hj')
    have hle := hc.mono m
    have hclock := hc.collector (m + 1)
    have hnm := hc.le hm
    have keep : (r.state (m + 1)).world = (r.state m).world → ∃ es, Runs (r.state n).world es (r.state (m + 1)).world ∧ Calm (r.state n).world es ∧
        (∀ i, CEvent.tick i ∈ es → i.now1 ≤ i.now2 ∧ i.now2 ≤ time (m + 1)) ∧ ∀ now1 now2 x, CEvent.receive now1 now2 x ∈ es → time n ≤ now1 ∧ now1 ≤ now2 ∧ now2 ≤ time (m + 1) := fun e => by
      rw [e]
      exact ⟨es, h1, h2, fun i hi => ⟨(h3 i hi).1, Int.le_trans (h3 i hi).2 hle⟩, fun a b x hx => ⟨(h4 a b x hx).1, (h4 a b x hx).2.1, Int.le_trans (h4 a b x hx).2.2 hle⟩⟩
    by_cases hrec : (r.state (m + 1)).world.received = (r.state m).world.received
    · have h := r.next m
      generalize hs : r.state (m + 1) = s' at h
      generalize hs0 : r.state m = s0 at h
      generalize r.outcomes m = o at h
      generalize r.outcomes (m + 1) = o' at h
      rw [hs0, hs] at keep
      cases h with
      | step h =>
        cases h with
        | @collect x rest now1 now2 a b c d =>
          exfalso
          rw [hs, hs0] at hrec
          have hrec : s0.world.received ++ [x] = s0.world.received := hrec
          have := congrArg List.length hrec
          simp at this
        | _ => exact keep rfl
      | event h =>
        cases h with
        | tick i ho hv hk =>
          rw [hs] at hclock
          have hclock : i.now2 ≤ time (m + 1) := hclock
          rw [hs0] at h1
          refine ⟨es ++ [.tick i], .tick i h1 hv hk, fun pre j u hp hu => ?_, fun j hj => ?_, fun a b x hx => ?_⟩
          · rcases List.prefix_concat_iff.mp hp with e | e
            · obtain ⟨rfl, _⟩ := List.append_inj' e rfl
              rw [hu.unique h1, ← hs0]
              exact hcalm m hm (Nat.le_succ m)
            · exact h2 pre j u e hu
          · rcases List.mem_append.mp hj with hj | hj
            · exact ⟨(h3 j hj).1, Int.le_trans (h3 j hj).2 hle⟩
            · cases List.mem_singleton.mp hj
              exact ⟨hv.clock, hclock⟩
          · rcases List.mem_append.mp hx with hx | hx
            · exact ⟨(h4 a b x hx).1, (h4 a b x hx).2.1, Int.le_trans (h4 a b x hx).2.2 hle⟩
            · cases List.mem_singleton.mp hx
        | _ => exact keep rfl
      | request o => exact keep rfl
      | stay => exact keep rfl
    · obtain ⟨now1, now2, x, e, hn1, hn2⟩ := hcc m hrec
      rw [e] at hclock
      have hclock : now2 ≤ time (m + 1) := hclock
      rw [e]
      refine ⟨es ++ [.receive now1 now2 x], .receive now1 now2 x h1 (Int.le_trans (hc.collector m) hn1) hn2, fun pre j u hp hu => ?_, fun j hj => ?_, fun a b y hy => ?_⟩
      · rcases List.prefix_concat_iff.mp hp with e | e
        · obtain ⟨_, e⟩ := List.append_inj' e rfl
          cases e
        · exact h2 pre j u e hu
      · rcases List.mem_append.mp hj with hj | hj
        · exact ⟨(h3 j hj).1, Int.le_trans (h3 j hj).2 hle⟩
        · cases List.mem_singleton.mp hj
      · rcases List.mem_append.mp hy with hy | hy
        · exact ⟨(h4 a b y hy).1, (h4 a b y hy).2.1, Int.le_trans (h4 a b y hy).2.2 hle⟩
        · cases List.mem_singleton.mp hy
          exact ⟨Int.le_trans hnm hn1, hn2, hclock⟩

end

/-- Spans with different ids that are all among others. -/
theorem subperm_of_ids {l l' : List Span} (hn : (l.map Span.id).Nodup) (h : ∀ x ∈ l, x ∈ l') : List.Subperm l l' :=
  List.subperm_of_subset (List.Pairwise.of_map Span.id (fun _ _ h e => h (by rw [e])) hn) h

section
variable {r : Execution plainConverter ()} {time : Nat → Time}

/-- C148: one proxy. The spans of a healthy trace that the collector received within less than 2 seconds, less the period of its ticks, are given to the transport in one call as one trace, or were in a
batch that was discarded, in 9.8 seconds and the delays; and no other call ever has a span of it. -/
theorem C148_intact (hc : r.Clock time) (hcc : r.CollectorClock time) {period1 period2 delay limit : Time} (ht1 : r.CollectorTicks time period1) (hd : r.Responsive time delay)
    (ht2 : r.SinkTicksIn time period2) (h0 : 0 ≤ limit) (hl : r.SendsIn time limit) {k : Id} {n n1 : Nat} (hn : n ≤ n1) (hfresh : receivedFor k (r.state n).world.received = [])
    (hh : Healthy k (receivedFor k (r.state n1).world.received)) (hlast : ∀ m, receivedFor k (r.state m).world.received <+: receivedFor k (r.state n1).world.received)
    (hquick : time n1 + period1 < time n + 2000000000)
    (hcalm : ∀ m, n ≤ m → time m ≤ time n1 + 8000000000 + period1 → counted (r.state m).world.c.traces.toList ≤ 100000) :
    ∃ spans, (spans.map Span.withTags).Perm ((receivedFor k (r.state n1).world.received).map Span.withTags) ∧
      (∃ m, n1 ≤ m ∧ time m ≤ time n1 + 9800000000 + period1 + delay + period2 + 9 * limit ∧ (OneCall (r.state m) spans ∨ InDiscarded (r.state m) spans)) ∧
      ∀ m, List.Subperm ((r.state m).sent.flatten.flatten.filter fun d => d.traceID = k.toUInt64) (spans.map toDatadog) := by
  obtain ⟨m, i, g1, g2, hv, hs, hk⟩ := ht1 (time n1 + 8000000000) (by have := hc.le (Nat.zero_le n1); tomega)
  have hclock : i.now2 ≤ time (m + 1) := by
    have := hc.collector (m + 1)
    rw [hs] at this
    exact this
  have hp1 : 0 ≤ period1 := by have := hv.clock; tomega
  have hnm : n1 ≤ m := hc.later (by have := hv.clock; tomega)
  have hmm := hc.mono m
  obtain ⟨es, e1, e2, e3, e4⟩ := timed_events hc hcc hn fun j hj hj' => hcalm j hj (by have := hc.le hj'; tomega)
  obtain ⟨fs, f1, f2, f3, f4⟩ := timed_events hc hcc hnm fun j hj hj' => hcalm j (Nat.le_trans hn hj) (by have := hc.le hj'; tomega)
  have rec1 : receivedFor k (r.state n1).world.received = spansOf k es := by rw [e1.received k, hfresh, List.nil_append]
  rw [rec1] at hh hlast ⊢
  obtain ⟨a, b, htimes⟩ := timesOf_some (k := k) (es := es) (by
    obtain ⟨x, hx, _⟩ := hh.root
    intro e
    rw [e] at hx
    cases hx.1)
  have bounds : ∀ {pre : List CEvent} {a b : Time}, pre <+: es → timesOf k pre = some (a, b) → time n ≤ a ∧ time n ≤ b ∧ b ≤ time n1 := fun hp ht => by
    obtain ⟨⟨u, x, hx⟩, v, y, hy⟩ := timesOf_mem ht
    have h1 := e4 _ _ _ (hp.subset hx)
    have h2 := e4 _ _ _ (hp.subset hy)
    exact ⟨h1.1, Int.le_trans h2.1 h2.2.1, h2.2.2⟩
  have hab := bounds List.prefix_rfl htimes
  have hquick' : Quick k es := fun pre j a b hp ht => by
    have h1 := bounds ((List.prefix_append _ _).trans hp) ht
    have h2 := e3 j (hp.subset (by simp))
    constructor <;> tomega
  have hrun' : Runs (r.state n1).world (fs ++ [.tick i]) (r.state (m + 1)).world := by
    rw [hs]
    exact .tick i f1 hv hk
  obtain ⟨spans, s1, s2, s3⟩ := intact_fate (r := r) hfresh e1 hquick' e2 hh htimes (show n1 ≤ m + 1 by omega) hrun' (fun pre j u hp hu => by
      rcases List.prefix_concat_iff.mp hp with e | e
      · obtain ⟨rfl, _⟩ := List.append_inj' e rfl
        rw [hu.unique f1]
        exact hcalm m (Nat.le_trans hn hnm) (by tomega)
      · exact f2 pre j u e hu) (by tomega) (fun pre j hp => by
      rcases List.prefix_concat_iff.mp hp with e | e
      · obtain ⟨_, e⟩ := List.append_inj' e rfl
        cases e
        tomega
      · have := f3 j (e.subset (by simp))
        tomega) hlast
  obtain ⟨q, chunks, current, hq, hqt, hpart, hfate⟩ := C127_traces hc hd ht2 h0 hl (m + 1)
  refine ⟨spans, s1, ⟨q, by omega, by tomega, s2 q chunks current hq hpart hfate⟩, fun j => ?_⟩
  rcases Nat.le_total (m + 1) j with hj | hj
  · exact s3 j hj
  · refine List.Subperm.trans (List.Sublist.subperm ?_) (s3 (m + 1) (Nat.le_refl _))
    obtain ⟨z, hz⟩ := sent_prefix r hj
    rw [← hz, List.flatten_append, List.flatten_append, List.filter_append]
    exact List.sublist_append_left _ _

/-- C148: one proxy without Kafka. The spans of a healthy trace, posted in any pieces within 2 seconds less the delay and the period of the ticks, are given to the transport in one call as one trace, or
were in a batch that was discarded, in 9.8 seconds and the delays after the last piece was posted. -/
theorem C148_posted (hc : r.Clock time) (hcc : r.CollectorClock time) {period1 period2 delay limit : Time} (ht1 : r.CollectorTicks time period1) (hd : r.Responsive time delay)
    (ht2 : r.SinkTicksIn time period2) (h0 : 0 ≤ limit) (hl : r.SendsIn time limit) {k : Id} {l : List Span} (hh : Healthy k l)
    (hposted : ∀ m, List.Subperm (spansOfTrace k (acceptedSpans (r.outcomes m))) l) {n0 n1 : Nat} (hn : n0 ≤ n1)
    (hnone : spansOfTrace k (acceptedSpans (r.outcomes n0)) = []) (hall : l.length ≤ (spansOfTrace k (acceptedSpans (r.outcomes n1))).length)
    (hquick : time n1 + delay + period1 < time n0 + 2000000000)
    (hcalm : ∀ m, n0 ≤ m → time m ≤ time n1 + delay + 8000000000 + period1 → counted (r.state m).world.c.traces.toList ≤ 100000) :
    ∃ spans, (spans.map Span.withTags).Perm (l.map Span.withTags) ∧
      (∃ m, n1 ≤ m ∧ time m ≤ time n1 + 2 * delay + 9800000000 + period1 + period2 + 9 * limit ∧ (OneCall (r.state m) spans ∨ InDiscarded (r.state m) spans)) ∧
      ∀ m, List.Subperm ((r.state m).sent.flatten.flatten.filter fun d => d.traceID = k.toUInt64) (spans.map toDatadog) := by
  have hrec : ∀ m, List.Subperm (receivedFor k (r.state m).world.received) (spansOfTrace k (acceptedSpans (r.outcomes m))) := fun m => by
    obtain ⟨log, _, _, _, inv⟩ := (r.reach m).inv
    have h1 := http_log inv.http
    rw [(C33_all_or_nothing inv.http).2.2.2] at h1
    have h2 := ((List.sublist_append_left _ _).subperm.trans h1).filter fun s => decide (s.trace = k)
    have hs : List.Sublist (receivedFor k (r.state m).world.received) (spansOfTrace k (r.state m).world.received) := by
      unfold receivedFor spansOfTrace
      rw [show (fun s : Span => decide (Traced s) && s.trace == k) = fun s => (decide (Traced s) && decide (s.trace = k)) from funext fun s => by simp [beq_eq_decide], ← List.filter_filter]
      exact List.filter_sublist
    exact hs.subperm.trans h2
  have hpl : (spansOfTrace k (acceptedSpans (r.outcomes n1))).Perm l := (hposted n1).perm_of_length_le hall
  obtain ⟨q, hq, hqt, hidle⟩ := hd n1
  obtain ⟨_, _, log, hlog, hpush⟩ := C61_complete (r.reach q) hidle
  have hperm : (receivedFor k (r.state q).world.received).Perm l := by
    refine ((hrec q).trans (hposted q)).antisymm (subperm_of_ids hh.ids fun x hx => ?_)
    obtain ⟨hx1, hx2⟩ := List.mem_filter.mp (hpl.mem_iff.mpr hx)
    obtain ⟨o, ho, hxo⟩ := List.mem_flatMap.mp hx1
    obtain ⟨t1, t2⟩ := hh.trace x hx
    have hmem : x ∈ (r.state q).world.received := by
      cases o with
      | spans l' =>
        obtain ⟨c, hc⟩ := List.getElem?_of_mem ho
        have hxo : x ∈ l' := hxo
        rw [hlog]
        rw [← hpush c l' (outcome_later r hq hc)] at hxo
        exact ((List.filter_sublist).map _).subset hxo
      | _ => cases hxo
    refine List.mem_filter.mpr ⟨hmem, ?_⟩
    have : Traced x := ⟨by rw [t1]; exact hh.some, t2⟩
    rw [Bool.and_eq_true]
    exact ⟨decide_eq_true this, beq_iff_eq.mpr t1⟩
  have hperm' := hperm.map Span.withTags
  have hlast : ∀ m, receivedFor k (r.state m).world.received <+: receivedFor k (r.state q).world.received := fun m => by
    have mono : ∀ {m m' : Nat}, m ≤ m' → receivedFor k (r.state m).world.received <+: receivedFor k (r.state m').world.received := fun {m m'} hm => by
      obtain ⟨gs, hgs⟩ := r.runs hm
      rw [hgs.received k]
      exact List.prefix_append _ _
    rcases Nat.le_total m q with hm | hm
    · exact mono hm
    · have h1 := ((hrec m).trans (hposted m)).length_le
      have h2 := hperm.length_eq
      rw [← (mono hm).eq_of_length_le (by omega)]
      exact List.prefix_rfl
  have hfresh : receivedFor k (r.state n0).world.received = [] := by
    have := hrec n0
    rw [hnone] at this
    exact List.subperm_nil.mp this
  obtain ⟨spans, s1, ⟨e, he, het, hfate⟩, s3⟩ := C148_intact hc hcc ht1 hd ht2 h0 hl (k := k) (n := n0) (n1 := q) (by omega) hfresh (hh.of_perm hperm') hlast (by tomega)
    fun m hm hmt => hcalm m hm (by tomega)
  exact ⟨spans, s1.trans hperm', ⟨e, by omega, by tomega, hfate⟩, s3⟩

end

/-! ## Several proxies -/

/-- What each is at some time, all are at the latest of these times. -/
theorem all_by {α : Type} {time : Nat → Time} {n : Nat} {B : Time} (hB : time n ≤ B) {P : α → Nat → Prop} (hP : ∀ x m m', m ≤ m' → P x m → P x m') (l : List α)
    (h : ∀ x ∈ l, ∃ m, n ≤ m ∧ time m ≤ B ∧ P x m) : ∃ m, n ≤ m ∧ time m ≤ B ∧ ∀ x ∈ l, P x m := by
  induction l with
  | nil => exact ⟨n, Nat.le_refl _, hB, by simp⟩
  | cons a l ih =>
    obtain ⟨m1, h1, h2, h3⟩ := ih fun x hx => h x (List.mem_cons_of_mem _ hx)
    obtain ⟨m2, g1, g2, g3⟩ := h a List.mem_cons_self
    rcases Nat.le_total m1 m2 with hm | hm
    · refine ⟨m2, g1, g2, fun x hx => ?_⟩
      rcases List.mem_cons.mp hx with rfl | hx
      · exact g3
      · exact hP x _ _ hm (h3 x hx)
    · refine ⟨m1, h1, h2, fun x hx => ?_⟩
      rcases List.mem_cons.mp hx with rfl | hx
      · exact hP _ _ _ hm g3
      · exact h3 x hx

section
variable {part : List UInt8 → Nat} {assignment : List (List Nat)} {r : ClusterExecution plainConverter () part assignment} {time : Nat → Time} {d : Delays}

/-- C148: the spans of a healthy trace, posted in any pieces to any proxies, within 2 seconds less the delays on the way. The one proxy to which its partition is assigned gives them to the transport in
one call as one trace, or discards the batch they are in, in 9.8 seconds and the delays after the last piece was posted; no other call of any proxy ever has anything of it. -/
theorem C148_pieces (h : r.InTime time d) (hcc : ∀ i s, r.Proxy i s → System.CollectorClockSeq (fun n => (s n).back) time) (hclosed : r.Closed) (hnd : assignment.flatten.Nodup)
    -- the trace, and the proxy to which its partition is assigned
    {k : Id} {l : List Span} (hh : Healthy k l) {i0 : Nat} {s : Nat → Instance Unit} (hi : r.Proxy i0 s) {ps : List Nat} (hps : assignment[i0]? = some ps) (hp : partitionOf part k ∈ ps)
    -- what is ever posted of this trace, to all proxies, are these spans; all of them are posted between these states
    (hposted : ∀ m, List.Subperm (r.posted k m) l) {n0 n1 : Nat} (hn : n0 ≤ n1) (hnone : r.posted k n0 = []) (hall : l.length ≤ (r.posted k n1).length)
    -- in a short time
    (hquick : time n1 + d.write + d.read + d.work + d.collector < time n0 + 2000000000)
    -- and meanwhile not too many spans wait in that proxy
    (hcalm : ∀ m, n0 ≤ m → time m ≤ time n1 + d.write + d.read + d.work + 8000000000 + d.collector → counted (s m).back.world.c.traces.toList ≤ 100000) :
    (∃ spans, (spans.map Span.withTags).Perm (l.map Span.withTags) ∧
      (∃ m, n1 ≤ m ∧ time m ≤ time n1 + d.write + d.read + 2 * d.work + 9800000000 + d.collector + d.sink + 9 * d.call ∧ (OneCall (s m).back spans ∨ InDiscarded (s m).back spans)) ∧
      ∀ m, List.Subperm ((s m).back.sent.flatten.flatten.filter fun d => d.traceID = k.toUInt64) (spans.map toDatadog)) ∧
    ∀ j sj, r.Proxy j sj → j ≠ i0 → ∀ m, ((sj m).back.sent.flatten.flatten.filter fun d => d.traceID = k.toUInt64) = [] := by
  have hnd' := (List.pairwise_flatten.mp hnd).1
  have hlenA : ∀ {j sj}, r.Proxy j sj → j < assignment.length := fun {j sj} hj => by
    have := (List.getElem?_eq_some_iff.mp (hj 0)).1
    obtain ⟨_, _, _, hl⟩ := hclosed.settled 0
    omega
  constructor
  · obtain ⟨b, calls, log, hb, _, hc, ht1, hd, ht2, hl⟩ := h.back hnd' hi hps
    have hcc' : b.CollectorClock time := fun n => by
      rw [hb, hb]
      exact hcc i0 s hi n
    -- all spans are in the topic
    have hpl : (r.posted k n1).Perm l := (hposted n1).perm_of_length_le hall
    have hw0 : time n1 ≤ time n1 + d.write := by
      obtain ⟨q, hq, hqt, _⟩ := h.writes i0 s hi n1
      exact Int.le_trans (hc.le hq) hqt
    obtain ⟨m, hm, hmt, htop⟩ := all_by (n := n1) (P := fun (x : Span) m => x.withTags ∈ ((r.state m).topic (partitionOf part k)).filterMap decodeKafkaMessage) hw0 (fun x m m' hmm hx => by
        obtain ⟨z, hz⟩ := r.topic hmm (partitionOf part k)
        rw [← hz, List.filterMap_append]
        exact List.mem_append_left _ hx) l fun x hx => by
      obtain ⟨hx1, hx2⟩ := List.mem_filter.mp (hpl.mem_iff.mpr hx)
      rw [decide_eq_true_eq] at hx2
      obtain ⟨o, ho, hxo⟩ := List.mem_flatMap.mp hx1
      obtain ⟨j, hj, ho⟩ := List.mem_flatMap.mp ho
      obtain ⟨sj, hsj⟩ := r.proxy (List.mem_range.mp hj)
      cases o with
      | spans l' =>
        obtain ⟨c, hc⟩ := List.getElem?_of_mem ho
        obtain ⟨m, hm, hmt, _, hw⟩ := C147_written h hsj hc
        refine ⟨m, hm, hmt, (hw _).subset (List.mem_map_of_mem ?_)⟩
        unfold goTo
        refine List.mem_filter.mpr ⟨hxo, ?_⟩
        rw [← hx2]
        exact decide_eq_true rfl
      | _ => cases hxo
    -- and come to the collector
    obtain ⟨q, hq, hqt, hrec⟩ := C147_read h hnd' hi hps hp m
    have hsub : ∀ m, List.Subperm (receivedFor k (s m).back.world.received) (l.map Span.withTags) := fun m => (Closed.received hclosed hnd hi hps hp m).trans (subperm_map _ (hposted m))
    have hperm : (receivedFor k (s q).back.world.received).Perm (l.map Span.withTags) := by
      refine (hsub q).antisymm (subperm_of_ids ?_ fun x hx => ?_)
      · rw [List.map_map]
        exact hh.ids
      · obtain ⟨y, hy, rfl⟩ := List.mem_map.mp hx
        obtain ⟨t1, t2⟩ := hh.trace y hy
        refine List.mem_filter.mpr ⟨hrec.subset (htop y hy), ?_⟩
        have : Traced y.withTags := ⟨by show y.trace ≠ 0; rw [t1]; exact hh.some, t2⟩
        rw [Bool.and_eq_true]
        exact ⟨decide_eq_true this, beq_iff_eq.mpr t1⟩
    have hperm' : ((receivedFor k (s q).back.world.received).map Span.withTags).Perm (l.map Span.withTags) := by
      have := hperm.map Span.withTags
      rw [List.map_map] at this
      exact this.trans (.of_eq (List.map_congr_left fun x _ => by simp [Span.withTags]))
    have hlast : ∀ m, receivedFor k (s m).back.world.received <+: receivedFor k (s q).back.world.received := fun m => by
      have mono : ∀ {m m' : Nat}, m ≤ m' → receivedFor k (s m).back.world.received <+: receivedFor k (s m').back.world.received := fun {m m'} hm => by
        obtain ⟨gs, hgs⟩ := b.runs hm
        rw [hb, hb] at hgs
        rw [hgs.received k]
        exact List.prefix_append _ _
      rcases Nat.le_total m q with hm | hm
      · exact mono hm
      · have h1 := (hsub m).length_le
        have h2 := hperm.length_eq
        rw [← (mono hm).eq_of_length_le (by omega)]
        exact List.prefix_rfl
    have hfresh : receivedFor k (s n0).back.world.received = [] := by
      have := Closed.received hclosed hnd hi hps hp n0
      rw [hnone] at this
      exact List.subperm_nil.mp this
    have key := C148_intact hc hcc' ht1 hd ht2 h.calls hl (k := k) (n := n0) (n1 := q) (by omega)
    simp only [hb] at key
    obtain ⟨spans, s1, ⟨e, he, het, hfate⟩, s3⟩ := key hfresh (hh.of_perm hperm') hlast (by tomega) fun m hm hmt => hcalm m hm (by tomega)
    exact ⟨spans, s1.trans hperm', ⟨e, by omega, by tomega, hfate⟩, s3⟩
  · intro j sj hj hij m
    have hqs := List.getElem?_eq_getElem (hlenA hj)
    obtain ⟨e, _, _, hb, _⟩ := h.back hnd' hj hqs
    have hno := Closed.elsewhere hclosed hnd hj hps hp hij m
    rw [← hb] at hno ⊢
    have habs := (fresh_absent (reachable_inv (e.world m)) hno).2
    have := sink_trace (r := e) k m
    rw [show (e.state m).world.removed.filter (fun q => q.id == k) = [] from List.filter_eq_nil_iff.mpr fun q hq => by simpa using habs q hq] at this
    exact List.subperm_nil.mp (sent_trace (out := []) this)

end

/-! ## An execution in which this happens -/

/-- Two proxies. The two spans are posted to different proxies. -/
theorem pieces_execution : ∃ (r : ClusterExecution plainConverter () (fun _ => 0) [[1], [0]]) (time : Nat → Time) (s : Nat → Instance Unit) (n : Nat),
    r.InTime time atOnce ∧ (∀ i s, r.Proxy i s → System.CollectorClockSeq (fun n => (s n).back) time ∧ System.SinkClockSeq (fun n => (s n).back) time) ∧ r.Closed ∧ r.Proxy 1 s ∧
    (∀ m, List.Subperm (r.posted 9 m) [rootPiece, childPiece]) ∧ r.posted 9 0 = [] ∧ 2 ≤ (r.posted 9 n).length ∧ r.requests n 0 = [.spans [rootPiece]] ∧ r.requests n 1 = [.spans [childPiece]] ∧
    time n = time 0 ∧ ∀ m, (s m).back.world.received.length ≤ 2 := by
  have hnd : ([[1], [0]] : List (List Nat)).flatten.Nodup := by decide
  obtain ⟨r, time, h1, hcc, hclosed, ⟨n, h2, h3⟩, h4⟩ := C147_exists plainConverter () (fun _ => 0) (assignment := [[1], [0]]) hnd (by decide)
    [(0, .spans [rootPiece]), (1, .spans [childPiece])] (by simp) (by
      rintro x ⟨l, hl, hx⟩
      simp only [List.map_cons, List.map_nil, List.mem_cons, List.not_mem_nil, or_false, Parsed.spans.injEq] at hl
      rcases hl with rfl | rfl
      all_goals
        rw [List.mem_singleton] at hx
        subst hx
        exact C104_small (by decide +kernel))
  obtain ⟨s, hs⟩ := r.proxy (i := 1) (by decide)
  have e0 : r.requests n 0 = [.spans [rootPiece]] := h3 0
  have e1 : r.requests n 1 = [.spans [childPiece]] := h3 1
  have hreq : ∀ m, List.Sublist (acceptedSpans ((List.range 2).flatMap (r.requests m))) [rootPiece, childPiece] := fun m => by
    have a0 : r.requests m 0 <+: [.spans [rootPiece]] := h4 m 0
    have a1 : r.requests m 1 <+: [.spans [childPiece]] := h4 m 1
    show List.Sublist (acceptedSpans (r.requests m 0 ++ (r.requests m 1 ++ []))) (acceptedSpans ([.spans [rootPiece]] ++ [.spans [childPiece]]))
    rw [List.append_nil]
    unfold acceptedSpans
    rw [List.flatMap_append, List.flatMap_append]
    obtain ⟨z0, hz0⟩ := a0
    obtain ⟨z1, hz1⟩ := a1
    rw [← hz0, ← hz1, List.flatMap_append, List.flatMap_append]
    exact (List.sublist_append_left _ _).append (List.sublist_append_left _ _)
  have hposted : ∀ t m, List.Subperm (r.posted t m) (spansOfTrace t [rootPiece, childPiece]) := fun t m => ((hreq m).filter _).subperm
  have hnine : spansOfTrace 9 [rootPiece, childPiece] = [rootPiece, childPiece] := rfl
  have hother : ∀ t, t ≠ 9 → spansOfTrace t [rootPiece, childPiece] = [] := fun t ht => List.filter_eq_nil_iff.mpr fun x hx hxt => ht (by
    rw [decide_eq_true_eq] at hxt
    rw [← hxt]
    rcases List.mem_pair.mp hx with rfl | rfl <;> rfl)
  have hnone : r.posted 9 0 = [] := by
    unfold ClusterExecution.posted
    rw [show (List.range ([[1], [0]] : List (List Nat)).length).flatMap (r.requests 0) = [] from List.flatMap_eq_nil_iff.mpr fun i _ => r.noRequests i]
    rfl
  have hall : 2 ≤ (r.posted 9 n).length := by
    unfold ClusterExecution.posted
    rw [show (List.range ([[1], [0]] : List (List Nat)).length).flatMap (r.requests n) = r.requests n 0 ++ (r.requests n 1 ++ []) from rfl, e0, e1]
    decide
  have hcalm : ∀ m, (s m).back.world.received.length ≤ 2 := fun m => by
    obtain ⟨outs, g1, g2, _⟩ := hclosed.settled m
    have sub : ∀ t, List.Subperm (spansOfTrace t (s m).back.world.received) ((spansOfTrace t [rootPiece, childPiece]).map Span.withTags) := fun t => by
      refine ((C69_order hnd g1 (hs m) (ps := [0]) rfl t (by simp [partitionOf])).sublist.subperm.trans (settled_topic hnd g1 t)).trans ?_
      exact subperm_map _ ((((acceptedSpans_perm g2).filter _).subperm).trans (hposted t m))
    have all : spansOfTrace 9 (s m).back.world.received = (s m).back.world.received := List.filter_eq_self.mpr fun x hx => by
      refine Classical.byContradiction fun hne => ?_
      have hne : x.trace ≠ 9 := by simpa using hne
      have := (sub x.trace).subset (List.mem_filter.mpr ⟨hx, decide_eq_true rfl⟩)
      rw [hother _ hne] at this
      cases this
    have hlen := (sub 9).length_le
    rw [all] at hlen
    exact hlen
  exact ⟨r, time, s, n, h1, hcc, hclosed, hs, hposted 9, hnone, hall, e0, e1, h2, hcalm⟩

/-- Two proxies. The two spans are posted to different proxies; 11.9 seconds later the second one has given them to the transport, in one call, or has discarded them. -/
theorem C148_witness : ∃ (r : ClusterExecution plainConverter () (fun _ => 0) [[1], [0]]) (time : Nat → Time) (s : Nat → Instance Unit) (n : Nat),
    r.InTime time atOnce ∧ (∀ i s, r.Proxy i s → System.CollectorClockSeq (fun n => (s n).back) time) ∧ r.Closed ∧ r.Proxy 1 s ∧
    (∀ m, List.Subperm (r.posted 9 m) [rootPiece, childPiece]) ∧ r.posted 9 0 = [] ∧ 2 ≤ (r.posted 9 n).length ∧ r.requests n 0 = [.spans [rootPiece]] ∧ r.requests n 1 = [.spans [childPiece]] ∧
    time n + atOnce.write + atOnce.read + atOnce.work + atOnce.collector < time 0 + 2000000000 ∧ (∀ m, counted (s m).back.world.c.traces.toList ≤ 100000) ∧
    ∃ spans m, (spans.map Span.withTags).Perm [rootPiece.withTags, childPiece.withTags] ∧ time m ≤ time 0 + 11900000000 ∧ (OneCall (s m).back spans ∨ InDiscarded (s m).back spans) := by
  have hnd : ([[1], [0]] : List (List Nat)).flatten.Nodup := by decide
  obtain ⟨r, time, s, n, h1, hcc, hclosed, hs, hposted, hnone, hall, e0, e1, h2, hrec⟩ := pieces_execution
  have hcalm : ∀ m, counted (s m).back.world.c.traces.toList ≤ 100000 := fun m => by
    obtain ⟨b, _, _, hb, _⟩ := h1.back (List.pairwise_flatten.mp hnd).1 hs rfl
    have := counted_le (reachable_inv (b.world m))
    rw [hb] at this
    have := hrec m
    omega
  have hq : time n + atOnce.write + atOnce.read + atOnce.work + atOnce.collector < time 0 + 2000000000 := by
    rw [h2]
    dsimp only [atOnce]
    tomega
  have hcc' := fun i s hs => (hcc i s hs).1
  obtain ⟨⟨spans, s1, ⟨m, _, hm, hfate⟩, _⟩, _⟩ := C148_pieces h1 hcc' hclosed hnd pieces_healthy hs (ps := [0]) rfl (by simp [partitionOf]) hposted (Nat.zero_le n) hnone hall hq fun m _ _ => hcalm m
  refine ⟨r, time, s, n, h1, hcc', hclosed, hs, hposted, hnone, hall, e0, e1, hq, hcalm, spans, m, s1, ?_, hfate⟩
  rw [h2] at hm
  dsimp only [atOnce] at hm
  tomega

end Verif
