import Verif.Spec.Stop
import Verif.Props.Load
import Verif.Props.Recovery

/-!
# C145: stopping a proxy
-/

namespace Verif

open Spec

variable {κ : Type} {conv : κ → Span → Option Span × κ} {k : κ} {r : Execution conv k} {time : Nat → Time}

local macro "tomega" : tactic => `(tactic| (dsimp only [Time] at *; omega))

theorem sent_prefix (r : Execution conv k) {n m : Nat} (h : n ≤ m) : (r.state n).sent <+: (r.state m).sent := by
  induction h with
  | refl => exact List.prefix_rfl
  | @step m _ ih =>
    refine ih.trans ?_
    rcases sender_moves (r.next m) with h | h | h
    · generalize r.state (m + 1) = s' at h
      cases h; exact List.prefix_rfl
    · generalize r.state (m + 1) = s' at h
      cases h; exact List.prefix_append _ _
    · rw [h.2.1]; exact List.prefix_rfl

theorem stop_answers {s : System κ} {i code : Nat} (h : s.http.conns[i]? = some (.answered code)) : s.stop.answers[i]? = some (some code) := by
  show (s.http.conns.map _)[i]? = _
  rw [List.getElem?_map, h]; rfl

/-- C145, what is true: if the proxy is stopped long enough after a request, then all spans of the request with ids have left the collector before; and every trace that it had finished by then
is as a whole in a call of the transport, or was discarded because eight batches were waiting. -/
theorem C145_quiet_partial (hc : r.Clock time) {period1 period2 delay limit : Time} (ht1 : r.CollectorTicks time period1) (hd : r.Responsive time delay) (ht2 : r.SinkTicksIn time period2)
    (h0 : 0 ≤ limit) (hl : r.SendsIn time limit) {n i : Nat} {l : List Span} (hp : (r.outcomes n)[i]? = some (.spans l)) {stop : Nat}
    (hlate : time n + 2 * delay + 41800000001 + period1 + period2 + 9 * limit < time stop) :
    (r.state stop).stop.answers[i]? = some (some 202) ∧
    ∃ n' m, n' ≤ m ∧ m ≤ stop ∧ List.Subperm (l.filter fun s => decide (Traced s)) (r.state n').world.left ∧
      ∀ out ∈ convertTraces conv k (emittedOf (r.state n').world.removed), out ≠ [] → (r.state stop).stop.Has out ∨ (r.state m).Discarded out := by
  obtain ⟨n1, n2, m, chunks, current, _, h12, h2m, _, ha, _, hleft, hm, hpart, hall⟩ := C127_request hc ht1 hd ht2 h0 hl hp
  have hms : m ≤ stop := Classical.byContradiction fun h => by
    have := hc.le (show stop ≤ m by omega)
    tomega
  refine ⟨stop_answers (answered_stays r (show n1 ≤ stop by omega) ha), n2, m, h2m, hms, hleft, fun out ho hne => ?_⟩
  obtain ⟨j, chunk, h1, h2, h3 | ⟨call, h3, h4⟩⟩ := hall out ho hne
  · obtain ⟨b, h3⟩ := h3
    exact .inr ⟨chunks, current, j, chunk, b, hpart, h1, h2, h3⟩
  · exact .inl ⟨chunk, h2, call, (sent_prefix r hms).subset h3, h4⟩

/-- C145, what is true: under a load that the transport can take, none is discarded: a stop that is late enough after a request loses none of the traces that were finished. -/
theorem C145_load_partial (hc : r.Clock time) (hk : r.SinkClock time) {period1 period2 delay limit every : Time} (ht1 : r.CollectorTicks time period1) (hd : r.Responsive time delay)
    (ht2 : r.SinkTicksIn time period2) (h0 : 0 ≤ limit) (hev : 0 < every) (hle : limit * (5400000000 + 2000 * every) < 3600000000000 * every) (hl : r.SendsIn time limit)
    (hi : (r.state 0).world.received = []) (hf : AtMost r.collected time 4000 (40000000001 + period1 + delay) every) {n i : Nat} {l : List Span} (hp : (r.outcomes n)[i]? = some (.spans l)) {stop : Nat}
    (hlate : time n + 2 * delay + 41800000001 + period1 + period2 + 9 * limit < time stop) :
    ∃ n', n' ≤ stop ∧ List.Subperm (l.filter fun s => decide (Traced s)) (r.state n').world.left ∧
      ∀ out ∈ convertTraces conv k (emittedOf (r.state n').world.removed), out ≠ [] → (r.state stop).stop.Has out := by
  obtain ⟨n2, m, _, h2m, _, hleft, hm, hall⟩ := C129_request hc hk ht1 hd ht2 h0 hev hle hl hi hf hp
  have hms : m ≤ stop := Classical.byContradiction fun h => by
    have := hc.le (show stop ≤ m by omega)
    tomega
  refine ⟨n2, by omega, hleft, fun out ho hne => ?_⟩
  obtain ⟨chunk, h2, call, h3, h4⟩ := hall out ho hne
  exact ⟨chunk, h2, call, (sent_prefix r hms).subset h3, h4⟩

/-- A proxy that gets a request with one span, and is stopped after 45 seconds: nothing of what was finished is lost. -/
theorem C145_witness : ∃ (r : Execution plainConverter ()) (time : Nat → Time) (stop n : Nat), time 0 + 45000000000 ≤ time stop ∧ n ≤ stop ∧ (r.outcomes 0)[0]? = some (.spans [oneSpan]) ∧
    [oneSpan].Subperm (r.state n).world.left ∧ ∀ out ∈ convertTraces plainConverter () (emittedOf (r.state n).world.removed), out ≠ [] → (r.state stop).stop.Has out := by
  obtain ⟨r, time, c1, c2, c3, c4, c5, c6, c7, c8, c9⟩ := C129_witness
  obtain ⟨stop, hstop⟩ : ∃ stop, time 0 + 45000000000 ≤ time stop := by
    obtain ⟨m, i, h1, _, hv, e, _⟩ := c3 (time 0 + 45000000000) (by tomega)
    refine ⟨m + 1, ?_⟩
    have h2 := c1.collector (m + 1)
    rw [e] at h2
    have h3 : i.now1 ≤ ((r.state m).world.tick i).clock := hv.clock
    tomega
  obtain ⟨n, h1, h2, h3⟩ := C145_load_partial c1 c2 c3 c4 c5 (by decide) (by decide) C129_rate c6 c7 c8 c9 (stop := stop) (by tomega)
  exact ⟨r, time, stop, n, hstop, h1, c9, h2, h3⟩

/-- C145 is false: a request is answered 202, the proxy is stopped, and Datadog gets nothing, whatever the converter does. -/
theorem C145_fails (conv : κ → Span → Option Span × κ) (k : κ) : ∃ (s : System κ), System.Reachable conv k [.spans [oneSpan]] s ∧ s.stop.answers = [some 202] ∧ s.stop.calls = [] ∧
    s.world.received = [oneSpan] := by
  let s2 : System κ := { System.init k 0 with http := { conns := [.pushing []], channel := [oneSpan] } }
  have h2 : System.Reachable conv k [.spans [oneSpan]] s2 :=
    .step (.request (.spans [oneSpan]) (.init (k := k) 0)) (.http (.push (i := 0) (s := oneSpan) (rest := []) _ rfl (show 0 < 256 by decide)))
  let s3 : System κ := { s2 with http := { s2.http with channel := [] }, world := s2.world.receive 0 0 oneSpan }
  have h3 : System.Reachable conv k [.spans [oneSpan]] s3 := .step h2 (.collect 0 0 rfl rfl (Int.le_refl _) (Int.le_refl _))
  have h4 := System.Reachable.step h3 (.http (.accept (i := 0) _ rfl))
  exact ⟨_, h4, rfl, rfl, rfl⟩

/-- The value of a message with `oneSpan`. -/
def oneValue : List UInt8 := binaryEncode { id := 1, trace := 19 } []

/-- C145 is false with Kafka, too: a message is read and marked, and the proxy is stopped; when it is started again and gets the partition from where it was marked, the span is in no memory, and its message
will not be read again. Datadog got nothing. -/
theorem C145_fails_kafka (conv : κ → Span → Option Span × κ) (k : κ) : ∃ (c c1 c2 : Cluster κ) (n n2 : Instance κ) (o : Nat), (∃ outcomes foreign, Cluster.Reachable conv k (fun _ => 0) outcomes foreign c) ∧
    c.instances = [n] ∧ c.topic 0 = [oneValue] ∧ n.claims = [{ partition := 0, offset := o }] ∧ n.back.world.received = [Span.withTags { id := 1, trace := 19 }] ∧ n.back.stop.calls = [] ∧
    c.Upheaval k c1 ∧ c1.Upheaval k c2 ∧ c2.instances = [n2] ∧ n2.claims = [{ partition := 0, offset := o }] ∧ n2.back = System.init k 5 ∧ (c2.topic 0).drop o = [] := by
  have hd : decodeKafkaMessage oneValue = some (Span.withTags { id := 1, trace := 19 }) :=
    SentOk.decode (x := ({ id := 1, trace := 19 }, [], ⟨⟨0, 0⟩, ⟨0, 0⟩⟩)) ⟨by decide +kernel, List.Perm.refl _⟩
  have h1 : Cluster.Reachable conv k (fun _ => 0) [] [oneValue] _ := .foreign 0 oneValue (.upheaval .init (.start 0))
  have h2 := Cluster.Reachable.upheaval h1 (.assign (i := 0) 0 0 rfl (by
    intro n' hn cl hcl
    cases List.mem_singleton.mp hn
    cases hcl))
  have h3 := Cluster.Reachable.step h2 (.back (i := 0) rfl (.call (j := 0) (v := oneValue) rfl rfl rfl hd))
  have h4 := Cluster.Reachable.step h3 (.back (i := 0) rfl (.back (.http (.push (i := 0) (s := Span.withTags { id := 1, trace := 19 }) (rest := []) _ rfl (show 0 < 256 by decide)))))
  have h5 := Cluster.Reachable.step h4 (.back (i := 0) rfl (.back (.collect 0 0 rfl rfl (Int.le_refl _) (Int.le_refl _))))
  have h6 := Cluster.Reachable.step h5 (.back (i := 0) rfl (.back (.http (.accept (i := 0) _ rfl))))
  have h7 := Cluster.Reachable.step h6 (.back (i := 0) rfl (.mark (j := 0) rfl rfl rfl))
  refine ⟨_, _, _, _, _, 1, ⟨_, _, h7⟩, rfl, rfl, rfl, rfl, rfl, .crash 0 5, .assign (i := 0) 0 1 rfl ?_, rfl, rfl, rfl, rfl⟩
  intro n' hn cl hcl
  cases List.mem_singleton.mp hn
  cases hcl

end Verif
