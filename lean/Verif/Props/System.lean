import Verif.Proofs.System

/-!
# The whole system: C61, C67
-/

namespace Verif

open Spec

variable {κ : Type} {conv : κ → Span → Option Span × κ} {k : κ} {outcomes : List Parsed} {s : System κ}

/-- C61: under every schedule of all goroutines, everything given to the Datadog transport is the report of a span with ids that stems from an accepted span or a fake root. -/
theorem C61_transport (h : System.Reachable conv k outcomes s) {call : List (List DDSpan)} (hc : call ∈ s.sent) {t : List DDSpan} (ht : t ∈ call) {d : DDSpan} (hd : d ∈ t) :
    ∃ x, Stems conv outcomes x ∧ Reported x d := by
  obtain ⟨log, arrived, a, b, inv⟩ := h.inv
  obtain ⟨x, hx, rfl⟩ := inv.sent call hc t ht d hd
  refine ⟨x, ?_, toDatadog_reported x⟩
  rw [inv.sinkGot] at hx
  obtain ⟨t', ht', hx⟩ := List.mem_flatten.mp hx
  exact inv.stems (List.mem_of_mem_take ht') hx

/-- C61: so is everything in the admin view. -/
theorem C61_buffer (h : System.Reachable conv k outcomes s) {x : Span} (hx : x ∈ s.ring.toSlice) : Stems conv outcomes x := by
  obtain ⟨log, arrived, a, b, inv⟩ := h.inv
  obtain ⟨view, ⟨r, hr, hv⟩, hperm⟩ := C56_last (capacity := 2048) (by decide) ((convertTraces conv k arrived).take b)
  rw [inv.ringGot, Option.some.injEq] at hr
  subst hr
  rw [hv] at hx
  have := (List.mem_filter.mp (hperm.mem_iff.mp hx)).1
  obtain ⟨t, ht, hx⟩ := List.mem_flatten.mp (List.mem_of_mem_drop this)
  exact inv.stems (List.mem_of_mem_take ht) hx

/-- C61: at all times the sink and the buffer received a prefix of the converted traces that the collector finished; … -/
theorem C61_prefix (h : System.Reachable conv k outcomes s) :
    s.sink.received <+: convertTraces conv k (emittedOf s.world.removed) ∧
    ∃ ts, ts <+: convertTraces conv k (emittedOf s.world.removed) ∧ (Ring.new 2048).readFrom ts = some s.ring := by
  obtain ⟨log, arrived, a, b, inv⟩ := h.inv
  rw [inv.emitted, convertTraces_append]
  exact ⟨inv.sinkGot ▸ (List.take_prefix _ _).trans (List.prefix_append _ _), _, (List.take_prefix _ _).trans (List.prefix_append _ _), inv.ringGot⟩

/-- … and when nothing is pending, all of them; and the collector received exactly the spans that the requests pushed. -/
theorem C61_complete (h : System.Reachable conv k outcomes s) (hp : ¬ s.Pending) :
    s.sink.received = convertTraces conv k (emittedOf s.world.removed) ∧
    (Ring.new 2048).readFrom (convertTraces conv k (emittedOf s.world.removed)) = some s.ring ∧
    ∃ log, s.world.received = log.map (·.2) ∧ ∀ i l, outcomes[i]? = some (.spans l) → pushedBy i log = l := by
  obtain ⟨log, arrived, a, b, inv⟩ := h.inv
  unfold System.Pending at hp
  simp only [not_or, Classical.not_not, ne_eq] at hp
  obtain ⟨hconns, hchan, hout, hidle, hsb, hrb⟩ := hp
  have hcomp := C55_complete inv.forwarder hidle
  have hsd := inv.sinkDone
  have hrd := inv.ringDone
  rw [hsb] at hsd
  rw [hrb] at hrd
  have hlen : ∀ i, i < 2 → (s.forwarder.taken.getD i []).length = (convertTraces conv k arrived).length := by
    intro i hi
    rw [← hcomp i hi, List.length_map]
  have ha : a = (convertTraces conv k arrived).length := by
    have := hsd.1
    rw [hlen 0 (by decide)] at this
    exact this
  have hb : b = (convertTraces conv k arrived).length := by
    have := hrd.1
    rw [hlen 1 (by decide)] at this
    exact this
  have hem : emittedOf s.world.removed = arrived := by rw [inv.emitted, hout, List.append_nil]
  rw [hem]
  refine ⟨?_, ?_, log, ?_, ?_⟩
  · rw [inv.sinkGot, ha, List.take_length]
  · rw [← inv.ringGot, hb, List.take_length]
  · have := (C33_all_or_nothing inv.http).2.2.2
    rw [hchan, List.append_nil] at this
    exact this.symm
  · intro i l hi
    obtain ⟨hl, hall, _, _⟩ := C33_all_or_nothing inv.http
    have hi' : i < s.http.conns.length := by rw [hl]; exact (List.getElem?_eq_some_iff.mp hi).1
    have := hall i _ _ hi (List.getElem?_eq_getElem hi')
    have hc := List.getElem_mem hi'
    generalize s.http.conns[i] = c at this hc
    generalize pushedBy i log = pushed at this
    cases this with
    | pushing => exact absurd ⟨_, hc, .inr ⟨_, rfl⟩⟩ hconns
    | accepted => rfl

/-- C67: the pipeline never deadlocks: as long as work is left, some goroutine other than the sender to Datadog can take a step. So a slow or dead Datadog agent
does not stop it. -/
theorem C67_progress (h : System.Reachable conv k outcomes s) (hp : s.Pending) : ∃ s', s.Step conv s' := by
  obtain ⟨log, arrived, a, b, inv⟩ := h.inv
  obtain ⟨_, _, _, _, _, finv⟩ := inv.forwarder.inv
  cases hsb : s.sinkBusy with
  | some r => exact ⟨_, .sinkRead 0 hsb⟩
  | none =>
    cases hrb : s.ringBusy with
    | some r =>
      have hd := inv.ringDone
      rw [hrb] at hd
      obtain ⟨h1, h2⟩ := processed_next inv.forwarder (by decide) hd
      obtain ⟨ring, hr, _⟩ := rotated_read (cap := 2048) (by decide) ((convertTraces conv k arrived).take (b + 1)) rotated_new
      rw [h1, readFrom_append, inv.ringGot, Option.bind_some] at hr
      cases hpush : s.ring.pushTrace (s.forwarder.heap.read r) with
      | none => simp [Ring.readFrom, hpush] at hr
      | some ring' => exact ⟨_, .ringRead hrb hpush⟩
    | none =>
      by_cases hidle : s.forwarder.Idle
      · cases hout : s.outbox with
        | cons t rest => exact ⟨_, .emit hout (by rw [hidle.1]; decide)⟩
        | nil =>
          cases hchan : s.http.channel with
          | cons x rest => exact ⟨_, .collect s.world.clock s.world.clock hout hchan (Int.le_refl _) (Int.le_refl _)⟩
          | nil =>
            rcases hp with ⟨c, hc, hc'⟩ | h | h | h | h | h
            · obtain ⟨i, hi⟩ := List.getElem?_of_mem hc
              rcases hc' with rfl | ⟨l, rfl⟩
              · exact ⟨_, .http (.reject s.http hi)⟩
              · cases l with
                | nil => exact ⟨_, .http (.accept s.http hi)⟩
                | cons x l => exact ⟨_, .http (.push s.http hi (by rw [hchan]; decide))⟩
            · exact absurd hchan h
            · exact absurd hout h
            · exact absurd hidle h
            · exact absurd hsb h
            · exact absurd hrb h
      · obtain ⟨f', hf⟩ := C55_progress inv.forwarder (by decide) hidle
        rcases hf with hf | hf
        · exact ⟨_, .forward hf⟩
        · rename_i i r
          have hi : i < 2 := by
            rw [← finv.queuesLen]
            cases hf with
            | mk hq _ => exact (List.getElem?_eq_some_iff.mp hq).1
          match i, hi, hf with
          | 0, _, hf => exact ⟨_, .sinkTake hsb hf⟩
          | 1, _, hf => exact ⟨_, .ringTake hrb hf⟩

/-- Bounds the work that is left for a request. -/
def connWork : Conn → Nat
  | .pushing l => 2 * l.length + 1
  | .failing => 1
  | .answered _ => 0
  | .dead => 0

/-- Bounds the steps that are left. -/
def System.work (s : System κ) : Nat :=
  (s.http.conns.map connWork).sum + s.http.channel.length + 13 * s.outbox.length + 2 * s.forwarder.work + s.sinkBusy.toList.length + s.ringBusy.toList.length

theorem sum_map_set {α} (f : α → Nat) : ∀ {l : List α} {i : Nat} {q q' : α}, l[i]? = some q → ((l.set i q').map f).sum + f q = (l.map f).sum + f q'
  | [], _, _, _, h => by simp at h
  | x :: l, 0, q, q', h => by
    simp at h; subst h
    simp; omega
  | x :: l, i + 1, q, q', h => by
    have := sum_map_set f (q' := q') (l := l) (i := i) (q := q) (by simpa using h)
    simp only [List.set_cons_succ, List.map_cons, List.sum_cons]
    omega

/-- C67: without new requests and ticks all work is done after finitely many steps, in any schedule. -/
theorem C67_terminates (h : System.Reachable conv k outcomes s) {s' : System κ} (hs : s.Step conv s') : s'.work < s.work := by
  obtain ⟨log, arrived, a, b, inv⟩ := h.inv
  obtain ⟨_, _, _, _, _, finv⟩ := inv.forwarder.inv
  cases hs with
  | http hs =>
    cases hs with
    | @push i x rest hi hc =>
      have := sum_map_set connWork (q' := .pushing rest) hi
      simp only [System.work, List.length_append, List.length_singleton]
      simp only [connWork, List.length_cons] at this
      omega
    | accept hi =>
      have := sum_map_set connWork (q' := .answered 202) hi
      simp only [System.work]
      simp only [connWork, List.length_nil] at this
      omega
    | reject hi =>
      have := sum_map_set connWork (q' := .answered 400) hi
      simp only [System.work]
      simp only [connWork] at this
      omega
  | collect _ _ ho hc h1 h2 =>
    simp only [System.work, hc, List.length_cons]
    omega
  | @emit t rest ho hc =>
    have e : (s.forwarder.arrive t).work = s.forwarder.work + 6 := by
      simp only [Forwarder.work, Forwarder.arrive, List.length_append, List.length_singleton, finv.queuesLen, Nat.add_mul]
      omega
    simp only [System.work, ho, List.length_cons, e]
    omega
  | forward hf =>
    have := hf.work_lt
    simp only [System.work]
    omega
  | sinkTake hb hf =>
    have := hf.work_lt
    simp only [System.work, hb, Option.toList_some, Option.toList_none, List.length_singleton, List.length_nil]
    omega
  | sinkRead _ hb =>
    simp only [System.work, hb, Option.toList_some, Option.toList_none, List.length_singleton, List.length_nil]
    omega
  | ringTake hb hf =>
    have := hf.work_lt
    simp only [System.work, hb, Option.toList_some, Option.toList_none, List.length_singleton, List.length_nil]
    omega
  | ringRead hb hp =>
    simp only [System.work, hb, Option.toList_some, Option.toList_none, List.length_singleton, List.length_nil]
    omega

/-- With an empty channel, the collector does nothing while the rest finishes. -/
theorem drain : ∀ (n : Nat) (s : System κ), s.work = n → System.Reachable conv k outcomes s → s.http.channel = [] → (∀ c ∈ s.http.conns, ∀ x l, c ≠ .pushing (x :: l)) →
    ∃ s', System.Reachable conv k outcomes s' ∧ ¬ s'.Pending ∧ s'.world = s.world ∧ s'.sent = s.sent := by
  intro n
  induction n using Nat.strongRecOn with
  | _ n ih =>
    intro s hn hs hchan hconn
    by_cases hp : s.Pending
    · obtain ⟨s1, h1⟩ := C67_progress hs hp
      have hlt := C67_terminates hs h1
      have hr1 : System.Reachable conv k outcomes s1 := .step hs h1
      have hset : ∀ i c, (∀ x l, c ≠ Conn.pushing (x :: l)) → ∀ c' ∈ s.http.conns.set i c, ∀ x l, c' ≠ .pushing (x :: l) := by
        intro i c hc c' hc'
        rcases List.mem_or_eq_of_mem_set hc' with h | rfl
        · exact hconn c' h
        · exact hc
      have key : s1.http.channel = [] ∧ (∀ c ∈ s1.http.conns, ∀ x l, c ≠ .pushing (x :: l)) ∧ s1.world = s.world ∧ s1.sent = s.sent := by
        cases h1 with
        | http h1 =>
          cases h1 with
          | @push i x rest hi hc => exact absurd rfl (hconn _ (List.mem_of_getElem? hi) x rest)
          | accept hi => exact ⟨hchan, hset _ _ (fun _ _ h => by cases h), rfl, rfl⟩
          | reject hi => exact ⟨hchan, hset _ _ (fun _ _ h => by cases h), rfl, rfl⟩
        | collect _ _ _ hc _ _ => rw [hchan] at hc; cases hc
        | emit _ _ => exact ⟨hchan, hconn, rfl, rfl⟩
        | forward _ => exact ⟨hchan, hconn, rfl, rfl⟩
        | sinkTake _ _ => exact ⟨hchan, hconn, rfl, rfl⟩
        | sinkRead _ _ => exact ⟨hchan, hconn, rfl, rfl⟩
        | ringTake _ _ => exact ⟨hchan, hconn, rfl, rfl⟩
        | ringRead _ _ => exact ⟨hchan, hconn, rfl, rfl⟩
      obtain ⟨s', h2, h3, h4, h5⟩ := ih s1.work (by omega) s1 rfl hr1 key.1 key.2.1
      exact ⟨s', h2, h3, h4.trans key.2.2.1, h5.trans key.2.2.2⟩
    · exact ⟨s, hs, hp, rfl, rfl⟩

/-- C61: every history of the collector occurs in the system, and all traces it finishes arrive at the sink and in the buffer. -/
theorem C61_adequate (conv : κ → Span → Option Span × κ) (k : κ) {w : World} (hw : Reachable w) :
    ∃ outcomes s, System.Reachable conv k outcomes s ∧ ¬ s.Pending ∧ s.world = w ∧ s.sink.received = convertTraces conv k (emittedOf w.removed) := by
  suffices h : ∃ outcomes s, System.Reachable conv k outcomes s ∧ ¬ s.Pending ∧ s.world = w by
    obtain ⟨outcomes, s, h1, h2, rfl⟩ := h
    exact ⟨outcomes, s, h1, h2, rfl, (C61_complete h1 h2).1⟩
  have quiet : ∀ {s : System κ}, ¬ s.Pending → s.outbox = [] ∧ s.http.channel = [] ∧ ∀ c ∈ s.http.conns, ∀ l, c ≠ .pushing l := by
    intro s hp
    unfold System.Pending at hp
    simp only [not_or, Classical.not_not, ne_eq] at hp
    exact ⟨hp.2.2.1, hp.2.1, fun c hc l e => hp.1 ⟨c, hc, .inr ⟨l, e⟩⟩⟩
  induction hw with
  | init now =>
    refine ⟨[], System.init k now, .init now, ?_, rfl⟩
    rintro (⟨c, hc, _⟩ | h | h | h | h | h)
    · cases hc
    · exact h rfl
    · exact h rfl
    · exact h ⟨rfl, rfl, by simp [System.init, Forwarder.init]⟩
    · exact h rfl
    · exact h rfl
  | @receive w now1 now2 x hw h1 h2 ih =>
    obtain ⟨outcomes, s, hr, hp, rfl⟩ := ih
    obtain ⟨ho, hc, hconn⟩ := quiet hp
    have r1 := System.Reachable.request (.spans [x]) hr
    have hget : (s.http.conns ++ [Conn.start (.spans [x])])[s.http.conns.length]? = some (.pushing [x]) := by simp [Conn.start]
    have r2 := System.Reachable.step r1 (.http (.push _ hget (by dsimp only; rw [hc]; decide)))
    have r3 := System.Reachable.step r2 (.collect now1 now2 ho (by dsimp only; rw [hc]; rfl) h1 h2)
    obtain ⟨s', h3, h4, h5, _⟩ := drain _ _ rfl r3 rfl (by
      intro c hc' y l
      rcases List.mem_or_eq_of_mem_set hc' with h | rfl
      · rcases List.mem_append.mp h with h | h
        · exact hconn c h _
        · rw [List.mem_singleton] at h
          subst h
          rintro e
          -- the entry itself was replaced
          have hidx : ∀ (l : List Conn) (d : Conn), (∀ c ∈ l, ∀ l', c ≠ .pushing l') → ∀ c ∈ (l ++ [Conn.pushing [x]]).set l.length d, c ∈ l ∨ c = d := by
            intro l d _ c hc
            rw [List.set_append_right _ _ (Nat.le_refl _)] at hc
            simpa using hc
          rcases hidx s.http.conns _ hconn _ hc' with h | h
          · exact hconn _ h _ rfl
          · cases h
      · simp)
    exact ⟨_, s', h3, h4, h5⟩
  | @tick w i hw hv hc ih =>
    obtain ⟨outcomes, s, hr, hp, rfl⟩ := ih
    obtain ⟨ho, hch, hconn⟩ := quiet hp
    have r1 := System.Reachable.event hr (.tick i ho hv hc)
    obtain ⟨s', h3, h4, h5, _⟩ := drain _ _ rfl r1 hch (fun c hc x l => hconn c hc _)
    exact ⟨_, s', h3, h4, h5⟩

/-- C61: and whatever the collector finishes can get to Datadog. -/
theorem C61_sends (conv : κ → Span → Option Span × κ) (k : κ) {w : World} (hw : Reachable w) (hne : (convertTraces conv k (emittedOf w.removed)).flatten ≠ []) :
    ∃ outcomes s, System.Reachable conv k outcomes s ∧ s.world = w ∧ s.sent ≠ [] := by
  obtain ⟨outcomes, s, hr, hp, rfl, hrec⟩ := C61_adequate conv k hw
  have hbusy : s.sinkBusy = none := by
    unfold System.Pending at hp
    simp only [not_or, Classical.not_not, ne_eq] at hp
    exact hp.2.2.2.2.1
  -- a state in which a batch is being sent
  suffices h : ∃ s', System.Reachable conv k outcomes s' ∧ s'.world = s.world ∧ (s'.sent ≠ [] ∨ ∃ b, s'.sending = some b) by
    obtain ⟨s', h1, h2, h3 | ⟨b, hb⟩⟩ := h
    · exact ⟨outcomes, s', h1, h2, h3⟩
    · obtain ⟨_, _, _, _, inv⟩ := h1.inv
      obtain ⟨_, _, _, traces, _, _, hsub, _⟩ := C59_sent inv.sink (inv.sending b hb) (isRange_refl b)
      refine ⟨outcomes, _, .event h1 (.senderSend hb (isRange_refl b)), h2, ?_⟩
      rw [hsub]; simp
  by_cases hnone : s.sending = none
  · -- long after the last flush
    have r1 := System.Reachable.event hr (.sinkTick ((s.sink.times.getLast?.getD 0) + 1800000000) 0 hbusy)
    obtain ⟨_, _, _, _, inv⟩ := r1.inv
    obtain ⟨_, _, _, _, inv0⟩ := hr.inv
    have hlog : (s.sink.tick ((s.sink.times.getLast?.getD 0) + 1800000000) 0).log ≠ [] := by
      by_cases hc : 0 < s.sink.sink.spanCount
      · obtain ⟨_, _, ok, hl⟩ := (C60_tick inv0.sink ((s.sink.times.getLast?.getD 0) + 1800000000) 0).1 (by
          intro t ht
          rw [ht]
          show (1800000000 : Int) ≤ (t : Int) + 1800000000 - t
          omega) hc
        rw [hl]; simp
      · obtain ⟨chunks, cur, hpart, _, hcount, _, _⟩ := C60_bounded inv0.sink
        have hcur : cur = [] := List.eq_nil_of_length_eq_zero (by omega)
        have hl : s.sink.log ≠ [] := by
          intro e
          have hch : chunks = [] := List.eq_nil_of_length_eq_zero (by rw [hpart.count, e]; rfl)
          apply hne
          rw [← hrec, hpart.all, hcur, hch]; rfl
        show s.sink.log ++ _ ≠ []
        simp [hl]
    have hcalls := inv.calls
    rw [hnone] at hcalls
    have hsome := C59_first inv.sink hlog
    cases hg : (s.sink.tick ((s.sink.times.getLast?.getD 0) + 1800000000) 0).sink.grouped with
    | nil =>
      rw [hg, List.append_nil] at hsome
      refine ⟨_, r1, rfl, .inl ?_⟩
      intro e
      rw [e] at hcalls
      exact hsome (List.eq_nil_of_length_eq_zero hcalls)
    | cons b rest =>
      refine ⟨_, .event r1 (.senderTake (b := b) (k := { (s.sink.tick ((s.sink.times.getLast?.getD 0) + 1800000000) 0).sink with grouped := rest }) hnone ?_), rfl, .inr ⟨b, rfl⟩⟩
      unfold Sink.takeBatch
      dsimp only
      rw [hg]
  · obtain ⟨b, hb⟩ := Option.ne_none_iff_exists'.mp hnone
    exact ⟨s, hr, rfl, .inr ⟨b, hb⟩⟩

end Verif
