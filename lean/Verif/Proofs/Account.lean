import Verif.Spec.Account
import Verif.Proofs.System
import Verif.Props.System

/-!
# The books of the sink
-/

namespace Verif

open Spec

variable {κ : Type} {conv : κ → Span → Option Span × κ} {k : κ} {outcomes : List Parsed} {s : System κ}

theorem keptChunks_append {c c' : List (List Span)} {l l' : List (Bool × ByTrace)} (h : c.length = l.length) :
    keptChunks (c ++ c') (l ++ l') = keptChunks c l ++ keptChunks c' l' := by
  unfold keptChunks
  rw [List.zip_append h, List.filter_append, List.map_append]

theorem keptChunks_length {c : List (List Span)} {l : List (Bool × ByTrace)} (h : c.length = l.length) : (keptChunks c l).length = (l.filter (·.1)).length := by
  induction c generalizing l with
  | nil =>
    cases l with
    | nil => rfl
    | cons _ _ => cases h
  | cons x c ih =>
    cases l with
    | nil => cases h
    | cons e l =>
      have := ih (by simpa using h)
      unfold keptChunks at this ⊢
      rw [List.zip_cons_cons, List.filter_cons, List.filter_cons]
      cases e.1 <;> simpa using this

/-- A batch that was not discarded, and its spans. -/
theorem keptChunks_get {c : List (List Span)} {l : List (Bool × ByTrace)} (h : c.length = l.length) {i : Nat} {b : ByTrace} (hi : ((l.filter (·.1)).map (·.2))[i]? = some b) :
    ∃ (j : Nat) (chunk : List Span), (keptChunks c l)[i]? = some chunk ∧ c[j]? = some chunk ∧ l[j]? = some (true, b) := by
  induction c generalizing l i with
  | nil =>
    cases l with
    | nil => cases hi
    | cons _ _ => cases h
  | cons x c ih =>
    cases l with
    | nil => cases h
    | cons e l =>
      obtain ⟨ok, e⟩ := e
      unfold keptChunks
      rw [List.zip_cons_cons, List.filter_cons]
      rw [List.filter_cons] at hi
      cases ok with
      | false =>
        obtain ⟨j, chunk, h1, h2, h3⟩ := ih (by simpa using h) (by simpa using hi)
        exact ⟨j + 1, chunk, by simpa [keptChunks] using h1, by simpa using h2, by simpa using h3⟩
      | true =>
        cases i with
        | zero =>
          simp at hi
          exact ⟨0, x, by simp, rfl, by simp [hi]⟩
        | succ i =>
          obtain ⟨j, chunk, h1, h2, h3⟩ := ih (i := i) (by simpa using h) (by simpa using hi)
          exact ⟨j + 1, chunk, by simpa [keptChunks] using h1, by simpa using h2, by simpa using h3⟩

theorem mem_chunks {c : List (List Span)} {l : List (Bool × ByTrace)} (h : c.length = l.length) {chunk : List Span} (hc : chunk ∈ c) :
    chunk ∈ keptChunks c l ∨ ∃ (i : Nat) (b : ByTrace), c[i]? = some chunk ∧ l[i]? = some (false, b) := by
  induction c generalizing l with
  | nil => cases hc
  | cons x c ih =>
    cases l with
    | nil => cases h
    | cons e l =>
      obtain ⟨ok, e⟩ := e
      have rest : chunk ∈ c → chunk ∈ keptChunks (x :: c) ((ok, e) :: l) ∨ ∃ (i : Nat) (b : ByTrace), (x :: c)[i]? = some chunk ∧ ((ok, e) :: l)[i]? = some (false, b) := by
        intro hc
        rcases ih (by simpa using h) hc with hk | ⟨i, b, h1, h2⟩
        · left
          unfold keptChunks at hk ⊢
          rw [List.zip_cons_cons, List.filter_cons]
          cases ok
          · simpa using hk
          · exact List.mem_cons_of_mem _ hk
        · exact .inr ⟨i + 1, b, by simpa using h1, by simpa using h2⟩
      rcases List.mem_cons.mp hc with rfl | hc
      · cases ok with
        | false => exact .inr ⟨0, e, rfl, rfl⟩
        | true => left; simp [keptChunks]
      · exact rest hc

structure Books (s : System κ) (chunks : List (List Span)) (cur : List Span) : Prop where
  inv : SinkInv s.sink chunks cur
  sending : ∀ b, s.sending = some b → s.sink.handed[s.sent.length]? = some b
  count : s.sink.handed.length = s.sent.length + s.sending.toList.length
  calls : ∀ (i : Nat) call, s.sent[i]? = some call → ∃ c, (keptChunks chunks s.sink.log)[i]? = some c ∧ Call c call

theorem Books.account {chunks cur} (h : Books s chunks cur) : Account s chunks cur := by
  refine ⟨h.inv.part, h.calls, ?_⟩
  rw [keptChunks_length h.inv.part.count, ← List.length_map (f := (·.2)), h.inv.part.sent, List.length_append, h.count]

/-- The sink goes on. -/
theorem Books.extend {chunks cur} (h : Books s chunks cur) {w : SinkRun} (hlog : s.sink.log <+: w.log) (hh : w.handed = s.sink.handed)
    (hw : ∃ chunks' cur', SinkInv w chunks' cur' ∧ chunks <+: chunks') {s' : System κ} (h1 : s'.sink = w) (h2 : s'.sending = s.sending) (h3 : s'.sent = s.sent) :
    ∃ chunks' cur', Books s' chunks' cur' := by
  obtain ⟨chunks', cur', hinv, ⟨c', rfl⟩⟩ := hw
  obtain ⟨l', hl⟩ := hlog
  refine ⟨_, cur', ⟨h1 ▸ hinv, ?_, ?_, ?_⟩⟩
  · rw [h1, h2, h3, hh]; exact h.sending
  · rw [h1, h2, h3, hh]; exact h.count
  · intro i call hi
    rw [h3] at hi
    obtain ⟨c, hc, hcall⟩ := h.calls i call hi
    refine ⟨c, ?_, hcall⟩
    rw [h1, ← hl, keptChunks_append h.inv.part.count, List.getElem?_append_left (List.getElem?_eq_some_iff.mp hc).1]
    exact hc

theorem System.Reachable.books (h : System.Reachable conv k outcomes s) : ∃ chunks cur, Books s chunks cur := by
  induction h with
  | init now => exact ⟨[], [], ⟨sinkInv_init, fun b hb => (by cases hb), rfl, fun i call hi => (by cases hi)⟩⟩
  | request o _ ih =>
    obtain ⟨chunks, cur, b⟩ := ih
    exact ⟨chunks, cur, ⟨b.inv, b.sending, b.count, b.calls⟩⟩
  | step _ hs ih =>
    obtain ⟨chunks, cur, b⟩ := ih
    cases hs with
    | sinkRead now hb => exact b.extend (w := SinkRun.receive _ _ now) (List.prefix_append _ _) rfl (sinkInv_receive b.inv _ now) rfl rfl rfl
    | _ => exact ⟨chunks, cur, ⟨b.inv, b.sending, b.count, b.calls⟩⟩
  | @event outcomes s s' _ hs ih =>
    obtain ⟨chunks, cur, b⟩ := ih
    cases hs with
    | tick i ho hv hc => exact ⟨chunks, cur, ⟨b.inv, b.sending, b.count, b.calls⟩⟩
    | sinkTick since now hb => exact b.extend (w := s.sink.tick since now) (List.prefix_append _ _) rfl (sinkInv_tick b.inv since now) rfl rfl rfl
    | @senderTake x kk hb ht =>
      have hcount := b.count
      rw [hb] at hcount
      simp only [Option.toList_none, List.length_nil, Nat.add_zero] at hcount
      refine ⟨chunks, cur, ⟨sinkInv_take b.inv ht, ?_, ?_, b.calls⟩⟩
      · intro y hy
        simp only [Option.some.injEq] at hy
        subst hy
        simp [← hcount]
      · simp [hcount]
    | @senderSend x range hb hr =>
      have hget := b.sending x hb
      have hcount := b.count
      rw [hb] at hcount
      have hlog : ((s.sink.log.filter (·.1)).map (·.2))[s.sent.length]? = some x := by
        rw [b.inv.part.sent, List.getElem?_append_left (List.getElem?_eq_some_iff.mp hget).1]
        exact hget
      obtain ⟨j, chunk, h1, h2, h3⟩ := keptChunks_get b.inv.part.count hlog
      obtain ⟨traces, h4, h5⟩ := submit_call (b.inv.part.batches j chunk _ h2 h3) (b.inv.nonempty chunk (List.mem_of_getElem? h2)) hr
      refine ⟨chunks, cur, ⟨b.inv, fun y hy => (by cases hy), ?_, ?_⟩⟩
      · simp only [h4]
        simpa using hcount
      · intro i call hi
        simp only [h4, Option.toList_some] at hi
        by_cases hlt : i < s.sent.length
        · rw [List.getElem?_append_left hlt] at hi
          exact b.calls i call hi
        · rw [List.getElem?_append_right (by omega)] at hi
          have hi0 : i - s.sent.length = 0 := by
            have := (List.getElem?_eq_some_iff.mp hi).1
            simp at this; exact this
          rw [hi0] at hi
          simp at hi
          subst hi
          have : i = s.sent.length := by omega
          subst this
          exact ⟨chunk, h1, h5⟩

/-- What became of a span that the sink received. -/
theorem sinkFate (h : System.Reachable conv k outcomes s) {x : Span} (hx : x ∈ s.sink.received.flatten) : SinkFate s x := by
  obtain ⟨chunks, cur, b⟩ := h.books
  have acc := b.account
  rw [b.inv.part.all] at hx
  rcases List.mem_append.mp hx with hx | hx
  · obtain ⟨c, hc, hx⟩ := List.mem_flatten.mp hx
    rcases mem_chunks b.inv.part.count hc with hk | ⟨i, bt, h1, h2⟩
    · obtain ⟨i, hi⟩ := List.mem_iff_getElem?.mp hk
      by_cases hlt : i < s.sent.length
      · obtain ⟨c', h1, h2⟩ := b.calls i _ (List.getElem?_eq_getElem hlt)
        rw [hi, Option.some.injEq] at h1
        subst h1
        obtain ⟨t, ht, hd⟩ := List.mem_flatten.mp (h2.all.mem_iff.mpr (List.mem_map_of_mem hx))
        exact .sent (List.getElem_mem hlt) ht hd
      · exact .waiting acc (by omega) hi hx
    · exact .dropped acc h1 h2 hx
  · exact .buffered acc hx

theorem convertAll_append (conv : κ → Span → Option Span × κ) (k : κ) (l l' : List Span) :
    convertAll conv k (l ++ l') = ((convertAll conv k l).1 ++ (convertAll conv (convertAll conv k l).2 l').1, (convertAll conv (convertAll conv k l).2 l').2) := by
  induction l generalizing k with
  | nil => rfl
  | cons x l ih => simp only [List.cons_append, convertAll, ih, List.append_assoc]

theorem convertTraces_flatten (conv : κ → Span → Option Span × κ) (k : κ) (l : List (List Span)) : (convertTraces conv k l).flatten = (convertAll conv k l.flatten).1 := by
  induction l generalizing k with
  | nil => rfl
  | cons t l ih => simp only [convertTraces, List.flatten_cons, ih, convertAll_append]

/-! ## Everything can be sent -/

/-- Nothing waits for the sender, and nothing was discarded. -/
def System.Clear (s : System κ) : Prop := s.sending = none ∧ s.sink.sink.grouped = [] ∧ ∀ e ∈ s.sink.log, e.1 = true

/-- One batch is sent. -/
theorem send_one (h : System.Reachable conv k outcomes s) (hn : s.sending = none) {b : ByTrace} (hb : s.sink.sink.grouped = [b]) :
    ∃ s', System.Reachable conv k outcomes s' ∧ s'.sending = none ∧ s'.sink.sink = { s.sink.sink with grouped := [] } ∧ s'.sink.log = s.sink.log ∧ s'.http = s.http ∧
      s'.world = s.world ∧ s'.outbox = s.outbox ∧ s'.forwarder = s.forwarder ∧ s'.sinkBusy = s.sinkBusy ∧ s'.ringBusy = s.ringBusy := by
  have r1 := System.Reachable.event h (.senderTake (b := b) (k := { s.sink.sink with grouped := [] }) hn (by unfold Sink.takeBatch; rw [hb]))
  exact ⟨_, .event r1 (.senderSend rfl (isRange_refl b)), rfl, rfl, rfl, rfl, rfl, rfl, rfl, rfl, rfl⟩

/-- A flush while nothing waits. -/
theorem flush_clear {a : Sink} (h : a.grouped = []) (f : Bool) (now : Time) :
    ((a.flush f now).2 = none ∧ (a.flush f now).1 = a) ∨ ∃ b, (a.flush f now).2 = some (true, b) ∧ (a.flush f now).1.grouped = [b] ∧ (a.flush f now).1.spanCount = 0 := by
  unfold Sink.flush
  by_cases hf : f = true ∧ a.spanCount > 0
  · rw [if_pos hf, if_pos (by rw [h]; decide)]
    exact .inr ⟨_, rfl, by simp [h], rfl⟩
  · rw [if_neg hf]
    exact .inl ⟨rfl, rfl⟩

theorem addSpans_grouped (trace : List Span) (a : Sink) : (trace.foldl Sink.addSpan a).grouped = a.grouped := by
  induction trace generalizing a with
  | nil => rfl
  | cons x l ih => rw [List.foldl_cons, ih]; rfl

/-- With an empty channel, the collector does nothing while the rest finishes; the sender can keep up. -/
theorem drain_clear : ∀ (n : Nat) (s : System κ), s.work = n → System.Reachable conv k outcomes s → s.http.channel = [] → (∀ c ∈ s.http.conns, ∀ x l, c ≠ .pushing (x :: l)) →
    s.Clear → ∃ s', System.Reachable conv k outcomes s' ∧ ¬ s'.Pending ∧ s'.world = s.world ∧ s'.Clear := by
  intro n
  induction n using Nat.strongRecOn with
  | _ n ih =>
    intro s hn hs hchan hconn hclear
    by_cases hp : s.Pending
    · obtain ⟨s1, h1⟩ := C67_progress hs hp
      have hlt := C67_terminates hs h1
      have hr1 : System.Reachable conv k outcomes s1 := .step hs h1
      have hset : ∀ i c, (∀ x l, c ≠ Conn.pushing (x :: l)) → ∀ c' ∈ s.http.conns.set i c, ∀ x l, c' ≠ .pushing (x :: l) := by
        intro i c hc c' hc'
        rcases List.mem_or_eq_of_mem_set hc' with h | rfl
        · exact hconn c' h
        · exact hc
      have key : ∃ s2, System.Reachable conv k outcomes s2 ∧ s2.work = s1.work ∧ s2.http.channel = [] ∧ (∀ c ∈ s2.http.conns, ∀ x l, c ≠ .pushing (x :: l)) ∧ s2.world = s.world ∧ s2.Clear := by
        cases h1 with
        | http h1 =>
          cases h1 with
          | @push i x rest hi hc => exact absurd rfl (hconn _ (List.mem_of_getElem? hi) x rest)
          | accept hi => exact ⟨_, hr1, rfl, hchan, hset _ _ (fun _ _ h => by cases h), rfl, hclear⟩
          | reject hi => exact ⟨_, hr1, rfl, hchan, hset _ _ (fun _ _ h => by cases h), rfl, hclear⟩
        | collect _ _ _ hc _ _ => rw [hchan] at hc; cases hc
        | emit _ _ => exact ⟨_, hr1, rfl, hchan, hconn, rfl, hclear⟩
        | forward _ => exact ⟨_, hr1, rfl, hchan, hconn, rfl, hclear⟩
        | sinkTake _ _ => exact ⟨_, hr1, rfl, hchan, hconn, rfl, hclear⟩
        | ringTake _ _ => exact ⟨_, hr1, rfl, hchan, hconn, rfl, hclear⟩
        | ringRead _ _ => exact ⟨_, hr1, rfl, hchan, hconn, rfl, hclear⟩
        | @sinkRead r now hb =>
          have hg : ({ (s.forwarder.heap.read r).foldl Sink.addSpan s.sink.sink with
              spanCount := ((s.forwarder.heap.read r).foldl Sink.addSpan s.sink.sink).spanCount + (s.forwarder.heap.read r).length } : Sink).grouped = [] := by
            show ((s.forwarder.heap.read r).foldl Sink.addSpan s.sink.sink).grouped = []
            rw [addSpans_grouped]; exact hclear.2.1
          rcases flush_clear hg (decide (((s.forwarder.heap.read r).foldl Sink.addSpan s.sink.sink).spanCount + (s.forwarder.heap.read r).length ≥ 1000)) now with ⟨e1, e2⟩ | ⟨b, e1, e2, _⟩
          · refine ⟨_, hr1, rfl, hchan, hconn, rfl, hclear.1, ?_, ?_⟩
            · exact (congrArg Sink.grouped e2).trans hg
            · intro e he
              have hl : (s.sink.receive (s.forwarder.heap.read r) now).log = s.sink.log := by
                show s.sink.log ++ Option.toList _ = _
                rw [show (s.sink.sink.receive (s.forwarder.heap.read r) now).2 = none from e1]
                simp
              exact hclear.2.2 e (hl ▸ he)
          · have hl : (s.sink.receive (s.forwarder.heap.read r) now).log = s.sink.log ++ [(true, b)] := by
              show s.sink.log ++ Option.toList _ = _
              rw [show (s.sink.sink.receive (s.forwarder.heap.read r) now).2 = some (true, b) from e1]
              rfl
            obtain ⟨s2, g1, g2, g3, g4, g5, g6, g7, g8, g9, g10⟩ := send_one hr1 hclear.1 e2
            refine ⟨s2, g1, ?_, by rw [g5]; exact hchan, by rw [g5]; exact hconn, g6, g2, by rw [g3], ?_⟩
            · unfold System.work
              rw [g5, g7, g8, g9, g10]
            · intro e he
              rw [g4] at he
              rcases List.mem_append.mp (hl ▸ he) with he | he
              · exact hclear.2.2 e he
              · rw [List.mem_singleton.mp he]
      obtain ⟨s2, g1, g2, g3, g4, g5, g6⟩ := key
      obtain ⟨s', h2, h3, h4, h5⟩ := ih s1.work (by omega) s2 g2 g1 g3 g4 g6
      exact ⟨s', h2, h3, h4.trans g5, h5⟩
    · exact ⟨s, hs, hp, rfl, hclear⟩

theorem not_pending {s : System κ} (hp : ¬ s.Pending) : s.outbox = [] ∧ s.http.channel = [] ∧ (∀ c ∈ s.http.conns, ∀ l, c ≠ .pushing l) ∧ s.sinkBusy = none := by
  unfold System.Pending at hp
  simp only [not_or, Classical.not_not, ne_eq] at hp
  exact ⟨hp.2.2.1, hp.2.1, fun c hc l e => hp.1 ⟨c, hc, .inr ⟨l, e⟩⟩, hp.2.2.2.2.1⟩

theorem adequate_clear (conv : κ → Span → Option Span × κ) (k : κ) {w : World} (hw : Reachable w) :
    ∃ s, System.Reachable conv k (w.received.map fun x => .spans [x]) s ∧ ¬ s.Pending ∧ s.world = w ∧ s.Clear := by
  induction hw with
  | init now =>
    refine ⟨System.init k now, .init now, ?_, rfl, rfl, rfl, fun e he => by cases he⟩
    rintro (⟨c, hc, _⟩ | h | h | h | h | h)
    · cases hc
    · exact h rfl
    · exact h rfl
    · exact h ⟨rfl, rfl, by simp [System.init, Forwarder.init]⟩
    · exact h rfl
    · exact h rfl
  | @receive w now1 now2 x hw h1 h2 ih =>
    obtain ⟨s, hr, hp, rfl, hclear⟩ := ih
    obtain ⟨ho, hc, hconn, _⟩ := not_pending hp
    have r1 := System.Reachable.request (.spans [x]) hr
    have hget : (s.http.conns ++ [Conn.start (.spans [x])])[s.http.conns.length]? = some (.pushing [x]) := by simp [Conn.start]
    have r2 := System.Reachable.step r1 (.http (.push _ hget (by dsimp only; rw [hc]; decide)))
    have r3 := System.Reachable.step r2 (.collect now1 now2 ho (by dsimp only; rw [hc]; rfl) h1 h2)
    obtain ⟨s', h3, h4, h5, h6⟩ := drain_clear _ _ rfl r3 rfl (by
      intro c hc' y l
      have hidx : c ∈ s.http.conns ∨ c = Conn.pushing [] := by
        have hc' : c ∈ (s.http.conns ++ [Conn.start (.spans [x])]).set s.http.conns.length (Conn.pushing []) := hc'
        rw [List.set_append_right _ _ (Nat.le_refl _)] at hc'
        simpa using hc'
      rcases hidx with h | rfl
      · exact hconn c h _
      · simp) hclear
    exact ⟨s', by rw [show (s.world.receive now1 now2 x).received = s.world.received ++ [x] from rfl, List.map_append]; exact h3, h4, h5, h6⟩
  | @tick w i hw hv hc ih =>
    obtain ⟨s, hr, hp, rfl, hclear⟩ := ih
    obtain ⟨ho, hch, hconn, _⟩ := not_pending hp
    have r1 := System.Reachable.event hr (.tick i ho hv hc)
    obtain ⟨s', h3, h4, h5, h6⟩ := drain_clear _ _ rfl r1 hch (fun c hc x l => hconn c hc _) hclear
    exact ⟨s', h3, h4, h5, h6⟩

end Verif
