import Verif.Proofs.Fair
import Mathlib.Data.List.Basic
import Mathlib.Data.List.Perm.Subperm

/-!
# Everything is done eventually: C100
-/

namespace Verif

open Spec

variable {κ : Type} {conv : κ → Span → Option Span × κ} {k : κ}

section moves

variable {o o' : List Parsed} {s s' : System κ}

/-- What may happen to the requests, and to what the collector received. -/
inductive HMove (conv : κ → Span → Option Span × κ) (s s' : System κ) : Prop
  | none : s'.http.channel = s.http.channel → s'.world.received = s.world.received → (∀ (i : Nat) (c : Conn), s.http.conns[i]? = some c → s'.http.conns[i]? = some c) → HMove conv s s'
  | push {i : Nat} {x : Span} {rest : List Span} : s.http.conns[i]? = some (.pushing (x :: rest)) → s.http.channel.length < 256 → s'.http.channel = s.http.channel ++ [x] →
      s'.world.received = s.world.received → s'.http.conns = s.http.conns.set i (.pushing rest) → s.Does conv (.handler i) s' → HMove conv s s'
  | answer {i : Nat} {c d : Conn} : s.http.conns[i]? = some c → connWork d < connWork c → s'.http.channel = s.http.channel →
      s'.world.received = s.world.received → s'.http.conns = s.http.conns.set i d → s.Does conv (.handler i) s' → HMove conv s s'
  | collect {x : Span} {rest : List Span} : s.http.channel = x :: rest → s'.http.channel = rest → s'.world.received = s.world.received ++ [x] → s'.http.conns = s.http.conns →
      s.Does conv .collect s' → HMove conv s s'

theorem System.Next.hmove (h : System.Next conv o s o' s') : HMove conv s s' := by
  cases h with
  | step h =>
    cases h with
    | http h =>
      cases h with
      | push hi hc => exact .push hi hc rfl rfl rfl (.push hi hc)
      | accept hi => exact .answer hi (by decide) rfl rfl rfl (.accept hi)
      | reject hi => exact .answer hi (by decide) rfl rfl rfl (.reject hi)
    | collect n1 n2 a b c d => exact .collect b rfl rfl rfl (.collect n1 n2 a b c d)
    | _ => exact .none rfl rfl fun _ _ h => h
  | event h => cases h <;> exact .none rfl rfl fun _ _ h => h
  | request o =>
    refine .none rfl rfl fun i c h => ?_
    dsimp only
    rw [List.getElem?_append_left (List.getElem?_eq_some_iff.mp h).1]; exact h
  | stay => exact .none rfl rfl fun _ _ h => h

theorem does_collect (h : s.Does conv .collect s') : s'.world.received.length = s.world.received.length + 1 := by
  cases h with
  | collect a b c d e f => simp [World.receive]

theorem does_handler {i : Nat} (h : s.Does conv (.handler i) s') {c : Conn} (hc : s.http.conns[i]? = some c) : ∃ d, s'.http.conns[i]? = some d ∧ connWork d < connWork c := by
  have hi := (List.getElem?_eq_some_iff.mp hc).1
  cases h with
  | push h1 h2 =>
    rw [hc] at h1; cases h1
    exact ⟨_, List.getElem?_set_self hi, by simp [connWork]⟩
  | accept h1 =>
    rw [hc] at h1; cases h1
    exact ⟨_, List.getElem?_set_self hi, by decide⟩
  | reject h1 =>
    rw [hc] at h1; cases h1
    exact ⟨_, List.getElem?_set_self hi, by decide⟩

theorem HMove.flow (h : HMove conv s s') : s.world.received ++ s.http.channel <+: s'.world.received ++ s'.http.channel ∧ s.world.received <+: s'.world.received := by
  cases h with
  | none h1 h2 h3 => rw [h1, h2]; exact ⟨List.prefix_rfl, List.prefix_rfl⟩
  | push h1 h2 h3 h4 h5 h6 => rw [h3, h4, ← List.append_assoc]; exact ⟨List.prefix_append _ _, List.prefix_rfl⟩
  | answer h1 h2 h3 h4 h5 h6 => rw [h3, h4]; exact ⟨List.prefix_rfl, List.prefix_rfl⟩
  | collect h1 h2 h3 h4 h5 => rw [h1, h2, h3, List.append_assoc]; exact ⟨List.prefix_rfl, List.prefix_append _ _⟩

theorem HMove.conn (h : HMove conv s s') {i : Nat} {c : Conn} (hc : s.http.conns[i]? = some c) : s.Does conv (.handler i) s' ∨ s'.http.conns[i]? = some c := by
  cases h with
  | none h1 h2 h3 => exact .inr (h3 i c hc)
  | @push j x rest h1 h2 h3 h4 h5 h6 =>
    by_cases hj : j = i
    · subst hj; exact .inl h6
    · rw [h5, List.getElem?_set_ne hj]; exact .inr hc
  | @answer j c d h1 h2 h3 h4 h5 h6 =>
    by_cases hj : j = i
    · subst hj; exact .inl h6
    · rw [h5, List.getElem?_set_ne hj]; exact .inr hc
  | collect h1 h2 h3 h4 h5 => rw [h4]; exact .inr hc

end moves

variable {r : Execution conv k}

theorem Execution.hmove (r : Execution conv k) (n : Nat) : HMove conv (r.state n) (r.state (n + 1)) := (r.next n).hmove

theorem flow (r : Execution conv k) {n m : Nat} (hm : n ≤ m) :
    (r.state n).world.received ++ (r.state n).http.channel <+: (r.state m).world.received ++ (r.state m).http.channel ∧ (r.state n).world.received <+: (r.state m).world.received := by
  induction hm with
  | refl => exact ⟨List.prefix_rfl, List.prefix_rfl⟩
  | step hm ih => exact ⟨ih.1.trans (r.hmove _).flow.1, ih.2.trans (r.hmove _).flow.2⟩

/-- The collector receives what waits in the channel. -/
theorem collects (h : r.Fair) {n : Nat} (hc : (r.state n).http.channel ≠ []) : ∃ m, n ≤ m ∧ (r.state n).world.received.length < (r.state m).world.received.length := by
  refine Classical.byContradiction fun hn => ?_
  have hlen : ∀ m, n ≤ m → (r.state m).world.received.length = (r.state n).world.received.length := fun m hm => by
    have h1 := (flow r hm).2.length_le
    have h2 : ¬ (r.state n).world.received.length < (r.state m).world.received.length := fun e => hn ⟨m, hm, e⟩
    omega
  have hno : ∀ m, n ≤ m → ¬ r.Takes .collect m := fun m hm ht => by
    have := does_collect ht
    rw [hlen m hm, hlen (m + 1) (by omega)] at this
    omega
  have hchan : ∀ m, n ≤ m → (r.state m).http.channel ≠ [] := fun m hm e => by
    have h1 := (flow r hm).1.length_le
    rw [e, List.append_nil, hlen m hm, List.length_append] at h1
    exact hc (List.eq_nil_of_length_eq_zero (by omega))
  obtain ⟨m, hm, ht⟩ := h.collect (fun j => by
    obtain ⟨m, hm, ho⟩ := outbox_empty h (max n j)
    refine ⟨m, by omega, ?_⟩
    cases hx : (r.state m).http.channel with
    | nil => exact absurd hx (hchan m (by omega))
    | cons x rest => exact ⟨_, .collect _ _ ho hx (Int.le_refl _) (Int.le_refl _)⟩) n
  exact hno m hm ht

/-- All that waits in the channel is received, in order. -/
theorem C100_collected (h : r.Fair) (n : Nat) : ∃ m, n ≤ m ∧ ∀ m', m ≤ m' → (r.state n).world.received ++ (r.state n).http.channel <+: (r.state m').world.received := by
  obtain ⟨m, hm, hle⟩ := reaches (f := fun n => ((r.state n).world.received.length : Int))
    (b := (((r.state n).world.received ++ (r.state n).http.channel).length : Nat)) (n := n)
    (fun n => by have := (flow r (Nat.le_succ n)).2.length_le; exact Int.ofNat_le.mpr this) (fun m hm hlt => by
      have h1 := (flow r hm).1.length_le
      rw [List.length_append (as := (r.state m).world.received)] at h1
      obtain ⟨m', hm', h'⟩ := collects h (n := m) (by intro e; rw [e] at h1; simp only [List.length_nil] at h1; omega)
      exact ⟨m', hm', by omega⟩)
  refine ⟨m, hm, fun m' hm' => ?_⟩
  have h1 := (flow r (Nat.le_trans hm hm')).1
  have h2 := (flow r hm').2.length_le
  exact List.prefix_of_prefix_length_le h1 (List.prefix_append _ _) (by omega)

/-- A request that is not yet answered goes on. -/
theorem conn_moves (h : r.Fair) {n i : Nat} {c : Conn} (hc : (r.state n).http.conns[i]? = some c) (hw : 0 < connWork c) :
    ∃ m d, n ≤ m ∧ (r.state m).http.conns[i]? = some d ∧ connWork d < connWork c := by
  refine Classical.byContradiction fun hn => ?_
  have hkeep : ∀ m, n ≤ m → (r.state m).http.conns[i]? = some c ∧ ¬ r.Takes (.handler i) m := fun m hm => by
    have hno : (r.state m).http.conns[i]? = some c → ¬ r.Takes (.handler i) m := fun e ht => by
      obtain ⟨d, hd, hlt⟩ := does_handler ht e
      exact hn ⟨m + 1, d, by omega, hd, hlt⟩
    suffices (r.state m).http.conns[i]? = some c from ⟨this, hno this⟩
    clear hno
    induction hm with
    | refl => exact hc
    | @step m1 hm ih =>
      rcases (r.hmove m1).conn ih with ht | e
      · obtain ⟨d, hd, hlt⟩ := does_handler ht ih
        exact absurd ⟨m1 + 1, d, Nat.le_succ_of_le hm, hd, hlt⟩ hn
      · exact e
  -- the channel has room again and again
  have room : ∀ j, ∃ m, j ≤ m ∧ (r.state m).http.channel.length < 256 := fun j => by
    refine Classical.byContradiction fun hf => ?_
    have hfull : ∀ m, j ≤ m → ¬ (r.state m).http.channel.length < 256 := fun m hm e => hf ⟨m, hm, e⟩
    obtain ⟨m, hm, hall⟩ := C100_collected h j
    have hconst : ∀ m, j ≤ m → (r.state m).world.received ++ (r.state m).http.channel = (r.state j).world.received ++ (r.state j).http.channel := fun m hm => by
      refine stays (f := fun m => (r.state m).world.received ++ (r.state m).http.channel) (fun m hm => ?_) hm
      show (r.state (m + 1)).world.received ++ (r.state (m + 1)).http.channel = (r.state m).world.received ++ (r.state m).http.channel
      cases r.hmove m with
      | none h1 h2 h3 => rw [h1, h2]
      | push h1 h2 h3 h4 h5 h6 => exact absurd h2 (hfull m hm)
      | answer h1 h2 h3 h4 h5 h6 => rw [h3, h4]
      | collect h1 h2 h3 h4 h5 => rw [h1, h2, h3]; simp
    have h1 := (hall m (Nat.le_refl _)).length_le
    rw [← hconst m hm, List.length_append] at h1
    exact hfull m hm (by omega)
  obtain ⟨m, hm, ht⟩ := h.handler i (fun j => by
    obtain ⟨m, hm, hr⟩ := room (max n j)
    have hc' := (hkeep m (by omega)).1
    refine ⟨m, by omega, ?_⟩
    match c, hw with
    | .pushing [], _ => exact ⟨_, .accept hc'⟩
    | .pushing (x :: rest), _ => exact ⟨_, .push hc' hr⟩
    | .failing, _ => exact ⟨_, .reject hc'⟩) n
  exact (hkeep m hm).2 ht

theorem conn_done (h : r.Fair) {n i : Nat} {c : Conn} (hc : (r.state n).http.conns[i]? = some c) :
    ∃ m d, n ≤ m ∧ (r.state m).http.conns[i]? = some d ∧ connWork d = 0 := by
  have key : ∀ w n c, (r.state n).http.conns[i]? = some c → connWork c ≤ w → ∃ m d, n ≤ m ∧ (r.state m).http.conns[i]? = some d ∧ connWork d = 0 := by
    intro w
    induction w with
    | zero => intro n c hc hw; exact ⟨n, c, Nat.le_refl _, hc, by omega⟩
    | succ w ih =>
      intro n c hc hw
      by_cases h0 : 0 < connWork c
      · obtain ⟨m, d, hm, hd, hlt⟩ := conn_moves h hc h0
        obtain ⟨m', d', hm', hd', h0'⟩ := ih m d hd (by omega)
        exact ⟨m', d', by omega, hd', h0'⟩
      · exact ⟨n, c, Nat.le_refl _, hc, by omega⟩
  exact key _ n c hc (Nat.le_refl _)

theorem outcomes_prefix (r : Execution conv k) {n m : Nat} (hm : n ≤ m) : r.outcomes n <+: r.outcomes m := by
  induction hm with
  | refl => exact List.prefix_rfl
  | @step m hm ih =>
    refine ih.trans ?_
    have h := r.next m
    generalize r.outcomes (m + 1) = o' at h
    generalize r.state (m + 1) = s' at h
    cases h with
    | step h => exact List.prefix_rfl
    | event h => exact List.prefix_rfl
    | request o => exact List.prefix_append _ _
    | stay => exact List.prefix_rfl

theorem outcome_later (r : Execution conv k) {n m i : Nat} (hm : n ≤ m) {p : Parsed} (h : (r.outcomes n)[i]? = some p) : (r.outcomes m)[i]? = some p := by
  obtain ⟨l, hl⟩ := outcomes_prefix r hm
  rw [← hl, List.getElem?_append_left (List.getElem?_eq_some_iff.mp h).1]; exact h

/-- An answer is final. -/
theorem answered_stays (r : Execution conv k) {n m i : Nat} (hm : n ≤ m) {code : Nat} (h : (r.state n).http.conns[i]? = some (.answered code)) :
    (r.state m).http.conns[i]? = some (.answered code) := by
  induction hm with
  | refl => exact h
  | step hm ih =>
    rcases (r.hmove _).conn ih with ht | e
    · obtain ⟨d, hd, hlt⟩ := does_handler ht ih
      simp [connWork] at hlt
    · exact e

/-- C100: in every fair execution, every request is answered: with 202 if it was parsed, with 400 if not. (A handler that panics, or that waits for the rest of the body, does not answer.) -/
theorem C100_answered (h : r.Fair) {n i : Nat} {p : Parsed} (hp : (r.outcomes n)[i]? = some p) :
    (∀ l, p = .spans l → ∃ m, n ≤ m ∧ ∀ m', m ≤ m' → (r.state m').http.conns[i]? = some (.answered 202)) ∧
    (p = .err → ∃ m, n ≤ m ∧ ∀ m', m ≤ m' → (r.state m').http.conns[i]? = some (.answered 400)) := by
  have hi : i < (r.state n).http.conns.length := by
    obtain ⟨_, _, _, _, inv⟩ := (r.reach n).inv
    rw [(C33_all_or_nothing inv.http).1]
    exact (List.getElem?_eq_some_iff.mp hp).1
  obtain ⟨m, d, hm, hd, h0⟩ := conn_done h (List.getElem?_eq_getElem hi)
  obtain ⟨log, _, _, _, inv⟩ := (r.reach m).inv
  have hall := (C33_all_or_nothing inv.http).2.1 i p d (outcome_later r hm hp) hd
  generalize pushedBy i log = pushed at hall
  refine ⟨fun l hl => ⟨m, hm, fun m' hm' => answered_stays r hm' ?_⟩, fun hl => ⟨m, hm, fun m' hm' => answered_stays r hm' ?_⟩⟩
  · subst hl
    cases hall with
    | pushing => simp [connWork] at h0
    | accepted => exact hd
  · subst hl
    cases hall with
    | failing => simp [connWork] at h0
    | rejected => exact hd

/-- C100: and the collector receives all its spans, in their order. -/
theorem C100_received (h : r.Fair) {n i : Nat} {l : List Span} (hp : (r.outcomes n)[i]? = some (.spans l)) :
    ∃ m, n ≤ m ∧ ∀ m', m ≤ m' → l.Sublist (r.state m').world.received := by
  obtain ⟨m, hm, ha⟩ := (C100_answered h hp).1 l rfl
  obtain ⟨m1, hm1, hc⟩ := C100_collected h m
  refine ⟨m1, by omega, fun m' hm' => List.Sublist.trans ?_ (hc m' hm').sublist⟩
  obtain ⟨log, _, _, _, inv⟩ := (r.reach m).inv
  have hall := C33_all_or_nothing inv.http
  rw [← hall.2.2.2]
  have hl := hall.2.1 i _ _ (outcome_later r hm hp) (ha m (Nat.le_refl _))
  generalize hpu : pushedBy i log = pushed at hl
  cases hl
  rw [← hpu]
  exact (List.filter_sublist).map _

theorem sink_done_le (r : Execution conv k) (n : Nat) :
    ((r.state n).takenBy 0 : Int) - (r.state n).sinkBusy.toList.length ≤ (r.state (n + 1)).takenBy 0 - (r.state (n + 1)).sinkBusy.toList.length := by
  rcases (r.next n).sinkBusy with h | h | h
  · generalize r.state (n + 1) = s' at h
    cases h with
    | sinkRead now hb =>
      rw [hb]
      show ((r.state n).takenBy 0 : Int) - 1 ≤ (r.state n).takenBy 0 - 0
      omega
  · have := does_sinkTake h
    generalize r.state (n + 1) = s' at h this
    cases h with
    | sinkTake hb hf =>
      rw [hb, this]
      simp
  · have := taken_le r (j := 0) (by decide) n
    rw [h]; omega

theorem ring_done_le (r : Execution conv k) (n : Nat) :
    ((r.state n).takenBy 1 : Int) - (r.state n).ringBusy.toList.length ≤ (r.state (n + 1)).takenBy 1 - (r.state (n + 1)).ringBusy.toList.length := by
  rcases (r.next n).ringBusy with h | h | h
  · generalize r.state (n + 1) = s' at h
    cases h with
    | ringRead hb hp =>
      rw [hb]
      show ((r.state n).takenBy 1 : Int) - 1 ≤ (r.state n).takenBy 1 - 0
      omega
  · have := does_ringTake h
    generalize r.state (n + 1) = s' at h this
    cases h with
    | ringTake hb hf =>
      rw [hb, this]
      simp
  · have := taken_le r (j := 1) (by decide) n
    rw [h]; omega

/-- C100: whatever the collector finished, the sink gets and the buffer shows: all of it, converted, in order. -/
theorem C100_delivered (h : r.Fair) (n : Nat) : ∃ m, n ≤ m ∧ ∀ m', m ≤ m' →
    convertTraces conv k (emittedOf (r.state n).world.removed) <+: (r.state m').sink.received ∧
    ∃ ts, convertTraces conv k (emittedOf (r.state n).world.removed) <+: ts ∧ ts <+: convertTraces conv k (emittedOf (r.state m').world.removed) ∧
      (Ring.new 2048).readFrom ts = some (r.state m').ring := by
  obtain ⟨m, hm, ht⟩ := targets_take h n
  obtain ⟨m1, hm1, hf1⟩ := sink_free h m
  obtain ⟨m2, hm2, hf2⟩ := ring_free h m
  refine ⟨max m1 m2, by omega, fun m' hm' => ?_⟩
  have d1 : _ ≤ _ := mono_of_step (f := fun n => ((r.state n).takenBy 0 : Int) - (r.state n).sinkBusy.toList.length) (sink_done_le r) (show m1 ≤ m' by omega)
  have d2 : _ ≤ _ := mono_of_step (f := fun n => ((r.state n).takenBy 1 : Int) - (r.state n).ringBusy.toList.length) (ring_done_le r) (show m2 ≤ m' by omega)
  have t1 := ht m1 hm1 0 (by decide)
  have t2 := ht m2 hm2 1 (by decide)
  rw [hf1] at d1
  rw [hf2] at d2
  simp only [Option.toList_none, List.length_nil] at d1 d2
  obtain ⟨log, arrived, a, b, inv⟩ := (r.reach m').inv
  have p1 := inv.sinkDone.1
  have p2 := inv.ringDone.1
  have c1 := inv.sinkDone.2.1
  have c2 := inv.ringDone.2.1
  have e1 : (r.state m').takenBy 0 = ((r.state m').forwarder.taken.getD 0 []).length := rfl
  have e2 : (r.state m').takenBy 1 = ((r.state m').forwarder.taken.getD 1 []).length := rfl
  -- both are prefixes of all converted traces
  have hpre : convertTraces conv k (emittedOf (r.state n).world.removed) <+: convertTraces conv k (emittedOf (r.state m').world.removed) := by
    obtain ⟨l, hl⟩ := removed_prefix r (show n ≤ m' by omega)
    rw [← hl, emittedOf_append, convertTraces_append]
    exact List.prefix_append _ _
  have harr : ∀ x, (convertTraces conv k arrived).take x <+: convertTraces conv k (emittedOf (r.state m').world.removed) := fun x => by
    rw [inv.emitted, convertTraces_append]
    exact (List.take_prefix _ _).trans (List.prefix_append _ _)
  refine ⟨?_, (convertTraces conv k arrived).take b, ?_, harr b, inv.ringGot⟩
  · rw [inv.sinkGot]
    refine List.prefix_of_prefix_length_le hpre (harr a) ?_
    rw [convertTraces_length, List.length_take]
    omega
  · refine List.prefix_of_prefix_length_le hpre (harr b) ?_
    rw [convertTraces_length, List.length_take]
    omega

/-! ## The spans that wait in the collector -/

/-- All pending traces hold only spans that were received after the first `n`, but for those that were started at certain times. -/
def NewBut (P : Time → Prop) (w : World) (n : Nat) : Prop :=
  ∀ (id : Id) (t : Tree), w.c.traces[id]? = some t → P t.started ∨ t.members <:+ receivedFor id (w.received.drop n)

theorem NewBut.receive {P : Time → Prop} {w : World} (hw : WInv w) {n : Nat} (hn : n ≤ w.received.length) (now1 now2 : Time) (x : Span) (h : NewBut P w n) :
    NewBut P (w.receive now1 now2 x) n := by
  have hrec : ∀ id, receivedFor id ((w.receive now1 now2 x).received.drop n) = receivedFor id (w.received.drop n) ++ if Traced x ∧ x.trace = id then [x] else [] := by
    intro id
    rw [← receivedFor_append]
    show receivedFor id ((w.received ++ [x]).drop n) = _
    rw [List.drop_append_of_le_length hn]
  have same : ∀ id t, w.c.traces[id]? = some t → ¬ (Traced x ∧ x.trace = id) → P t.started ∨ t.members <:+ receivedFor id ((w.receive now1 now2 x).received.drop n) := by
    intro id t ht hne
    rw [hrec, if_neg hne, List.append_nil]
    exact h id t ht
  intro id t ht
  have hc : (w.receive now1 now2 x).c = w.c.receive now1 now2 x := rfl
  rw [hc] at ht
  unfold Collector.receive at ht
  by_cases htr : x.trace = 0 ∨ x.id = 0
  · rw [if_pos htr] at ht
    exact same id t ht fun e => (not_traced_iff x).mp htr e.1
  · rw [if_neg htr] at ht
    have htr : Traced x := Classical.byContradiction fun e => htr ((not_traced_iff x).mpr e)
    by_cases hb : w.c.blacklist.contains x.trace = true
    · rw [if_pos hb] at ht
      refine same id t ht fun e => ?_
      obtain ⟨u, hu⟩ := (contains_iff _ _).mp hb
      rw [e.2, hw.disjoint id t ht] at hu
      cases hu
    · rw [if_neg hb] at ht
      simp only [get_insert] at ht
      split at ht
      · next he =>
        subst he
        cases ht
        rw [hrec, if_pos ⟨htr, rfl⟩]
        cases hg : w.c.traces[x.trace]? with
        | none =>
          right
          rw [Option.getD_none, Tree.addSpan_members]
          exact ⟨receivedFor x.trace (w.received.drop n), by simp [newTree]⟩
        | some t =>
          rw [Option.getD_some, Tree.addSpan_members, (t.addSpan_fields now2 x).2.1]
          rcases h _ t hg with h | ⟨p, hp⟩
          · exact .inl h
          · exact .inr ⟨p, by rw [← hp, List.append_assoc]⟩
      · next he => exact same id t ht fun e => he e.2

theorem tick_keeps_tree {w : World} {i : TickInput} (hv : i.Valid w.c) {id : Id} {t : Tree} (h : (w.c.tick i).1.traces[id]? = some t) : w.c.traces[id]? = some t := by
  obtain ⟨_, _, _, htr, _⟩ := tick_eq w.c i hv
  rw [htr] at h
  split at h
  · cases h
  · exact h

theorem NewBut.next {P : Time → Prop} {o o' : List Parsed} {s s' : System κ} (hs : Reachable s.world) (hm : System.Next conv o s o' s') {n : Nat} (hn : n ≤ s.world.received.length)
    (h : NewBut P s.world n) : NewBut P s'.world n := by
  cases hm with
  | step hm =>
    cases hm with
    | collect now1 now2 a b c d => exact h.receive (reachable_inv hs) hn now1 now2 _
    | _ => exact h
  | event hm =>
    cases hm with
    | tick i ho hv hc => exact fun id t ht => h id t (tick_keeps_tree hv ht)
    | _ => exact h
  | request o => exact h
  | stay => exact h

theorem Execution.world (r : Execution conv k) (n : Nat) : Reachable (r.state n).world := by
  obtain ⟨_, _, _, _, inv⟩ := (r.reach n).inv
  exact inv.world

theorem NewBut.later {P : Time → Prop} {n m m' : Nat} (hnm : n ≤ m) (hm : m ≤ m') (h : NewBut P (r.state m).world (r.state n).world.received.length) :
    NewBut P (r.state m').world (r.state n).world.received.length := by
  induction hm with
  | refl => exact h
  | @step m' hm ih => exact ih.next (r.world m') (r.next m') ((flow r (Nat.le_trans hnm hm)).2.length_le)

/-- After a tick that is late enough, the pending traces hold only spans received later. -/
theorem leaves_after {n m : Nat} {i : TickInput} (hm : n ≤ m) (hT : (r.state n).world.clock + 40000000001 ≤ i.now1) (hv : i.Valid (r.state m).world.c)
    (hs : r.state (m + 1) = { (r.state m) with world := (r.state m).world.tick i, outbox := emittedOf ((r.state m).world.c.tick i).2 }) {m' : Nat} (hm' : m + 1 ≤ m') {id : Id} {t : Tree}
    (h : (r.state m').world.c.traces[id]? = some t) : t.members <:+ receivedFor id ((r.state m').world.received.drop (r.state n).world.received.length) := by
  have h0 : NewBut (· ≤ (r.state n).world.clock) (r.state n).world (r.state n).world.received.length := fun id t h => by
    have := (reachable_inv (r.world n)).trees id t h
    exact .inl (Int.le_trans this.started this.updated)
  have h1 := h0.later (r := r) (Nat.le_refl _) hm
  have h2 : NewBut (fun _ => False) (r.state (m + 1)).world (r.state n).world.received.length := by
    rw [hs]
    intro id t h
    have h : ((r.state m).world.c.tick i).1.traces[id]? = some t := h
    obtain ⟨bt, _, hb, hall, _⟩ := C52_pending_time (r.world m) hv
    obtain ⟨_, hst, _⟩ := hall id t h
    right
    rcases h1 id t (tick_keeps_tree hv h) with h' | h'
    · exfalso
      exact (by omega : ∀ c now1 now2 st b : Int, c + 40000000001 ≤ now1 → now1 ≤ now2 → b ≤ 8000000000 → now2 - 5 * b ≤ st → st ≤ c → False) _ _ _ _ _ hT hv.clock hb hst h'
    · exact h'
  exact ((h2.later (r := r) (by omega) hm') id t h).resolve_left fun e => e

/-- C100: if the ticks recur, no span stays in the collector: after some time, the pending traces hold only spans received later. -/
theorem C100_leaves (ht : r.Ticks) (n : Nat) : ∃ m, n ≤ m ∧ ∀ m', m ≤ m' → ∀ (id : Id) (t : Tree), (r.state m').world.c.traces[id]? = some t →
    t.members <:+ receivedFor id ((r.state m').world.received.drop (r.state n).world.received.length) := by
  obtain ⟨m, i, hm, hT, ho, hv, hc, hs⟩ := ht n ((r.state n).world.clock + 40000000001)
  exact ⟨m + 1, by omega, fun m' hm' id t h => leaves_after hm hT hv hs hm' h⟩

/-- The pending spans are among those received after the first `n`. -/
theorem pending_subperm {w : World} (hw : WInv w) {n : Nat} (h : ∀ (id : Id) (t : Tree), w.c.traces[id]? = some t → t.members <:+ receivedFor id (w.received.drop n)) :
    List.Subperm (pendingMembers w.c) ((w.received.drop n).filter fun s => decide (Traced s)) := by
  letI : DecidableEq Span := Classical.decEq Span
  rw [List.subperm_ext_iff]
  intro x hx
  obtain ⟨e, he, hxe⟩ := List.mem_flatMap.mp hx
  obtain ⟨id, t⟩ := e
  have ht : w.c.traces[id]? = some t := (mem_range (isRange_refl _)).mp he
  have hid := ((hw.trees id t ht).members x hxe).1
  have hp : (pendingMembers w.c).Perm (t.members ++ (w.c.traces.erase id).toList.flatMap fun e => e.2.members) := (toList_erase_perm ht).flatMap_right _
  rw [hp.count_eq, List.count_append]
  have h0 : List.count x ((w.c.traces.erase id).toList.flatMap fun e => e.2.members) = 0 := by
    rw [List.count_eq_zero]
    intro hm
    obtain ⟨e', he', hxe'⟩ := List.mem_flatMap.mp hm
    obtain ⟨id', t'⟩ := e'
    have ht' := (mem_range (isRange_refl _)).mp he'
    rw [get_erase] at ht'
    split at ht'
    · cases ht'
    · next hne => exact hne (hid.symm.trans ((hw.trees id' t' ht').members x hxe').1)
  rw [h0, Nat.add_zero]
  refine Nat.le_trans ((h id t ht).sublist.count_le x) (List.Sublist.count_le x ?_)
  unfold receivedFor
  rw [show (fun s : Span => decide (Traced s) && (s.trace == id)) = (fun s => (s.trace == id) && decide (Traced s)) from funext fun s => Bool.and_comm _ _, ← List.filter_filter]
  exact List.filter_sublist

/-- The spans that left the collector: with a trace that was removed, or refused because their trace was blocked. -/
def World.left (w : World) : List Span := w.removed.flatMap (fun x => x.tree.members) ++ w.refused

/-- If the pending traces hold only newer spans then the others left. -/
theorem left_of_leaves {n M : Nat} (hn : n ≤ M) (hl : ∀ (id : Id) (t : Tree), (r.state M).world.c.traces[id]? = some t →
    t.members <:+ receivedFor id ((r.state M).world.received.drop (r.state n).world.received.length)) {l : List Span} (hr : l.Sublist (r.state n).world.received) :
    List.Subperm (l.filter fun s => decide (Traced s)) (r.state M).world.left := by
  have inv := reachable_inv (r.world M)
  have hsub := pending_subperm inv hl
  obtain ⟨D, hD⟩ := (flow r hn).2
  have hcons := inv.conserved
  rw [← hD, List.drop_left] at hsub
  rw [← hD, List.filter_append, List.append_assoc] at hcons
  obtain ⟨p, hp1, hp2⟩ := hsub
  obtain ⟨c, hc⟩ := List.Sublist.exists_perm_append hp2
  -- the pending ones cancel out
  have hperm : (pendingMembers (r.state M).world.c ++ ((r.state n).world.received.filter (fun s => decide (Traced s)) ++ c)).Perm
      (pendingMembers (r.state M).world.c ++ (r.state M).world.left) := by
    refine List.Perm.trans ?_ hcons
    rw [← List.append_assoc]
    refine (List.perm_append_comm.append_right c).trans ?_
    rw [List.append_assoc]
    exact ((hp1.symm.append_right c).trans hc.symm).append_left _
  have hperm := (List.perm_append_left_iff _).mp hperm
  have hsl : (l.filter fun s => decide (Traced s)).Sublist ((r.state n).world.received.filter (fun s => decide (Traced s)) ++ c) :=
    (hr.filter _).trans (List.sublist_append_left _ _)
  exact hsl.subperm.trans hperm.subperm

/-- C100: all spans with ids that were received leave the collector. -/
theorem C100_left (ht : r.Ticks) (n : Nat) : ∃ m, n ≤ m ∧ ∀ M, m ≤ M → ∀ l : List Span, l.Sublist (r.state n).world.received →
    List.Subperm (l.filter fun s => decide (Traced s)) (r.state M).world.left := by
  obtain ⟨m, hm, hl⟩ := C100_leaves ht n
  exact ⟨m, hm, fun M hM l hr => left_of_leaves (by omega) (hl M hM) hr⟩

/-- C100: every span meets its fate. In every fair execution with recurring ticks, for every request that parses: it is answered with 202, all its spans with ids leave the collector, and
what is emitted until then gets to the sink and to the buffer. -/
theorem C100_fate (h : r.Fair) (ht : r.Ticks) {n i : Nat} {l : List Span} (hp : (r.outcomes n)[i]? = some (.spans l)) : ∃ m, n ≤ m ∧
    (r.state m).http.conns[i]? = some (.answered 202) ∧
    List.Subperm (l.filter fun s => decide (Traced s)) (r.state m).world.left ∧
    ∃ m', m ≤ m' ∧ convertTraces conv k (emittedOf (r.state m).world.removed) <+: (r.state m').sink.received ∧
      ∃ ts, convertTraces conv k (emittedOf (r.state m).world.removed) <+: ts ∧ (Ring.new 2048).readFrom ts = some (r.state m').ring := by
  obtain ⟨m1, hm1, ha⟩ := (C100_answered h hp).1 l rfl
  obtain ⟨m2, hm2, hr⟩ := C100_received h hp
  obtain ⟨m3, hm3, hl⟩ := C100_left ht m2
  obtain ⟨m', hm', hd⟩ := C100_delivered h (max m1 m3)
  obtain ⟨hd1, ts, hd2, _, hd3⟩ := hd m' (Nat.le_refl _)
  exact ⟨max m1 m3, by omega, ha _ (by omega), hl _ (by omega) l (hr m2 (Nat.le_refl _)), m', hm', hd1, ts, hd2, hd3⟩

/-! ## There are such executions -/

theorem does_pending {a : Action} {s s' : System κ} (h : s.Does conv a s') : s.Pending := by
  have queue : ∀ {i x f}, s.forwarder.Receive i x f → ¬ s.forwarder.Idle := by
    intro i x f hf hi
    cases hf with
    | mk hq _ => cases hi.2.2 _ (List.mem_of_getElem? hq)
  cases h with
  | push hi hc => exact .inl ⟨_, List.mem_of_getElem? hi, .inr ⟨_, rfl⟩⟩
  | accept hi => exact .inl ⟨_, List.mem_of_getElem? hi, .inr ⟨_, rfl⟩⟩
  | reject hi => exact .inl ⟨_, List.mem_of_getElem? hi, .inl rfl⟩
  | collect n1 n2 a b c d => exact .inr (.inl (by rw [b]; simp))
  | emit a b => exact .inr (.inr (.inl (by rw [a]; simp)))
  | forward a =>
    refine .inr (.inr (.inr (.inl fun hi => ?_)))
    cases a with
    | take h1 h2 => rw [hi.1] at h1; cases h1
    | send h1 h2 h3 => rw [hi.2.1] at h1; cases h1
    | finish h1 => rw [hi.2.1] at h1; cases h1
  | sinkTake a b => exact .inr (.inr (.inr (.inl (queue b))))
  | sinkRead n a => exact .inr (.inr (.inr (.inr (.inl (by rw [a]; simp)))))
  | ringTake a b => exact .inr (.inr (.inr (.inl (queue b))))
  | ringRead a b => exact .inr (.inr (.inr (.inr (.inr (by rw [a]; simp)))))

/-- A scheduler: while work is left, somebody does it; then there is a tick. -/
def System.Scheduled (conv : κ → Span → Option Span × κ) (s s' : System κ) : Prop :=
  s.Pending ∧ s.Step conv s' ∨
  ¬ s.Pending ∧ ∃ i : TickInput, s.outbox = [] ∧ i.Valid s.world.c ∧ i.now1 = s.world.clock + 1 ∧
    s' = { s with world := s.world.tick i, outbox := emittedOf (s.world.c.tick i).2 }

theorem scheduled_exists {o : List Parsed} {s : System κ} (h : System.Reachable conv k o s) : ∃ s', s.Scheduled conv s' := by
  by_cases hp : s.Pending
  · obtain ⟨s', hs⟩ := C67_progress h hp
    exact ⟨s', .inl ⟨hp, hs⟩⟩
  · obtain ⟨i, hv, h1, h2, _⟩ := exists_valid s.world.c (s.world.clock + 1) (s.world.clock + 1) (fun _ => 0) (Int.le_refl _)
    refine ⟨_, .inr ⟨hp, i, ?_, hv, h1, rfl⟩⟩
    exact Classical.byContradiction fun ho => hp (.inr (.inr (.inl ho)))

theorem System.Scheduled.next {o : List Parsed} {s s' : System κ} (h : s.Scheduled conv s') : System.Next conv o s o s' := by
  rcases h with ⟨_, h⟩ | ⟨_, i, h1, h2, h3, rfl⟩
  · exact .step h
  · exact .event (.tick i h1 h2 (by rw [h3]; exact Int.le_of_lt (Int.lt_succ _)))

/-- Something ends at some time. -/
theorem ends {Q : Nat → Prop} {m m' : Nat} (hm : m ≤ m') (h : Q m) (h' : ¬ Q m') : ∃ j, m ≤ j ∧ Q j ∧ ¬ Q (j + 1) := by
  induction hm with
  | refl => exact absurd h h'
  | @step m' hm ih =>
    by_cases hq : Q m'
    · exact ⟨m', hm, hq, h'⟩
    · exact ih hq

theorem clock_le {o o' : List Parsed} {s s' : System κ} (h : System.Next conv o s o' s') : s.world.clock ≤ s'.world.clock := by
  cases h with
  | step h =>
    cases h with
    | collect now1 now2 a b c d => exact Int.le_trans c d
    | _ => exact Int.le_refl _
  | event h =>
    cases h with
    | tick i ho hv hc => exact Int.le_trans hc hv.clock
    | _ => exact Int.le_refl _
  | request o => exact Int.le_refl _
  | stay => exact Int.le_refl _

/-- If again and again nothing is left to do then nobody is forgotten. -/
theorem Execution.fair_of_idle {r : Execution conv k} (idle : ∀ n, ∃ m, n ≤ m ∧ ¬ (r.state m).Pending) : r.Fair := by
  have weak : ∀ a, r.Weak a := fun a n => by
    obtain ⟨m, hm, hi⟩ := idle n
    exact ⟨m, hm, .inl fun ⟨s', hs⟩ => hi (does_pending hs)⟩
  refine ⟨?_, ?_, weak _, weak _, weak _, weak _, weak _, weak _⟩
  · intro i he n
    obtain ⟨m, hm, s', hs⟩ := he n
    obtain ⟨m', hm', hi⟩ := idle m
    let Q : Nat → Prop := fun j => ∃ c, (r.state j).http.conns[i]? = some c ∧ 0 < connWork c
    have hQ : Q m := by
      show ∃ c, (r.state m).http.conns[i]? = some c ∧ 0 < connWork c
      generalize r.state m = s at hs
      cases hs with
      | push hi hc => exact ⟨_, hi, by simp [connWork]⟩
      | accept hi => exact ⟨_, hi, by decide⟩
      | reject hi => exact ⟨_, hi, by decide⟩
    obtain ⟨j, hj, ⟨c, hc, h0⟩, hn⟩ := ends (Q := Q) hm' hQ (fun ⟨c, hc, h0⟩ => hi (.inl ⟨c, List.mem_of_getElem? hc, by
      cases c with
      | pushing l => exact .inr ⟨l, rfl⟩
      | failing => exact .inl rfl
      | answered => cases h0
      | dead => cases h0⟩))
    rcases (r.hmove j).conn hc with hd | hd
    · exact ⟨j, by omega, hd⟩
    · exact absurd ⟨c, hd, h0⟩ hn
  · intro he n
    obtain ⟨m, hm, s', hs⟩ := he n
    obtain ⟨m', hm', hi⟩ := idle m
    obtain ⟨j, hj, hc, hn⟩ := ends (Q := fun j => (r.state j).http.channel ≠ []) hm' (by
      generalize r.state m = s at hs
      cases hs with
      | collect n1 n2 a b c d => rw [b]; simp) (fun h => hi (.inr (.inl h)))
    refine ⟨j, by omega, ?_⟩
    cases r.hmove j with
    | none h1 h2 h3 => exact absurd (by rw [h1]; exact hc) hn
    | push h1 h2 h3 h4 h5 h6 => exact absurd (by rw [h3]; simp) hn
    | answer h1 h2 h3 h4 h5 h6 => exact absurd (by rw [h3]; exact hc) hn
    | collect h1 h2 h3 h4 h5 => exact h5

/-- C100: from every state that any schedule leads to, the system can go on fairly and with recurring ticks. -/
theorem C100_exists {o : List Parsed} {s : System κ} (h : System.Reachable conv k o s) : ∃ r : Execution conv k, r.state 0 = s ∧ r.outcomes 0 = o ∧ r.Fair ∧ r.Ticks := by
  have hstep : ∀ p : { s : System κ // System.Reachable conv k o s }, ∃ q : { s : System κ // System.Reachable conv k o s }, p.1.Scheduled conv q.1 := fun p => by
    obtain ⟨s', hs⟩ := scheduled_exists p.2
    refine ⟨⟨s', ?_⟩, hs⟩
    rcases hs with ⟨_, h⟩ | ⟨_, i, h1, h2, h3, rfl⟩
    · exact .step p.2 h
    · exact .event p.2 (.tick i h1 h2 (by rw [h3]; exact Int.le_of_lt (Int.lt_succ _)))
  obtain ⟨g, hg⟩ := Classical.axiomOfChoice hstep
  let f : Nat → { s : System κ // System.Reachable conv k o s } := fun n => Nat.rec ⟨s, h⟩ (fun _ p => g p) n
  have hf : ∀ n, (f n).1.Scheduled conv (f (n + 1)).1 := fun n => hg (f n)
  let r : Execution conv k := ⟨fun n => (f n).1, fun _ => o, h, fun n => (hf n).next⟩
  have hr : ∀ n, (r.state n).Scheduled conv (r.state (n + 1)) := hf
  -- again and again nothing is left to do
  have idle : ∀ n, ∃ m, n ≤ m ∧ ¬ (r.state m).Pending := by
    have key : ∀ w n, (r.state n).work ≤ w → ∃ m, n ≤ m ∧ ¬ (r.state m).Pending := by
      intro w
      induction w with
      | zero =>
        intro n hw
        refine ⟨n, Nat.le_refl _, fun hp => ?_⟩
        rcases hr n with ⟨_, hs⟩ | ⟨hn, _⟩
        · have := C67_terminates (r.reach n) hs; omega
        · exact hn hp
      | succ w ih =>
        intro n hw
        rcases hr n with ⟨_, hs⟩ | ⟨hn, _⟩
        · have := C67_terminates (r.reach n) hs
          obtain ⟨m, hm, hi⟩ := ih (n + 1) (by omega)
          exact ⟨m, by omega, hi⟩
        · exact ⟨n, Nat.le_refl _, hn⟩
    exact fun n => key _ n (Nat.le_refl _)
  refine ⟨r, rfl, rfl, r.fair_of_idle idle, ?_⟩
  · intro n T
    have cmono := fun {a b : Nat} (hab : a ≤ b) => mono_of_step (f := fun n => (r.state n).world.clock) (fun n => clock_le (r.next n)) hab
    obtain ⟨m, hm, hT⟩ := reaches (f := fun n => (r.state n).world.clock) (b := T) (n := n) (fun n => clock_le (r.next n)) (fun m hm hlt => by
      obtain ⟨m', hm', hi⟩ := idle m
      refine ⟨m' + 1, by omega, ?_⟩
      have h1 : (r.state m).world.clock ≤ (r.state m').world.clock := cmono hm'
      rcases hr m' with ⟨hp, _⟩ | ⟨_, i, ho, hv, hnow, hs⟩
      · exact absurd hp hi
      · show (r.state m).world.clock < (r.state (m' + 1)).world.clock
        rw [hs]
        show (r.state m).world.clock < i.now2
        have h2 := hv.clock
        rw [hnow] at h2
        exact Int.lt_of_lt_of_le (Int.lt_add_one_of_le h1) h2)
    obtain ⟨m', hm', hi⟩ := idle m
    have h1 : (r.state m).world.clock ≤ (r.state m').world.clock := cmono hm'
    rcases hr m' with ⟨hp, _⟩ | ⟨_, i, ho, hv, hnow, hs⟩
    · exact absurd hp hi
    · have h2 : (r.state m').world.clock ≤ i.now1 := by rw [hnow]; exact Int.le_of_lt (Int.lt_succ _)
      exact ⟨m', i, by omega, Int.le_trans hT (Int.le_trans h1 h2), ho, hv, h2, hs⟩

/-- Such an execution, beginning with a request for one span that is still to be handled. -/
theorem C100_witness : ∃ r : Execution (κ := Unit) (fun k s => (some s, k)) (), r.Fair ∧ r.Ticks ∧ r.outcomes 0 = [.spans [{ id := 7, trace := 9, parent := 7 }]] ∧
    (r.state 0).http.conns[0]? = some (.pushing [{ id := 7, trace := 9, parent := 7 }]) := by
  obtain ⟨r, h1, h2, h3, h4⟩ := C100_exists (conv := fun (k : Unit) s => (some s, k)) (.request (.spans [{ id := 7, trace := 9, parent := 7 }]) (.init (k := ()) 0))
  exact ⟨r, h3, h4, h2, by rw [h1]; rfl⟩

end Verif
