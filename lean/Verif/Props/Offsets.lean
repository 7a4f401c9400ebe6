import Verif.Proofs.Offsets

/-!
# The offsets of a partition: C152, C153
-/

namespace Verif

open Spec

/-! ## C152 -/

/-- C152, partial: no message gets lost unnoticed behind the committed offset, from the place on at which the last claim started that could not go on from a committed offset. Whatever was written, deleted,
claimed, marked, committed, and however proxies crashed, each of these messages was handed to the callback, or reported with its error. Missing: the messages before this place (`C152_lost`). -/
theorem C152_accounted_partial {p : KafkaPartition} (h : KafkaPartition.Steps {} p) {o : Nat} (ho : p.committed = some o) {i : Nat} (h1 : p.since ≤ i) (h2 : i < o) : Accounted p i :=
  (offsetInv h).account o ho i h1 h2

/-- C152, partial: if there is a committed offset, and Kafka still has the message there, then the next claim goes on from it: it can get to all messages that were written. -/
theorem C152_resumes_partial {p : KafkaPartition} (h : KafkaPartition.Steps {} p) (hs : p.session = none) {o : Nat} (ho : p.committed = some o) (hlow : p.lowest ≤ o) :
    ∃ q, p.Steps q ∧ q.log = p.log ∧ q.since = p.since ∧ ∀ i, p.since ≤ i → i < p.log.length → Accounted q i := by
  have hle := (offsetInv h).committed o ho
  have hst : p.start = o := by
    unfold KafkaPartition.start
    rw [ho]
    dsimp only
    rw [if_pos ⟨hlow, hle⟩]
  let p1 : KafkaPartition := { p with session := some { next := p.start, mark := p.committed }, since := if p.committed = some p.start then p.since else p.start }
  have hp1 : p.Steps p1 := .step .refl (.claim hs)
  have hsince : p1.since = p.since := if_pos (by rw [ho, hst])
  obtain ⟨q, r, k1, k2, k3, k4, k5, k6, k7, k8⟩ := KafkaPartition.advance (p := p1) (r := { next := p.start, mark := p.committed }) rfl rfl (by rw [hst]; exact hlow) (p.log.length - o)
    (by show p.start + _ ≤ p.log.length; rw [hst]; omega)
  have e : r.next = p.log.length := by
    rw [k8]
    show p.start + _ = _
    rw [hst]; omega
  refine ⟨q, hp1.trans k1, k2, k5.trans hsince, fun i h1 h2 => ?_⟩
  refine ((offsetInv (h.trans (hp1.trans k1))).next r k6).2.2.2.1 i ?_ (by rw [e]; exact h2)
  rw [k5, hsince]; exact h1

/-- C152 is false: if there is no committed offset (since nothing was committed so far), or the message at this offset has been deleted, then no message that is in the partition now is
ever delivered from now on, whether Kafka has it or not. -/
theorem C152_lost {p : KafkaPartition} (hn : NoOffset p) {q : KafkaPartition} (h : p.Steps q) {i : Nat} (hi : i < p.log.length) (s : Span) (hd : (i, s) ∈ q.delivered) : (i, s) ∈ p.delivered := by
  have hp : Past i p := by
    refine ⟨hi, fun o ho => .inr ?_, fun r hr => ?_⟩
    · rcases hn.2 with h | ⟨o', h, hlt⟩
      · rw [h] at ho; cases ho
      · rw [h] at ho; cases ho; exact hlt
    · rw [hn.1] at hr; cases hr
  have : (i, s) ∈ q.delivered.filter fun e => e.1 = i := List.mem_filter.mpr ⟨hd, by simp⟩
  rw [(hp.steps h).2.1] at this
  exact (List.mem_filter.mp this).1

/-- The message of a span. -/
def goodMessage : List UInt8 := binaryEncode { id := 7, trace := 5 } []

theorem goodMessage_decodes : ∃ s, decodeKafkaMessage goodMessage = some s :=
  Option.isSome_iff_exists.mp (show (decodeKafkaMessage goodMessage).isSome = true by decide +kernel)

/-- A history in which the first message is committed. -/
theorem first_commit {s : Span} (hs : decodeKafkaMessage goodMessage = some s) :
    KafkaPartition.Steps {} { log := [goodMessage], session := some { next := 1, mark := some 1 }, committed := some 1, delivered := [(0, s)] } := by
  have h1 : KafkaPartition.Steps {} { session := some { next := 0 } } := .step .refl (.claim rfl)
  have h2 := h1.step (.write goodMessage)
  have h3 := h2.step (.call rfl rfl (Nat.le_refl _) rfl hs)
  have h4 := h3.step (.returns rfl rfl)
  have h5 := h4.step (.mark rfl rfl)
  have h6 := h5.step (.commit rfl)
  exact h6

/-- C152 is false: a message is written while a proxy has the partition; this proxy crashes before it reads it. Kafka has the message, but nobody will ever read it. -/
theorem C152_fails : ∃ (p q : KafkaPartition) (s : Span), KafkaPartition.Steps {} p ∧ p.session.isSome ∧ p.lowest = 0 ∧ p.log = [goodMessage] ∧ decodeKafkaMessage goodMessage = some s ∧
    p.Step q ∧ q.lowest = 0 ∧ q.log = [goodMessage] ∧ q.session.isNone ∧ ∀ q', q.Steps q' → ∀ s', (0, s') ∉ q'.delivered := by
  obtain ⟨s, hs⟩ := goodMessage_decodes
  refine ⟨_, _, s, .step (.step .refl (.claim rfl)) (.write goodMessage), rfl, rfl, rfl, hs, .crash, rfl, rfl, rfl, fun q' h s' hd => ?_⟩
  exact List.not_mem_nil (C152_lost ⟨rfl, .inl rfl⟩ h (by decide) s' hd)

/-- C152 is false also for a partition with a committed offset: three messages are written while no proxy runs, and Kafka deletes the first of them. The other two are never read, although Kafka has them
when the proxies are back. -/
theorem C152_outage_fails : ∃ (p : KafkaPartition) (s : Span), KafkaPartition.Steps {} p ∧ p.committed = some 1 ∧ p.lowest = 2 ∧ p.log = [goodMessage, goodMessage, goodMessage, goodMessage] ∧
    decodeKafkaMessage goodMessage = some s ∧ ∀ q, p.Steps q → ∀ i s', 0 < i → i < 4 → (i, s') ∉ q.delivered := by
  obtain ⟨s, hs⟩ := goodMessage_decodes
  have h1 := first_commit hs
  have h2 : KafkaPartition.Steps {} { log := [goodMessage, goodMessage, goodMessage, goodMessage], lowest := 2, committed := some 1, delivered := [(0, s)] } :=
    .step (.step (.step (.step (.step h1 (.done rfl rfl)) (.write goodMessage)) (.write goodMessage)) (.write goodMessage)) (.delete (n := 2) (Nat.zero_le 2) (show 2 ≤ 4 by decide))
  refine ⟨_, s, h2, rfl, rfl, rfl, hs, fun q h i s' hpos hlt hd => ?_⟩
  have := C152_lost ⟨rfl, .inr ⟨1, rfl, Nat.lt_succ_self 1⟩⟩ h hlt s' hd
  rw [List.mem_singleton] at this
  have := congrArg Prod.fst this
  dsimp only at this
  omega

/-- A history for `C152_accounted_partial` and `C152_resumes_partial`: a proxy crashes between the callback and the commit, then another one goes on. -/
theorem C152_witness : ∃ (p : KafkaPartition) (s : Span), KafkaPartition.Steps {} p ∧ p.session = none ∧ p.committed = some 1 ∧ p.lowest ≤ 1 ∧ p.since = 0 ∧ p.log = [goodMessage, goodMessage, [2]] ∧
    p.delivered = [(0, s), (1, s)] := by
  obtain ⟨s, hs⟩ := goodMessage_decodes
  have h1 := first_commit hs
  have h2 := KafkaPartition.Steps.step (.step (.step (.step (.step (.step h1 (.write goodMessage)) (.call rfl rfl (Nat.zero_le _) rfl hs)) (.returns rfl rfl)) (.mark rfl rfl)) (.write [2])) .crash
  exact ⟨_, s, h2, rfl, rfl, Nat.zero_le _, rfl, rfl, rfl⟩

/-! ## C153 -/

/-- C153, partial: a message that cannot be decoded is reported, with its error, before the committed offset passes it, … -/
theorem C153_reported_partial {p : KafkaPartition} (h : KafkaPartition.Steps {} p) {o : Nat} (ho : p.committed = some o) {i : Nat} (h1 : p.since ≤ i) (h2 : i < o) {v : List UInt8} (hv : p.log[i]? = some v)
    (hd : decodeKafkaMessage v = none) : ∃ line, consumeLog v = some line ∧ (i, line) ∈ p.warnings := by
  obtain ⟨v', hv', h⟩ := C152_accounted_partial h ho h1 h2
  cases hv.symm.trans hv'
  rcases h with ⟨s, hs, _⟩ | ⟨_, h⟩
  · rw [hd] at hs; cases hs
  · exact h

/-- … not any more after that, … -/
theorem C153_final_partial {p : KafkaPartition} (h : KafkaPartition.Steps {} p) {o : Nat} (ho : p.committed = some o) {i : Nat} (hi : i < o) {q : KafkaPartition} (hq : p.Steps q) : reports q i = reports p i := by
  have inv := offsetInv h
  have hp : Past i p := by
    refine ⟨Nat.lt_of_lt_of_le hi (inv.committed o ho), fun o' ho' => .inl ?_, fun r hr => ?_⟩
    · rw [ho] at ho'; cases ho'; exact hi
    · obtain ⟨_, h2, h3, _⟩ := inv.next r hr
      obtain ⟨m, hm, hle⟩ := h3 o ho
      have := h2 m hm
      refine ⟨by omega, fun m' hm' => .inl ?_⟩
      rw [hm] at hm'; cases hm'; omega
  unfold reports
  rw [(hp.steps hq).2.2]

/-- … and at most once for each claim of the partition. Missing: exactly once (`C153_fails`). -/
theorem C153_claims_partial {n : Nat} {p : KafkaPartition} (h : PartitionHistory n p) (i : Nat) : reports p i ≤ n := by
  suffices h' : reports p i ≤ n ∧ ∀ r, p.session = some r → r.next ≤ i → reports p i + 1 ≤ n from h'.1
  induction h with
  | init => exact ⟨Nat.le_refl _, fun r hr => by cases hr⟩
  | @claim n p q _ hs hn hsome ih =>
    have hsn : p.session = none := by simpa using hn
    cases hs with
    | claim _ => exact ⟨Nat.le_succ_of_le ih.1, fun r hr _ => Nat.succ_le_succ ih.1⟩
    | skip hr => rw [hsn] at hr; cases hr
    | call hr => rw [hsn] at hr; cases hr
    | returns hr => rw [hsn] at hr; cases hr
    | mark hr => rw [hsn] at hr; cases hr
    | commit hr => rw [hsn] at hr; cases hr
    | done hr => rw [hsn] at hr; cases hr
    | write | delete _ _ => rw [show _ = p.session from rfl, hsn] at hsome; cases hsome
    | crash => cases hsome
  | @step n p q _ hs hno ih =>
    cases hs with
    | claim hn => exact absurd ⟨by rw [hn]; rfl, rfl⟩ hno
    | @skip r v line hr hp hlow hv hd hl =>
      have e : reports { p with session := some { r with next := r.next + 1 }, warnings := p.warnings ++ [(r.next, line)] } i = reports p i + if r.next = i then 1 else 0 := by
        unfold reports
        dsimp only
        rw [List.filter_append, List.length_append]
        split
        · next h => rw [List.filter_cons_of_pos (by simpa using h)]; rfl
        · next h => rw [List.filter_cons_of_neg (by simpa using h)]; rfl
      rw [e]
      constructor
      · split
        · next h => exact ih.2 r hr (Nat.le_of_eq h)
        · exact ih.1
      · intro r' hr' hle
        cases hr'
        have hle : r.next + 1 ≤ i := hle
        rw [if_neg (by omega)]
        exact ih.2 r hr (by omega)
    | @call r v s hr => exact ⟨ih.1, fun r' hr' hle => by cases hr'; exact ih.2 r hr hle⟩
    | @returns r s hr => exact ⟨ih.1, fun r' hr' hle => by cases hr'; exact ih.2 r hr hle⟩
    | @mark r hr =>
      refine ⟨ih.1, fun r' hr' hle => ?_⟩
      cases hr'
      exact ih.2 r hr (Nat.le_of_succ_le hle)
    | write | delete _ _ | commit _ => exact ih
    | done _ _ => exact ⟨ih.1, fun r hr => by cases hr⟩
    | crash => exact ⟨ih.1, fun r hr => by cases hr⟩

/-- C153 is false: a message that cannot be decoded, and is the last one of its partition, is reported by every claim. No proxy crashes, and everything that was marked is committed. -/
theorem C153_fails (n : Nat) : ∃ (p : KafkaPartition), PartitionHistory (n + 1) p ∧ p.session = none ∧ p.log = [goodMessage, [2]] ∧ decodeKafkaMessage [2] = none ∧ p.committed = some 1 ∧ reports p 1 = n := by
  obtain ⟨s, hs⟩ := goodMessage_decodes
  have hd : decodeKafkaMessage [2] = none := Option.isNone_iff_eq_none.mp (show (decodeKafkaMessage [2]).isNone = true by decide +kernel)
  obtain ⟨line, hl⟩ := consumeLog_some hd
  suffices h : ∀ n, ∃ w : List (Nat × Str), PartitionHistory (n + 1) { log := [goodMessage, [2]], committed := some 1, delivered := [(0, s)], warnings := w } ∧ (w.filter fun e => e.1 = 1).length = n by
    obtain ⟨w, h1, h2⟩ := h n
    exact ⟨_, h1, rfl, rfl, hd, rfl, h2⟩
  intro n
  induction n with
  | zero =>
    have h0 : PartitionHistory 1 { session := some { next := 0 } } := PartitionHistory.claim .init (.claim rfl) rfl rfl
    have h1 := h0.step (.write goodMessage) (by simp)
    have h2 := h1.step (.call rfl rfl (Nat.le_refl _) rfl hs) (by simp)
    have h3 := h2.step (.returns rfl rfl) (by simp)
    have h4 := h3.step (.mark rfl rfl) (by simp)
    have h5 := h4.step (.commit rfl) (by simp)
    have h6 := h5.step (.done rfl rfl) (by simp)
    have h7 := h6.step (.write [2]) (by simp)
    exact ⟨[], h7, rfl⟩
  | succ n ih =>
    obtain ⟨w, h, hw⟩ := ih
    have h1 := h.claim (.claim rfl) rfl rfl
    have h2 := h1.step (.skip (v := [2]) (line := line) rfl rfl (Nat.zero_le _) rfl hd hl) (by simp)
    have h3 := h2.step (.done rfl rfl) (by simp)
    refine ⟨w ++ [(1, line)], h3, ?_⟩
    rw [List.filter_append, List.length_append, hw]
    rfl

/-- A message that cannot be decoded, and one after it that is committed. -/
theorem C153_witness : ∃ (p : KafkaPartition), KafkaPartition.Steps {} p ∧ p.committed = some 2 ∧ p.since = 0 ∧ p.log = [[2], goodMessage] ∧ decodeKafkaMessage [2] = none ∧ reports p 0 = 1 := by
  obtain ⟨s, hs⟩ := goodMessage_decodes
  have hd : decodeKafkaMessage [2] = none := Option.isNone_iff_eq_none.mp (show (decodeKafkaMessage [2]).isNone = true by decide +kernel)
  obtain ⟨line, hl⟩ := consumeLog_some hd
  have h1 := KafkaPartition.Steps.step (.step (.step (.step .refl (.claim (p := {}) rfl)) (.write [2])) (.skip (v := [2]) (line := line) rfl rfl (Nat.le_refl _) rfl hd hl)) (.write goodMessage)
  have h2 := KafkaPartition.Steps.step (.step (.step (.step h1 (.call rfl rfl (Nat.zero_le _) rfl hs)) (.returns rfl rfl)) (.mark rfl rfl)) (.commit rfl)
  exact ⟨_, h2, rfl, rfl, rfl, hd, rfl⟩

end Verif
