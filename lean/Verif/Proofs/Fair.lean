import Verif.Spec.Fair
import Verif.Props.System

/-!
# Progress in fair executions
-/

namespace Verif

open Spec

variable {κ : Type} {conv : κ → Span → Option Span × κ} {k : κ}

/-! ## Steps and who takes them -/

theorem step_iff_does {s s' : System κ} : s.Step conv s' ↔ ∃ a, s.Does conv a s' := by
  constructor
  · intro h
    cases h with
    | http h =>
      cases h with
      | push hi hc => exact ⟨_, .push hi hc⟩
      | accept hi => exact ⟨_, .accept hi⟩
      | reject hi => exact ⟨_, .reject hi⟩
    | collect n1 n2 a b c d => exact ⟨_, .collect n1 n2 a b c d⟩
    | emit a b => exact ⟨_, .emit a b⟩
    | forward a => exact ⟨_, .forward a⟩
    | sinkTake a b => exact ⟨_, .sinkTake a b⟩
    | sinkRead n a => exact ⟨_, .sinkRead n a⟩
    | ringTake a b => exact ⟨_, .ringTake a b⟩
    | ringRead a b => exact ⟨_, .ringRead a b⟩
  · rintro ⟨a, h⟩
    cases h with
    | push hi hc => exact .http (.push _ hi hc)
    | accept hi => exact .http (.accept _ hi)
    | reject hi => exact .http (.reject _ hi)
    | collect n1 n2 a b c d => exact .collect n1 n2 a b c d
    | emit a b => exact .emit a b
    | forward a => exact .forward a
    | sinkTake a b => exact .sinkTake a b
    | sinkRead n a => exact .sinkRead n a
    | ringTake a b => exact .ringTake a b
    | ringRead a b => exact .ringRead a b

/-- What may happen to the forwarder and the outbox. -/
inductive FMove (conv : κ → Span → Option Span × κ) (s s' : System κ) : Prop
  | none : s'.forwarder = s.forwarder → s'.outbox = s.outbox ∨ s.outbox = [] → FMove conv s s'
  | emit {t rest} : s.outbox = t :: rest → s'.outbox = rest → s'.forwarder = s.forwarder.arrive t → s.Does conv .emit s' → FMove conv s s'
  | forward : s'.outbox = s.outbox → s.forwarder.Own conv targetCaps s'.forwarder → s.Does conv .forward s' → FMove conv s s'
  | sink {r} : s'.outbox = s.outbox → s.forwarder.Receive 0 r s'.forwarder → s.Does conv .sinkTake s' → FMove conv s s'
  | ring {r} : s'.outbox = s.outbox → s.forwarder.Receive 1 r s'.forwarder → s.Does conv .ringTake s' → FMove conv s s'

theorem System.Next.fmove {o o' : List Parsed} {s s' : System κ} (h : System.Next conv o s o' s') : FMove conv s s' := by
  cases h with
  | step h =>
    cases h with
    | http h => exact .none rfl (.inl rfl)
    | collect n1 n2 a b c d => exact .none rfl (.inl rfl)
    | emit a b => exact .emit a rfl rfl (.emit a b)
    | forward a => exact .forward rfl a (.forward a)
    | sinkTake a b => exact .sink rfl b (.sinkTake a b)
    | sinkRead n a => exact .none rfl (.inl rfl)
    | ringTake a b => exact .ring rfl b (.ringTake a b)
    | ringRead a b => exact .none rfl (.inl rfl)
  | event h =>
    cases h with
    | tick i ho hv hc => exact .none rfl (.inr ho)
    | sinkTick a b c => exact .none rfl (.inl rfl)
    | senderTake a b => exact .none rfl (.inl rfl)
    | senderSend a b => exact .none rfl (.inl rfl)
  | request o => exact .none rfl (.inl rfl)
  | stay => exact .none rfl (.inl rfl)

/-- What a target took, … -/
def System.takenBy (s : System κ) (i : Nat) : Nat := (s.forwarder.taken.getD i []).length
/-- … and what waits for it. -/
def System.waitsFor (s : System κ) (i : Nat) : Nat := (s.forwarder.queues.getD i []).length

/-- The steps the forwarder took. -/
def Forwarder.progress (f : Forwarder κ) : Int :=
  4 * (f.heap.length - f.source.length) - (match f.sending with | none => 0 | some (_, i) => 3 - (i : Int))

structure SystemCounts (s : System κ) : Prop where
  queues : s.forwarder.queues.length = 2
  taken : s.forwarder.taken.length = 2
  source : s.forwarder.source.length ≤ s.forwarder.heap.length
  emitted : (emittedOf s.world.removed).length = s.forwarder.heap.length + s.outbox.length
  sending : ∀ r i, s.forwarder.sending = some (r, i) → i ≤ 2
  sent : ∀ j, j < 2 → s.takenBy j + s.waitsFor j = sentTo s.forwarder.sending j (s.forwarder.heap.length - s.forwarder.source.length)

theorem refsFrom_length (a : Nat) (l : List (List Span)) : (refsFrom a l).length = l.length := by
  induction l generalizing a with
  | nil => rfl
  | cons x l ih => simp [refsFrom, ih]

theorem System.Reachable.counts {outcomes : List Parsed} {s : System κ} (h : System.Reachable conv k outcomes s) : SystemCounts s := by
  obtain ⟨log, arrived, a, b, inv⟩ := h.inv
  obtain ⟨done, waiting, front, results, harr, finv⟩ := inv.forwarder.inv
  have hheap : s.forwarder.heap.length = done.length + waiting.length := by rw [finv.heap, List.length_append, finv.frontLen]
  have hsrc : s.forwarder.source.length = waiting.length := by rw [finv.source, refsFrom_length]
  have hres : results.length = done.length := by have := congrArg List.length finv.addrs; simpa using this
  refine ⟨finv.queuesLen, finv.takenLen, by omega, ?_, fun r i hr => (finv.sending r i hr).1, ?_⟩
  · rw [inv.emitted, harr, hheap, List.length_append, List.length_append]
  · intro j hj
    have := congrArg List.length (finv.got j hj)
    rw [List.length_append, List.length_take] at this
    unfold System.takenBy System.waitsFor
    rw [this, hheap, hsrc, hres, Nat.add_sub_cancel]
    have : sentTo s.forwarder.sending j done.length ≤ done.length := by
      unfold sentTo; (repeat' split) <;> omega
    omega

theorem Execution.reach (r : Execution conv k) (n : Nat) : System.Reachable conv k (r.outcomes n) (r.state n) := by
  induction n with
  | zero => exact r.start
  | succ n ih =>
    have h := r.next n
    generalize r.outcomes (n + 1) = o' at h ⊢
    generalize r.state (n + 1) = s' at h ⊢
    generalize r.outcomes n = o at h ih
    generalize r.state n = s at h ih
    cases h with
    | step h => exact .step ih h
    | event h => exact .event ih h
    | request o => exact .request o ih
    | stay => exact ih

/-! ## Generalities about sequences -/

theorem mono_of_step {f : Nat → Int} (h : ∀ n, f n ≤ f (n + 1)) {n m : Nat} (hm : n ≤ m) : f n ≤ f m := by
  induction hm with
  | refl => exact Int.le_refl _
  | step _ ih => exact Int.le_trans ih (h _)

theorem nat_mono_of_step {f : Nat → Nat} (h : ∀ n, f n ≤ f (n + 1)) {n m : Nat} (hm : n ≤ m) : f n ≤ f m := by
  induction hm with
  | refl => exact Nat.le_refl _
  | step _ ih => exact Nat.le_trans ih (h _)

/-- Whatever is below a bound grows: so the bound is reached. -/
theorem reaches {f : Nat → Int} (hf : ∀ n, f n ≤ f (n + 1)) {b : Int} {n : Nat} (h : ∀ m, n ≤ m → f m < b → ∃ m', m ≤ m' ∧ f m < f m') : ∃ m, n ≤ m ∧ b ≤ f m := by
  have key : ∀ d : Nat, ∀ m, n ≤ m → b - f m ≤ d → ∃ m', n ≤ m' ∧ b ≤ f m' := by
    intro d
    induction d with
    | zero => intro m hm hd; exact ⟨m, hm, by omega⟩
    | succ d ih =>
      intro m hm hd
      by_cases hb : f m < b
      · obtain ⟨m', hm', hlt⟩ := h m hm hb
        exact ih m' (by omega) (by omega)
      · exact ⟨m, hm, by omega⟩
  exact key (b - f n).toNat n (Nat.le_refl _) (by omega)

/-- A weakly fair action that is possible from some time on is taken. -/
theorem Execution.Weak.taken {r : Execution conv k} {a : Action} (h : r.Weak a) {n : Nat} (he : ∀ m, n ≤ m → (r.state m).Enabled conv a) : ∃ m, n ≤ m ∧ r.Takes a m := by
  obtain ⟨m, hm, hn | ht⟩ := h n
  · exact absurd (he m hm) hn
  · exact ⟨m, hm, ht⟩

theorem stays {α : Type} {f : Nat → α} {n : Nat} (h : ∀ m, n ≤ m → f (m + 1) = f m) {m : Nat} (hm : n ≤ m) : f m = f n := by
  induction hm with
  | refl => rfl
  | step hm ih => rw [h _ hm, ih]

/-! ## The forwarder and its targets -/

theorem convertTrace_heap (k : κ) (heap : SpanHeap) (t : SliceRef) : (convertTrace conv k heap t).2.2.length = heap.length := by
  unfold convertTrace
  simp

theorem own_progress {f f' : Forwarder κ} (h : f.Own conv targetCaps f') (hq : f.queues.length = 2) : f'.progress = f.progress + 1 ∧ f'.heap.length = f.heap.length ∧
    f'.source.length ≤ f.source.length := by
  cases h with
  | @take t rest h1 h2 =>
    refine ⟨?_, convertTrace_heap _ _ _, ?_⟩
    · unfold Forwarder.progress
      dsimp only
      rw [convertTrace_heap, h1, h2, List.length_cons]
      dsimp only
      omega
    · dsimp only; rw [h1, List.length_cons]; omega
  | send h1 h2 h3 =>
    refine ⟨?_, rfl, Nat.le_refl _⟩
    unfold Forwarder.progress
    dsimp only
    rw [h1]
    dsimp only
    omega
  | finish h1 =>
    refine ⟨?_, rfl, Nat.le_refl _⟩
    unfold Forwarder.progress
    dsimp only
    rw [h1]
    dsimp only
    omega

theorem receive_fields {f f' : Forwarder κ} {i : Nat} {x : SliceRef} (h : f.Receive i x f') :
    f'.heap = f.heap ∧ f'.source = f.source ∧ f'.sending = f.sending := by
  cases h; exact ⟨rfl, rfl, rfl⟩

theorem receive_queue {f f' : Forwarder κ} {i : Nat} {x : SliceRef} (h : f.Receive i x f') (j : Nat) :
    (f'.taken.getD j []).length + (f'.queues.getD j []).length = (f.taken.getD j []).length + (f.queues.getD j []).length ∧
    (f'.taken.getD j []).length = (f.taken.getD j []).length + (if j = i then 1 else 0) := by
  cases h with
  | @mk q l hq hl =>
    by_cases hj : j = i
    · subst hj
      rw [if_pos rfl, getD_set_self (List.getElem?_eq_some_iff.mp hl).1, getD_set_self (List.getElem?_eq_some_iff.mp hq).1, getD_of_getElem? hl, getD_of_getElem? hq]
      simp only [List.length_append, List.length_cons, List.length_nil]
      exact ⟨by omega, trivial⟩
    · rw [if_neg hj, getD_set_ne (Ne.symm hj), getD_set_ne (Ne.symm hj)]
      exact ⟨rfl, rfl⟩

theorem own_queue {f f' : Forwarder κ} (h : f.Own conv targetCaps f') (j : Nat) : (f.queues.getD j []).length ≤ (f'.queues.getD j []).length := by
  cases h with
  | take h1 h2 => exact Nat.le_refl _
  | @send r i q h1 h2 h3 =>
    dsimp only
    by_cases hj : j = i
    · subst hj
      rw [getD_set_self (List.getElem?_eq_some_iff.mp h2).1, getD_of_getElem? h2]; simp
    · rw [getD_set_ne (Ne.symm hj)]
  | finish h1 => exact Nat.le_refl _

section moves

variable {o o' : List Parsed} {s s' : System κ}

theorem does_forward (h : s.Does conv .forward s') (c : SystemCounts s) : s'.forwarder.progress = s.forwarder.progress + 1 := by
  cases h with
  | forward h => exact (own_progress h c.queues).1

theorem does_emit (h : s.Does conv .emit s') : s'.forwarder.heap.length = s.forwarder.heap.length + 1 := by
  cases h with
  | emit h _ => simp [Forwarder.arrive]

theorem does_sinkTake (h : s.Does conv .sinkTake s') : s'.takenBy 0 = s.takenBy 0 + 1 := by
  cases h with
  | sinkTake h h' => exact (receive_queue h' 0).2

theorem does_ringTake (h : s.Does conv .ringTake s') : s'.takenBy 1 = s.takenBy 1 + 1 := by
  cases h with
  | ringTake h h' => exact (receive_queue h' 1).2

/-- The forwarder takes a step, or its progress, what it sends, and what waits for a target together with what it took stay the same. -/
theorem FMove.own (h : FMove conv s s') : s.Does conv .forward s' ∨
    s'.forwarder.progress = s.forwarder.progress ∧ s'.forwarder.sending = s.forwarder.sending ∧ (s.forwarder.source ≠ [] → s'.forwarder.source ≠ []) ∧
    ∀ j, s'.takenBy j + s'.waitsFor j = s.takenBy j + s.waitsFor j := by
  cases h with
  | none h1 h2 => right; unfold System.takenBy System.waitsFor; rw [h1]; exact ⟨rfl, rfl, id, fun _ => rfl⟩
  | emit h1 h2 h3 h4 =>
    right
    unfold System.takenBy System.waitsFor
    rw [h3]
    refine ⟨?_, rfl, fun _ => by simp [Forwarder.arrive], fun _ => rfl⟩
    simp only [Forwarder.progress, Forwarder.arrive, List.length_append, List.length_singleton]
    omega
  | forward h1 h2 h3 => exact .inl h3
  | sink h1 h2 h3 =>
    right
    obtain ⟨a, b, e⟩ := receive_fields h2
    exact ⟨by unfold Forwarder.progress; rw [a, b, e], e, by rw [b]; exact id, fun j => (receive_queue h2 j).1⟩
  | ring h1 h2 h3 =>
    right
    obtain ⟨a, b, e⟩ := receive_fields h2
    exact ⟨by unfold Forwarder.progress; rw [a, b, e], e, by rw [b]; exact id, fun j => (receive_queue h2 j).1⟩

/-- A trace is emitted, or all that leaves the outbox is what a tick overwrites. -/
theorem FMove.heap (h : FMove conv s s') (c : SystemCounts s) : s.Does conv .emit s' ∨
    s'.forwarder.heap.length = s.forwarder.heap.length ∧ (s'.outbox = s.outbox ∨ s.outbox = []) ∧ s'.forwarder.source.length ≤ s.forwarder.source.length := by
  cases h with
  | none h1 h2 => rw [h1]; exact .inr ⟨rfl, h2, Nat.le_refl _⟩
  | emit h1 h2 h3 h4 => exact .inl h4
  | forward h1 h2 h3 =>
    obtain ⟨_, a, b⟩ := own_progress h2 c.queues
    exact .inr ⟨a, .inl h1, b⟩
  | sink h1 h2 h3 =>
    obtain ⟨a, b, e⟩ := receive_fields h2
    exact .inr ⟨by rw [a], .inl h1, by rw [b]⟩
  | ring h1 h2 h3 =>
    obtain ⟨a, b, e⟩ := receive_fields h2
    exact .inr ⟨by rw [a], .inl h1, by rw [b]⟩

theorem FMove.taken0 (h : FMove conv s s') : s.Does conv .sinkTake s' ∨ s'.takenBy 0 = s.takenBy 0 ∧ s.waitsFor 0 ≤ s'.waitsFor 0 := by
  unfold System.takenBy System.waitsFor
  cases h with
  | none h1 h2 => rw [h1]; exact .inr ⟨rfl, Nat.le_refl _⟩
  | emit h1 h2 h3 h4 => rw [h3]; exact .inr ⟨rfl, Nat.le_refl _⟩
  | forward h1 h2 h3 => exact .inr ⟨by rw [own_taken h2], own_queue h2 0⟩
  | sink h1 h2 h3 => exact .inl h3
  | ring h1 h2 h3 =>
    obtain ⟨a, b⟩ := receive_queue h2 0
    simp only [Nat.zero_ne_one, if_false, Nat.add_zero] at b
    exact .inr ⟨b, by omega⟩

theorem FMove.taken1 (h : FMove conv s s') : s.Does conv .ringTake s' ∨ s'.takenBy 1 = s.takenBy 1 ∧ s.waitsFor 1 ≤ s'.waitsFor 1 := by
  unfold System.takenBy System.waitsFor
  cases h with
  | none h1 h2 => rw [h1]; exact .inr ⟨rfl, Nat.le_refl _⟩
  | emit h1 h2 h3 h4 => rw [h3]; exact .inr ⟨rfl, Nat.le_refl _⟩
  | forward h1 h2 h3 => exact .inr ⟨by rw [own_taken h2], own_queue h2 1⟩
  | ring h1 h2 h3 => exact .inl h3
  | sink h1 h2 h3 =>
    obtain ⟨a, b⟩ := receive_queue h2 1
    simp only [Nat.one_ne_zero, if_false, Nat.add_zero] at b
    exact .inr ⟨b, by omega⟩

/-- The sink is busy until it read what it took. -/
theorem System.Next.sinkBusy (h : System.Next conv o s o' s') : s.Does conv .sinkRead s' ∨ s.Does conv .sinkTake s' ∨ s'.sinkBusy = s.sinkBusy := by
  cases h with
  | step h =>
    cases h with
    | sinkTake a b => exact .inr (.inl (.sinkTake a b))
    | sinkRead n a => exact .inl (.sinkRead n a)
    | _ => exact .inr (.inr rfl)
  | event h => cases h <;> exact .inr (.inr rfl)
  | request o => exact .inr (.inr rfl)
  | stay => exact .inr (.inr rfl)

theorem System.Next.ringBusy (h : System.Next conv o s o' s') : s.Does conv .ringRead s' ∨ s.Does conv .ringTake s' ∨ s'.ringBusy = s.ringBusy := by
  cases h with
  | step h =>
    cases h with
    | ringTake a b => exact .inr (.inl (.ringTake a b))
    | ringRead n a => exact .inl (.ringRead n a)
    | _ => exact .inr (.inr rfl)
  | event h => cases h <;> exact .inr (.inr rfl)
  | request o => exact .inr (.inr rfl)
  | stay => exact .inr (.inr rfl)

/-- The reader of the buffer can always go on. -/
theorem ringRead_enabled (h : System.Reachable conv k o s) {x : SliceRef} (hb : s.ringBusy = some x) : s.Enabled conv .ringRead := by
  obtain ⟨log, arrived, a, b, inv⟩ := h.inv
  have hd := inv.ringDone
  rw [hb] at hd
  obtain ⟨h1, h2⟩ := processed_next inv.forwarder (by decide) hd
  obtain ⟨ring, hr, _⟩ := rotated_read (cap := 2048) (by decide) ((convertTraces conv k arrived).take (b + 1)) rotated_new
  rw [h1, readFrom_append, inv.ringGot, Option.bind_some] at hr
  cases hpush : s.ring.pushTrace (s.forwarder.heap.read x) with
  | none => simp [Ring.readFrom, hpush] at hr
  | some ring' => exact ⟨_, .ringRead hb hpush⟩

theorem receive_enabled (c : SystemCounts s) {j : Nat} (hj : j < 2) (h : 0 < s.waitsFor j) : ∃ x f, s.forwarder.Receive j x f := by
  have hq : j < s.forwarder.queues.length := by rw [c.queues]; exact hj
  have ht : j < s.forwarder.taken.length := by rw [c.taken]; exact hj
  have hqe := List.getElem?_eq_getElem hq
  unfold System.waitsFor at h
  rw [getD_of_getElem? hqe] at h
  cases hx : s.forwarder.queues[j] with
  | nil => rw [hx] at h; simp at h
  | cons x q =>
    rw [hx] at hqe
    exact ⟨x, _, .mk _ hqe (List.getElem?_eq_getElem ht)⟩

end moves

section targets

variable {r : Execution conv k}

theorem Execution.counts (r : Execution conv k) (n : Nat) : SystemCounts (r.state n) := (r.reach n).counts

theorem Execution.fmove (r : Execution conv k) (n : Nat) : FMove conv (r.state n) (r.state (n + 1)) := (r.next n).fmove

/-- The sink gets free again and again. -/
theorem sink_free (h : r.Fair) (n : Nat) : ∃ m, n ≤ m ∧ (r.state m).sinkBusy = none := by
  refine Classical.byContradiction fun hn => ?_
  have hb : ∀ m, n ≤ m → (r.state m).sinkBusy ≠ none := fun m hm e => hn ⟨m, hm, e⟩
  obtain ⟨m, hm, ht⟩ := h.sinkRead.taken (n := n) fun m hm => by
    obtain ⟨x, hx⟩ := Option.ne_none_iff_exists'.mp (hb m hm)
    exact ⟨_, .sinkRead 0 hx⟩
  refine hb (m + 1) (by omega) ?_
  unfold Execution.Takes at ht
  generalize r.state (m + 1) = s' at ht
  cases ht; rfl

theorem ring_free (h : r.Fair) (n : Nat) : ∃ m, n ≤ m ∧ (r.state m).ringBusy = none := by
  refine Classical.byContradiction fun hn => ?_
  have hb : ∀ m, n ≤ m → (r.state m).ringBusy ≠ none := fun m hm e => hn ⟨m, hm, e⟩
  obtain ⟨m, hm, ht⟩ := h.ringRead.taken (n := n) fun m hm => by
    obtain ⟨x, hx⟩ := Option.ne_none_iff_exists'.mp (hb m hm)
    exact ringRead_enabled (r.reach m) hx
  refine hb (m + 1) (by omega) ?_
  unfold Execution.Takes at ht
  generalize r.state (m + 1) = s' at ht
  cases ht; rfl

theorem taken_le (r : Execution conv k) {j : Nat} (hj : j < 2) (n : Nat) : (r.state n).takenBy j ≤ (r.state (n + 1)).takenBy j := by
  match j, hj with
  | 0, _ =>
    rcases (r.fmove n).taken0 with h | h
    · rw [does_sinkTake h]; omega
    · omega
  | 1, _ =>
    rcases (r.fmove n).taken1 with h | h
    · rw [does_ringTake h]; omega
    · omega

/-- What waits for a target is taken. -/
theorem target_takes (h : r.Fair) {j : Nat} (hj : j < 2) {n : Nat} (hw : 0 < (r.state n).waitsFor j) : ∃ m, n ≤ m ∧ (r.state n).takenBy j < (r.state m).takenBy j := by
  refine Classical.byContradiction fun hn => ?_
  have hmono := fun {a b : Nat} (hab : a ≤ b) => nat_mono_of_step (f := fun n => (r.state n).takenBy j) (taken_le r hj) hab
  have hc : ∀ m, n ≤ m → (r.state m).takenBy j = (r.state n).takenBy j := fun m hm => by
    have h1 : (r.state n).takenBy j ≤ (r.state m).takenBy j := hmono hm
    have h2 : ¬ (r.state n).takenBy j < (r.state m).takenBy j := fun e => hn ⟨m, hm, e⟩
    omega
  match j, hj with
  | 0, _ =>
    have hno : ∀ m, n ≤ m → ¬ r.Takes .sinkTake m := fun m hm ht => by
      have := does_sinkTake ht
      rw [hc m hm, hc (m + 1) (by omega)] at this
      omega
    have hwaits : ∀ m, n ≤ m → 0 < (r.state m).waitsFor 0 := fun m hm => by
      induction hm with
      | refl => exact hw
      | @step m hm ih =>
        rcases (r.fmove m).taken0 with h | h
        · exact absurd h (hno m hm)
        · exact Nat.lt_of_lt_of_le ih h.2
    obtain ⟨n1, hn1, hfree⟩ := sink_free h n
    have hfree' : ∀ m, n1 ≤ m → (r.state m).sinkBusy = none := fun m hm => by
      induction hm with
      | refl => exact hfree
      | @step m hm ih =>
        rcases (r.next m).sinkBusy with h | h | h
        · generalize r.state (m + 1) = s' at h
          cases h; rfl
        · exact absurd h (hno m (Nat.le_trans hn1 hm))
        · rw [h]; exact ih
    obtain ⟨m, hm, ht⟩ := h.sinkTake.taken (n := n1) fun m hm => by
      obtain ⟨x, f, hf⟩ := receive_enabled (r.counts m) (by decide) (hwaits m (by omega))
      exact ⟨_, .sinkTake (hfree' m hm) hf⟩
    exact hno m (by omega) ht
  | 1, _ =>
    have hno : ∀ m, n ≤ m → ¬ r.Takes .ringTake m := fun m hm ht => by
      have := does_ringTake ht
      rw [hc m hm, hc (m + 1) (by omega)] at this
      omega
    have hwaits : ∀ m, n ≤ m → 0 < (r.state m).waitsFor 1 := fun m hm => by
      induction hm with
      | refl => exact hw
      | @step m hm ih =>
        rcases (r.fmove m).taken1 with h | h
        · exact absurd h (hno m hm)
        · exact Nat.lt_of_lt_of_le ih h.2
    obtain ⟨n1, hn1, hfree⟩ := ring_free h n
    have hfree' : ∀ m, n1 ≤ m → (r.state m).ringBusy = none := fun m hm => by
      induction hm with
      | refl => exact hfree
      | @step m hm ih =>
        rcases (r.next m).ringBusy with h | h | h
        · generalize r.state (m + 1) = s' at h
          cases h; rfl
        · exact absurd h (hno m (Nat.le_trans hn1 hm))
        · rw [h]; exact ih
    obtain ⟨m, hm, ht⟩ := h.ringTake.taken (n := n1) fun m hm => by
      obtain ⟨x, f, hf⟩ := receive_enabled (r.counts m) (by decide) (hwaits m (by omega))
      exact ⟨_, .ringTake (hfree' m hm) hf⟩
    exact hno m (by omega) ht

theorem sent_le (r : Execution conv k) (j n : Nat) (hj : j < 2) : (r.state n).takenBy j + (r.state n).waitsFor j ≤ (r.state (n + 1)).takenBy j + (r.state (n + 1)).waitsFor j := by
  rcases (r.fmove n).own with h | h
  · have ht := taken_le r hj n
    have hm := r.fmove n
    generalize r.state (n + 1) = s' at h ht
    cases h with
    | forward h =>
      have := own_queue h j
      exact Nat.add_le_add ht this
  · exact Nat.le_of_eq (h.2.2.2 j).symm

/-- All that was sent to a target is taken. -/
theorem target_takes_all (h : r.Fair) {j : Nat} (hj : j < 2) (n : Nat) : ∃ m, n ≤ m ∧ (r.state n).takenBy j + (r.state n).waitsFor j ≤ (r.state m).takenBy j := by
  have hmono := fun {a b : Nat} (hab : a ≤ b) => nat_mono_of_step (f := fun n => (r.state n).takenBy j + (r.state n).waitsFor j) (fun n => sent_le r j n hj) hab
  obtain ⟨m, hm, hle⟩ := reaches (f := fun n => ((r.state n).takenBy j : Int)) (b := ((r.state n).takenBy j + (r.state n).waitsFor j : Nat)) (n := n)
    (fun n => by have := taken_le r hj n; omega) (fun m hm hlt => by
      have := hmono hm
      obtain ⟨m', hm', h'⟩ := target_takes h hj (n := m) (by omega)
      exact ⟨m', hm', by omega⟩)
  exact ⟨m, hm, by omega⟩

theorem progress_le (r : Execution conv k) (n : Nat) : (r.state n).forwarder.progress ≤ (r.state (n + 1)).forwarder.progress := by
  rcases (r.fmove n).own with h | h
  · rw [does_forward h (r.counts n)]; omega
  · omega

/-- The forwarder goes on. -/
theorem forwarder_moves (h : r.Fair) {n : Nat} (hw : (r.state n).forwarder.source ≠ [] ∨ (r.state n).forwarder.sending ≠ none) :
    ∃ m, n ≤ m ∧ (r.state n).forwarder.progress < (r.state m).forwarder.progress := by
  refine Classical.byContradiction fun hn => ?_
  have hmono := fun {a b : Nat} (hab : a ≤ b) => mono_of_step (f := fun n => (r.state n).forwarder.progress) (progress_le r) hab
  have hc : ∀ m, n ≤ m → (r.state m).forwarder.progress = (r.state n).forwarder.progress := fun m hm => by
    have h1 : (r.state n).forwarder.progress ≤ (r.state m).forwarder.progress := hmono hm
    have h2 : ¬ (r.state n).forwarder.progress < (r.state m).forwarder.progress := fun e => hn ⟨m, hm, e⟩
    omega
  have hno : ∀ m, n ≤ m → ¬ r.Takes .forward m := fun m hm ht => by
    have := does_forward ht (r.counts m)
    rw [hc m hm, hc (m + 1) (by omega)] at this
    omega
  have hstep := fun m (hm : n ≤ m) => ((r.fmove m).own).resolve_left (hno m hm)
  have hsend : ∀ m, n ≤ m → (r.state m).forwarder.sending = (r.state n).forwarder.sending := fun m hm =>
    stays (f := fun n => (r.state n).forwarder.sending) (fun m hm => (hstep m hm).2.1) hm
  have hsrc : (r.state n).forwarder.source ≠ [] → ∀ m, n ≤ m → (r.state m).forwarder.source ≠ [] := fun h0 m hm => by
    induction hm with
    | refl => exact h0
    | step hm ih => exact (hstep _ hm).2.2.1 ih
  have hsent : ∀ j m, n ≤ m → (r.state m).takenBy j + (r.state m).waitsFor j = (r.state n).takenBy j + (r.state n).waitsFor j := fun j m hm =>
    stays (f := fun n => (r.state n).takenBy j + (r.state n).waitsFor j) (fun m hm => (hstep m hm).2.2.2 j) hm
  have enabled : ∃ n1, n ≤ n1 ∧ ∀ m, n1 ≤ m → (r.state m).Enabled conv .forward := by
    cases hs : (r.state n).forwarder.sending with
    | none =>
      refine ⟨n, Nat.le_refl _, fun m hm => ?_⟩
      have := hsrc (hw.resolve_right (fun h => h hs)) m hm
      cases hq : (r.state m).forwarder.source with
      | nil => exact absurd hq this
      | cons t rest => exact ⟨_, .forward (.take _ hq (by rw [hsend m hm, hs]))⟩
    | some p =>
      obtain ⟨x, i⟩ := p
      have hi := (r.counts n).sending x i hs
      by_cases h2 : i = 2
      · subst h2
        refine ⟨n, Nat.le_refl _, fun m hm => ⟨_, .forward (.finish _ (r := x) ?_)⟩⟩
        rw [hsend m hm, hs, (r.counts m).queues]
      · have hi2 : i < 2 := by omega
        obtain ⟨n1, hn1, hall⟩ := target_takes_all h hi2 n
        refine ⟨n1, hn1, fun m hm => ?_⟩
        have hmt : (r.state n1).takenBy i ≤ (r.state m).takenBy i := nat_mono_of_step (f := fun n => (r.state n).takenBy i) (taken_le r hi2) hm
        have hs' := hsent i m (by omega)
        have hw0 : (r.state m).waitsFor i = 0 := by omega
        have hq : i < (r.state m).forwarder.queues.length := by rw [(r.counts m).queues]; exact hi2
        have hqe := List.getElem?_eq_getElem hq
        refine ⟨_, .forward (.send _ (r := x) (i := i) (by rw [hsend m (by omega), hs]) hqe ?_)⟩
        unfold System.waitsFor at hw0
        rw [getD_of_getElem? hqe] at hw0
        rw [hw0]
        match i, hi2 with
        | 0, _ => decide
        | 1, _ => decide
  obtain ⟨n1, hn1, he⟩ := enabled
  obtain ⟨m, hm, ht⟩ := h.forward.taken he
  exact hno m (by omega) ht

theorem heap_le (r : Execution conv k) (n : Nat) : (r.state n).forwarder.heap.length ≤ (r.state (n + 1)).forwarder.heap.length := by
  rcases (r.fmove n).heap (r.counts n) with h | h
  · rw [does_emit h]; omega
  · omega

/-- All that arrived is forwarded. -/
theorem forwards_all (h : r.Fair) (n : Nat) : ∃ m, n ≤ m ∧ 4 * ((r.state n).forwarder.heap.length : Int) ≤ (r.state m).forwarder.progress := by
  refine reaches (f := fun n => (r.state n).forwarder.progress) (progress_le r) fun m hm hlt => forwarder_moves h ?_
  have hmono : (r.state n).forwarder.heap.length ≤ (r.state m).forwarder.heap.length := nat_mono_of_step (f := fun n => (r.state n).forwarder.heap.length) (heap_le r) hm
  refine Classical.byContradiction fun hw => ?_
  obtain ⟨h1, h2⟩ := not_or.mp hw
  have h1 := Classical.not_not.mp h1
  have h2 := Classical.not_not.mp h2
  unfold Forwarder.progress at hlt
  rw [h1, h2, List.length_nil] at hlt
  dsimp only at hlt
  omega

/-- What the progress of the forwarder tells. -/
theorem progress_sent {s : System κ} (c : SystemCounts s) {b : Nat} (hb : 4 * (b : Int) ≤ s.forwarder.progress) {j : Nat} (hj : j < 2) :
    b ≤ s.takenBy j + s.waitsFor j ∧ b + s.forwarder.source.length ≤ s.forwarder.heap.length := by
  rw [c.sent j hj]
  have hs := c.source
  unfold Forwarder.progress at hb
  unfold sentTo
  cases hsend : s.forwarder.sending with
  | none => rw [hsend] at hb; dsimp only at hb ⊢; omega
  | some p =>
    obtain ⟨x, i⟩ := p
    have := c.sending x i hsend
    rw [hsend] at hb
    dsimp only at hb ⊢
    split <;> omega

/-- What waits in the outbox is emitted. -/
theorem emits (h : r.Fair) {n : Nat} (ho : (r.state n).outbox ≠ []) : ∃ m, n ≤ m ∧ (r.state n).forwarder.heap.length < (r.state m).forwarder.heap.length := by
  refine Classical.byContradiction fun hn => ?_
  have hmono := fun {a b : Nat} (hab : a ≤ b) => nat_mono_of_step (f := fun n => (r.state n).forwarder.heap.length) (heap_le r) hab
  have hc : ∀ m, n ≤ m → (r.state m).forwarder.heap.length = (r.state n).forwarder.heap.length := fun m hm => by
    have h1 : (r.state n).forwarder.heap.length ≤ (r.state m).forwarder.heap.length := hmono hm
    have h2 : ¬ (r.state n).forwarder.heap.length < (r.state m).forwarder.heap.length := fun e => hn ⟨m, hm, e⟩
    omega
  have hno : ∀ m, n ≤ m → ¬ r.Takes .emit m := fun m hm ht => by
    have := does_emit ht
    rw [hc m hm, hc (m + 1) (by omega)] at this
    omega
  have hstep := fun m (hm : n ≤ m) => ((r.fmove m).heap (r.counts m)).resolve_left (hno m hm)
  have hout : ∀ m, n ≤ m → (r.state m).outbox ≠ [] := fun m hm => by
    induction hm with
    | refl => exact ho
    | step hm ih => rw [(hstep _ hm).2.1.resolve_right ih]; exact ih
  obtain ⟨n1, hn1, hp⟩ := forwards_all h n
  have hs1 := (progress_sent (r.counts n1) hp (j := 0) (by decide)).2
  rw [hc n1 hn1] at hs1
  have hs1 : (r.state n1).forwarder.source.length = 0 := by omega
  have hsrc : ∀ m, n1 ≤ m → (r.state m).forwarder.source.length = 0 := fun m hm => by
    induction hm with
    | refl => exact hs1
    | @step m' hm ih =>
      have := (hstep m' (Nat.le_trans hn1 hm)).2.2
      have e : (r.state m'.succ).forwarder.source.length = (r.state (m' + 1)).forwarder.source.length := rfl
      omega
  obtain ⟨m, hm, ht⟩ := h.emit.taken (n := n1) fun m hm => by
    cases ho' : (r.state m).outbox with
    | nil => exact absurd ho' (hout m (by omega))
    | cons t rest => exact ⟨_, .emit ho' (by rw [hsrc m hm]; decide)⟩
  exact hno m (by omega) ht

theorem removed_prefix (r : Execution conv k) {n m : Nat} (hm : n ≤ m) : (r.state n).world.removed <+: (r.state m).world.removed := by
  induction hm with
  | refl => exact List.prefix_rfl
  | @step m hm ih =>
    refine ih.trans ?_
    have h := r.next m
    generalize r.outcomes (m + 1) = o' at h
    generalize r.state (m + 1) = s' at h
    generalize r.outcomes m = o at h
    generalize r.state m = s at h
    cases h with
    | step h => cases h <;> exact List.prefix_rfl
    | event h =>
      cases h with
      | tick i ho hv hc => exact List.prefix_append _ _
      | _ => exact List.prefix_rfl
    | request o => exact List.prefix_rfl
    | stay => exact List.prefix_rfl

/-- All that the collector finished is emitted. -/
theorem emits_all (h : r.Fair) (n : Nat) : ∃ m, n ≤ m ∧ (emittedOf (r.state n).world.removed).length ≤ (r.state m).forwarder.heap.length := by
  obtain ⟨m, hm, hle⟩ := reaches (f := fun n => ((r.state n).forwarder.heap.length : Int)) (b := ((emittedOf (r.state n).world.removed).length : Nat)) (n := n)
    (fun n => by have := heap_le r n; omega) (fun m hm hlt => by
      obtain ⟨l, hl⟩ := removed_prefix r hm
      have he := (r.counts m).emitted
      rw [← hl, emittedOf_append, List.length_append] at he
      obtain ⟨m', hm', h'⟩ := emits h (n := m) (by intro e; rw [e] at he; simp at he; omega)
      exact ⟨m', hm', by omega⟩)
  exact ⟨m, hm, by omega⟩

/-- The outbox gets empty again and again. -/
theorem outbox_empty (h : r.Fair) (n : Nat) : ∃ m, n ≤ m ∧ (r.state m).outbox = [] := by
  refine Classical.byContradiction fun hn => ?_
  have hout : ∀ m, n ≤ m → (r.state m).outbox ≠ [] := fun m hm e => hn ⟨m, hm, e⟩
  have hrem : ∀ m, n ≤ m → (r.state m).world.removed = (r.state n).world.removed := fun m hm => by
    refine stays (f := fun n => (r.state n).world.removed) (fun m hm => ?_) hm
    have ho := hout m hm
    have h := r.next m
    generalize r.outcomes (m + 1) = o' at h
    generalize r.state (m + 1) = s' at h
    generalize r.outcomes m = o at h
    generalize r.state m = s at h ho
    cases h with
    | step h => cases h <;> rfl
    | event h =>
      cases h with
      | tick i ho' hv hc => exact absurd ho' ho
      | _ => rfl
    | request o => rfl
    | stay => rfl
  obtain ⟨m, hm, hle⟩ := emits_all h n
  have he := (r.counts m).emitted
  rw [hrem m hm] at he
  exact hout m hm (List.eq_nil_of_length_eq_zero (by omega))

/-- All that the collector finished is taken by both targets. -/
theorem targets_take (h : r.Fair) (n : Nat) : ∃ m, n ≤ m ∧ ∀ m', m ≤ m' → ∀ j, j < 2 → (emittedOf (r.state n).world.removed).length ≤ (r.state m').takenBy j := by
  obtain ⟨n1, h1, e1⟩ := emits_all h n
  obtain ⟨n2, h2, e2⟩ := forwards_all h n1
  obtain ⟨n3, h3, e3⟩ := target_takes_all h (j := 0) (by decide) n2
  obtain ⟨n4, h4, e4⟩ := target_takes_all h (j := 1) (by decide) n2
  have p0 := (progress_sent (r.counts n2) e2 (j := 0) (by decide)).1
  have p1 := (progress_sent (r.counts n2) e2 (j := 1) (by decide)).1
  refine ⟨max n3 n4, by omega, fun m' hm' j hj => ?_⟩
  match j, hj with
  | 0, _ =>
    have : (r.state n3).takenBy 0 ≤ (r.state m').takenBy 0 := nat_mono_of_step (f := fun n => (r.state n).takenBy 0) (taken_le r (by decide)) (by omega)
    omega
  | 1, _ =>
    have : (r.state n4).takenBy 1 ≤ (r.state m').takenBy 1 := nat_mono_of_step (f := fun n => (r.state n).takenBy 1) (taken_le r (by decide)) (by omega)
    omega

end targets

end Verif
