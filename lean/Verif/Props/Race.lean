import Verif.Spec.Race
import Verif.Proofs.Held
import Verif.Props.Account

/-!
# C116: no data races on the way of a finished trace
-/

namespace Verif

variable {κ : Type} {conv : κ → Span → Option Span × κ} {k : κ} {outcomes : List Parsed} {s s' : System κ}

theorem refsFrom_addr {a : Nat} {l : List (List Span)} {r : SliceRef} (h : r ∈ refsFrom a l) : a ≤ r.addr := by
  induction l generalizing a with
  | nil => cases h
  | cons t l ih =>
    rcases List.mem_cons.mp h with rfl | h
    · exact Nat.le_refl _
    · exact Nat.le_of_succ_le (ih h)

/-- The arrays of the forwarder: those in the channel `processedSpans` come after those that were converted. -/
structure Split (s : System κ) (n : Nat) : Prop where
  source : ∀ r ∈ s.forwarder.source, n ≤ r.addr
  tail : ∀ r rest, s.forwarder.source = r :: rest → r.addr = n ∧ ∀ x ∈ rest, n < x.addr
  sending : ∀ r i, s.forwarder.sending = some (r, i) → r.addr < n
  queues : ∀ q ∈ s.forwarder.queues, ∀ r ∈ q, r.addr < n
  sink : ∀ r, s.sinkBusy = some r → r.addr < n
  ring : ∀ r, s.ringBusy = some r → r.addr < n

theorem System.Reachable.split (h : System.Reachable conv k outcomes s) : ∃ n, Split s n := by
  obtain ⟨log, arrived, a, b, inv⟩ := h.inv
  obtain ⟨done, waiting, front, results, h0, fi⟩ := inv.forwarder.inv
  have hres : ∀ r ∈ results, r.addr < done.length := by
    intro r hr
    have : r.addr ∈ results.map (·.addr) := List.mem_map_of_mem hr
    rw [fi.addrs] at this
    exact List.mem_range.mp this
  have hgot : ∀ j, j < 2 → ∀ r ∈ s.forwarder.taken.getD j [] ++ s.forwarder.queues.getD j [], r.addr < done.length := by
    intro j hj r hr
    rw [fi.got j hj] at hr
    exact hres r (List.mem_of_mem_take hr)
  have hbusy : ∀ (busy : Option SliceRef) (j n : Nat), j < 2 → Processed (convertTraces conv k arrived) busy (s.forwarder.taken.getD j []) n → ∀ r, busy = some r → r.addr < done.length := by
    intro busy j n hj hp r hr
    exact hgot j hj r (List.mem_append_left _ (List.mem_of_getElem? (hp.2.2 r hr)))
  refine ⟨done.length, ⟨?_, ?_, ?_, ?_, hbusy _ 0 a (by decide) inv.sinkDone, hbusy _ 1 b (by decide) inv.ringDone⟩⟩
  · intro r hr
    rw [fi.source] at hr
    exact refsFrom_addr hr
  · intro r rest hs
    rw [fi.source] at hs
    cases waiting with
    | nil => cases hs
    | cons t l =>
      cases hs
      exact ⟨rfl, fun x hx => refsFrom_addr hx⟩
  · intro r i hs
    exact hres r (List.mem_of_getLast? (fi.sending r i hs).2)
  · intro q hq r hr
    obtain ⟨j, hj⟩ := List.getElem?_of_mem hq
    have hlt : j < 2 := by
      have := (List.getElem?_eq_some_iff.mp hj).1
      rw [fi.queuesLen] at this; exact this
    refine hgot j hlt r (List.mem_append_right _ ?_)
    rw [getD_of_getElem? hj]; exact hr

theorem System.Reachable.ptrsBelow (h : System.Reachable conv k outcomes s) : PtrsBelow s.sink.sink.free s.sink.sink.byTrace ∧
    (∀ b ∈ s.sink.sink.grouped, PtrsBelow s.sink.sink.free b) ∧ ∀ b, s.sending = some b → PtrsBelow s.sink.sink.free b := by
  obtain ⟨log, arrived, a, b, inv⟩ := h.inv
  obtain ⟨chunks, cur, si⟩ := inv.sink.inv
  have key : ∀ b ∈ s.sink.handed ++ s.sink.sink.grouped, PtrsBelow s.sink.sink.free b := by
    intro b hb
    rw [← si.part.sent] at hb
    obtain ⟨e, he, rfl⟩ := List.mem_map.mp hb
    exact si.belowLog e (List.mem_filter.mp he).1
  exact ⟨si.below, fun b hb => key b (List.mem_append_right _ hb), fun b hb => key b (List.mem_append_left _ (inv.sending b hb))⟩

/-- C116: what a goroutine writes, no other goroutine reads or writes at the same time. -/
theorem C116_exclusive (h : System.Reachable conv k outcomes s) {a b : Actor} {p : Place} (hw : s.Writes a p) : (s.Reads b p ∨ s.Writes b p) → a = b := by
  obtain ⟨n, sp⟩ := h.split
  obtain ⟨_, _, hb⟩ := h.ptrsBelow
  intro hr
  cases hw with
  | @convert r rest i hs hn =>
    have hn := (sp.tail r rest hs).1
    rcases hr with hr | hr
    · generalize hp : Place.span r.addr i = p at hr
      cases hr with
      | convert => rfl
      | sink h => have e := (Place.span.inj hp).1; have := sp.sink _ h; omega
      | viewer h => have e := (Place.span.inj hp).1; have := sp.ring _ h; omega
      | sender => cases hp
    · generalize hp : Place.span r.addr i = p at hr
      cases hr with
      | convert => rfl
      | report => cases hp
  | @report r p hs hf =>
    rcases hr with hr | hr
    · cases hr with
      | sender h hp =>
        obtain ⟨key, ptrs, h1, h2⟩ := hp
        have := hb _ h key ptrs h1 p h2
        omega
    · cases hr; rfl

/-- C116: nobody writes what waits to be read. -/
theorem C116_waits (h : System.Reachable conv k outcomes s) {a : Actor} {p : Place} (hw : s.Writes a p) : ¬ s.Waits p := by
  obtain ⟨n, sp⟩ := h.split
  obtain ⟨h1, h2, _⟩ := h.ptrsBelow
  intro hr
  cases hw with
  | @convert r rest i hs hn =>
    have hn := (sp.tail r rest hs).1
    generalize hp : Place.span r.addr i = p at hr
    cases hr with
    | passing h => have e := (Place.span.inj hp).1; have := sp.sending _ _ h; omega
    | queue hq hr => have e := (Place.span.inj hp).1; have := sp.queues _ hq _ hr; omega
    | batch => cases hp
    | grouped => cases hp
  | @report r p hs hf =>
    cases hr with
    | batch hp =>
      obtain ⟨key, ptrs, e1, e2⟩ := hp
      have := h1 key ptrs e1 p e2
      omega
    | grouped hb hp =>
      obtain ⟨key, ptrs, e1, e2⟩ := hp
      have := h2 _ hb key ptrs e1 p e2
      omega

theorem flush_memory (x : Sink) (flush : Bool) (now : Time) : (x.flush flush now).1.memory = x.memory := by
  unfold Sink.flush
  split
  · dsimp only
    split <;> rfl
  · rfl

theorem sink_keeps {w : SinkRun} (h : w.Reachable) (trace : List Span) (now : Time) {p : Nat} {d : DDSpan} (hp : p < w.sink.free) (hd : w.sink.memory[p]? = some d) :
    (w.receive trace now).sink.memory[p]? = some d := by
  obtain ⟨chunks, cur, si⟩ := h.inv
  obtain ⟨kept, _⟩ := addSpans_spec trace si.bound si.part.current si.below
  show (w.sink.receive trace now).1.memory[p]? = some d
  unfold Sink.receive
  rw [flush_memory]
  show (trace.foldl Sink.addSpan w.sink).memory[p]? = some d
  have h1 := kept.memory p hp
  have h2 : p < (trace.foldl Sink.addSpan w.sink).memory.length := Nat.lt_of_lt_of_le hp (Nat.le_trans kept.free kept.bound)
  rw [getD_of_getElem? hd, List.getD_eq_getElem?_getD, List.getElem?_eq_getElem h2] at h1
  rw [List.getElem?_eq_getElem h2]
  exact congrArg some h1

/-- C116: a step changes no place but those that the goroutine may write. -/
theorem C116_writes (h : System.Reachable conv k outcomes s) (hs : s.Step conv s' ∨ s.Event s') {p : Place} {x : Span ⊕ DDSpan} (hx : s.Holds p x) (hw : ∀ a, ¬ s.Writes a p) : s'.Holds p x := by
  obtain ⟨log, arrived, a, b, inv⟩ := h.inv
  cases hx with
  | @span addr i cells x h1 h2 =>
    have key : s'.forwarder.heap[addr]? = some cells → s'.Holds (.span addr i) (.inl x) := fun h => .span h h2
    refine key ?_
    rcases hs with hs | hs
    · cases hs with
      | http => exact h1
      | collect => exact h1
      | @emit t rest ho hl =>
        show (s.forwarder.heap ++ [t])[addr]? = some cells
        rw [List.getElem?_append_left (List.getElem?_eq_some_iff.mp h1).1]
        exact h1
      | forward ho =>
        cases ho with
        | @take trace rest he hn =>
          show (s.forwarder.heap.set trace.addr _)[addr]? = some cells
          rw [List.getElem?_set_ne]
          · exact h1
          · intro e
            subst e
            exact hw .forwarder (.convert he hn)
        | send => exact h1
        | finish => exact h1
      | sinkTake _ hr => cases hr; exact h1
      | sinkRead => exact h1
      | ringTake _ hr => cases hr; exact h1
      | ringRead => exact h1
    · cases hs <;> exact h1
  | @report p d h1 =>
    have key : s'.sink.sink.memory[p]? = some d → s'.Holds (.report p) (.inr d) := fun h => .report h
    refine key ?_
    rcases hs with hs | hs
    · cases hs with
      | sinkRead now hb =>
        refine sink_keeps inv.sink _ now ?_ h1
        exact Nat.lt_of_not_le fun hf => hw .sink (.report hb hf)
      | _ => exact h1
    · cases hs with
      | sinkTick since now hb =>
        show (s.sink.sink.flush _ now).1.memory[p]? = some d
        rw [flush_memory]
        exact h1
      | senderTake _ ht =>
        unfold Sink.takeBatch at ht
        split at ht
        · cases ht
        · cases ht; exact h1
      | _ => exact h1

/-- C116: so what was sent to a goroutine, or is on its way, has the same content until it is read. -/
theorem C116_stable (h : System.Reachable conv k outcomes s) (hs : s.Step conv s' ∨ s.Event s') {p : Place} {x : Span ⊕ DDSpan} (hx : s.Holds p x)
    (hp : s.Waits p ∨ ∃ b, b ≠ .forwarder ∧ s.Reads b p) : s'.Holds p x := by
  refine C116_writes h hs hx fun a hw => ?_
  rcases hp with hp | ⟨b, hb, hr⟩
  · exact C116_waits h hw hp
  · have := C116_exclusive h hw (Or.inl hr)
    subst this
    cases hw with
    | convert => exact hb rfl
    | report => cases hr

namespace RaceWitness

def world : World := ((World.receive { clock := 0 } 1 1 { id := 5, trace := 5 }).receive 2 2 { id := 7, trace := 7 })

def input : TickInput :=
  { now1 := 9000000000, now2 := 9000000000, nowFake := fun _ => 0, order := world.c.traces.toList, sorted := [], blOrder := [] }

theorem perm_nil {α : Type} {l : List α} (h : l.isEmpty = true) : List.Perm [] l := by
  cases l with
  | nil => exact .refl _
  | cons => cases h

theorem valid : input.Valid world.c :=
  ⟨.refl _, perm_nil (by decide +kernel), .nil, perm_nil (by decide +kernel), Int.le_refl _⟩

theorem two : (emittedOf (world.c.tick input).2).length = 2 := by decide +kernel

end RaceWitness

open RaceWitness in
/-- C116: the sink may read an array while the forwarder writes another one. -/
theorem C116_witness (conv : κ → Span → Option Span × κ) (k : κ) : ∃ outcomes, ∃ s : System κ, System.Reachable conv k outcomes s ∧ ∃ a b, a ≠ b ∧
    ∀ i, s.Reads .sink (.span a i) ∧ s.Waits (.span a i) ∧ s.Writes .forwarder (.span b i) := by
  have hw : Reachable world := .receive 2 2 _ (.receive 1 1 _ (.init 0) (by decide) (by decide)) (by decide) (by decide)
  obtain ⟨outcomes, s, hr, hp, _, e⟩ := C92_adequate conv k hw
  have ho : s.outbox = [] := Classical.byContradiction fun h => hp (Or.inr (Or.inr (Or.inl h)))
  have hi : s.forwarder.Idle := Classical.byContradiction fun h => hp (Or.inr (Or.inr (Or.inr (Or.inl h))))
  have hb : s.sinkBusy = none := Classical.byContradiction fun h => hp (Or.inr (Or.inr (Or.inr (Or.inr (Or.inl h)))))
  obtain ⟨_, _, _, _, inv⟩ := hr.inv
  obtain ⟨_, _, _, _, _, fi⟩ := inv.forwarder.inv
  have hq : s.forwarder.queues = [[], []] := by
    have h1 := fi.queuesLen
    have h2 := hi.2.2
    match hq : s.forwarder.queues, h1, h2 with
    | [a, b], _, h2 => rw [h2 a (by simp), h2 b (by simp)]
  obtain ⟨l0, l1, ht⟩ : ∃ l0 l1, s.forwarder.taken = [l0, l1] := by
    have h1 := fi.takenLen
    match s.forwarder.taken, h1 with
    | [a, b], _ => exact ⟨a, b, rfl⟩
  obtain ⟨t1, t2, h2⟩ : ∃ t1 t2, emittedOf (s.world.c.tick input).2 = [t1, t2] := by
    have := two
    rw [← e] at this
    match h : emittedOf (s.world.c.tick input).2, this with
    | [a, b], _ => exact ⟨a, b, rfl⟩
  have hv : input.Valid s.world.c := by rw [e]; exact valid
  have hc : s.world.clock ≤ input.now1 := by rw [e]; decide
  -- both traces are sent to the forwarder, which forwards the first one to both targets
  have r1 := System.Reachable.event hr (.tick input ho hv hc)
  have r2 := System.Reachable.step r1 (.emit (t := t1) (rest := [t2]) h2 (by show s.forwarder.source.length < 64; rw [hi.1]; decide))
  have r3 := System.Reachable.step r2 (.emit (t := t2) (rest := []) rfl (by show (s.forwarder.source ++ [_]).length < 64; rw [hi.1]; exact (by decide : 1 < 64)))
  have r4 := System.Reachable.step r3 (.forward (.take (trace := ⟨s.forwarder.heap.length, t1.length⟩) (rest := [⟨s.forwarder.heap.length + 1, t2.length⟩]) _
    (by show (s.forwarder.source ++ [_]) ++ [_] = _; rw [hi.1]; simp [Forwarder.arrive]) hi.2.1))
  have r5 := System.Reachable.step r4 (.forward (.send (i := 0) (q := []) _ rfl (by show s.forwarder.queues[0]? = _; rw [hq]; rfl) (by decide)))
  have r6 := System.Reachable.step r5 (.forward (.send (i := 1) (q := []) _ rfl (by show (s.forwarder.queues.set 0 _)[1]? = _; rw [hq]; rfl) (by decide)))
  have r7 := System.Reachable.step r6 (.forward (.finish _ (by show some _ = some (_, ((s.forwarder.queues.set 0 _).set 1 _).length); rw [hq]; rfl)))
  have r8 := System.Reachable.step r7 (.sinkTake hb (.mk (i := 0) (q := []) (l := l0) _ (by show ((s.forwarder.queues.set 0 _).set 1 _)[0]? = _; rw [hq]; rfl) (by show s.forwarder.taken[0]? = _; rw [ht]; rfl)))
  refine ⟨_, _, r8, s.forwarder.heap.length, s.forwarder.heap.length + 1, by omega, fun i => ⟨?_, ?_, ?_⟩⟩
  · exact .sink (r := ⟨s.forwarder.heap.length, _⟩) rfl
  · refine .queue (r := ⟨s.forwarder.heap.length, (convertLoop conv t1.length 0 0 s.forwarder.conv ((s.forwarder.heap ++ [t1] ++ [t2]).getD s.forwarder.heap.length [])).1⟩) (q := [_]) ?_ (List.mem_singleton.mpr rfl)
    show _ ∈ (((s.forwarder.queues.set 0 _).set 1 _).set 0 [])
    rw [hq]
    exact List.mem_cons_of_mem _ (List.mem_singleton.mpr rfl)
  · exact .convert (r := ⟨s.forwarder.heap.length + 1, _⟩) (rest := []) rfl rfl

end Verif
