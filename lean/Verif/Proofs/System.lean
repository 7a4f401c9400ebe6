import Verif.Spec.System
import Verif.Props.Handlers
import Verif.Props.Forward
import Verif.Props.Ring
import Verif.Props.Sink
import Verif.Props.Collector

/-!
# The components of the system are in states they can reach
-/

namespace Verif

open Spec

variable {κ : Type} {conv : κ → Span → Option Span × κ} {k : κ} {outcomes : List Parsed} {s : System κ}

/-- What a target processed, of what it took: all but the last one if it is busy. -/
def Processed (results : List (List Span)) (busy : Option SliceRef) (taken : List SliceRef) (n : Nat) : Prop :=
  n + busy.toList.length = taken.length ∧ n ≤ results.length ∧ ∀ r, busy = some r → taken[n]? = some r

structure SystemInv (conv : κ → Span → Option Span × κ) (k : κ) (outcomes : List Parsed) (log : List (Nat × Span)) (arrived : List (List Span)) (a b : Nat) (s : System κ) : Prop where
  http : Http.Reachable 256 outcomes log s.world.received s.http
  world : Reachable s.world
  emitted : emittedOf s.world.removed = arrived ++ s.outbox
  forwarder : Forwarder.Reachable conv targetCaps k 2 arrived s.forwarder
  sink : s.sink.Reachable
  sinkDone : Processed (convertTraces conv k arrived) s.sinkBusy (s.forwarder.taken.getD 0 []) a
  sinkGot : s.sink.received = (convertTraces conv k arrived).take a
  ringDone : Processed (convertTraces conv k arrived) s.ringBusy (s.forwarder.taken.getD 1 []) b
  ringGot : (Ring.new 2048).readFrom ((convertTraces conv k arrived).take b) = some s.ring
  sending : ∀ x, s.sending = some x → x ∈ s.sink.handed
  sent : ∀ call ∈ s.sent, ∀ t ∈ call, ∀ d ∈ t, ∃ x ∈ s.sink.received.flatten, d = toDatadog x
  calls : s.sink.handed.length = s.sent.length + s.sending.toList.length

theorem emittedOf_append (l l' : List Removal) : emittedOf (l ++ l') = emittedOf l ++ emittedOf l' := by
  unfold emittedOf
  rw [List.filterMap_append]

theorem readFrom_append (l l' : List (List Span)) (r : Ring) : r.readFrom (l ++ l') = (r.readFrom l).bind (Ring.readFrom l') := by
  induction l generalizing r with
  | nil => rfl
  | cons t l ih =>
    simp only [List.cons_append, Ring.readFrom]
    cases r.pushTrace t with
    | none => rfl
    | some r' => exact ih r'

/-- The slices a target took are, read at any time, the first converted traces. -/
theorem taken_reads {caps : List Nat} {n : Nat} {arrived : List (List Span)} {f : Forwarder κ} (h : Forwarder.Reachable conv caps k n arrived f) {i : Nat} (hi : i < n) :
    (f.taken.getD i []).map f.heap.read = (convertTraces conv k arrived).take (f.taken.getD i []).length := by
  have hd := (C55_delivers h).2 i hi
  have key : ∀ m, f.delivered i = (convertTraces conv k arrived).take m →
      (f.taken.getD i []).map f.heap.read = (convertTraces conv k arrived).take (f.taken.getD i []).length := by
    intro m hm
    unfold Forwarder.delivered at hm
    rw [List.map_append] at hm
    have h1 : (f.taken.getD i []).map f.heap.read = ((convertTraces conv k arrived).take m).take ((f.taken.getD i []).map f.heap.read).length := by
      rw [← hm]; simp
    have hle : (f.taken.getD i []).length ≤ m := by
      have := congrArg List.length hm
      simp only [List.length_append, List.length_map, List.length_take] at this; omega
    rw [List.length_map, List.take_take, Nat.min_eq_left hle] at h1
    exact h1
  rcases hd with hd | ⟨_, hd⟩
  · exact key _ hd
  · exact key _ hd

theorem processed_next {caps : List Nat} {n : Nat} {arrived : List (List Span)} {f : Forwarder κ} (h : Forwarder.Reachable conv caps k n arrived f) {i : Nat} (hi : i < n)
    {r : SliceRef} {m : Nat} (hp : Processed (convertTraces conv k arrived) (some r) (f.taken.getD i []) m) :
    (convertTraces conv k arrived).take (m + 1) = (convertTraces conv k arrived).take m ++ [f.heap.read r] ∧ m + 1 ≤ (convertTraces conv k arrived).length := by
  have hr := taken_reads h hi
  have hget := hp.2.2 r rfl
  have hlen : (f.taken.getD i []).length = m + 1 := by have := hp.1; simp only [Option.toList_some, List.length_singleton] at this; omega
  have h1 : ((f.taken.getD i []).map f.heap.read)[m]? = some (f.heap.read r) := by
    rw [List.getElem?_map, hget]; rfl
  rw [hr, List.getElem?_take, if_pos (by omega)] at h1
  refine ⟨?_, (List.getElem?_eq_some_iff.mp h1).1⟩
  rw [List.take_add_one, h1]; rfl

theorem receive_taken {f f' : Forwarder κ} {i : Nat} {r : SliceRef} (h : f.Receive i r f') : f'.taken.getD i [] = f.taken.getD i [] ++ [r] ∧
    (∀ j, i ≠ j → f'.taken.getD j [] = f.taken.getD j []) ∧ f'.heap = f.heap := by
  cases h with
  | @mk q l hq hl =>
    refine ⟨?_, fun j hj => getD_set_ne hj, rfl⟩
    rw [getD_set_self (List.getElem?_eq_some_iff.mp hl).1, getD_of_getElem? hl]

theorem own_taken {caps : List Nat} {f f' : Forwarder κ} (h : f.Own conv caps f') : f'.taken = f.taken := by
  cases h <;> rfl

theorem processed_take {results : List (List Span)} {taken : List SliceRef} {n : Nat} {r : SliceRef} (h : Processed results none taken n) : Processed results (some r) (taken ++ [r]) n := by
  have h1 := h.1
  simp at h1
  refine ⟨by simp [h1], h.2.1, ?_⟩
  intro r' hr'
  rw [Option.some.injEq] at hr'; subst hr'
  rw [h1]; simp

theorem processed_done {results : List (List Span)} {taken : List SliceRef} {n : Nat} {r : SliceRef} (h : Processed results (some r) taken n) (hn : n + 1 ≤ results.length) :
    Processed results none taken (n + 1) := by
  have h1 := h.1
  simp at h1
  exact ⟨by simp [h1], hn, fun r hr => by cases hr⟩

theorem convertTraces_take_snoc {arrived : List (List Span)} (t : List Span) {a : Nat} (h : a ≤ (convertTraces conv k arrived).length) :
    (convertTraces conv k (arrived ++ [t])).take a = (convertTraces conv k arrived).take a := by
  rw [convertTraces_append, List.take_append_of_le_length h]

theorem processed_arrive {arrived : List (List Span)} (t : List Span) {busy : Option SliceRef} {taken : List SliceRef} {a : Nat} (h : Processed (convertTraces conv k arrived) busy taken a) :
    Processed (convertTraces conv k (arrived ++ [t])) busy taken a := by
  refine ⟨h.1, ?_, h.2.2⟩
  have := h.2.1
  rw [convertTraces_length] at this ⊢
  simp; omega

theorem System.Reachable.inv (h : System.Reachable conv k outcomes s) : ∃ log arrived a b, SystemInv conv k outcomes log arrived a b s := by
  induction h with
  | init now =>
    refine ⟨[], [], 0, 0, ⟨.init, .init now, rfl, .init, .init, ⟨rfl, Nat.zero_le _, ?_⟩, rfl, ⟨rfl, Nat.zero_le _, ?_⟩, rfl, ?_, ?_, rfl⟩⟩
    · intro r hr; cases hr
    · intro r hr; cases hr
    · intro x hx; cases hx
    · intro c hc; cases hc
  | request o _ ih =>
    obtain ⟨log, arrived, a, b, inv⟩ := ih
    exact ⟨log, arrived, a, b, ⟨.arrive o inv.http, inv.world, inv.emitted, inv.forwarder, inv.sink, inv.sinkDone, inv.sinkGot, inv.ringDone, inv.ringGot, inv.sending, inv.sent, inv.calls⟩⟩
  | @step outcomes s s' _ hs ih =>
    obtain ⟨log, arrived, a, b, inv⟩ := ih
    cases hs with
    | @http h e hs =>
      exact ⟨log ++ e.toList, arrived, a, b,
        ⟨.step inv.http hs, inv.world, inv.emitted, inv.forwarder, inv.sink, inv.sinkDone, inv.sinkGot, inv.ringDone, inv.ringGot, inv.sending, inv.sent, inv.calls⟩⟩
    | @collect x rest now1 now2 ho hc h1 h2 =>
      exact ⟨log, arrived, a, b,
        ⟨.take inv.http hc, .receive now1 now2 x inv.world h1 h2, inv.emitted, inv.forwarder, inv.sink, inv.sinkDone, inv.sinkGot, inv.ringDone, inv.ringGot, inv.sending, inv.sent, inv.calls⟩⟩
    | @emit t rest ho hc =>
      refine ⟨log, arrived ++ [t], a, b,
        ⟨inv.http, inv.world, ?_, .arrive t inv.forwarder, inv.sink, processed_arrive t inv.sinkDone, ?_, processed_arrive t inv.ringDone, ?_, inv.sending, inv.sent, inv.calls⟩⟩
      · rw [inv.emitted, ho]; simp
      · rw [convertTraces_take_snoc t inv.sinkDone.2.1]; exact inv.sinkGot
      · rw [convertTraces_take_snoc t inv.ringDone.2.1]; exact inv.ringGot
    | @forward f hf =>
      refine ⟨log, arrived, a, b,
        ⟨inv.http, inv.world, inv.emitted, .step inv.forwarder (.own hf), inv.sink, ?_, inv.sinkGot, ?_, inv.ringGot, inv.sending, inv.sent, inv.calls⟩⟩
      · dsimp only; rw [own_taken hf]; exact inv.sinkDone
      · dsimp only; rw [own_taken hf]; exact inv.ringDone
    | @sinkTake f r hb hf =>
      obtain ⟨h1, h2, _⟩ := receive_taken hf
      refine ⟨log, arrived, a, b,
        ⟨inv.http, inv.world, inv.emitted, .step inv.forwarder (.receive hf), inv.sink, ?_, inv.sinkGot, ?_, inv.ringGot, inv.sending, inv.sent, inv.calls⟩⟩
      · dsimp only
        rw [h1]
        have := inv.sinkDone
        rw [hb] at this
        exact processed_take this
      · dsimp only; rw [h2 1 (by decide)]; exact inv.ringDone
    | @sinkRead r now hb =>
      have hd := inv.sinkDone
      rw [hb] at hd
      obtain ⟨h1, h2⟩ := processed_next inv.forwarder (by decide) hd
      refine ⟨log, arrived, a + 1, b,
        ⟨inv.http, inv.world, inv.emitted, inv.forwarder, .receive _ now inv.sink, processed_done hd h2, ?_, inv.ringDone, inv.ringGot, inv.sending, ?_, inv.calls⟩⟩
      · show s.sink.received ++ [_] = _
        rw [h1, inv.sinkGot]
      · intro call hc t ht d hd
        obtain ⟨x, hx, he⟩ := inv.sent call hc t ht d hd
        refine ⟨x, ?_, he⟩
        show x ∈ (s.sink.received ++ [_]).flatten
        rw [List.flatten_append]
        exact List.mem_append_left _ hx
    | @ringTake f r hb hf =>
      obtain ⟨h1, h2, _⟩ := receive_taken hf
      refine ⟨log, arrived, a, b,
        ⟨inv.http, inv.world, inv.emitted, .step inv.forwarder (.receive hf), inv.sink, ?_, inv.sinkGot, ?_, inv.ringGot, inv.sending, inv.sent, inv.calls⟩⟩
      · dsimp only; rw [h2 0 (by decide)]; exact inv.sinkDone
      · dsimp only
        rw [h1]
        have := inv.ringDone
        rw [hb] at this
        exact processed_take this
    | @ringRead r ring hb hp =>
      have hd := inv.ringDone
      rw [hb] at hd
      obtain ⟨h1, h2⟩ := processed_next inv.forwarder (by decide) hd
      refine ⟨log, arrived, a, b + 1,
        ⟨inv.http, inv.world, inv.emitted, inv.forwarder, inv.sink, inv.sinkDone, inv.sinkGot, processed_done hd h2, ?_, inv.sending, inv.sent, inv.calls⟩⟩
      rw [h1, readFrom_append, inv.ringGot]
      simp only [Option.bind_some, Ring.readFrom, hp]
  | @event outcomes s s' _ hs ih =>
    obtain ⟨log, arrived, a, b, inv⟩ := ih
    cases hs with
    | @tick i ho hv hc =>
      refine ⟨log, arrived, a, b,
        ⟨inv.http, .tick i inv.world hv hc, ?_, inv.forwarder, inv.sink, inv.sinkDone, inv.sinkGot, inv.ringDone, inv.ringGot, inv.sending, inv.sent, inv.calls⟩⟩
      show emittedOf (s.world.removed ++ (s.world.c.tick i).2) = _
      rw [emittedOf_append, inv.emitted, ho, List.append_nil]
    | @sinkTick since now hb =>
      exact ⟨log, arrived, a, b,
        ⟨inv.http, inv.world, inv.emitted, inv.forwarder, .tick since now inv.sink, inv.sinkDone, inv.sinkGot, inv.ringDone, inv.ringGot, inv.sending, inv.sent, inv.calls⟩⟩
    | @senderTake x kk hb ht =>
      refine ⟨log, arrived, a, b,
        ⟨inv.http, inv.world, inv.emitted, inv.forwarder, .take inv.sink ht, inv.sinkDone, inv.sinkGot, inv.ringDone, inv.ringGot, ?_, inv.sent, ?_⟩⟩
      rotate_left
      · have := inv.calls
        rw [hb] at this
        simpa using this
      intro y hy
      dsimp only at hy
      rw [Option.some.injEq] at hy; subst hy
      exact List.mem_append_right _ List.mem_cons_self
    | @senderSend x range hb hr =>
      refine ⟨log, arrived, a, b,
        ⟨inv.http, inv.world, inv.emitted, inv.forwarder, inv.sink, inv.sinkDone, inv.sinkGot, inv.ringDone, inv.ringGot, fun y hy => (by cases hy), ?_, ?_⟩⟩
      rotate_left
      · obtain ⟨chunks, cur, chunk, traces, part, hch, hsub, _, _, hperm⟩ := C59_sent inv.sink (inv.sending x hb) hr
        have := inv.calls
        rw [hb] at this
        dsimp only
        rw [hsub]
        simpa using this
      intro call hc t ht d hd
      rcases List.mem_append.mp hc with hc | hc
      · exact inv.sent call hc t ht d hd
      · obtain ⟨chunks, cur, chunk, traces, part, hch, hsub, _, _, hperm⟩ := C59_sent inv.sink (inv.sending x hb) hr
        rw [hsub] at hc
        simp at hc; subst hc
        have : d ∈ chunk.map toDatadog := hperm.mem_iff.mp (List.mem_flatten.mpr ⟨t, ht, hd⟩)
        obtain ⟨y, hy, rfl⟩ := List.mem_map.mp this
        refine ⟨y, ?_, rfl⟩
        rw [part.all]
        exact List.mem_append_left _ (List.mem_flatten.mpr ⟨chunk, hch, hy⟩)

/-- What is given to the targets stems from accepted spans. -/
theorem SystemInv.stems {log arrived a b} (inv : SystemInv conv k outcomes log arrived a b s) {t : List Span} (ht : t ∈ convertTraces conv k arrived) {x : Span} (hx : x ∈ t) :
    Stems conv outcomes x := by
  obtain ⟨h1, h2, m, hm, k', hk⟩ := convertTraces_mem ht hx
  refine ⟨h1, h2, k', m, hk, ?_⟩
  obtain ⟨out, ho, hm⟩ := List.mem_flatten.mp hm
  have hout : out ∈ emittedOf s.world.removed := by rw [inv.emitted]; exact List.mem_append_left _ ho
  unfold emittedOf at hout
  obtain ⟨r, hr, hf⟩ := List.mem_filterMap.mp hout
  have hfate : r.fate = .emitted out := by
    cases hfate : r.fate with
    | emitted o =>
      rw [hfate] at hf
      simp at hf; subst hf; rfl
    | _ => rw [hfate] at hf; cases hf
  rcases C46_provenance inv.world hr hfate hm with h | ⟨p, hp, h3, h4, h5⟩
  · exact .inl h
  · refine .inr ⟨p, ?_, h5, h3, h4⟩
    obtain ⟨hl, hall, hlt, hlog⟩ := C33_all_or_nothing inv.http
    have : p ∈ log.map (·.2) := by rw [hlog]; exact List.mem_append_left _ hp
    obtain ⟨e, he, rfl⟩ := List.mem_map.mp this
    have hi := hlt e he
    have hi' : e.1 < s.http.conns.length := by rw [hl]; exact hi
    have hp' : e.2 ∈ pushedBy e.1 log := List.mem_map.mpr ⟨e, List.mem_filter.mpr ⟨he, by simp⟩, rfl⟩
    have hao := hall e.1 _ _ (List.getElem?_eq_getElem hi) (List.getElem?_eq_getElem hi')
    have hmem : outcomes[e.1] ∈ outcomes := List.getElem_mem hi
    generalize pushedBy e.1 log = pushed at hp' hao
    generalize outcomes[e.1] = o at hao hmem
    generalize s.http.conns[e.1] = c at hao
    cases hao with
    | pushing => exact ⟨_, hmem, List.mem_append_left _ hp'⟩
    | accepted => exact ⟨_, hmem, hp'⟩
    | failing => cases hp'
    | rejected => cases hp'
    | panicked => cases hp'
    | waiting => cases hp'

end Verif
