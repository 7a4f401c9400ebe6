import Verif.Spec.Held
import Verif.Proofs.System
import Verif.Props.Collector
import Verif.Props.Oversize

/-!
# Every part of the proxy holds a bounded number of spans
-/

namespace Verif

variable {κ : Type} {conv : κ → Span → Option Span × κ} {k : κ} {outcomes : List Parsed} {s : System κ}

theorem addSpan_length {t : Tree} (h : t.Inv) (now : Time) (x : Span) :
    t.spans.length ≤ (t.addSpan now x).spans.length ∧ (t.addSpan now x).spans.length ≤ t.spans.length + 1 := by
  unfold Tree.addSpan
  dsimp only
  split
  · show _ ≤ (spansAppend t.spans x).length ∧ (spansAppend t.spans x).length ≤ _
    rw [(spansAppend_perm h.sorted x).length_eq, List.length_cons]
    omega
  · show _ ≤ (t.spans.modify _ _).length ∧ (t.spans.modify _ _).length ≤ _
    rw [List.length_modify]
    omega

theorem receive_tree {w : World} (h : WInv w) (now1 now2 : Time) (x : Span) {id : Id} {t : Tree} (ht : w.c.traces[id]? = some t) :
    ∃ t', (w.receive now1 now2 x).c.traces[id]? = some t' ∧ t.spans.length ≤ t'.spans.length := by
  show ∃ t', (w.c.receive now1 now2 x).traces[id]? = some t' ∧ _
  unfold Collector.receive
  split
  · exact ⟨t, ht, Nat.le_refl _⟩
  split
  · exact ⟨t, ht, Nat.le_refl _⟩
  by_cases e : x.trace = id
  · subst e
    refine ⟨_, by rw [get_insert, if_pos rfl], ?_⟩
    rw [ht]
    exact (addSpan_length (h.trees _ t ht).inv now2 x).1
  · exact ⟨t, by rw [get_insert, if_neg e]; exact ht, Nat.le_refl _⟩

theorem World.Fits.before_receive {w : World} (h : WInv w) {now1 now2 : Time} {x : Span} (hf : (w.receive now1 now2 x).Fits) : w.Fits := by
  refine ⟨fun id t ht => ?_, hf.removed⟩
  obtain ⟨t', h1, h2⟩ := receive_tree h now1 now2 x ht
  have := hf.pending id t' h1
  omega

theorem World.Fits.before_tick {w : World} {i : TickInput} (hv : i.Valid w.c) (hf : (w.tick i).Fits) : w.Fits := by
  refine ⟨fun id t ht => ?_, fun r hr => hf.removed r (List.mem_append_left _ hr)⟩
  have hm := (tick_partition w.c i hv).mem_iff.mp ((mem_range (isRange_refl _)).mpr ht)
  rcases List.mem_append.mp hm with hm | hm
  · obtain ⟨r, hr, he⟩ := List.mem_map.mp hm
    have e : r.tree = t := congrArg Prod.snd he
    rw [← e]
    exact hf.removed r (List.mem_append_right _ hr)
  · exact hf.pending id t ((mem_range (isRange_refl _)).mp hm)

theorem emitted_length {w : World} (hw : Reachable w) {r : Removal} (hr : r ∈ w.removed) {out : List Span} (ho : r.fate = .emitted out) :
    out.length ≤ r.tree.spans.length + 1 ∧ r.tree.spans ≠ [] ∧ r.tree.spans.length % 65536 ≤ 8192 := by
  have ok := (reachable_inv hw).gone r hr
  obtain ⟨hf, hl, _⟩ := (removed_spec hw r hr).2 out ho
  obtain ⟨fake, hlen, _, hperm, _⟩ := finished_spans ok hf
  have := hperm.length_eq
  simp only [List.length_map, List.length_append] at this
  refine ⟨by omega, fun he => ?_, Nat.le_of_not_lt hl⟩
  cases e : r.tree.members with
  | nil => exact ok.nonempty e
  | cons m l =>
    obtain ⟨x, hx, _⟩ := (ok.inv.ids m.id).mpr ⟨m, by rw [e]; exact List.mem_cons_self .., rfl⟩
    rw [he] at hx
    cases hx

theorem fitting_emitted {w : World} (hw : Reachable w) (hf : w.Fits) {t : List Span} (ht : t ∈ emittedOf w.removed) : t.length ≤ 8193 := by
  unfold emittedOf at ht
  obtain ⟨r, hr, he⟩ := List.mem_filterMap.mp ht
  cases e : r.fate with
  | emitted out =>
    rw [e] at he
    obtain ⟨h1, _, h2⟩ := emitted_length hw hr e
    have h3 := hf.removed r hr
    rw [Nat.mod_eq_of_lt h3] at h2
    cases he
    omega
  | _ => rw [e] at he; cases he

theorem weight_insert_snoc (b : ByTrace) (key : UInt64) (p : Nat) : ByTrace.weight (b.insert key ((b.getD key []) ++ [p])) = b.weight + 1 := by
  unfold ByTrace.weight
  rw [((toList_insert_perm b key _).map _).sum_nat]
  cases e : b[key]? with
  | none => 
    have : b.getD key [] = [] := by rw [Std.ExtTreeMap.getD_eq_getD_getElem?, e]; rfl
    rw [this, erase_of_none e]
    simp [Nat.add_comm]
  | some l =>
    have : b.getD key [] = l := by rw [Std.ExtTreeMap.getD_eq_getD_getElem?, e]; rfl
    rw [this, ((toList_erase_perm e).map _).sum_nat]
    simp
    omega

theorem addSpan_weight (x : Sink) (sp : Span) : (x.addSpan sp).byTrace.weight = x.byTrace.weight + 1 ∧ (x.addSpan sp).spanCount = x.spanCount ∧ (x.addSpan sp).grouped = x.grouped :=
  ⟨weight_insert_snoc _ _ _, rfl, rfl⟩

theorem addSpans_weight (l : List Span) (x : Sink) : (l.foldl Sink.addSpan x).byTrace.weight = x.byTrace.weight + l.length ∧
    (l.foldl Sink.addSpan x).spanCount = x.spanCount ∧ (l.foldl Sink.addSpan x).grouped = x.grouped := by
  induction l generalizing x with
  | nil => exact ⟨rfl, rfl, rfl⟩
  | cons sp l ih =>
    obtain ⟨h1, h2, h3⟩ := ih (x.addSpan sp)
    obtain ⟨e1, e2, e3⟩ := addSpan_weight x sp
    rw [List.foldl_cons, h1, h2, h3, e1, e2, e3, List.length_cons]
    exact ⟨by omega, rfl, rfl⟩

/-- The sink: its batch is counted and has fewer than 1000 spans; there are at most 8 batches in the channel. -/
structure SinkHeld (x : Sink) : Prop where
  count : x.byTrace.weight = x.spanCount
  small : x.spanCount < 1000
  few : x.grouped.length ≤ 8
  batches : ∀ b ∈ x.grouped, b.weight < 9193

theorem weight_empty : ByTrace.weight ∅ = 0 := by
  have : (∅ : ByTrace).toList = [] := rfl
  unfold ByTrace.weight
  rw [this]
  rfl

theorem flush_held {x : Sink} {flush : Bool} {now : Time} (count : x.byTrace.weight = x.spanCount) (small : flush = false → x.spanCount < 1000) (bound : x.spanCount < 9193)
    (few : x.grouped.length ≤ 8) (batches : ∀ b ∈ x.grouped, b.weight < 9193) : SinkHeld (x.flush flush now).1 := by
  unfold Sink.flush
  by_cases hc : flush = true ∧ x.spanCount > 0
  · rw [if_pos hc]
    dsimp only
    split
    · next hg =>
      refine ⟨weight_empty, (by decide : 0 < 1000), ?_, ?_⟩
      · show (x.grouped ++ [_]).length ≤ 8
        simp; omega
      · intro b hb
        rcases List.mem_append.mp hb with hb | hb
        · exact batches b hb
        · rw [List.mem_singleton.mp hb, count]; exact bound
    · exact ⟨weight_empty, (by decide : 0 < 1000), few, batches⟩
  · rw [if_neg hc]
    refine ⟨count, ?_, few, batches⟩
    cases flush with
    | false => exact small rfl
    | true =>
      have : ¬ x.spanCount > 0 := fun h => hc ⟨rfl, h⟩
      show x.spanCount < 1000
      omega

theorem SinkHeld.receive {x : Sink} (h : SinkHeld x) {trace : List Span} (hl : trace.length ≤ 8193) (now : Time) : SinkHeld (x.receive trace now).1 := by
  obtain ⟨h1, h2, h3⟩ := addSpans_weight trace x
  have := h.count
  have := h.small
  refine flush_held ?_ ?_ ?_ ?_ ?_
  · show (trace.foldl Sink.addSpan x).byTrace.weight = (trace.foldl Sink.addSpan x).spanCount + trace.length
    omega
  · intro hf
    exact Nat.lt_of_not_le (of_decide_eq_false hf)
  · show (trace.foldl Sink.addSpan x).spanCount + trace.length < 9193
    omega
  · show (trace.foldl Sink.addSpan x).grouped.length ≤ 8
    rw [h3]; exact h.few
  · show ∀ b ∈ (trace.foldl Sink.addSpan x).grouped, _
    rw [h3]; exact h.batches

theorem SinkHeld.tick {x : Sink} (h : SinkHeld x) (since now : Time) : SinkHeld (x.tick since now).1 :=
  flush_held h.count (fun _ => h.small) (by have := h.small; omega) h.few h.batches

theorem push_length {r r' : Ring} {l : List Span} (h : r.pushTrace l = some r') : r'.spans.length = r.spans.length := by
  induction l generalizing r with
  | nil => cases h; rfl
  | cons x l ih =>
    unfold Ring.pushTrace Ring.push at h
    split at h
    · rw [Option.bind_some] at h
      rw [ih h]; simp
    · cases h

theorem convertLoop_length (fuel idx n : Nat) (k : κ) (cells : List Span) : (convertLoop conv fuel idx n k cells).2.2.length = cells.length := by
  induction fuel generalizing idx n k cells with
  | zero => rfl
  | succ fuel ih =>
    unfold convertLoop
    dsimp only
    split
    · exact ih ..
    · split
      · exact ih ..
      · rw [ih]; simp

structure ForwarderHeld (f : Forwarder κ) : Prop where
  heap : ∀ c ∈ f.heap, c.length ≤ 8193
  source : f.source.length ≤ 64
  queues : ∃ q r, f.queues = [q, r] ∧ q.length ≤ 256 ∧ r.length ≤ 256

theorem ForwarderHeld.arrive {f : Forwarder κ} (h : ForwarderHeld f) {t : List Span} (ht : t.length ≤ 8193) (hl : f.source.length < 64) : ForwarderHeld (f.arrive t) := by
  refine ⟨fun c hc => ?_, ?_, h.queues⟩
  · rcases List.mem_append.mp hc with hc | hc
    · exact h.heap c hc
    · rw [List.mem_singleton.mp hc]; exact ht
  · show (f.source ++ [_]).length ≤ 64
    simp; omega

theorem getD_length {h : SpanHeap} {n : Nat} (hh : ∀ c ∈ h, c.length ≤ n) (i : Nat) : (h.getD i []).length ≤ n := by
  rw [List.getD_eq_getElem?_getD]
  cases e : h[i]? with
  | none => exact Nat.zero_le _
  | some c => exact hh c (List.mem_of_getElem? e)

theorem ForwarderHeld.own {f f' : Forwarder κ} (h : ForwarderHeld f) (ho : f.Own conv targetCaps f') : ForwarderHeld f' := by
  cases ho with
  | @take trace rest hs hn =>
    refine ⟨fun c hc => ?_, ?_, h.queues⟩
    · rcases List.mem_or_eq_of_mem_set hc with hc | hc
      · exact h.heap c hc
      · rw [hc]
        have := convertLoop_length (conv := conv) trace.len 0 0 f.conv (f.heap.getD trace.addr [])
        rw [this]
        exact getD_length h.heap _
    · have := h.source
      rw [hs] at this
      exact Nat.le_of_succ_le this
  | @send r i q hs hq hr =>
    obtain ⟨a, b, e, ha, hb⟩ := h.queues
    refine ⟨h.heap, h.source, ?_⟩
    rw [e] at hq
    show ∃ a b, f.queues.set i (q ++ [r]) = [a, b] ∧ _
    rw [e]
    match i, hq, hr with
    | 0, hq, hr =>
      cases hq
      exact ⟨_, b, rfl, by rw [List.length_append]; exact hr, hb⟩
    | 1, hq, hr =>
      cases hq
      exact ⟨a, _, rfl, ha, by rw [List.length_append]; exact hr⟩
    | n + 2, hq, _ => simp at hq
  | finish hs => exact ⟨h.heap, h.source, h.queues⟩

theorem ForwarderHeld.receive {f f' : Forwarder κ} (h : ForwarderHeld f) {i : Nat} {r : SliceRef} (ho : f.Receive i r f') : ForwarderHeld f' := by
  cases ho with
  | @mk q l hq hl =>
    obtain ⟨a, b, e, ha, hb⟩ := h.queues
    refine ⟨h.heap, h.source, ?_⟩
    rw [e] at hq
    show ∃ a b, f.queues.set i q = [a, b] ∧ _
    rw [e]
    match i, hq with
    | 0, hq =>
      cases hq
      exact ⟨_, b, rfl, Nat.le_of_succ_le ha, hb⟩
    | 1, hq =>
      cases hq
      exact ⟨a, _, rfl, ha, Nat.le_of_succ_le hb⟩
    | n + 2, hq => simp at hq

structure HeldInv (s : System κ) : Prop where
  forwarder : ForwarderHeld s.forwarder
  ring : s.ring.spans.length = 2048
  sink : SinkHeld s.sink.sink
  sending : ∀ b, s.sending = some b → b.weight < 9193

theorem slice_read_length {h : SpanHeap} {n : Nat} (hh : ∀ c ∈ h, c.length ≤ n) (r : SliceRef) : (h.read r).length ≤ n := by
  unfold SpanHeap.read
  rw [List.length_take]
  have := getD_length hh r.addr
  omega

theorem System.Reachable.held (h : System.Reachable conv k outcomes s) : s.world.Fits → HeldInv s := by
  induction h with
  | init now =>
    intro _
    refine ⟨⟨fun c hc => (by cases hc), Nat.zero_le _, [], [], rfl, Nat.zero_le _, Nat.zero_le _⟩, ?_, ⟨weight_empty, (by decide : 0 < 1000), Nat.zero_le _, fun b hb => (by cases hb)⟩, fun b hb => (by cases hb)⟩
    show (List.replicate 2048 _).length = 2048
    rw [List.length_replicate]
  | request o _ ih => intro hf; exact ⟨(ih hf).forwarder, (ih hf).ring, (ih hf).sink, (ih hf).sending⟩
  | @step outcomes s s' hr hs ih =>
    intro hf
    obtain ⟨log, arrived, a, b, inv⟩ := hr.inv
    cases hs with
    | http hs => exact ⟨(ih hf).forwarder, (ih hf).ring, (ih hf).sink, (ih hf).sending⟩
    | collect now1 now2 ho hc h1 h2 =>
      have i := ih (hf.before_receive (reachable_inv inv.world))
      exact ⟨i.forwarder, i.ring, i.sink, i.sending⟩
    | @emit t rest ho hl =>
      have i := ih hf
      refine ⟨i.forwarder.arrive ?_ hl, i.ring, i.sink, i.sending⟩
      refine fitting_emitted inv.world hf ?_
      rw [inv.emitted, ho]
      simp
    | forward ho => exact ⟨(ih hf).forwarder.own ho, (ih hf).ring, (ih hf).sink, (ih hf).sending⟩
    | sinkTake _ ho => exact ⟨(ih hf).forwarder.receive ho, (ih hf).ring, (ih hf).sink, (ih hf).sending⟩
    | sinkRead now _ => exact ⟨(ih hf).forwarder, (ih hf).ring, (ih hf).sink.receive (slice_read_length (ih hf).forwarder.heap _) now, (ih hf).sending⟩
    | ringTake _ ho => exact ⟨(ih hf).forwarder.receive ho, (ih hf).ring, (ih hf).sink, (ih hf).sending⟩
    | ringRead _ hp => exact ⟨(ih hf).forwarder, (push_length hp).trans (ih hf).ring, (ih hf).sink, (ih hf).sending⟩
  | @event outcomes s s' hr hs ih =>
    intro hf
    cases hs with
    | tick i ho hv hc =>
      have j := ih (hf.before_tick hv)
      exact ⟨j.forwarder, j.ring, j.sink, j.sending⟩
    | sinkTick since now _ => exact ⟨(ih hf).forwarder, (ih hf).ring, (ih hf).sink.tick since now, (ih hf).sending⟩
    | @senderTake b x _ ht =>
      have i := ih hf
      unfold Sink.takeBatch at ht
      split at ht
      · cases ht
      · next b' rest e =>
        cases ht
        have h1 := i.sink.few
        have h2 := i.sink.batches
        rw [e] at h1 h2
        refine ⟨i.forwarder, i.ring, ⟨i.sink.count, i.sink.small, Nat.le_of_succ_le h1, fun b hb => h2 b (List.mem_cons_of_mem _ hb)⟩, ?_⟩
        intro b hb
        cases hb
        exact h2 _ (List.mem_cons_self ..)
    | senderSend _ _ => exact ⟨(ih hf).forwarder, (ih hf).ring, (ih hf).sink, fun b hb => (by cases hb)⟩

theorem sum_le_mul {l : List Nat} {n : Nat} (h : ∀ x ∈ l, x ≤ n) : l.sum ≤ l.length * n := by
  induction l with
  | nil => simp
  | cons x l ih =>
    have h1 := h x (List.mem_cons_self ..)
    have h2 := ih fun y hy => h y (List.mem_cons_of_mem _ hy)
    rw [List.sum_cons, List.length_cons, Nat.succ_mul]
    omega

theorem cellsOf_le {h : SpanHeap} {n m : Nat} (hh : ∀ c ∈ h, c.length ≤ n) {l : List SliceRef} (hl : l.length ≤ m) : h.cellsOf l ≤ m * n := by
  refine Nat.le_trans (sum_le_mul (n := n) fun x hx => ?_) (by rw [List.length_map]; exact Nat.mul_le_mul_right n hl)
  obtain ⟨r, _, rfl⟩ := List.mem_map.mp hx
  exact getD_length hh _

theorem onTheWay_le (h : System.Reachable conv k outcomes s) (hf : s.world.Fits) : s.onTheWay ≤ 4829778 := by
  have i := h.held hf
  obtain ⟨log, arrived, a, b, inv⟩ := h.inv
  have h1 := inv.http.cap
  have hh := i.forwarder.heap
  have h2 := cellsOf_le hh i.forwarder.source
  have h3 := cellsOf_le hh (l := (s.forwarder.sending.map Prod.fst).toList) (m := 1) (by cases s.forwarder.sending <;> simp)
  have h4 : s.forwarder.heap.cellsOf s.forwarder.queues.flatten ≤ 512 * 8193 := by
    obtain ⟨q, r, e, hq, hr⟩ := i.forwarder.queues
    refine cellsOf_le hh ?_
    rw [e]; simp; omega
  have h5 := cellsOf_le hh (l := s.sinkBusy.toList) (m := 1) (by cases s.sinkBusy <;> simp)
  have h6 := cellsOf_le hh (l := s.ringBusy.toList) (m := 1) (by cases s.ringBusy <;> simp)
  have h7 := i.ring
  have h8 := i.sink.count
  have h9 := i.sink.small
  have h10 : (s.sink.sink.grouped.map ByTrace.weight).sum ≤ 8 * 9192 := by
    refine Nat.le_trans (sum_le_mul (n := 9192) fun x hx => ?_) (by rw [List.length_map]; exact Nat.mul_le_mul_right _ i.sink.few)
    obtain ⟨b, hb, rfl⟩ := List.mem_map.mp hx
    exact Nat.le_of_lt_succ (i.sink.batches b hb)
  have h11 : (s.sending.toList.map ByTrace.weight).sum ≤ 9192 := by
    cases e : s.sending with
    | none => simp
    | some b =>
      simp
      exact Nat.le_of_lt_succ (i.sending b e)
  unfold System.onTheWay
  omega

/-- The number of spans in the trees. -/
def treeSpans (c : Collector) : Nat := (c.traces.toList.map fun e => e.2.spans.length).sum

theorem receive_treeSpans {w : World} (h : WInv w) (now1 now2 : Time) (x : Span) : treeSpans (w.c.receive now1 now2 x) ≤ treeSpans w.c + 1 := by
  unfold Collector.receive
  split
  · exact Nat.le_succ _
  split
  · exact Nat.le_succ _
  unfold treeSpans
  rw [((toList_insert_perm w.c.traces x.trace _).map _).sum_nat]
  cases e : w.c.traces[x.trace]? with
  | none =>
    have := (addSpan_length (newTree_inv now1 x.trace) now2 x).2
    rw [erase_of_none e, List.map_cons, List.sum_cons]
    simp only [Option.getD_none]
    have h0 : (newTree now1 x.trace).spans.length = 0 := rfl
    omega
  | some t =>
    have := (addSpan_length (h.trees _ t e).inv now2 x).2
    rw [((toList_erase_perm e).map _).sum_nat, List.map_cons, List.sum_cons, List.map_cons, List.sum_cons]
    simp only [Option.getD_some]
    omega

theorem emittedOf_sum (l : List Removal) (h : ∀ r ∈ l, ∀ out, r.fate = .emitted out → out.length ≤ 2 * r.tree.spans.length) :
    ((emittedOf l).map List.length).sum ≤ 2 * (l.map fun r => r.tree.spans.length).sum := by
  induction l with
  | nil => exact Nat.le_refl _
  | cons r l ih =>
    have h1 := ih fun r' hr => h r' (List.mem_cons_of_mem _ hr)
    have h2 := h r (List.mem_cons_self ..)
    unfold emittedOf at h1 ⊢
    rw [List.filterMap_cons, List.map_cons, List.sum_cons]
    cases e : r.fate with
    | emitted out =>
      have := h2 out e
      simp only [List.map_cons, List.sum_cons]
      omega
    | _ => simp only; omega

theorem tick_leaving {w : World} (hw : Reachable w) {i : TickInput} (hv : i.Valid w.c) (hc : w.clock ≤ i.now1) :
    ((emittedOf (w.c.tick i).2).map List.length).sum ≤ 2 * treeSpans w.c := by
  have h1 := emittedOf_sum (w.c.tick i).2 fun r hr out ho => by
    have hr' : r ∈ (w.tick i).removed := List.mem_append_right _ hr
    obtain ⟨h1, h2, _⟩ := emitted_length (Reachable.tick i hw hv hc) hr' ho
    have := List.length_pos_iff.mpr h2
    omega
  have h2 := ((tick_partition w.c i hv).map fun e => e.2.spans.length).sum_nat
  rw [List.map_append, List.sum_append, List.map_map] at h2
  have h3 : treeSpans w.c = (w.c.traces.toList.map fun e => e.2.spans.length).sum := rfl
  have h4 : ((w.c.tick i).2.map ((fun e : Id × Tree => e.2.spans.length) ∘ fun r => (r.id, r.tree))) = (w.c.tick i).2.map fun r => r.tree.spans.length := rfl
  rw [h4] at h2
  omega

theorem System.Marks.reachable {a b : Nat} (h : System.Marks conv k a b s) : ∃ outcomes, System.Reachable conv k outcomes s := by
  induction h with
  | init now => exact ⟨_, .init now⟩
  | request o _ ih => obtain ⟨l, ih⟩ := ih; exact ⟨_, .request o ih⟩
  | step _ hs ih => obtain ⟨l, ih⟩ := ih; exact ⟨_, .step ih hs⟩
  | event _ hs _ ih => obtain ⟨l, ih⟩ := ih; exact ⟨_, .event ih hs⟩
  | tick i _ ho hv hc ih => obtain ⟨l, ih⟩ := ih; exact ⟨_, .event ih (.tick i ho hv hc)⟩

theorem System.Reachable.marks (h : System.Reachable conv k outcomes s) : ∃ a b, System.Marks conv k a b s := by
  induction h with
  | init now => exact ⟨_, _, .init now⟩
  | request o _ ih => obtain ⟨a, b, ih⟩ := ih; exact ⟨_, _, .request o ih⟩
  | step _ hs ih => obtain ⟨a, b, ih⟩ := ih; exact ⟨_, _, .step ih hs⟩
  | event _ hs ih =>
    obtain ⟨a, b, ih⟩ := ih
    cases hs with
    | tick i ho hv hc => exact ⟨_, _, .tick i ih ho hv hc⟩
    | sinkTick since now h => exact ⟨_, _, .event ih (.sinkTick since now h) rfl⟩
    | senderTake h1 h2 => exact ⟨_, _, .event ih (.senderTake h1 h2) rfl⟩
    | senderSend h1 h2 => exact ⟨_, _, .event ih (.senderSend h1 h2) rfl⟩

/-- What is in the collector, and what leaves it. -/
theorem System.Marks.held {a b : Nat} (h : System.Marks conv k a b s) : s.world.Fits →
    a ≤ b ∧ b ≤ s.world.received.length ∧ s.collected ≤ 100000 + (s.world.received.length - b) ∧ s.leaving ≤ 2 * (100000 + (b - a)) := by
  induction h with
  | init now => intro _; exact ⟨Nat.le_refl _, Nat.zero_le _, Nat.zero_le _, Nat.zero_le _⟩
  | request o _ ih => exact ih
  | @step a b s s' hm hs ih =>
    intro hf
    obtain ⟨outcomes, hr⟩ := hm.reachable
    obtain ⟨log, arrived, _, _, inv⟩ := hr.inv
    cases hs with
    | @collect x rest now1 now2 ho hc h1 h2 =>
      have hw := reachable_inv inv.world
      obtain ⟨i1, i2, i3, i4⟩ := ih (hf.before_receive hw)
      have h3 := receive_treeSpans hw now1 now2 x
      have h4 : (s.world.receive now1 now2 x).received.length = s.world.received.length + 1 := by
        show (s.world.received ++ [x]).length = _
        simp
      refine ⟨i1, ?_, ?_, i4⟩
      · show b ≤ (s.world.receive now1 now2 x).received.length
        omega
      · show treeSpans (s.world.c.receive now1 now2 x) ≤ 100000 + ((s.world.receive now1 now2 x).received.length - b)
        have : s.collected = treeSpans s.world.c := rfl
        omega
    | @emit t rest ho hl =>
      obtain ⟨i1, i2, i3, i4⟩ := ih hf
      refine ⟨i1, i2, i3, ?_⟩
      refine Nat.le_trans ?_ i4
      show (rest.map List.length).sum ≤ (s.outbox.map List.length).sum
      rw [ho, List.map_cons, List.sum_cons]
      omega
    | _ => exact ih hf
  | @event a b s s' hm hs hw ih =>
    intro hf
    cases hs with
    | tick i ho hv hc =>
      -- a tick that changes nothing in the collector
      have hw' : s.world.tick i = s.world := hw
      rw [show ({ s with world := s.world.tick i, outbox := emittedOf (s.world.c.tick i).2 } : System _).world = s.world from hw] at hf
      obtain ⟨i1, i2, i3, i4⟩ := ih hf
      have hrem : (s.world.c.tick i).2 = [] := by
        have := congrArg World.removed hw'
        have h2 : s.world.removed ++ (s.world.c.tick i).2 = s.world.removed := this
        exact List.append_right_eq_self.mp h2
      refine ⟨i1, i2, ?_, ?_⟩
      · show treeSpans (s.world.tick i).c ≤ 100000 + (s.world.received.length - b)
        rw [hw']; exact i3
      · show ((emittedOf (s.world.c.tick i).2).map List.length).sum ≤ _
        rw [hrem]
        exact Nat.zero_le _
    | _ => exact ih hf
  | @tick a b s i hm ho hv hc ih =>
    intro hf
    obtain ⟨outcomes, hr⟩ := hm.reachable
    obtain ⟨log, arrived, _, _, inv⟩ := hr.inv
    have hb : s.world.Fits := World.Fits.before_tick hv hf
    obtain ⟨i1, i2, i3, i4⟩ := ih hb
    refine ⟨i2, Nat.le_refl _, ?_, ?_⟩
    · exact Nat.le_trans (C48_pending_bounded_partial inv.world hv hb.pending) (Nat.le_add_right _ _)
    · have h1 := tick_leaving inv.world hv hc
      have h2 : s.collected = treeSpans s.world.c := rfl
      show ((emittedOf (s.world.c.tick i).2).map List.length).sum ≤ 2 * (100000 + (s.world.received.length - b))
      omega

end Verif
