import Verif.Proofs.Account
import Verif.Props.Together

/-!
# C92: what became of every span
-/

namespace Verif

open Spec

variable {κ : Type} {conv : κ → Span → Option Span × κ} {k : κ} {outcomes : List Parsed} {s : System κ}

/-- C92: under every schedule, the calls of `SendTraces` have exactly the spans of the first batches that were not discarded, each span once; the other batches wait. -/
theorem C92_account (h : System.Reachable conv k outcomes s) : ∃ chunks current, Account s chunks current ∧
    s.sent.flatten.flatten.Perm ((((keptChunks chunks s.sink.log).take s.sent.length).flatten).map toDatadog) := by
  obtain ⟨chunks, cur, b⟩ := h.books
  refine ⟨chunks, cur, b.account, ?_⟩
  have key : ∀ (calls : List (List (List DDSpan))) (cs : List (List Span)), (∀ (i : Nat) call, calls[i]? = some call → ∃ c, cs[i]? = some c ∧ Call c call) →
      calls.flatten.flatten.Perm ((cs.take calls.length).flatten.map toDatadog) := by
    intro calls
    induction calls with
    | nil => intro cs _; simp
    | cons call calls ih =>
      intro cs hc
      obtain ⟨c, h1, h2⟩ := hc 0 call rfl
      cases cs with
      | nil => cases h1
      | cons c' cs =>
        simp at h1
        subst h1
        have := ih cs (fun i call hi => by simpa using hc (i + 1) call (by simpa using hi))
        simp only [List.flatten_cons, List.flatten_append, List.length_cons, List.take_succ_cons, List.map_append]
        exact h2.all.append this
  exact key _ _ b.calls

/-- In a finished trace there is a span for every member. -/
theorem leavesAs (h : Reachable s.world) {r : Removal} (hr : r ∈ s.world.removed) {out : List Span} (ho : r.fate = .emitted out) {p : Span} (hp : p ∈ r.tree.members) :
    ∃ m ∈ out, LeavesAs s p m := by
  have hinv := reachable_inv h
  have ok := hinv.gone r hr
  obtain ⟨hf, _⟩ := (removed_spec h r hr).2 out ho
  obtain ⟨fake, _, _, hperm, _⟩ := finished_spans ok hf
  obtain ⟨y, hy⟩ := Option.isSome_iff_exists.mp ((held_isSome p.id r.tree.members).mpr ⟨p, hp, rfl⟩)
  obtain ⟨q, hq, rfl⟩ := List.mem_map.mp ((mem_spans_iff ok y).mpr ⟨_, hy⟩)
  have hmem : untimed q ∈ out.map untimed := hperm.mem_iff.mpr (List.mem_map_of_mem (List.mem_append_right _ hq))
  obtain ⟨m, hm, he⟩ := List.mem_map.mp hmem
  have hu := untimed_eq he
  have ho1 : q.withTags.id = p.id := (held_origin hy).1
  have htr := (ok.members p hp).1
  refine ⟨m, hm, hu.1.trans ho1, hu.2.1.trans ((ok.traced hq).1.trans htr.symm), r, hr, htr.symm, hp, out, _, ho, hm, hy, ?_⟩
  rw [he]; rfl

/-- C92: when nothing is on its way to the collector or the sink, every span with ids of every accepted request met one of the fates listed; there is no other way to get lost. -/
theorem C92_fate (h : System.Reachable conv k outcomes s) (hp : ¬ s.Pending) {p : Span} (ha : Accepted outcomes p) (ht : Traced p) : SpanFate conv k s p := by
  obtain ⟨hsink, _, log, hlog, hpush⟩ := C61_complete h hp
  obtain ⟨_, _, _, _, inv⟩ := h.inv
  obtain ⟨l, hl, hpl⟩ := ha
  obtain ⟨i, hi⟩ := List.mem_iff_getElem?.mp hl
  have hrec : p ∈ s.world.received := by
    rw [hlog]
    rw [← hpush i l hi] at hpl
    obtain ⟨e, he, rfl⟩ := List.mem_map.mp hpl
    exact List.mem_map.mpr ⟨e, (List.mem_filter.mp he).1, rfl⟩
  have hw := inv.world
  have hinv := reachable_inv hw
  obtain ⟨hcons, _, hfates⟩ := C46_conservation hw
  have hmem := hcons.mem_iff.mp (List.mem_filter.mpr ⟨hrec, by simpa using ht⟩)
  rcases List.mem_append.mp hmem with hmem | hmem
  · rcases List.mem_append.mp hmem with hmem | hmem
    · obtain ⟨e, he, hpm⟩ := List.mem_flatMap.mp hmem
      have hget := Std.ExtTreeMap.mem_toList_iff_getElem?_eq_some.mp he
      have := ((hinv.trees _ _ hget).members p hpm).1
      exact .pending (t := e.2) (this ▸ hget) hpm
    · obtain ⟨r, hr, hpm⟩ := List.mem_flatMap.mp hmem
      have hid := ((hinv.gone r hr).members p hpm).1
      rcases (hfates r hr).2 with hf | hf | hf | hf | ⟨out, hf⟩
      · exact .lost hr hid.symm hpm (.inl hf)
      · exact .lost hr hid.symm hpm (.inr (.inl hf))
      · exact .lost hr hid.symm hpm (.inr (.inr (.inl hf)))
      · exact .lost hr hid.symm hpm (.inr (.inr (.inr hf)))
      · obtain ⟨m, hm, hleave⟩ := leavesAs hw hr hf hpm
        have hout : out ∈ emittedOf s.world.removed := List.mem_filterMap.mpr ⟨r, hr, by rw [hf]⟩
        obtain ⟨before, after, hsplit⟩ := List.append_of_mem (List.mem_flatten.mpr ⟨out, hout, hm⟩)
        have hmeet : MeetsConverter conv k s m (convertAll conv k before).2 := ⟨before, after, hsplit, rfl⟩
        have hgot : s.sink.received.flatten = (convertAll conv k before).1 ++
            (((conv (convertAll conv k before).2 m).1.toList.filter fun c => c.id ≠ 0 ∧ c.trace ≠ 0) ++ (convertAll conv (conv (convertAll conv k before).2 m).2 after).1) := by
          rw [hsink, convertTraces_flatten, hsplit, convertAll_append]
          rfl
        cases hc : (conv (convertAll conv k before).2 m).1 with
        | none => exact .filtered hleave hmeet (fun x hx => by rw [hc] at hx; cases hx)
        | some x =>
          by_cases hx : x.id ≠ 0 ∧ x.trace ≠ 0
          · refine .converted hleave hmeet hc hx.1 hx.2 (sinkFate h ?_)
            rw [hgot, hc]
            simp [hx.1, hx.2]
          · refine .filtered hleave hmeet (fun x' hx' => ?_)
            rw [hc, Option.some.injEq] at hx'
            subst hx'
            by_cases h0 : x.id = 0
            · exact .inl h0
            · exact .inr (Classical.not_not.mp fun h1 => hx ⟨h0, h1⟩)
  · exact .refused hmem

/-- C92: a trace is sent as a whole: if everything was sent, all its spans are in one call, and if they have the same trace id, next to each other in one list. -/
theorem C92_whole (h : System.Reachable conv k outcomes s) (hs : s.Flushed) {trace : List Span} (ht : trace ∈ s.sink.received) (hne : trace ≠ []) :
    ∃ call ∈ s.sent, (∀ x ∈ trace, ∃ t ∈ call, toDatadog x ∈ t) ∧ ∀ id : Id, (∀ x ∈ trace, x.trace = id) → ∃ t ∈ call, trace.map toDatadog <:+: t := by
  obtain ⟨h0, h1, h2, h3⟩ := hs
  obtain ⟨chunks, cur, b⟩ := h.books
  have hcur : cur = [] := by
    have := b.inv.count
    rw [h0] at this
    exact List.eq_nil_of_length_eq_zero this.symm
  obtain ⟨groups, rest, e1, e2, e3⟩ := b.inv.part.whole
  have hg : ∃ g ∈ groups, trace ∈ g := by
    rw [e1] at ht
    rcases List.mem_append.mp ht with ht | ht
    · exact List.mem_flatten.mp ht
    · rw [hcur] at e3
      obtain ⟨x, l, rfl⟩ := List.exists_cons_of_ne_nil hne
      have : x ∈ rest.flatten := List.mem_flatten.mpr ⟨_, ht, List.mem_cons_self⟩
      rw [← e3] at this
      cases this
  obtain ⟨g, hg, htg⟩ := hg
  have hc : g.flatten ∈ chunks := by rw [e2]; exact List.mem_map_of_mem hg
  obtain ⟨before, after, hsplit⟩ := List.append_of_mem htg
  have hsplit' : g.flatten = before.flatten ++ trace ++ after.flatten := by rw [hsplit]; simp
  have hkept : g.flatten ∈ keptChunks chunks s.sink.log := by
    rcases mem_chunks b.inv.part.count hc with hk | ⟨i, bt, _, hl⟩
    · exact hk
    · cases h3 _ (List.mem_of_getElem? hl)
  obtain ⟨i, hi⟩ := List.mem_iff_getElem?.mp hkept
  have hlt : i < s.sent.length := by
    have := b.account.waiting
    rw [h1, h2] at this
    simp only [Option.toList_none, List.length_nil, Nat.add_zero] at this
    rw [← this]
    exact (List.getElem?_eq_some_iff.mp hi).1
  obtain ⟨c, hc1, hcall⟩ := b.calls i _ (List.getElem?_eq_getElem hlt)
  rw [hi, Option.some.injEq] at hc1
  subst hc1
  refine ⟨_, List.getElem_mem hlt, fun x hx => ?_, fun id hid => ?_⟩
  · have hx' : x ∈ g.flatten := by rw [hsplit']; simp [hx]
    exact List.mem_flatten.mp (hcall.all.mem_iff.mpr (List.mem_map_of_mem hx'))
  · obtain ⟨x, l, rfl⟩ := List.exists_cons_of_ne_nil hne
    have hx' : x ∈ g.flatten := by rw [hsplit']; simp
    obtain ⟨t, ht1, ht2⟩ := List.mem_flatten.mp (hcall.all.mem_iff.mpr (List.mem_map_of_mem hx'))
    obtain ⟨key, _, rfl⟩ := hcall.groups t ht1
    obtain ⟨y, hy, hxy⟩ := List.mem_map.mp ht2
    have hkey : id.toUInt64 = key := by
      rw [← of_decide_eq_true (List.mem_filter.mp hy).2, (C58_lossless hxy).2.1, hid x List.mem_cons_self]
    refine ⟨_, ht1, ?_⟩
    have hself : (x :: l).filter (fun s => decide (s.trace.toUInt64 = key)) = x :: l := List.filter_eq_self.mpr fun y hy => by simp [hid y hy, hkey]
    rw [hsplit']
    unfold ofTrace
    rw [List.filter_append, List.filter_append, hself, List.map_append, List.map_append]
    exact ⟨_, _, rfl⟩

theorem convertTraces_mem_of {l : List (List Span)} {out : List Span} (h : out ∈ l) (k : κ) : ∃ before after, l = before ++ out :: after ∧
    (convertAll conv (convertAll conv k before.flatten).2 out).1 ∈ convertTraces conv k l := by
  induction l generalizing k with
  | nil => cases h
  | cons t l ih =>
    rcases List.mem_cons.mp h with rfl | h
    · exact ⟨[], l, rfl, List.mem_cons_self⟩
    · obtain ⟨before, after, h1, h2⟩ := ih h (convertAll conv k t).2
      refine ⟨t :: before, after, by rw [h1]; rfl, ?_⟩
      rw [List.flatten_cons, convertAll_append]
      exact List.mem_cons_of_mem _ h2

/-- C92: from the request to Datadog: if the spans of a new trace arrive quickly, and it has a root, and the collector is not overloaded, and everything was sent, then one call of `SendTraces` has
all the spans that the converter makes of the finished trace. -/
theorem C92_delivered (h : System.Reachable conv k outcomes s) (hp : ¬ s.Pending) (hs : s.Flushed)
    {w w' : World} {es fs : List CEvent} (hw : Reachable w) {id : Id} (hfresh : receivedFor id w.received = []) (hrun : Runs w es w')
    (hq : Quick id es) (hc : Calm w es) (hids : FewIds (spansOf id es)) {a b : Time} (htimes : timesOf id es = some (a, b))
    {i : TickInput} (hrun' : Runs w' (fs ++ [.tick i]) s.world) (hno : spansOf id fs = []) (hc' : Calm w' (fs ++ [.tick i]))
    (hlate : b + 8000000000 ≤ i.now1) (hby : TicksBy (a + 10000000000) (fs ++ [.tick i])) :
    ∃ t, w'.c.traces[id]? = some t ∧ t.members = receivedFor id s.world.received ∧
      (Rooted id t.spans → ∃ out before after, Finished id t.spans out ∧ emittedOf s.world.removed = before ++ out :: after ∧
        ((convertAll conv (convertAll conv k before.flatten).2 out).1 ≠ [] → ∃ call ∈ s.sent,
          (∀ x ∈ (convertAll conv (convertAll conv k before.flatten).2 out).1, ∃ l ∈ call, ∃ d ∈ l, Reported x d) ∧
          ∀ id', (∀ x ∈ (convertAll conv (convertAll conv k before.flatten).2 out).1, x.trace = id') →
            ∃ l ∈ call, (convertAll conv (convertAll conv k before.flatten).2 out).1.map toDatadog <:+: l)) := by
  obtain ⟨t, h1, h2, h3⟩ := C86_delivered hw hfresh hrun hq hc hids htimes hrun' hno hc' hlate hby
  refine ⟨t, h1, h2, fun hr => ?_⟩
  obtain ⟨out, _, h4, h5⟩ := h3 hr
  obtain ⟨before, after, h6, h7⟩ := convertTraces_mem_of (conv := conv) h4 k
  refine ⟨out, before, after, h5, h6, fun hne => ?_⟩
  rw [← (C61_complete h hp).1] at h7
  obtain ⟨call, hc1, hc2, hc3⟩ := C92_whole h hs h7 hne
  refine ⟨call, hc1, fun x hx => ?_, hc3⟩
  obtain ⟨l, hl, hx⟩ := hc2 x hx
  exact ⟨l, hl, _, hx, toDatadog_reported x⟩

/-- Every history of the collector occurs in a run in which everything was sent, and each span came with a request of its own. -/
theorem adequate_exact (conv : κ → Span → Option Span × κ) (k : κ) {w : World} (hw : Reachable w) :
    ∃ s, System.Reachable conv k (w.received.map fun x => .spans [x]) s ∧ ¬ s.Pending ∧ s.Flushed ∧ s.world = w := by
  obtain ⟨s, hr, hp, rfl, h1, h2, h3⟩ := adequate_clear conv k hw
  by_cases hc : s.sink.sink.spanCount = 0
  · exact ⟨s, hr, hp, ⟨hc, h2, h1, h3⟩, rfl⟩
  · have hbusy := (not_pending hp).2.2.2
    have r1 := System.Reachable.event hr (.sinkTick ((s.sink.times.getLast?.getD 0) + 1800000000) 0 hbusy)
    obtain ⟨_, _, _, _, inv⟩ := hr.inv
    obtain ⟨_, _, ok, hl⟩ := (C60_tick inv.sink ((s.sink.times.getLast?.getD 0) + 1800000000) 0).1 (by
      intro t ht
      rw [ht]
      show (1800000000 : Int) ≤ (t : Int) + 1800000000 - t
      omega) (Nat.pos_of_ne_zero hc)
    rcases flush_clear h2 (s.sink.sink.due ((s.sink.times.getLast?.getD 0) + 1800000000)) 0 with ⟨e1, _⟩ | ⟨b, e1, e2, e3⟩
    · exfalso
      have : (s.sink.tick ((s.sink.times.getLast?.getD 0) + 1800000000) 0).log = s.sink.log := by
        show s.sink.log ++ Option.toList _ = _
        rw [show (s.sink.sink.tick ((s.sink.times.getLast?.getD 0) + 1800000000) 0).2 = none from e1]
        simp
      rw [this] at hl
      have := congrArg List.length hl
      simp at this
    · obtain ⟨s2, g1, g2, g3, g4, g5, g6, g7, g8, g9, g10⟩ := send_one r1 h1 e2
      refine ⟨s2, g1, ?_, ⟨?_, by rw [g3], g2, ?_⟩, g6⟩
      · unfold System.Pending at hp ⊢
        rw [g5, g7, g8, g9, g10]
        exact hp
      · rw [g3]; exact e3
      · intro e he
        rw [g4] at he
        have hl : (s.sink.tick ((s.sink.times.getLast?.getD 0) + 1800000000) 0).log = s.sink.log ++ [(true, b)] := by
          show s.sink.log ++ Option.toList _ = _
          rw [show (s.sink.sink.tick ((s.sink.times.getLast?.getD 0) + 1800000000) 0).2 = some (true, b) from e1]
          rfl
        rcases List.mem_append.mp (hl ▸ he) with he | he
        · exact h3 e he
        · rw [List.mem_singleton.mp he]

/-- C92: every history of the collector occurs in a run in which everything was sent. -/
theorem C92_adequate (conv : κ → Span → Option Span × κ) (k : κ) {w : World} (hw : Reachable w) :
    ∃ outcomes s, System.Reachable conv k outcomes s ∧ ¬ s.Pending ∧ s.Flushed ∧ s.world = w := by
  obtain ⟨s, h⟩ := adequate_exact conv k hw
  exact ⟨_, s, h⟩

/-- Two spans get to Datadog, in one list. -/
theorem C92_witness : ∃ outcomes, ∃ s : System Unit, System.Reachable (fun _ x => (some x, ())) () outcomes s ∧ ¬ s.Pending ∧ s.Flushed ∧
    receivedFor 5 s.world.received = [exA, exB] ∧ ∃ call ∈ s.sent, ∃ l ∈ call, ∃ d ∈ l, ∃ e ∈ l, d.spanID = 5 ∧ e.spanID = 7 ∧ e.parentID = 5 := by
  obtain ⟨v, t, out, hv, hrem, hmem, hout, hrec⟩ := quick_delivered
  obtain ⟨outcomes, s, hr, hp, hf, rfl⟩ := C92_adequate (fun (_ : Unit) x => (some x, ())) () hv
  have hm : (⟨5, t, .emitted out⟩ : Removal) ∈ s.world.removed := (List.mem_filter.mp (by rw [hrem]; exact List.mem_singleton.mpr rfl)).1
  obtain ⟨a, ha, ha1, ha2, _⟩ := leavesAs hv hm rfl (p := exA) (by rw [hmem]; simp)
  obtain ⟨b, hb, hb1, hb2, r, hr0, hrid, hbm, out', y, hfate, hbo, hy, hu⟩ := leavesAs hv hm rfl (p := exB) (by rw [hmem]; simp)
  have hpar : b.parent = 5 := by
    have hr1 : r ∈ s.world.removed.filter (fun r => r.id == 5) := List.mem_filter.mpr ⟨hr0, by rw [hrid]; rfl⟩
    rw [hrem, List.mem_singleton] at hr1
    rw [hr1] at hy
    have hy : held 7 t.members = some y := hy
    rw [hmem] at hy
    have e5 : (held 7 [exA, exB]).map Span.parent = some 5 := by decide +kernel
    rw [hy] at e5
    exact (congrArg Span.parent hu).trans (Option.some.inj e5)
  obtain ⟨before, after, _, h7⟩ := convertTraces_mem_of (conv := fun (_ : Unit) x => (some x, ())) hout ()
  rw [← (C61_complete hr hp).1] at h7
  have hconv : ∀ l, (convertAll (fun (_ : Unit) x => (some x, ())) () l).1 = l.filter fun c => c.id ≠ 0 ∧ c.trace ≠ 0 := by
    intro l
    induction l with
    | nil => rfl
    | cons x l ih => simp only [convertAll, ih]; rw [← List.filter_append]; rfl
  have h7 : out.filter (fun c => c.id ≠ 0 ∧ c.trace ≠ 0) ∈ s.sink.received := by rw [← hconv]; exact h7
  have ha' : a ∈ out.filter (fun c => c.id ≠ 0 ∧ c.trace ≠ 0) := List.mem_filter.mpr ⟨ha, by rw [ha1, ha2]; decide⟩
  have hb' : b ∈ out.filter (fun c => c.id ≠ 0 ∧ c.trace ≠ 0) := List.mem_filter.mpr ⟨hb, by rw [hb1, hb2]; decide⟩
  obtain ⟨call, hc1, _, hc3⟩ := C92_whole hr hf h7 (by intro e; rw [e] at ha'; cases ha')
  obtain ⟨_, _, htr, _⟩ := C45_emitted_traces hv hm rfl
  obtain ⟨l, hl, hin⟩ := hc3 5 (fun x hx => htr x (List.mem_filter.mp hx).1)
  refine ⟨outcomes, s, hr, hp, hf, hrec, call, hc1, l, hl, _, hin.subset (List.mem_map_of_mem ha'), _, hin.subset (List.mem_map_of_mem hb'), ?_, ?_, ?_⟩
  · show a.id.toUInt64 = 5
    rw [ha1]; rfl
  · show b.id.toUInt64 = 7
    rw [hb1]; rfl
  · show b.parent.toUInt64 = 5
    rw [hpar]; rfl

end Verif
