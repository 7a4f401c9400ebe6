import Verif.Props.TimelyLoad

/-!
# An even load, and batches that are discarded: C150
-/

namespace Verif

open Spec

local macro "tomega" : tactic => `(tactic| (dsimp only [Time] at *; omega))

/-! ## The sink makes a batch for every 1000 spans, if the traces are small -/

theorem singles_batches {w : SinkRun} (h : SinkRun.Reachable w) (hs : ∀ t ∈ w.received, t.length ≤ 1) : w.received.flatten.length ≤ 1000 * w.log.length + w.sink.spanCount := by
  induction h with
  | init => exact Nat.le_refl _
  | @receive w trace now hw ih =>
    obtain ⟨chunks, cur, hp, hlt, hc, _⟩ := C60_bounded hw
    have ih := ih fun t ht => hs t (List.mem_append_left _ ht)
    have h1 : trace.length ≤ 1 := hs trace (List.mem_append_right _ List.mem_cons_self)
    obtain ⟨h2, h3⟩ := C60_full hw hp trace now
    have e : (w.receive trace now).received.flatten.length = w.received.flatten.length + trace.length := by
      show (w.received ++ [trace]).flatten.length = _
      rw [List.flatten_append, List.length_append]; simp
    rw [e]
    by_cases hb : 1000 ≤ w.sink.spanCount + trace.length
    · obtain ⟨a, b⟩ := h2 hb
      rw [a, b]; omega
    · obtain ⟨a, b⟩ := h3 (by omega)
      rw [a, b]; omega
  | @tick w since now hw ih =>
    obtain ⟨chunks, cur, hp, hlt, hc, _⟩ := C60_bounded hw
    have ih := ih hs
    obtain ⟨h1, h2⟩ := C60_tick hw since now
    by_cases hz : w.sink.spanCount = 0
    · rw [h2 (.inr hz)]; exact ih
    · by_cases hd : ∀ t, w.times.getLast? = some t → since - t ≥ 1800000000
      · obtain ⟨a, _, ok, b⟩ := h1 hd (by omega)
        rw [a, b, List.length_append]
        show w.received.flatten.length ≤ _
        simp only [List.length_singleton]
        omega
      · rw [h2 (.inl (Classical.byContradiction fun hn => hd fun t ht => Int.not_lt.mp fun hlt => hn ⟨t, ht, hlt⟩))]
        exact ih
  | @take w b k hw hk ih =>
    have ih := ih hs
    have : k.spanCount = w.sink.spanCount := by
      unfold Sink.takeBatch at hk
      split at hk
      · cases hk
      · cases hk; rfl
    show w.received.flatten.length ≤ 1000 * w.log.length + k.spanCount
    rw [this]; exact ih

/-! ## Traces of one span each -/

/-- A trace of one span. -/
def lone (i : Nat) : Span := { id := Int64.ofNat (i + 1), parent := Int64.ofNat (i + 1), trace := Int64.ofNat (i + 1), name := b!"single" }

theorem single_inj {i j : Nat} (hi : i < 2 ^ 62) (hj : j < 2 ^ 62) (h : (lone i).trace = (lone j).trace) : i = j := by
  have h : Int64.ofNat (i + 1) = Int64.ofNat (j + 1) := h
  have h := congrArg Int64.toInt h
  rw [Int64.toInt_ofNat_of_lt (by omega), Int64.toInt_ofNat_of_lt (by omega)] at h
  omega

theorem single_traced {i : Nat} (hi : i < 2 ^ 62) : Traced (lone i) := by
  have : Int64.ofNat (i + 1) ≠ 0 := fun h => by
    have h := congrArg Int64.toInt h
    rw [Int64.toInt_ofNat_of_lt (by omega)] at h
    have : (0 : Int64).toInt = 0 := by decide
    omega
  exact ⟨this, this⟩

/-- The time at which it is posted: 500 in every 100 milliseconds. -/
def singleTime (i : Nat) : Time := 100000000 * ((i / 500 : Nat) : Int)

/-- The collector has received so many of these traces, and all are waiting. -/
structure Fed (w : World) (n : Nat) : Prop where
  received : w.received = (List.range n).map lone
  removed : w.removed = []
  refused : w.refused = []
  trees : ∀ id t, w.c.traces[id]? = some t → ∃ i, i < n ∧ id = (lone i).trace ∧ t.spans = [lone i] ∧ t.members = [lone i] ∧ t.started = singleTime i ∧ t.updated = singleTime i
  all : ∀ i, i < n → ∃ t, w.c.traces[(lone i).trace]? = some t

theorem Fed.receive {w : World} {n : Nat} (h : Fed w n) (hw : Reachable w) (hn : n < 2 ^ 62) : Fed (w.receive (singleTime n) (singleTime n) (lone n)) (n + 1) := by
  have htr := single_traced hn
  have hnb : w.c.blacklist.contains (lone n).trace = false := by
    cases hb : w.c.blacklist.contains (lone n).trace with
    | false => rfl
    | true =>
      exfalso
      have hb' : w.c.blacklist[(lone n).trace]? = some () := by
        rw [Std.ExtTreeMap.contains_eq_isSome_getElem?] at hb
        cases hx : w.c.blacklist[(lone n).trace]? with
        | none => rw [hx] at hb; cases hb
        | some u => rfl
      obtain ⟨r, hr, _⟩ := (reachable_inv hw).blocked _ hb'
      rw [h.removed] at hr
      cases hr
  have hnew : w.c.traces[(lone n).trace]? = none := by
    cases hx : w.c.traces[(lone n).trace]? with
    | none => rfl
    | some t =>
      obtain ⟨i, hi, e, _⟩ := h.trees _ t hx
      have := single_inj hn (by omega) e
      omega
  have hget : ∀ id, (w.receive (singleTime n) (singleTime n) (lone n)).c.traces[id]? =
      if (lone n).trace = id then some ((newTree (singleTime n) (lone n).trace).addSpan (singleTime n) (lone n)) else w.c.traces[id]? := fun id => by
    show (w.c.receive _ _ _).traces[id]? = _
    unfold Collector.receive
    rw [if_neg fun e => (not_traced_iff _).mp e htr, if_neg (by rw [hnb]; decide)]
    dsimp only
    rw [get_insert, hnew]
    rfl
  refine ⟨?_, h.removed, ?_, fun id t ht => ?_, fun i hi => ?_⟩
  · show w.received ++ [lone n] = _
    rw [h.received, List.range_succ, List.map_append]; rfl
  · show (if _ then w.refused ++ [lone n] else w.refused) = []
    rw [if_neg (by rw [hnb]; exact fun h => by cases h.2)]
    exact h.refused
  · rw [hget] at ht
    split at ht
    · next e =>
      cases ht
      refine ⟨n, Nat.lt_succ_self n, e.symm, ?_, ?_, ?_, ?_⟩
      · unfold Tree.addSpan
        dsimp only
        rw [show getSpanRef (newTree (singleTime n) (lone n).trace).spans (lone n).id = none from rfl]
        show spansAppend [] (lone n) = _
        unfold spansAppend sortSearch
        rw [sortSearchLoop, dif_neg (by decide)]
        rfl
      · rw [Tree.addSpan_members]; rfl
      · rw [(Tree.addSpan_fields _ _ _).2.1]; rfl
      · rw [(Tree.addSpan_fields _ _ _).2.2]
    · obtain ⟨i, hi, hh⟩ := h.trees id t ht
      exact ⟨i, by omega, hh⟩
  · rw [hget]
    split
    · exact ⟨_, rfl⟩
    · next e =>
      exact h.all i (Classical.byContradiction fun hx => e (by rw [show i = n by omega]))

theorem Fed.counted {w : World} {n : Nat} (h : Fed w n) (hw : Reachable w) (hn : n < 2 ^ 62) : counted w.c.traces.toList = n := by
  have hinv := reachable_inv hw
  have hl := hinv.conserved.length_eq
  rw [h.removed, h.refused, h.received, List.filter_eq_self.mpr (by
    intro x hx
    obtain ⟨i, hi, rfl⟩ := List.mem_map.mp hx
    have := List.mem_range.mp hi
    exact decide_eq_true (single_traced (by omega)))] at hl
  rw [List.length_map, List.length_range, List.flatMap_nil, List.append_nil, List.append_nil] at hl
  have key : ∀ l : List (Id × Tree), (∀ e ∈ l, w.c.traces[e.1]? = some e.2) → Spec.counted l = (l.flatMap fun e => e.2.members).length := by
    intro l hl
    induction l with
    | nil => rfl
    | cons e l ih =>
      have ih := ih fun x hx => hl x (List.mem_cons_of_mem _ hx)
      obtain ⟨i, _, _, h1, h2, _⟩ := h.trees _ _ (hl e List.mem_cons_self)
      have hsz : size e.2 = 1 := by unfold size; rw [h1]; rfl
      have hnl : ¬ Large e.2 := by unfold Large; rw [hsz]; decide
      rw [List.flatMap_cons, List.length_append, ← ih, h2]
      unfold Spec.counted
      rw [List.filter_cons, if_pos (by simpa using hnl), List.map_cons, List.sum_cons, hsz]
      rfl
  rw [key w.c.traces.toList fun e he => (mem_range (isRange_refl _)).mp he]
  exact hl.symm

theorem single_rooted (i : Nat) (id : Id) : Rooted id [lone i] :=
  .inl ⟨lone i, ⟨List.mem_cons_self, .inl rfl⟩, fun q hq => List.mem_singleton.mp hq.1⟩

theorem single_finished {i : Nat} (hi : i < 2 ^ 62) {id : Id} {out : List Span} (h : Finished id [lone i] out) : out.length = 1 ∧ ∀ x ∈ out, Traced x := by
  obtain ⟨base, r, hrep, _, hc⟩ := h
  rcases hrep with ⟨p, f, ⟨⟨a, b, ha, hb, hne⟩, _⟩, _⟩ | ⟨_, rfl⟩
  · rw [List.mem_singleton.mp ha.1, List.mem_singleton.mp hb.1] at hne
    exact absurd rfl hne
  · refine ⟨hc.1, fun x hx => ?_⟩
    have h1 := corrected_map hc (fun s => (s.trace, s.id)) fun _ _ _ => rfl
    have h2 : (x.trace, x.id) ∈ out.map fun s => (s.trace, s.id) := List.mem_map.mpr ⟨x, hx, rfl⟩
    rw [h1] at h2
    have h3 := List.mem_singleton.mp h2
    have h4 := single_traced hi
    have e1 : x.trace = (lone i).trace := congrArg Prod.fst h3
    have e2 : x.id = (lone i).id := congrArg Prod.snd h3
    exact ⟨by rw [e1]; exact h4.1, by rw [e2]; exact h4.2⟩

/-- Before 8 seconds have passed, and while less than 40000 spans are waiting, a tick does nothing. -/
theorem Fed.tick {w : World} {n : Nat} (h : Fed w n) (hw : Reachable w) (hn : n < 40000) {i : TickInput} (hv : i.Valid w.c) (h1 : i.now1 < 8000000000) (h2 : i.now2 < 8000000000) :
    Fed (w.tick i) n ∧ (w.c.tick i).2 = [] := by
  have hc := h.counted hw (by omega)
  have hbt : Spec.bufferTime (Spec.counted w.c.traces.toList) = 8000000000 := by rw [hc]; unfold Spec.bufferTime; rw [if_pos hn]
  obtain ⟨ho1, _, ho2⟩ := C44_other_fates hw hv
  have none : ∀ r, r ∉ (w.c.tick i).2 := fun r hr => by
    obtain ⟨id, t, fate⟩ := r
    have ht : w.c.traces[id]? = some t := (ho1 _ hr).1
    obtain ⟨j, hj, _, e1, _, e2, e3⟩ := h.trees _ _ ht
    have hpos : 0 ≤ singleTime j := by unfold singleTime; tomega
    have hnl : ¬ Large t := by unfold Large size; rw [e1, List.length_singleton]; decide
    have hno : ¬ Old i.now2 8000000000 t := by unfold Old; rw [e2]; tomega
    have hni : ¬ Idle i.now1 8000000000 t := by unfold Idle; rw [e3]; tomega
    have hem := (C44_emitted_at_tick hw hv ht).1
    have hot := ho2 _ _ ht
    dsimp only at hem hot
    rw [hbt] at hem hot
    cases fate with
    | tooLarge => exact hnl (hot.1.mp hr)
    | tooOld => exact hno (hot.2.1.mp hr).2
    | noRoot => exact hni (hot.2.2.1.mp hr).2.2.1
    | discarded =>
      have := (C49_load_shedding hw hv hr rfl).1
      omega
    | stuck => exact hot.2.2.2.2.1 hr
    | emitted out => exact hni (hem.mp ⟨out, hr⟩).2.2.1
  have e : (w.c.tick i).2 = [] := List.eq_nil_iff_forall_not_mem.mpr none
  refine ⟨⟨h.received, ?_, h.refused, fun id t ht => h.trees id t (tick_keeps_tree hv ht), fun j hj => ?_⟩, e⟩
  · show w.removed ++ (w.c.tick i).2 = []
    rw [h.removed, e]; rfl
  · obtain ⟨t, ht⟩ := h.all j hj
    exact ⟨t, (ho2 _ _ ht).2.2.2.2.2 fun f => none _⟩

/-- With 40000 spans the buffer time is 6 seconds: all that came in the first two seconds is finished at once. -/
theorem Fed.burst {w : World} (h : Fed w 40000) (hw : Reachable w) {i : TickInput} (hv : i.Valid w.c) (h1 : i.now1 = 8000000000) (h2 : i.now2 = 8000000000) :
    10000 ≤ (emittedOf (w.c.tick i).2).length ∧ ∀ t ∈ emittedOf (w.c.tick i).2, t.length = 1 ∧ ∀ x ∈ t, Traced x := by
  have hc := h.counted hw (by omega)
  have hbt : Spec.bufferTime (Spec.counted w.c.traces.toList) = 6000000000 := by rw [hc]; decide
  obtain ⟨ho1, hnd, _⟩ := C44_other_fates hw hv
  constructor
  · have hsub : ∀ j, j < 10000 → ∃ r ∈ (w.c.tick i).2, (∃ out, r.fate = .emitted out) ∧ r.id = (lone j).trace := fun j hj => by
      obtain ⟨t, ht⟩ := h.all j (by omega)
      obtain ⟨j', hj', ee, e1, _, e2, e3⟩ := h.trees _ _ ht
      have : j = j' := single_inj (by omega) (by omega) ee
      subst this
      have hem := (C44_emitted_at_tick hw hv ht).1
      rw [hbt] at hem
      have hq : j / 500 ≤ 20 := by omega
      obtain ⟨out, ho⟩ := hem.mpr ⟨by unfold Large size; rw [e1, List.length_singleton]; decide, by unfold Old; rw [e2, h2]; unfold singleTime; tomega, by unfold Idle; rw [e3, h1]; unfold singleTime; tomega, by
        rw [e1]; exact single_rooted _ _⟩
      exact ⟨_, ho, ⟨out, rfl⟩, rfl⟩
    let p : Removal → Bool := fun r => match r.fate with | .emitted _ => true | _ => false
    have hlen : (emittedOf (w.c.tick i).2).length = ((w.c.tick i).2.filter p).length := by
      unfold emittedOf
      induction (w.c.tick i).2 with
      | nil => rfl
      | cons r l ih =>
        rw [List.filterMap_cons, List.filter_cons]
        show _ = (if p r = true then r :: l.filter p else l.filter p).length
        cases hf : r.fate <;> simp [p, hf, ih]
    rw [hlen, show 10000 = ((List.range 10000).map fun j => (lone j).trace).length by rw [List.length_map, List.length_range],
      ← List.length_map (f := Removal.id) (as := (w.c.tick i).2.filter p)]
    refine List.Subperm.length_le (List.subperm_of_subset ?_ ?_)
    · rw [List.nodup_iff_pairwise_ne, List.pairwise_map]
      refine List.Pairwise.imp_of_mem (fun {a b} ha hb hab e => hab ?_) (List.nodup_range (n := 10000))
      have := List.mem_range.mp ha
      have := List.mem_range.mp hb
      exact single_inj (by omega) (by omega) e
    · intro x hx
      obtain ⟨j, hj, rfl⟩ := List.mem_map.mp hx
      obtain ⟨r, hr, ⟨out, ho⟩, e⟩ := hsub j (List.mem_range.mp hj)
      exact List.mem_map.mpr ⟨r, List.mem_filter.mpr ⟨hr, by simp [p, ho]⟩, e⟩
  · intro out hout
    unfold emittedOf at hout
    obtain ⟨r, hr, he⟩ := List.mem_filterMap.mp hout
    obtain ⟨id, t, fate⟩ := r
    cases fate with
    | emitted o =>
      cases he
      have ht : w.c.traces[id]? = some t := (ho1 _ hr).1
      obtain ⟨j, hj, _, e1, _⟩ := h.trees _ _ ht
      have hf := (C44_emitted_at_tick hw hv ht).2 out hr
      rw [e1] at hf
      exact single_finished (by omega) hf
    | _ => cases he

theorem fed_all {T : Time} : ∀ (d n : Nat) (w : World), Fed w n → Reachable w → w.clock ≤ T → (∀ i, n ≤ i → i < n + d → singleTime i = T) → n + d < 2 ^ 62 →
    Fed (((List.range' n d).map lone).foldl (fun w x => w.receive T T x) w) (n + d)
  | 0, _, _, h, _, _, _, _ => h
  | d + 1, n, w, h, hw, hc, ht, hn => by
    have e : singleTime n = T := ht n (Nat.le_refl _) (by omega)
    have h1 := h.receive hw (by omega)
    rw [e] at h1
    have := fed_all d (n + 1) (w.receive T T (lone n)) h1 (.receive T T _ hw hc (Int.le_refl _)) (Int.le_refl _) (fun i h1 h2 => ht i (by omega) (by omega)) (by omega)
    rw [show n + (d + 1) = n + 1 + d by omega]
    exact this

/-! ## The execution -/

/-- At most one span in 200 microseconds, apart from a burst of 500; and 40000 in all. -/
structure Pace (o : List Parsed) (T T' : Time) : Prop where
  upper : 200000 * ((acceptedSpans o).length : Int) ≤ T + 100000000
  lower : T' ≤ 200000 * ((acceptedSpans o).length : Int) ∨ (acceptedSpans o).length = 40000
  le : (acceptedSpans o).length ≤ 40000

structure Paced (r : Execution plainConverter ()) (time : Nat → Time) : Prop where
  once : r.AtOnce time
  pace : ∀ n, Pace (r.outcomes n) (time n) (time (n + 1))

theorem Paced.atMost {r : Execution plainConverter ()} {time : Nat → Time} (h : Paced r time) : AtMost r.accepted time 500 0 200000 := fun n m _ => by
  have h1 := h.pace (m + 1)
  have h2 := h.pace n
  unfold Execution.accepted
  rcases h2.lower with h3 | h3
  · right
    have := h1.upper
    tomega
  · left
    have := h1.le
    omega

/-- A step before everything else, at the same time; or a tick of the collector after which the sink gets its tick. -/
theorem paced_prepend {r : Execution plainConverter ()} {time : Nat → Time} (h : Paced r time) {o : List Parsed} {s : System Unit} {T : Time} (hr : System.Reachable plainConverter () o s)
    (hn : System.Next plainConverter o s (r.outcomes 0) (r.state 0)) (hT : T ≤ time 0) (hu : s.Until T) (hread : s.ReadsAt (time 0) (r.state 0)) (hpace : Pace o T (time 0))
    (hclock : (r.state 0).world.received ≠ s.world.received → T = time 0)
    (hmove : T = time 0 ∨ ¬ s.Pending ∧ s.SenderIdle ∧ time 0 ≤ T + 100000000 ∧ (∃ i : TickInput, i.now1 = time 0 ∧ i.Valid s.world.c ∧
      r.state 0 = { s with world := s.world.tick i, outbox := emittedOf (s.world.c.tick i).2 }) ∧ time 1 = time 0 ∧ r.state 1 = { (r.state 0) with sink := (r.state 0).sink.tick (time 0) (time 0) }) :
    ∃ (r' : Execution plainConverter ()) (time' : Nat → Time), Paced r' time' ∧ r'.state 0 = s ∧ r'.outcomes 0 = o ∧ time' 0 = T ∧ ∀ n, r'.state (n + 1) = r.state n ∧ time' (n + 1) = time n := by
  refine ⟨⟨startWith s r.state, startWith o r.outcomes, hr, fun n => ?_⟩, startWith T time, ⟨⟨⟨fun n => ?_, fun n => ?_, fun n => ?_⟩, fun T' hT' => ?_, fun n => ?_, fun T' hT' => ?_, fun n hb => ?_, ⟨fun n => ?_, fun n => ?_⟩, fun n => ?_⟩, fun n => ?_⟩,
    rfl, rfl, rfl, fun n => ⟨rfl, rfl⟩⟩
  · cases n with
    | zero => exact hn
    | succ n => exact r.next n
  · cases n with
    | zero => exact hT
    | succ n => exact h.once.clock.mono n
  · cases n with
    | zero => exact hu.1
    | succ n => exact h.once.clock.collector n
  · cases n with
    | zero => exact hu.2
    | succ n => exact h.once.clock.flushes n
  · by_cases hlt : time 0 ≤ T'
    · obtain ⟨m, x, hh⟩ := h.once.ticks T' hlt
      exact ⟨m + 1, x, hh⟩
    · have hT' : T ≤ T' := hT'
      rcases hmove with e | ⟨_, _, h1, ⟨i, h2, hv, hs⟩, _⟩
      · exact absurd (e ▸ hT') hlt
      · refine ⟨0, i, ?_, ?_, hv, hs, ?_⟩
        · rw [h2]; tomega
        · show time 0 ≤ T' + 100000000
          tomega
        · rw [h2]; exact Int.le_trans hu.1 hT
  · cases n with
    | zero =>
      rcases hmove with e | ⟨h1, _⟩
      · obtain ⟨m, _, hm, hh⟩ := h.once.works 0
        refine ⟨m + 1, by omega, ?_, hh⟩
        show time m ≤ T + 0
        rw [e]; exact hm
      · exact ⟨0, Nat.le_refl _, by show T ≤ T + 0; tomega, h1⟩
    | succ n =>
      obtain ⟨m, h1, hm, hh⟩ := h.once.works n
      exact ⟨m + 1, by omega, hm, hh⟩
  · by_cases hlt : time 0 ≤ T'
    · obtain ⟨m, x, y, hh⟩ := h.once.sinkTicks T' hlt
      exact ⟨m + 1, x, y, hh⟩
    · have hT' : T ≤ T' := hT'
      rcases hmove with e | ⟨_, _, h1, _, h2, h3⟩
      · exact absurd (e ▸ hT') hlt
      · refine ⟨1, time 0, time 0, by tomega, ?_, ?_, h3⟩
        · show time 0 ≤ time 1
          rw [h2]
        · show time 1 ≤ T' + 2000000000
          rw [h2]; tomega
  · cases n with
    | zero =>
      have hb : s.sending ≠ none ∨ s.sink.sink.grouped ≠ [] := hb
      rcases hmove with e | ⟨_, h1, _⟩
      · have later : (r.state 0).sending ≠ none ∨ (r.state 0).sink.sink.grouped ≠ [] → ∃ m, 0 ≤ m ∧ startWith T time (m + 1) ≤ startWith T time 0 + 0 ∧
            System.SenderSends (startWith s r.state m) (startWith s r.state (m + 1)) := fun hb => by
          obtain ⟨m, _, hm, hh⟩ := h.once.sends 0 hb
          refine ⟨m + 1, by omega, ?_, hh⟩
          show time (m + 1) ≤ T + 0
          rw [e]; exact hm
        rcases sender_moves hn with h1 | h1 | h1
        · apply later
          left
          generalize r.state 0 = s' at h1
          cases h1
          exact fun e => by cases e
        · exact ⟨0, Nat.le_refl _, by show time 0 ≤ T + 0; tomega, h1⟩
        · apply later
          rcases hb with hb | hb
          · left; rw [h1.1]; exact hb
          · right
            intro e'
            have := h1.2.2.2
            rw [e'] at this
            exact hb (List.prefix_nil.mp this)
      · rcases hb with hb | hb
        · exact absurd h1.1 hb
        · exact absurd h1.2 hb
    | succ n =>
      obtain ⟨m, h1, hm, hh⟩ := h.once.sends n hb
      exact ⟨m + 1, by omega, hm, hh⟩
  · cases n with
    | zero => exact hread.sink
    | succ n => exact h.once.sinkClock.reads n
  · cases n with
    | zero => exact hread.ticks
    | succ n => exact h.once.sinkClock.ticks n
  · cases n with
    | zero =>
      intro hne
      obtain ⟨x, hx⟩ := hread.collect.resolve_left hne
      refine ⟨_, _, x, hx, ?_, Int.le_refl _⟩
      show T ≤ time 0
      exact hT
    | succ n => exact h.once.collectorClock n
  · cases n with
    | zero => exact hpace
    | succ n => exact h.pace n

/-- There is such an execution from here on, in which a batch is discarded. -/
def Ends (o : List Parsed) (s : System Unit) (T : Time) : Prop :=
  ∃ (r : Execution plainConverter ()) (time : Nat → Time), Paced r time ∧ r.state 0 = s ∧ r.outcomes 0 = o ∧ time 0 = T ∧ ∃ m, ¬ (r.state m).NoneDiscarded

theorem ends_same {o o' : List Parsed} {s s' : System Unit} {T : Time} (hr : System.Reachable plainConverter () o s) (hn : System.Next plainConverter o s o' s') (hu : s.Until T)
    (hread : s.ReadsAt T s') (hpace : Pace o T T) (h : Ends o' s' T) : Ends o s T := by
  obtain ⟨r, time, hp, rfl, rfl, rfl, m, hm⟩ := h
  obtain ⟨r', time', h1, h2, h3, h4, h5⟩ := paced_prepend hp hr hn (Int.le_refl _) hu hread hpace (fun _ => rfl) (.inl rfl)
  exact ⟨r', time', h1, h2, h3, h4, m + 1, by rw [(h5 m).1]; exact hm⟩

/-- Up to 100 milliseconds pass until the next tick of the collector. -/
theorem ends_tick {o : List Parsed} {s : System Unit} {T T' : Time} (hr : System.Reachable plainConverter () o s) (hu : s.Until T) (hpending : ¬ s.Pending) (hsend : s.sending = none) (hsink : s.sink = {})
    (h1 : T ≤ T') (h2 : T' ≤ T + 100000000) (hp : Pace o T T') (hp' : Pace o T' T') (i : TickInput) (hv : i.Valid s.world.c) (hi1 : i.now1 = T') (hi2 : i.now2 = T')
    (h : System.Reachable plainConverter () o { s with world := s.world.tick i, outbox := emittedOf (s.world.c.tick i).2 } →
      Ends o { s with world := s.world.tick i, outbox := emittedOf (s.world.c.tick i).2 } T') : Ends o s T := by
  have hout : s.outbox = [] := Classical.byContradiction fun e => hpending (.inr (.inr (.inl e)))
  have hev : s.Event { s with world := s.world.tick i, outbox := emittedOf (s.world.c.tick i).2 } := .tick i hout hv (by rw [hi1]; exact Int.le_trans hu.1 h1)
  have hr' := System.Reachable.event hr hev
  obtain ⟨r, time, hpd, e1, e2, rfl, m, hm⟩ := h hr'
  have htick : ∀ T, ({} : SinkRun).tick T T = {} := fun T => (C60_tick .init T T).2 (.inr rfl)
  have hu' : System.Until (time 0) { s with world := s.world.tick i, outbox := emittedOf (s.world.c.tick i).2 } := ⟨by show i.now2 ≤ _; exact Int.le_of_eq hi2, fun t ht => Int.le_trans (hu.2 t ht) h1⟩
  obtain ⟨r1, time1, hp1, f1, f2, f3, f4⟩ := paced_prepend hpd (o := o) hr' (by rw [e1, e2]; exact .stay) (Int.le_refl _) hu' (.same (by rw [e1]) (by rw [e1]) (by rw [e1])) hp' (fun _ => rfl) (.inl rfl)
  obtain ⟨r2, time2, hp2, g1, g2, g3, g4⟩ := paced_prepend hp1 (o := o) (s := s) (T := T) hr (by rw [f1, f2]; exact .event hev) (by rw [f3]; exact h1) hu (.same (by rw [f1]; rfl) (by rw [f1]) (by rw [f1])) (by rw [f3]; exact hp)
    (fun e => absurd (by rw [f1]; rfl) e) (.inr ⟨hpending, ⟨hsend, by rw [hsink]⟩, by rw [f3]; exact h2, ⟨i, by rw [hi1, f3], hv, f1⟩, by rw [(f4 0).2, f3], by
      rw [(f4 0).1, e1, f1]
      show _ = { s with world := s.world.tick i, outbox := emittedOf (s.world.c.tick i).2, sink := s.sink.tick _ _ }
      rw [hsink, htick]⟩)
  refine ⟨r2, time2, hp2, g1, g2, g3, m + 2, ?_⟩
  rw [(g4 (m + 1)).1, (f4 m).1]
  exact hm

/-- The spans of a request are received one after the other. -/
theorem ends_feed {o : List Parsed} {T : Time} (hp : Pace o T T) {C : List Conn} : ∀ (l : List Span) (s : System Unit), System.Reachable plainConverter () o s → s.http = { conns := C ++ [.pushing l] } → s.outbox = [] → s.Until T →
    (∀ s', s' = { s with http := { conns := C ++ [.answered 202] }, world := l.foldl (fun w x => w.receive T T x) s.world } → System.Reachable plainConverter () o s' → s'.Until T → Ends o s' T) → Ends o s T
  | [], s, hr, hh, ho, hu, h => by
    have hst : s.Step plainConverter { s with http := { conns := C ++ [.answered 202] } } := by
      have : s.http.Step 256 { s.http with conns := s.http.conns.set C.length (.answered 202) } none := .accept _ (by rw [hh]; simp)
      rw [hh] at this
      have e : (C ++ [Conn.pushing []]).set C.length (.answered 202) = C ++ [.answered 202] := by simp
      dsimp only at this
      rw [e] at this
      exact .http (hh ▸ this)
    have hr' := System.Reachable.step hr hst
    exact ends_same hr (.step hst) hu (.same rfl rfl rfl) hp (h _ rfl hr' hu)
  | x :: l, s, hr, hh, ho, hu, h => by
    have hst : s.Step plainConverter { s with http := { conns := C ++ [.pushing l], channel := [x] } } := by
      have : s.http.Step 256 { s.http with conns := s.http.conns.set C.length (.pushing l), channel := s.http.channel ++ [x] } (some (C.length, x)) := .push _ (by rw [hh]; simp) (by rw [hh]; exact Nat.zero_lt_succ _)
      rw [hh] at this
      have e : (C ++ [Conn.pushing (x :: l)]).set C.length (.pushing l) = C ++ [.pushing l] := by simp
      dsimp only at this
      rw [e] at this
      exact .http (hh ▸ this)
    have hr' := System.Reachable.step hr hst
    have hst' : System.Step plainConverter { s with http := { conns := C ++ [.pushing l], channel := [x] } } { s with http := { conns := C ++ [.pushing l] }, world := s.world.receive T T x } :=
      .collect T T ho rfl hu.1 (Int.le_refl _)
    have hr'' := System.Reachable.step hr' hst'
    refine ends_same hr (.step hst) hu (.same rfl rfl rfl) hp (ends_same hr' (.step hst') hu ⟨.inr ⟨x, rfl⟩, .inl rfl, fun h => absurd rfl h⟩ hp ?_)
    exact ends_feed hp l { s with http := { conns := C ++ [.pushing l] }, world := s.world.receive T T x } hr'' rfl ho ⟨Int.le_refl _, hu.2⟩ fun s' e => h s' e

/-- Everything that is to be done is done, except that the sender does nothing. -/
theorem ends_settle {o : List Parsed} {T : Time} (hp : Pace o T T) : ∀ (n : Nat) (s : System Unit), s.work ≤ n → System.Reachable plainConverter () o s → s.Until T →
    (∀ s', System.Reachable plainConverter () o s' → s'.Until T → ¬ s'.Pending → s'.sending = s.sending → s'.sent = s.sent → s'.world.removed = s.world.removed → Ends o s' T) → Ends o s T
  | n, s, hw, hr, hu, h => by
    by_cases hpd : s.Pending
    · obtain ⟨s1, h1⟩ := C67_progress hr hpd
      obtain ⟨s', h1, hu', hread⟩ := step_in_time h1 hu
      have hlt := C67_terminates hr h1
      match n, hw with
      | 0, hw => omega
      | n + 1, hw =>
        have e : s'.sending = s.sending ∧ s'.sent = s.sent ∧ s'.world.removed = s.world.removed := by
          cases h1 <;> exact ⟨rfl, rfl, rfl⟩
        refine ends_same hr (.step h1) hu hread hp (ends_settle hp n s' (by omega) (.step hr h1) hu' fun s2 a b c d f g => h s2 a b c (d.trans e.1) (f.trans e.2.1) (g.trans e.2.2))
    · exact h s hr hu hpd rfl rfl rfl

/-- More than eight batches were made, and the sender has not taken any. -/
theorem ends_discarded {o : List Parsed} {s : System Unit} {T : Time} (hr : System.Reachable plainConverter () o s) (hu : s.Until T) (hp : ¬ s.Pending) (h1 : s.sending = none) (h2 : s.sent = [])
    (h3 : 10000 ≤ (emittedOf s.world.removed).length) (h4 : ∀ t ∈ emittedOf s.world.removed, t.length = 1 ∧ ∀ x ∈ t, Traced x) (hT : 7900000000 ≤ T) (ho : (acceptedSpans o).length = 40000) : Ends o s T := by
  obtain ⟨r, time, e1, e2, e3, c1, c2, c3, c4, c5, c6, c7⟩ := timed_from hr hu
  refine ⟨r, time, ⟨⟨c1, c2, c3, c4, c5, c6, fun n hne => ?_⟩, fun n => ?_⟩, e1, e2 0, e3, 0, fun hnd => ?_⟩
  · obtain ⟨x, hx⟩ := (c7 n).collect.resolve_left hne
    exact ⟨_, _, x, hx, c1.mono n, Int.le_refl _⟩
  · rw [e2]
    refine ⟨?_, .inr ho, by omega⟩
    have := c1.le (Nat.zero_le n)
    rw [ho]
    tomega
  · have hb := batches_account r hnd
    unfold Execution.batches at hb
    rw [e1, h1, h2] at hb
    obtain ⟨_, _, _, _, inv⟩ := hr.inv
    obtain ⟨_, _, _, hlt, hc, _, hq⟩ := C60_bounded inv.sink
    obtain ⟨hrec, _⟩ := C61_complete hr hp
    have hrec : s.sink.received = emittedOf s.world.removed := by
      rw [hrec, example_convertTraces]
      conv => rhs; rw [← List.map_id (emittedOf s.world.removed)]
      refine List.map_congr_left fun t ht => List.filter_eq_self.mpr fun x hx => ?_
      have := (h4 t ht).2 x hx
      exact decide_eq_true ⟨this.2, this.1⟩
    have hs := singles_batches inv.sink (by rw [hrec]; exact fun t ht => Nat.le_of_eq (h4 t ht).1)
    have hlen : ∀ l : List (List Span), (∀ t ∈ l, t.length = 1) → l.flatten.length = l.length := by
      intro l hl
      induction l with
      | nil => rfl
      | cons t l ih =>
        rw [List.flatten_cons, List.length_append, hl t List.mem_cons_self, ih fun x hx => hl x (List.mem_cons_of_mem _ hx), List.length_cons]
        omega
    rw [hrec, hlen _ fun t ht => (h4 t ht).1] at hs
    simp only [List.length_nil, Option.toList_none] at hb
    omega

/-- The moment before the request number `j`. -/
structure BeforePost (j : Nat) (o : List Parsed) (s : System Unit) : Prop where
  reach : System.Reachable plainConverter () o s
  fed : Fed s.world (500 * j)
  until_ : s.Until (100000000 * (j : Int))
  accepted : (acceptedSpans o).length = 500 * j
  idle : ¬ s.Pending
  sending : s.sending = none
  sent : s.sent = []
  sink : s.sink = {}

theorem ends_ready : ∀ (d j : Nat) (o : List Parsed) (s : System Unit), j + d = 80 → j < 80 → BeforePost j o s → Ends o s (100000000 * (j : Int)) := by
  intro d
  induction d with
  | zero => intro j o s h1 h2; omega
  | succ d ih =>
    intro j o s hjd hj80 h
    obtain ⟨l, hl0⟩ : ∃ l : List Span, l = (List.range' (500 * j) 500).map lone := ⟨_, rfl⟩
    have hl : (acceptedSpans (o ++ [.spans l])).length = 500 * (j + 1) := by
      unfold acceptedSpans
      rw [List.flatMap_append, List.length_append]
      have := h.accepted
      unfold acceptedSpans at this
      rw [this]
      simp [hl0]
      omega
    have p0 : Pace o (100000000 * (j : Int)) (100000000 * (j : Int)) := by
      constructor <;> rw [h.accepted] <;> tomega
    have p1 : Pace (o ++ [.spans l]) (100000000 * (j : Int)) (100000000 * (j : Int)) := by
      constructor <;> rw [hl] <;> tomega
    have p2 : Pace (o ++ [.spans l]) (100000000 * (j : Int)) (100000000 * ((j + 1 : Nat) : Int)) := by
      constructor <;> rw [hl] <;> tomega
    have p3 : Pace (o ++ [.spans l]) (100000000 * ((j + 1 : Nat) : Int)) (100000000 * ((j + 1 : Nat) : Int)) := by
      constructor <;> rw [hl] <;> tomega
    have hidle := h.idle
    unfold System.Pending at hidle
    simp only [not_or, Classical.not_not, ne_eq] at hidle
    obtain ⟨hconns, hchan, hout, hrest⟩ := hidle
    have hr1 := System.Reachable.request (.spans l) h.reach
    refine ends_same h.reach (.request (.spans l)) h.until_ (.same rfl rfl rfl) p0 ?_
    refine ends_feed p1 (C := s.http.conns) l _ hr1 (by dsimp only; rw [hchan]; rfl) hout h.until_ fun s2 e2 hr2 hu2 => ?_
    have hfed : Fed s2.world (500 * (j + 1)) := by
      rw [e2]
      obtain ⟨_, _, _, _, inv⟩ := h.reach.inv
      have := fed_all 500 (500 * j) s.world h.fed inv.world h.until_.1 (fun i h1 h2 => by unfold singleTime; rw [show i / 500 = j by omega]) (by omega)
      rw [show 500 * (j + 1) = 500 * j + 500 by omega]
      dsimp only
      rw [hl0]
      exact this
    have hidle2 : ¬ s2.Pending := by
      rw [e2]
      rintro (⟨c, hc, hx⟩ | hx | hx | hx | hx | hx)
      · rcases List.mem_append.mp hc with hc | hc
        · exact hconns ⟨c, hc, hx⟩
        · rw [List.mem_singleton.mp hc] at hx
          rcases hx with hx | ⟨_, hx⟩ <;> cases hx
      · exact hx rfl
      · exact hx hout
      · exact hx (Classical.byContradiction fun e => e hrest.1)
      · exact hx hrest.2.1
      · exact hx hrest.2.2
    have hsend2 : s2.sending = none := by rw [e2]; exact h.sending
    have hsent2 : s2.sent = [] := by rw [e2]; exact h.sent
    have hsink2 : s2.sink = {} := by rw [e2]; exact h.sink
    obtain ⟨_, _, _, _, inv2⟩ := hr2.inv
    obtain ⟨i, hv, hi1, hi2, _⟩ := exists_valid s2.world.c (100000000 * ((j + 1 : Nat) : Int)) (100000000 * ((j + 1 : Nat) : Int)) (fun _ => 0) (Int.le_refl _)
    refine ends_tick hr2 hu2 hidle2 hsend2 hsink2 (by tomega) (by tomega) p2 p3 i hv hi1 hi2 fun hr3 => ?_
    have hu3 : System.Until (100000000 * ((j + 1 : Nat) : Int)) { s2 with world := s2.world.tick i, outbox := emittedOf (s2.world.c.tick i).2 } :=
      ⟨by show i.now2 ≤ _; exact Int.le_of_eq hi2, fun t ht => by rw [hsink2] at ht; cases ht⟩
    by_cases hj : j = 79
    · subst hj
      obtain ⟨hb1, hb2⟩ := hfed.burst inv2.world hv (by rw [hi1]; decide) (by rw [hi2]; decide)
      have hrem : emittedOf (s2.world.tick i).removed = emittedOf (s2.world.c.tick i).2 := by
        show emittedOf (s2.world.removed ++ _) = _
        rw [hfed.removed, List.nil_append]
      refine ends_settle p3 _ _ (Nat.le_refl _) hr3 hu3 fun s4 hr4 hu4 hp4 q1 q2 q3 => ?_
      rw [← hrem] at hb1 hb2
      have q3 : s4.world.removed = (s2.world.tick i).removed := q3
      rw [← q3] at hb1 hb2
      exact ends_discarded hr4 hu4 hp4 (q1.trans hsend2) (q2.trans hsent2) hb1 hb2 (by decide) hl
    · obtain ⟨hf3, he⟩ := hfed.tick inv2.world (by omega) hv (by rw [hi1]; tomega) (by rw [hi2]; tomega)
      refine ih (j + 1) _ _ (by omega) (by omega) ⟨hr3, hf3, hu3, hl, ?_, hsend2, hsent2, hsink2⟩
      rintro (hx | hx | hx | hx)
      · exact hidle2 (.inl hx)
      · exact hidle2 (.inr (.inl hx))
      · exact hx (by show emittedOf (s2.world.c.tick i).2 = []; rw [he]; rfl)
      · exact hidle2 (.inr (.inr (.inr hx)))

/-- C150 does not hold as stated. Each trace has one span; in every 100 milliseconds 500 are posted; a call of the transport takes 0.1 seconds at most, and nothing else takes any time. After
8 seconds 40000 spans are waiting, so the buffer time is 6 seconds from now on; what came in the first two seconds is finished at once, and these are ten batches. -/
theorem C150_burst : ∃ (r : Execution plainConverter ()) (time : Nat → Time), r.Clock time ∧ r.SinkClock time ∧ r.CollectorClock time ∧ r.CollectorTicks time 100000000 ∧ r.Responsive time 0 ∧
    r.SinkTicksIn time 2000000000 ∧ r.SendsIn time 100000000 ∧ r.outcomes 0 = [] ∧ AtMost r.accepted time 500 0 200000 ∧ ∃ m, ¬ (r.state m).NoneDiscarded := by
  have h0 : BeforePost 0 [] (System.init () 0) := by
    refine ⟨.init 0, ⟨rfl, rfl, rfl, fun id t ht => ?_, fun i hi => by omega⟩, ⟨by decide, fun t ht => by cases ht⟩, rfl, ?_, rfl, rfl, rfl⟩
    · have ht : (∅ : Std.ExtTreeMap Id Tree)[id]? = some t := ht
      simp at ht
    · rintro (⟨c, hc, _⟩ | hx | hx | hx | hx | hx)
      · cases hc
      · exact hx rfl
      · exact hx rfl
      · exact hx ⟨rfl, rfl, by decide⟩
      · exact hx rfl
      · exact hx rfl
  obtain ⟨r, time, hp, _, e2, _, hm⟩ := ends_ready 80 0 [] _ rfl (by decide) h0
  exact ⟨r, time, hp.once.clock, hp.once.sinkClock, hp.once.collectorClock, hp.once.ticks, hp.once.works, hp.once.sinkTicks, fun n hb => by
    obtain ⟨m, h1, h2, h3⟩ := hp.once.sends n hb
    exact ⟨m, h1, by tomega, h3⟩, e2, hp.atMost, hm⟩

section
variable {κ : Type} {conv : κ → Span → Option Span × κ} {k : κ} {r : Execution conv k} {time : Nat → Time}

/-- C150, partial: nothing is discarded if at most 4000 spans are posted in every period of 40 seconds and the delays on the way, and in longer ones at most one more for each `every`. For larger loads see
`C150_even_partial` and `C150_burst`. -/
theorem C150_posted_partial (hc : r.Clock time) (hk : r.SinkClock time) {period delay limit every : Time} (ht : r.CollectorTicks time period) (hd : r.Responsive time delay) (h0 : 0 ≤ limit) (hev : 0 < every)
    (hle : limit * (5400000000 + 2000 * every) < 3600000000000 * every) (hl : r.SendsIn time limit) (hi : r.outcomes 0 = [])
    (hf : AtMost r.accepted time 4000 (40000000001 + period + delay + delay) every) (m : Nat) : (r.state m).NoneDiscarded :=
  C129_load hc hk ht hd h0 hev hle hl (received_none hi) (C149_arrivals hc hd hev hi hf) m

end

end Verif
