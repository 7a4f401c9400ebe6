import Verif.Spec.Intact
import Verif.Props.FairSender
import Verif.Props.Account
import Verif.Props.Shape
import Verif.Props.Together

/-!
# C102: A healthy trace gets to Datadog as it is
-/

namespace Verif

open Spec

section general

variable {κ : Type} {conv : κ → Span → Option Span × κ} {k : κ}

/-- What happens to the collector in an execution. -/
theorem Execution.runs (r : Execution conv k) {n m : Nat} (hm : n ≤ m) : ∃ es, Runs (r.state n).world es (r.state m).world := by
  induction hm with
  | refl => exact ⟨[], .nil⟩
  | @step m hm ih =>
    obtain ⟨es, hes⟩ := ih
    have h := r.next m
    show ∃ es, Runs (r.state n).world es (r.state (m + 1)).world
    generalize r.state m = s at h hes
    generalize r.state (m + 1) = s' at h
    generalize r.outcomes m = o at h
    generalize r.outcomes (m + 1) = o' at h
    cases h with
    | step h =>
      cases h with
      | collect now1 now2 a b c d => exact ⟨_, .receive now1 now2 _ hes c d⟩
      | _ => exact ⟨es, hes⟩
    | event h =>
      cases h with
      | tick i ho hv hc => exact ⟨_, .tick i hes hv hc⟩
      | _ => exact ⟨es, hes⟩
    | request o => exact ⟨es, hes⟩
    | stay => exact ⟨es, hes⟩

end general

theorem example_convertAll (u : Unit) (l : List Span) : (convertAll plainConverter u l).1 = l.filter fun s => s.id ≠ 0 ∧ s.trace ≠ 0 := by
  induction l generalizing u with
  | nil => rfl
  | cons s l ih =>
    unfold convertAll
    dsimp only [plainConverter]
    rw [ih, Option.toList_some]
    exact (List.filter_append (l₁ := [s]) l).symm

theorem example_convertTraces (u : Unit) (l : List (List Span)) : convertTraces plainConverter u l = l.map fun t => t.filter fun s => s.id ≠ 0 ∧ s.trace ≠ 0 := by
  induction l generalizing u with
  | nil => rfl
  | cons t l ih =>
    unfold convertTraces
    rw [ih, List.map_cons, example_convertAll]

/-- The spans of a trace among all that was finished. -/
theorem emitted_for {w : World} (hw : Reachable w) (k : Id) :
    (emittedOf w.removed).flatten.filter (fun s => s.trace = k) = (emittedOf (w.removed.filter fun r => r.id == k)).flatten := by
  have : ∀ l : List Removal, (∀ r ∈ l, r ∈ w.removed) → (emittedOf l).flatten.filter (fun s => s.trace = k) = (emittedOf (l.filter fun r => r.id == k)).flatten := by
    intro l
    induction l with
    | nil => intro _; rfl
    | cons r l ih =>
      intro hl
      have ih := ih fun r hr => hl r (List.mem_cons_of_mem _ hr)
      have e1 : emittedOf (r :: l) = emittedOf [r] ++ emittedOf l := emittedOf_append [r] l
      have e2 : (emittedOf [r]).flatten.filter (fun s => decide (s.trace = k)) = if r.id = k then (emittedOf [r]).flatten else [] := by
        cases hf : r.fate with
        | emitted out =>
          have he : emittedOf [r] = [out] := by simp [emittedOf, hf]
          obtain ⟨_, _, htr, _⟩ := C45_emitted_traces hw (hl r List.mem_cons_self) hf
          rw [he, List.flatten_singleton]
          by_cases hk : r.id = k
          · rw [if_pos hk]
            exact List.filter_eq_self.mpr fun s hs => decide_eq_true ((htr s hs).trans hk)
          · rw [if_neg hk]
            exact List.filter_eq_nil_iff.mpr fun s hs => by simp [htr s hs, hk]
        | _ =>
          have he : emittedOf [r] = [] := by simp [emittedOf, hf]
          rw [he]; simp
      rw [e1, List.flatten_append, List.filter_append, ih, e2, List.filter_cons]
      by_cases hk : r.id = k
      · rw [if_pos hk, if_pos (by simpa using hk), show r :: l.filter (fun r => r.id == k) = [r] ++ l.filter (fun r => r.id == k) from rfl, emittedOf_append, List.flatten_append]
      · rw [if_neg hk, if_neg (by simpa using hk), List.nil_append]
  exact this _ fun _ h => h

/-! ## The trace is not changed -/

theorem held_of_distinct {l : List Span} (h : (l.map Span.id).Nodup) {id : Id} {x : Span} : held id l = some x ↔ ∃ s ∈ l, s.id = id ∧ s.withTags = x := by
  have key : ∀ s ∈ l, l.filter (fun q => q.id == s.id) = [s] := by
    intro s hs
    induction l with
    | nil => cases hs
    | cons a l ih =>
      rw [List.map_cons, List.nodup_cons] at h
      rw [List.filter_cons]
      rcases List.mem_cons.mp hs with rfl | hs
      · rw [if_pos (by simp), List.filter_eq_nil_iff.mpr]
        intro q hq
        simp only [beq_iff_eq]
        intro e
        exact h.1 (by rw [← e]; exact List.mem_map_of_mem hq)
      · rw [if_neg, ih h.2 hs]
        simp only [beq_iff_eq]
        intro e
        exact h.1 (by rw [e]; exact List.mem_map_of_mem hs)
  constructor
  · intro hh
    unfold held at hh
    split at hh
    · cases hh
    · rename_i s rest hf
      have hs : s ∈ l.filter (fun q => q.id == id) := by rw [hf]; exact List.mem_cons_self
      obtain ⟨hs, he⟩ := List.mem_filter.mp hs
      have he := eq_of_beq he
      have := key s hs
      rw [he, hf] at this
      simp only [List.cons.injEq, true_and] at this
      subst this
      exact ⟨s, hs, he, by simpa using hh⟩
  · rintro ⟨s, hs, rfl, rfl⟩
    unfold held
    rw [key s hs]
    rfl

theorem perm_of_held {clock : Time} {k : Id} {t : Tree} (h : TreeOk clock k t) {l : List Span} (hm : t.members = l) (hn : (l.map Span.id).Nodup) :
    (t.spans.map Span.withTags).Perm (l.map Span.withTags) := by
  have h1 : (t.spans.map Span.withTags).Nodup := by
    have := sortedDesc_ids h.inv.sorted
    rw [show t.spans.map Span.id = (t.spans.map Span.withTags).map Span.id by rw [List.map_map]; rfl] at this
    exact List.Pairwise.of_map Span.id (fun a b hab e => hab (by rw [e])) this
  have h2 : (l.map Span.withTags).Nodup := by
    rw [show l.map Span.id = (l.map Span.withTags).map Span.id by rw [List.map_map]; rfl] at hn
    exact List.Pairwise.of_map Span.id (fun a b hab e => hab (by rw [e])) hn
  refine (List.perm_ext_iff_of_nodup h1 h2).mpr fun x => ?_
  rw [mem_spans_iff h x, hm]
  have hn' : (l.map Span.id).Nodup := hn
  constructor
  · rintro ⟨id, hx⟩
    obtain ⟨s, hs, _, rfl⟩ := (held_of_distinct hn').mp hx
    exact List.mem_map_of_mem hs
  · intro hx
    obtain ⟨s, hs, rfl⟩ := List.mem_map.mp hx
    exact ⟨s.id, (held_of_distinct hn').mpr ⟨s, hs, rfl, rfl⟩⟩

/-- Being healthy does not depend on order, nor on whether there is a map for no tags. -/
theorem Healthy.of_perm {k : Id} {l l' : List Span} (h : Healthy k l) (hp : (l'.map Span.withTags).Perm (l.map Span.withTags)) : Healthy k l' := by
  have back : ∀ s ∈ l', ∃ q ∈ l, q.withTags = s.withTags := fun s hs => List.mem_map.mp (hp.subset (List.mem_map_of_mem hs))
  have forth : ∀ s ∈ l, ∃ q ∈ l', q.withTags = s.withTags := fun s hs => List.mem_map.mp (hp.symm.subset (List.mem_map_of_mem hs))
  have hid : ∀ {q s : Span}, q.withTags = s.withTags → q.id = s.id := fun e => by have := congrArg Span.id e; exact this
  have hpa : ∀ {q s : Span}, q.withTags = s.withTags → q.parent = s.parent := fun e => by have := congrArg Span.parent e; exact this
  have htr : ∀ {q s : Span}, q.withTags = s.withTags → q.trace = s.trace := fun e => by have := congrArg Span.trace e; exact this
  have hts : ∀ {q s : Span}, q.withTags = s.withTags → q.timestamp = s.timestamp := fun e => by have := congrArg Span.timestamp e; exact this
  have hdu : ∀ {q s : Span}, q.withTags = s.withTags → q.duration = s.duration := fun e => by have := congrArg Span.duration e; exact this
  have hti : ∀ {q s : Span}, q.withTags = s.withTags → q.timings = s.timings := fun e => by have := congrArg Span.timings e; exact this
  have hids : (l'.map Span.id).Perm (l.map Span.id) := by
    have := hp.map Span.id
    rwa [List.map_map, List.map_map] at this
  have hnd : (l'.map Span.id).Nodup := hids.nodup_iff.mpr h.ids
  have rootOf : ∀ {q s : Span}, q ∈ l' → q.withTags = s.withTags → IsRootOf l s → IsRootOf l' q := by
    rintro q s hq e ⟨_, h2⟩
    refine ⟨hq, ?_⟩
    rw [hid e, hpa e]
    refine h2.imp_right fun h2 p hp' => ?_
    obtain ⟨p', hp', e'⟩ := back p hp'
    rw [← hid e']
    exact h2 p' hp'
  have rootOf' : ∀ {q s : Span}, s ∈ l → q.withTags = s.withTags → IsRootOf l' q → IsRootOf l s := by
    rintro q s hs e ⟨_, h2⟩
    refine ⟨hs, ?_⟩
    rw [← hid e, ← hpa e]
    refine h2.imp_right fun h2 p hp' => ?_
    obtain ⟨p', hp', e'⟩ := forth p hp'
    rw [← hid e']
    exact h2 p' hp'
  refine ⟨h.some, fun s hs => ?_, hnd, ?_, ?_, fun s hs => ?_, fun s hs => ?_⟩
  · obtain ⟨q, hq, e⟩ := back s hs
    rw [← htr e, ← hid e]; exact h.trace q hq
  · have := hp.length_eq
    rw [List.length_map, List.length_map] at this
    rw [this]; exact h.few
  · obtain ⟨r, hr, hu⟩ := h.root
    obtain ⟨r', hr', e⟩ := forth r hr.1
    refine ⟨r', rootOf hr' e hr, fun q hq => ?_⟩
    obtain ⟨q', hq', e'⟩ := back q hq.1
    have := hu q' (rootOf' hq' e'.symm hq)
    subst this
    exact mem_eq_of_id hnd hq.1 hr' ((hid e').symm.trans (hid e).symm)
  · obtain ⟨q, hq, e⟩ := back s hs
    rw [← hts e]; exact h.recent q hq
  · obtain ⟨q, hq, e⟩ := back s hs
    have hall : HasAllTimings q ↔ HasAllTimings s := by unfold HasAllTimings; rw [hti e]
    have hskew : skew q = skew s := by
      unfold skew
      by_cases ha : HasAllTimings s
      · rw [if_pos ha, if_pos (hall.mpr ha), hti e]
      · rw [if_neg ha, if_neg fun h => ha (hall.mp h)]
    have := h.agree q hq
    rw [hskew, hti e, hts e, hdu e] at this
    exact fun ha => this (hall.mpr ha)

/-- Where clocks agree, and start times are from 2020 on, there is nothing to correct. -/
theorem steady_corrected {l : List Span} (recent : ∀ s ∈ l, year2020 ≤ s.timestamp)
    (agree : ∀ s ∈ l, HasAllTimings s → s.timings.CS = s.timestamp ∧ s.timings.CR - s.timings.CS = s.duration ∧ skew s = 0) {r : Span} (hr : r ∈ l) {anc : List Span} {s : Span} (hp : Path l r anc s) : s ∈ l ∧ corrected anc s = s := by
  have key : ∀ {anc s}, Path l r anc s → s ∈ l ∧ shift anc = 0 ∧ start anc s = s.timestamp := by
    intro anc s hp
    induction hp with
    | root =>
      refine ⟨hr, rfl, ?_⟩
      unfold start shiftedStart
      rw [show shift [] = 0 from rfl, Int64.add_zero]
      by_cases ha : HasAllTimings r
      · rw [if_pos ha]; exact (agree r hr ha).1
      · rw [if_neg ha]
    | @child anc p c _ hc _ _ ih =>
      have hs : shift (p :: anc) = 0 := by
        show shift anc + skew p = 0
        rw [ih.2.1, Int64.zero_add]
        by_cases ha : HasAllTimings p
        · exact (agree p ih.1 ha).2.2
        · unfold skew; rw [if_neg ha]
      refine ⟨hc, hs, ?_⟩
      have e : shiftedStart (p :: anc) c = c.timestamp := by
        unfold shiftedStart
        rw [hs, Int64.add_zero]
        by_cases ha : HasAllTimings c
        · rw [if_pos ha]; exact (agree c hc ha).1
        · rw [if_neg ha]
      unfold start
      rw [e, if_neg]
      exact Int64.not_lt.mpr (recent c hc)
  obtain ⟨hs, _, h2⟩ := key hp
  refine ⟨hs, ?_⟩
  unfold Spec.corrected
  rw [h2]
  by_cases ha : HasAllTimings s
  · rw [if_pos ha, (agree s hs ha).2.1]
  · rw [if_neg ha]

theorem healthy_corrected {k : Id} {l : List Span} (h : Healthy k l) {r : Span} (hr : r ∈ l) {anc : List Span} {s : Span} (hp : Path l r anc s) : s ∈ l ∧ corrected anc s = s :=
  steady_corrected h.recent h.agree hr hp

/-- … so that what is emitted is what there was. -/
theorem steady_output {base out : List Span} (recent : ∀ s ∈ base, year2020 ≤ s.timestamp)
    (agree : ∀ s ∈ base, HasAllTimings s → s.timings.CS = s.timestamp ∧ s.timings.CR - s.timings.CS = s.duration ∧ skew s = 0) {r : Span} (hr : r ∈ base)
    (hcor : Corrected base r out) : out = base := by
  obtain ⟨hlen, hcor⟩ := hcor
  refine List.ext_getElem? fun j => ?_
  cases hs : base[j]? with
  | none => rw [List.getElem?_eq_none_iff] at hs ⊢; omega
  | some s =>
    by_cases hp : ∃ anc, Path base r anc s
    · obtain ⟨anc, hp⟩ := hp
      rw [(hcor j s hs).1 anc hp, (steady_corrected recent agree hr hp).2]
    · exact (hcor j s hs).2 fun anc ha => hp ⟨anc, ha⟩

/-- A healthy trace is finished as it is. -/
theorem Healthy.finished {k : Id} {l out : List Span} (h : Healthy k l) (hf : Finished k l out) : out = l := by
  obtain ⟨base, r, hrep, hroot, hlen, hcor⟩ := hf
  have hb : base = l := by
    rcases hrep with ⟨p, _, ⟨⟨a, b, ha, hb, hne⟩, _⟩, _⟩ | ⟨_, hb⟩
    · obtain ⟨r', _, hu⟩ := h.root
      exact absurd (by rw [hu a ha, hu b hb]) hne
    · exact hb
  subst hb
  exact steady_output h.recent h.agree hroot.1.1 ⟨hlen, hcor⟩

theorem toUInt64_inj {a b : Id} (h : a.toUInt64 = b.toUInt64) : a = b := by
  have := congrArg UInt64.toInt64 h
  simpa using this

variable {r : Execution plainConverter ()}

/-- What was sent of a trace is what the sink received of it. -/
theorem sent_trace {k : Id} {m : Nat} {out : List Span} (hf : List.Sublist ((r.state m).sink.received.flatten.filter (fun s => s.trace = k)) out) :
    List.Subperm ((r.state m).sent.flatten.flatten.filter fun d => d.traceID = k.toUInt64) (out.map toDatadog) := by
  obtain ⟨chunks, cur, hacc, hp⟩ := C92_account (r.reach m)
  have hsub : List.Sublist ((keptChunks chunks (r.state m).sink.log).take (r.state m).sent.length).flatten (r.state m).sink.received.flatten := by
    obtain ⟨groups, rest, e1, e2, _⟩ := hacc.part.whole
    rw [e1, List.flatten_append, List.flatten_flatten, ← e2]
    refine List.Sublist.trans ?_ (List.sublist_append_left _ _)
    have flat : ∀ {l l' : List (List Span)}, List.Sublist l l' → List.Sublist l.flatten l'.flatten := fun h => by
      induction h with
      | slnil => exact List.Sublist.refl _
      | cons a _ ih => exact ih.trans (List.sublist_append_right _ _)
      | cons_cons a _ ih => exact List.Sublist.append (List.Sublist.refl _) ih
    refine flat ((List.take_sublist _ _).trans ?_)
    unfold keptChunks
    have : List.Sublist (((chunks.zip (r.state m).sink.log).filter (·.2.1)).map (·.1)) ((chunks.zip (r.state m).sink.log).map (·.1)) := List.filter_sublist.map _
    refine this.trans ?_
    rw [List.map_fst_zip (Nat.le_of_eq hacc.part.count)]
  have hp' := hp.filter fun d => decide (d.traceID = k.toUInt64)
  refine hp'.subperm.trans ?_
  rw [List.filter_map]
  refine (List.Sublist.map toDatadog ?_).subperm
  refine List.Sublist.trans ?_ hf
  have : ∀ l : List Span, l.filter ((fun d : DDSpan => decide (d.traceID = k.toUInt64)) ∘ toDatadog) = l.filter (fun s => s.trace = k) := fun l =>
    List.filter_congr fun s _ => decide_eq_decide.mpr ⟨fun e => toUInt64_inj e, fun e => by show s.trace.toUInt64 = _; rw [e]⟩
  rw [this]
  exact hsub.filter _

/-- What the sink received of a trace is what was emitted of it. -/
theorem sink_trace (k : Id) (m : Nat) : List.Sublist ((r.state m).sink.received.flatten.filter (fun s => s.trace = k)) (emittedOf ((r.state m).world.removed.filter fun q => q.id == k)).flatten := by
  obtain ⟨x, hx⟩ := (C61_prefix (r.reach m)).1
  rw [example_convertTraces] at hx
  rw [← emitted_for (r.world m) k]
  have s1 : List.Sublist (r.state m).sink.received.flatten ((emittedOf (r.state m).world.removed).map fun t => t.filter fun s => s.id ≠ 0 ∧ s.trace ≠ 0).flatten := by
    rw [← hx, List.flatten_append]
    exact List.sublist_append_left _ _
  rw [← List.filter_flatten] at s1
  exact (s1.trans List.filter_sublist).filter _

/-- A healthy trace whose spans arrive quickly is finished as it is; when all that was finished until then is in batches that were sent or discarded, so are its spans, together. -/
theorem intact_fate {k : Id} {n n1 n2 : Nat} {es fs : List CEvent} {a b : Time} {i : TickInput}
    -- the spans of the trace arrive
    (hfresh : receivedFor k (r.state n).world.received = []) (hrun : Runs (r.state n).world es (r.state n1).world) (hq : Quick k es) (hc : Calm (r.state n).world es)
    (hh : Healthy k (spansOf k es)) (htimes : timesOf k es = some (a, b))
    -- until it is finished, and ever after, no others arrive
    (hn1 : n1 ≤ n2) (hrun' : Runs (r.state n1).world (fs ++ [.tick i]) (r.state n2).world) (hc' : Calm (r.state n1).world (fs ++ [.tick i]))
    (hlate : b + 8000000000 ≤ i.now1) (hby : TicksBy (a + 10000000000) (fs ++ [.tick i]))
    (hlast : ∀ m, receivedFor k (r.state m).world.received <+: spansOf k es) :
    ∃ spans, (spans.map Span.withTags).Perm ((spansOf k es).map Span.withTags) ∧
      (∀ m chunks current, n2 ≤ m → Partition (r.state m).sink chunks current →
        (∀ t ∈ convertTraces plainConverter () (emittedOf (r.state n2).world.removed), t ≠ [] → ∃ (i : Nat) (chunk : List Span), chunks[i]? = some chunk ∧ t <:+: chunk ∧
          ((∃ b, (r.state m).sink.log[i]? = some (false, b)) ∨ ∃ call ∈ (r.state m).sent, Call chunk call)) →
        OneCall (r.state m) spans ∨ InDiscarded (r.state m) spans) ∧
      ∀ m, n2 ≤ m → List.Subperm ((r.state m).sent.flatten.flatten.filter fun d => d.traceID = k.toUInt64) (spans.map toDatadog) := by
  have hw : ∀ n, Reachable (r.state n).world := r.world
  have rec1 : receivedFor k (r.state n1).world.received = spansOf k es := by rw [hrun.received k, hfresh, List.nil_append]
  have none : ∀ {m gs}, Runs (r.state n1).world gs (r.state m).world → spansOf k gs = [] := by
    intro m gs hg
    have := (hlast m).length_le
    rw [hg.received k, rec1, List.length_append] at this
    exact List.eq_nil_of_length_eq_zero (by omega)
  have hno : spansOf k fs = [] := by
    have := none hrun'
    unfold spansOf at this ⊢
    rw [List.filterMap_append] at this
    exact (List.append_eq_nil_iff.mp this).1
  have hids : FewIds (spansOf k es) := ⟨(spansOf k es).map Span.id, by rw [List.length_map]; exact hh.few, fun s hs => List.mem_map_of_mem hs⟩
  obtain ⟨t, htr, hmem, hem⟩ := C86_delivered (hw n) hfresh hrun hq hc hids htimes hrun' hno hc' hlate hby
  have hmem : t.members = spansOf k es := by
    rw [hmem, hrun'.received k, rec1, none hrun', List.append_nil]
  have hok := (reachable_inv (hw n1)).trees k t htr
  have hperm := perm_of_held hok hmem hh.ids
  have hh' := hh.of_perm hperm
  obtain ⟨out, hrem, hout, hfin⟩ := hem (.inl hh'.root)
  have hout' := hh'.finished hfin
  rw [← hout'] at hh' hperm
  have htraced : out.filter (fun s => s.id ≠ 0 ∧ s.trace ≠ 0) = out := List.filter_eq_self.mpr fun s hs => by
    obtain ⟨h1, h2⟩ := hh'.trace s hs
    exact decide_eq_true ⟨h2, by rw [h1]; exact hh.some⟩
  have hne : out ≠ [] := by
    obtain ⟨x, hx, _⟩ := hh'.root
    intro e
    have := hx.1
    rw [e] at this
    cases this
  -- at any later time, nothing else of this trace was finished
  have hfilter : ∀ m, n2 ≤ m → List.Sublist ((r.state m).sink.received.flatten.filter (fun s => s.trace = k)) out := by
    intro m hm
    obtain ⟨gs, hgs⟩ := r.runs (n := n1) (m := m) (by omega)
    have hg := (gathering (hw n) hfresh hrun hq hc hids).removed
    have hremoved : (r.state m).world.removed.filter (fun q => q.id == k) = [⟨k, t, .emitted out⟩] := by
      have hpre := (removed_prefix r hm).filter (fun q => q.id == k)
      rw [hrem] at hpre
      rcases unchanged (hw n1) htr hg hgs (none hgs) with ⟨_, h⟩ | ⟨_, f, h⟩
      · have : (⟨k, t, .emitted out⟩ : Removal) ∈ (r.state m).world.removed.filter (fun q => q.id == k) := hpre.subset (by simp)
        exact absurd rfl (h _ (List.mem_filter.mp this).1)
      · rw [h] at hpre ⊢
        obtain ⟨x, hx⟩ := hpre
        simp only [List.singleton_append, List.cons.injEq] at hx
        rw [hx.1]
    have e1 := sink_trace (r := r) k m
    rw [hremoved, show emittedOf [⟨k, t, .emitted out⟩] = [out] from rfl, List.flatten_singleton] at e1
    exact e1
  refine ⟨out, hperm, ?_, fun m hm => ?_⟩
  · intro m chunks current hm hp hfate
    obtain ⟨j, chunk, hc, hin, hd⟩ := hfate out (by
      rw [example_convertTraces]
      exact List.mem_map.mpr ⟨out, hout, htraced⟩) hne
    rcases hd with ⟨b, hb⟩ | ⟨call, hcall, hcc⟩
    · exact .inr ⟨chunks, current, j, chunk, b, hp, hc, hb, hin⟩
    · left
      have hof : ofTrace k.toUInt64 chunk = out := by
        have e : ∀ l : List Span, ofTrace k.toUInt64 l = l.filter (fun s => s.trace = k) := fun l => by
          unfold ofTrace
          refine List.filter_congr fun s _ => ?_
          exact decide_eq_decide.mpr ⟨toUInt64_inj, fun e => by rw [e]⟩
        have h1 : ofTrace k.toUInt64 out = out := by
          rw [e]
          exact List.filter_eq_self.mpr fun s hs => decide_eq_true (hh'.trace s hs).1
        have h2 : List.Sublist out (ofTrace k.toUInt64 chunk) := by
          rw [← h1]
          exact (hin.sublist).filter _
        have h3 : List.Sublist (ofTrace k.toUInt64 chunk) out := by
          rw [e]
          refine List.Sublist.trans (List.Sublist.filter _ ?_) (hfilter m hm)
          obtain ⟨groups, rest, e1, e2, _⟩ := hp.whole
          rw [e1, List.flatten_append, List.flatten_flatten, ← e2]
          exact (List.sublist_flatten_of_mem (List.mem_of_getElem? hc)).trans (List.sublist_append_left _ _)
        exact h3.antisymm h2
      refine ⟨call, hcall, ?_⟩
      obtain ⟨x, l, hxl⟩ := List.exists_cons_of_ne_nil hne
      have hx : x ∈ chunk := hin.subset (by rw [hxl]; exact List.mem_cons_self)
      obtain ⟨tr, ht1, ht2⟩ := List.mem_flatten.mp (hcc.all.mem_iff.mpr (List.mem_map_of_mem hx))
      obtain ⟨key, _, rfl⟩ := hcc.groups tr ht1
      obtain ⟨y, hy, hxy⟩ := List.mem_map.mp ht2
      have hkey : key = k.toUInt64 := by
        rw [← of_decide_eq_true (List.mem_filter.mp hy).2, (C58_lossless hxy).2.1, (hh'.trace x (by rw [hxl]; exact List.mem_cons_self)).1]
      rw [hkey, hof] at ht1
      exact ht1
  · exact sent_trace (hfilter m hm)

/-- C102: the whole way. In every execution in which nobody is forgotten, a healthy trace whose spans arrive quickly while the collector has no load, is in the end sent to Datadog in one call, as one trace
with exactly these spans, as they were received; or it was in a batch that was discarded because eight others were waiting. No other call, before or after, has a span of it. -/
theorem C102_intact (h : r.Fair) (hs : r.SenderFair) (ht : r.SinkTicks) {k : Id} {n n1 n2 : Nat} {es fs : List CEvent} {a b : Time} {i : TickInput}
    -- the spans of the trace arrive
    (hfresh : receivedFor k (r.state n).world.received = []) (hrun : Runs (r.state n).world es (r.state n1).world) (hq : Quick k es) (hc : Calm (r.state n).world es)
    (hh : Healthy k (spansOf k es)) (htimes : timesOf k es = some (a, b))
    -- until it is finished, and ever after, no others arrive
    (hn1 : n1 ≤ n2) (hrun' : Runs (r.state n1).world (fs ++ [.tick i]) (r.state n2).world) (hc' : Calm (r.state n1).world (fs ++ [.tick i]))
    (hlate : b + 8000000000 ≤ i.now1) (hby : TicksBy (a + 10000000000) (fs ++ [.tick i]))
    (hlast : ∀ m, receivedFor k (r.state m).world.received <+: spansOf k es) :
    ∃ spans, (spans.map Span.withTags).Perm ((spansOf k es).map Span.withTags) ∧
      (∃ m, n2 ≤ m ∧ (OneCall (r.state m) spans ∨ InDiscarded (r.state m) spans)) ∧
      ∀ m, n2 ≤ m → List.Subperm ((r.state m).sent.flatten.flatten.filter fun d => d.traceID = k.toUInt64) (spans.map toDatadog) := by
  obtain ⟨spans, h1, h2, h3⟩ := intact_fate hfresh hrun hq hc hh htimes hn1 hrun' hc' hlate hby hlast
  obtain ⟨m, chunks, current, hm, hp, hfate⟩ := C101_traces h hs ht n2
  exact ⟨spans, h1, ⟨m, hm, h2 m chunks current hm hp hfate⟩, h3⟩

/-- While the sender keeps up, nothing is discarded. -/
theorem nothing_discarded {κ : Type} {conv : κ → Span → Option Span × κ} {k : κ} {r : Execution conv k} (h0 : ∀ e ∈ (r.state 0).sink.log, e.1 = true)
    (hroom : ∀ m, (r.state m).sink.sink.grouped.length < 8) (m : Nat) : ∀ e ∈ (r.state m).sink.log, e.1 = true := by
  have flush : ∀ (s : Sink) (f : Bool) (now : Time), s.grouped.length < 8 → ∀ e ∈ (s.flush f now).2.toList, e.1 = true := by
    intro s f now hg e he
    unfold Sink.flush at he
    by_cases h : f = true ∧ s.spanCount > 0
    · rw [if_pos h, if_pos hg] at he
      simp only [Option.toList_some, List.mem_singleton] at he
      rw [he]
    · rw [if_neg h] at he
      simp at he
  have adds : ∀ (l : List Span) (s : Sink), (l.foldl Sink.addSpan s).grouped = s.grouped := by
    intro l
    induction l with
    | nil => intro s; rfl
    | cons x l ih => intro s; rw [List.foldl_cons, ih]; rfl
  induction m with
  | zero => exact h0
  | succ m ih =>
    have h := r.next m
    have hg := hroom m
    generalize r.state m = s at h ih hg
    generalize r.state (m + 1) = s' at h
    generalize r.outcomes m = o at h
    generalize r.outcomes (m + 1) = o' at h
    cases h with
    | step h =>
      cases h with
      | @sinkRead x now hb =>
        intro e he
        rcases List.mem_append.mp he with he | he
        · exact ih e he
        · exact flush _ _ _ (by show (List.foldl Sink.addSpan _ _).grouped.length < 8; rw [adds]; exact hg) e he
      | _ => exact ih
    | event h =>
      cases h with
      | sinkTick since now hb =>
        intro e he
        rcases List.mem_append.mp he with he | he
        · exact ih e he
        · exact flush _ _ _ hg e he
      | _ => exact ih
    | request o => exact ih
    | stay => exact ih

/-- C102: if the sender keeps up, it is sent. -/
theorem C102_sent (h0 : ∀ e ∈ (r.state 0).sink.log, e.1 = true) (hroom : ∀ m, (r.state m).sink.sink.grouped.length < 8) {m : Nat} {spans : List Span}
    (h : OneCall (r.state m) spans ∨ InDiscarded (r.state m) spans) : OneCall (r.state m) spans := by
  rcases h with h | ⟨_, _, i, _, b, _, _, hl, _⟩
  · exact h
  · cases nothing_discarded h0 hroom m _ (List.mem_of_getElem? hl)

/-! ## Witnesses -/

section prepend

variable {κ : Type} {conv : κ → Span → Option Span × κ} {k : κ}

/-- The execution that begins one step before. -/
def Execution.prepend (r : Execution conv k) {o : List Parsed} {s : System κ} (h : System.Reachable conv k o s) (hn : System.Next conv o s (r.outcomes 0) (r.state 0)) : Execution conv k where
  state := fun
    | 0 => s
    | n + 1 => r.state n
  outcomes := fun
    | 0 => o
    | n + 1 => r.outcomes n
  start := h
  next := fun
    | 0 => hn
    | n + 1 => r.next n

variable {r : Execution conv k} {o : List Parsed} {s : System κ} (h : System.Reachable conv k o s) (hn : System.Next conv o s (r.outcomes 0) (r.state 0))

theorem prepend_weak {a : Action} (hw : r.Weak a) : (r.prepend h hn).Weak a := fun n => by
  obtain ⟨m, hm, hh⟩ := hw n
  exact ⟨m + 1, by omega, hh⟩

theorem prepend_strong {a : Action} (hw : r.Strong a) : (r.prepend h hn).Strong a := fun he n => by
  obtain ⟨m, hm, hh⟩ := hw (fun n => by
    obtain ⟨m, hm, he⟩ := he (n + 1)
    obtain ⟨m, rfl⟩ : ∃ m', m = m' + 1 := ⟨m - 1, by omega⟩
    exact ⟨m, by omega, he⟩) n
  exact ⟨m + 1, by omega, hh⟩

theorem prepend_fair (hf : r.Fair) : (r.prepend h hn).Fair :=
  ⟨fun i => prepend_strong h hn (hf.handler i), prepend_strong h hn hf.collect, prepend_weak h hn hf.emit, prepend_weak h hn hf.forward, prepend_weak h hn hf.sinkTake,
    prepend_weak h hn hf.sinkRead, prepend_weak h hn hf.ringTake, prepend_weak h hn hf.ringRead⟩

theorem prepend_sender (hf : r.SenderFair) : (r.prepend h hn).SenderFair := by
  refine ⟨fun n => ?_, fun n => ?_⟩
  · obtain ⟨m, hm, hh⟩ := hf.take n
    exact ⟨m + 1, by omega, hh⟩
  · obtain ⟨m, hm, hh⟩ := hf.send n
    exact ⟨m + 1, by omega, hh⟩

theorem prepend_sinkTicks (hf : r.SinkTicks) : (r.prepend h hn).SinkTicks := fun n T => by
  obtain ⟨m, a, b, hm, hh⟩ := hf n T
  exact ⟨m + 1, a, b, by omega, hh⟩

end prepend

/-- A trace of one span, in 2020. -/
def oneSpan : Span := { id := 7, trace := 9, parent := 7, name := b!"n", service := b!"s", timestamp := 1577836800000000001, duration := 5000 }

theorem oneSpan_healthy : Healthy 9 [oneSpan] := by
  refine ⟨by decide, by decide, by decide, by decide, ⟨oneSpan, ⟨by simp, .inl rfl⟩, fun q hq => by simpa using hq.1⟩, by decide, fun s hs ha => ?_⟩
  rw [List.mem_singleton.mp hs] at ha
  exact absurd ha (by decide)

/-- C102: an execution in which the trace of one span takes the whole way. -/
theorem C102_witness : ∃ (r : Execution plainConverter ()) (es fs : List CEvent) (i : TickInput), r.Fair ∧ r.SenderFair ∧ r.SinkTicks ∧
    receivedFor 9 (r.state 0).world.received = [] ∧ Runs (r.state 0).world es (r.state 1).world ∧ Quick 9 es ∧ Calm (r.state 0).world es ∧
    spansOf 9 es = [oneSpan] ∧ timesOf 9 es = some (0, 0) ∧ Runs (r.state 1).world (fs ++ [.tick i]) (r.state 2).world ∧ Calm (r.state 1).world (fs ++ [.tick i]) ∧
    (0 : Time) + 8000000000 ≤ i.now1 ∧ TicksBy (0 + 10000000000) (fs ++ [.tick i]) ∧ ∀ m, receivedFor 9 (r.state m).world.received <+: [oneSpan] := by
  -- the request has come, and its span waits in the channel
  let s2 : System Unit := { System.init () 0 with http := { conns := [.pushing []], channel := [oneSpan] } }
  have h2 : System.Reachable plainConverter () [.spans [oneSpan]] s2 :=
    .step (.request (.spans [oneSpan]) (.init (k := ()) 0)) (.http (.push (i := 0) (s := oneSpan) (rest := []) _ rfl (by decide)))
  -- the collector receives it
  let s3 : System Unit := { s2 with http := { s2.http with channel := [] }, world := s2.world.receive 0 0 oneSpan }
  have st3 : s2.Step plainConverter s3 := .collect 0 0 rfl rfl (Int.le_refl _) (Int.le_refl _)
  have h3 : System.Reachable plainConverter () [.spans [oneSpan]] s3 := .step h2 st3
  -- a tick after 8 seconds
  obtain ⟨i, hv, hn1, hn2, _⟩ := exists_valid s3.world.c 8000000000 8000000000 (fun _ => 0) (Int.le_refl _)
  have hclock : s3.world.clock ≤ i.now1 := by
    rw [hn1]
    show (0 : Int) ≤ 8000000000
    decide
  let s4 : System Unit := { s3 with world := s3.world.tick i, outbox := emittedOf (s3.world.c.tick i).2 }
  have st4 : s3.Event s4 := .tick i rfl hv hclock
  have h4 : System.Reachable plainConverter () [.spans [oneSpan]] s4 := .event h3 st4
  obtain ⟨r, e1, e2, f1, _, f3, f4⟩ := C101_exists h4
  have n4 : System.Next plainConverter [.spans [oneSpan]] s3 (r.outcomes 0) (r.state 0) := by rw [e1, e2 0]; exact .event st4
  let r1 := r.prepend h3 n4
  have n3 : System.Next plainConverter [.spans [oneSpan]] s2 (r1.outcomes 0) (r1.state 0) := .step st3
  let r2 := r1.prepend h2 n3
  have hout : ∀ m, r2.outcomes m = [.spans [oneSpan]] := by
    intro m
    match m with
    | 0 => rfl
    | 1 => rfl
    | m + 2 => exact e2 m
  have hlast : ∀ m, (r2.state m).world.received <+: [oneSpan] := by
    intro m
    obtain ⟨log, _, _, _, inv⟩ := (r2.reach m).inv
    have h := C33_all_or_nothing inv.http
    rw [hout m] at h
    obtain ⟨a1, a2, a3, a4⟩ := h
    have hlog : log.map (·.2) = pushedBy 0 log := by
      unfold pushedBy
      rw [List.filter_eq_self.mpr]
      intro e he
      have := a3 e he
      simp only [List.length_singleton] at this
      exact decide_eq_true (by omega)
    obtain ⟨c, hc⟩ : ∃ c, (r2.state m).http.conns[0]? = some c := ⟨_, List.getElem?_eq_getElem (by rw [a1]; decide)⟩
    have h0 := a2 0 _ c rfl hc
    have hp : pushedBy 0 log <+: [oneSpan] := by
      generalize pushedBy 0 log = p at h0
      generalize hx : Parsed.spans [oneSpan] = x at h0
      cases h0 with
      | pushing => rw [Parsed.spans.inj hx]; exact List.prefix_append _ _
      | accepted => cases hx; exact List.prefix_rfl
      | _ => cases hx
    rw [← hlog, a4] at hp
    exact (List.prefix_append _ _).trans hp
  have hrec : ∀ {l : List Span}, l <+: [oneSpan] → receivedFor 9 l <+: [oneSpan] := by
    intro l hl
    match l, hl with
    | [], _ => exact List.nil_prefix
    | [x], hl =>
      obtain ⟨t, ht⟩ := hl
      simp only [List.singleton_append, List.cons.injEq] at ht
      rw [ht.1]
      rw [show receivedFor 9 [oneSpan] = [oneSpan] from rfl]
      exact List.prefix_rfl
    | x :: y :: l, hl => have := hl.length_le; simp at this
  have hstate : r2.state 2 = s4 := e1
  refine ⟨r2, [.receive 0 0 oneSpan], [], i, prepend_fair _ _ (prepend_fair _ _ f1), prepend_sender _ _ (prepend_sender _ _ f3), prepend_sinkTicks _ _ (prepend_sinkTicks _ _ f4), rfl,
    ?_, ?_, ?_, rfl, rfl, ?_, ?_, by rw [hn1]; decide, ?_, fun m => hrec (hlast m)⟩
  · exact Runs.receive (es := []) 0 0 oneSpan .nil (Int.le_refl _) (Int.le_refl _)
  · intro pre j a b hp _
    have := hp.length_le
    match pre, hp with
    | [], ⟨t, ht⟩ => simp at ht
    | x :: pre, hp => simp at this
  · intro pre j u hp _
    have := hp.length_le
    match pre, hp with
    | [], ⟨t, ht⟩ => simp at ht
    | x :: pre, hp => simp at this
  · rw [hstate]
    exact Runs.tick (es := []) i .nil hv hclock
  · intro pre j u hp hu
    have hl := hp.length_le
    match pre, hp with
    | [], _ =>
      generalize hes : ([] : List CEvent) = es at hu
      cases hu with
      | nil =>
        show counted (World.receive { clock := 0 } 0 0 oneSpan).c.traces.toList ≤ 100000
        decide +kernel
      | receive _ _ _ _ _ _ => simp at hes
      | tick _ _ _ _ => simp at hes
    | x :: pre, hp => simp at hl
  · intro pre j hp
    have hl := hp.length_le
    match pre, hp with
    | [], ⟨t, ht⟩ =>
      simp at ht
      rw [ht.1, hn2]
      decide
    | x :: pre, hp => simp at hl

/-- It is sent to Datadog in one call. -/
theorem C102_example : ∃ r : Execution plainConverter (), ∃ spans, (spans.map Span.withTags).Perm [oneSpan.withTags] ∧
    ∃ m, 2 ≤ m ∧ (OneCall (r.state m) spans ∨ InDiscarded (r.state m) spans) := by
  obtain ⟨r, es, fs, i, f1, f2, f3, hfresh, hrun, hq, hc, hs, ht, hrun', hc', hlate, hby, hlast⟩ := C102_witness
  obtain ⟨spans, hp, hm, _⟩ := C102_intact f1 f2 f3 hfresh hrun hq hc (by rw [hs]; exact oneSpan_healthy) ht (by decide) hrun' hc' hlate hby (by rw [hs]; exact hlast)
  rw [hs] at hp
  exact ⟨r, spans, hp, hm⟩

end Verif
