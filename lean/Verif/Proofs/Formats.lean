import Verif.Spec.Formats
import Verif.Proofs.Convert
import Verif.Proofs.Observe
import Verif.Props.Convert

/-!
# The spans that are made of the same facts
-/

namespace Verif

open Spec Std

theorem last?_only {α β : Type} {p : α → Bool} {l : List α} {g : α → β} {b : β} (h : ∃ a ∈ l, p a) (hb : ∀ a ∈ l, p a → g a = b) : (last? p l).map g = some b := by
  unfold last?
  obtain ⟨a, ha, hp⟩ := h
  have hm : a ∈ l.filter p := List.mem_filter.mpr ⟨ha, hp⟩
  have hne : l.filter p ≠ [] := List.ne_nil_of_mem hm
  rw [List.getLast?_eq_some_getLast hne, Option.map_some]
  have := List.mem_filter.mp (List.getLast_mem hne)
  rw [hb _ this.1 this.2]

theorem last?_none {α : Type} {p : α → Bool} {l : List α} (h : ∀ a ∈ l, ¬ p a) : last? p l = none := by
  unfold last?
  rw [List.filter_eq_nil_iff.mpr h]
  rfl

/-- Everything but the name of the format. -/
structure Shown (f : Facts) (s : Span) : Prop where
  id : s.id = f.id
  trace : s.trace = f.trace
  parent : s.parent = f.parent
  name : s.name = f.name
  service : s.service = f.service
  timestamp : s.timestamp = nanos f.start
  duration : s.duration = nanos f.duration
  timings : s.timings = match f.role with
    | .client => { CS := nanos f.start, CR := nanos f.start + nanos f.duration }
    | .server => { SR := nanos f.start, SS := nanos f.start + nanos f.duration }
    | .neither => {}
  tag : ∀ key, key ≠ b!"protocolVersion" → s.tag key = f.tag key

theorem shown_same {f : Facts} {s t : Span} (h : Shown f s) (h' : Shown f t) : SameTo anyFormat s t :=
  ⟨h.id.trans h'.id.symm, h.parent.trans h'.parent.symm, h.trace.trans h'.trace.symm, by rw [h.timings, h'.timings],
    fun _ => h.timestamp.trans h'.timestamp.symm, fun _ => h.duration.trans h'.duration.symm, fun _ => h.timings.trans h'.timings.symm, fun _ => h.name.trans h'.name.symm, fun _ => h.service.trans h'.service.symm, fun key hk => (h.tag key hk).trans (h'.tag key hk).symm⟩

section
variable {f : Facts}

theorem timed_pos {us : UInt64} (h : us ≠ 0) (hb : 1000 * us.toNat < 2 ^ 63) : 0 < nanos us := by
  have h0 : us.toNat ≠ 0 := fun e => h (UInt64.toNat_inj.mp (by rw [e]; rfl))
  rw [Int64.lt_iff_toInt_lt, C66_exact us (by omega)]
  have : (0 : Int64).toInt = 0 := by decide
  omega

theorem timed_start (h : f.Timed) : 0 < nanos f.start := timed_pos h.start (by have := h.stop; omega)

theorem timed_duration (h : f.Timed) : orMillisecond (nanos f.duration) = nanos f.duration := by
  have hp := timed_pos h.duration (by have := h.stop; omega)
  unfold orMillisecond
  rw [if_neg]
  intro e
  rw [e] at hp
  exact absurd hp (by decide)

theorem nanos_sum (h : f.Timed) : nanos (f.start + f.duration) = nanos f.start + nanos f.duration := by
  have hs := h.stop
  have e : (f.start + f.duration).toNat = f.start.toNat + f.duration.toNat := by
    rw [UInt64.toNat_add, Nat.mod_eq_of_lt (by omega)]
  rw [← Int64.toInt_inj, C66_exact _ (by omega), Int64.toInt_add, C66_exact _ (by omega), C66_exact _ (by omega), e, Int.bmod_eq_of_le (by omega) (by omega)]
  omega

theorem timed_stop (h : f.Timed) : 0 < nanos (f.start + f.duration) := by
  have hs := h.stop
  have e : (f.start + f.duration).toNat = f.start.toNat + f.duration.toNat := by
    rw [UInt64.toNat_add, Nat.mod_eq_of_lt (by omega)]
  have h0 : f.start.toNat ≠ 0 := fun e => h.start (UInt64.toNat_inj.mp (by rw [e]; rfl))
  exact timed_pos (fun e' => by rw [e'] at e; have : (0 : UInt64).toNat = 0 := rfl; omega) (by omega)

theorem nonzero_stop (h : f.Timed) : f.start + f.duration ≠ 0 := by
  intro e
  have := timed_stop h
  rw [e] at this
  exact absurd this (by decide)

/-- The times and timings that a kind gives. -/
theorem kind_timings {kind : Str} {s : Span} (hr : RoleWord f.role kind)
    (c1 : KindClient kind → s.timings.CS = s.timestamp ∧ s.timings.CR = s.timestamp + s.duration)
    (c2 : ¬ KindClient kind → s.timings.CS = 0 ∧ s.timings.CR = 0)
    (s1 : KindServer kind → s.timings.SR = s.timestamp ∧ s.timings.SS = s.timestamp + s.duration)
    (s2 : ¬ KindServer kind → s.timings.SR = 0 ∧ s.timings.SS = 0) :
    s.timings = match f.role with
    | .client => { CS := s.timestamp, CR := s.timestamp + s.duration }
    | .server => { SR := s.timestamp, SS := s.timestamp + s.duration }
    | .neither => {} := by
  unfold RoleWord at hr
  cases hrole : f.role <;> rw [hrole] at hr <;> dsimp only at hr ⊢
  · have hn : ¬ KindServer kind := fun h => C30_one_kind kind ⟨hr, h⟩
    obtain ⟨a, b⟩ := c1 hr
    obtain ⟨c, d⟩ := s2 hn
    ext1
    · exact a
    · exact b
    · exact d
    · exact c
  · have hn : ¬ KindClient kind := fun h => C30_one_kind kind ⟨h, hr⟩
    obtain ⟨a, b⟩ := c2 hn
    obtain ⟨c, d⟩ := s1 hr
    ext1
    · exact a
    · exact b
    · exact d
    · exact c
  · obtain ⟨a, b⟩ := c2 hr.1
    obtain ⟨c, d⟩ := s2 hr.2
    ext1
    · exact a
    · exact b
    · exact d
    · exact c

theorem shown_v2 (hf : f.Timed) {v : SpanV2} (h : InV2 f v) : Shown f v.toSpan := by
  obtain ⟨h1, h2, h3, h4, h5, _, h7, h8, h9, h10, h11, h12, h13⟩ := toSpanV2_spec v
  have ht : v.toSpan.timestamp = nanos f.start := by rw [h8, h.timestamp]
  have hd : v.toSpan.duration = nanos f.duration := by rw [h9, h.duration, timed_duration hf]
  refine ⟨h1.trans h.id, h2.trans h.trace, h3.trans h.parent, h4.trans h.name, h5.trans h.service, ht, hd, ?_, ?_⟩
  · rw [kind_timings h.role h10 h11 h12 h13, ht, hd]
  · intro key hk
    rw [h7, if_neg hk, h.tag key hk]

theorem shown_jaeger (hf : f.Timed) {v : JaegerSpan} {procs : TagMap} (h : InJaeger f procs v) : Shown f (v.toSpan procs) := by
  obtain ⟨h1, h2, h3, h4, h5, _, h7, h8, h9, h10, h11, h12, h13⟩ := toSpanJaeger_spec v procs
  have ht : (v.toSpan procs).timestamp = nanos f.start := by rw [h8, h.timestamp]
  have hd : (v.toSpan procs).duration = nanos f.duration := by rw [h9, h.duration, timed_duration hf]
  refine ⟨h1.trans h.id, h2.trans h.trace, ?_, h4.trans h.name, ?_, ht, hd, ?_, ?_⟩
  · rw [h3]
    unfold parentJaeger
    rw [h.parent]
    rfl
  · rw [h5, h.service]
    rfl
  · rw [kind_timings h.role h10 h11 h12 h13, ht, hd]
  · intro key hk
    rw [h7]
    unfold tagJaegerSpan
    rw [if_neg hk]
    by_cases hs : key = b!"span.kind" ∨ key = b!"internal.span.format" ∨ key = b!"component"
    · rw [if_pos hs]
      rcases hs with rfl | rfl | rfl
      · exact h.free.1.symm
      · exact h.free.2.2.symm
      · exact h.free.2.1.symm
    · rw [if_neg hs]
      rw [← h.tag key hk (fun e => hs (.inl e)) (fun e => hs (.inr (.inl e)))]
      have hc : ∀ t ∈ stringTags v, t.1 ≠ b!"component" := by
        intro t ht e
        have hx := h.tag b!"component" (by decide) (by decide) (by decide)
        rw [h.free.2.1] at hx
        unfold last? at hx
        have hm : t ∈ (stringTags v).filter (fun t => t.1 = b!"component") := List.mem_filter.mpr ⟨ht, by simpa using e⟩
        rw [List.getLast?_eq_some_getLast (List.ne_nil_of_mem hm)] at hx
        cases hx
      have : (stringTags v).filter (fun t => decide (t.1 = key ∨ (key = b!"lc" ∧ t.1 = b!"component"))) = (stringTags v).filter (fun t => decide (t.1 = key)) := by
        apply List.filter_congr
        intro t ht
        simp [hc t ht]
      unfold last?
      rw [this]

theorem timing_at {v : SpanV1} {value : Str} {time : UInt64} (ht : time ≠ 0) (h : Annotated v value time) : timingV1 v value = nanos time := by
  unfold timingV1
  rw [last?_only (b := nanos time)]
  · rfl
  · obtain ⟨⟨a, ha, hv, htm⟩, _⟩ := h
    refine ⟨a, List.mem_filter.mpr ⟨ha, ?_⟩, ?_⟩
    · rw [htm]; simpa using ht
    · simpa using hv
  · intro a ha hv
    obtain ⟨ha, h0⟩ := List.mem_filter.mp ha
    rw [h.2 a ha (by simpa using h0) (by simpa using hv)]

theorem timing_none {v : SpanV1} {value : Str} (h : Unannotated v value) : timingV1 v value = 0 := by
  unfold timingV1
  rw [last?_none]
  · rfl
  · intro a ha hv
    obtain ⟨ha, h0⟩ := List.mem_filter.mp ha
    exact h a ha (by simpa using h0) (by simpa using hv)

theorem shown_v1 (hf : f.Timed) {v : SpanV1} (h : InV1 f v) : Shown f v.toSpan := by
  obtain ⟨h1, h2, h3, h4, h5, _, h7, h8, h9, h10⟩ := toSpanV1_spec v
  have tags : ∀ key, key ≠ b!"protocolVersion" → v.toSpan.tag key = f.tag key := by
    intro key hk
    rw [h7]
    unfold tagV1
    rw [if_neg hk, h.tag key hk]
  have service : v.toSpan.service = f.service := by
    rw [h5]
    unfold serviceV1
    obtain ⟨a, b⟩ := h.service
    revert a b
    generalize ((timed v).map (fun a => a.endpoint.serviceName) ++ v.binaryAnnotations.elems.map (fun a => a.endpoint.serviceName)) = named
    intro a b
    cases hfind : named.find? (· ≠ []) with
    | none =>
      have hall := List.find?_eq_none.mp hfind
      show [] = f.service
      by_cases hs : f.service = []
      · exact hs.symm
      · exact absurd (by simpa using hs) (hall _ (b hs))
    | some n =>
      have hn := List.find?_some hfind
      rcases a n (List.mem_of_find?_eq_some hfind) with e | e
      · simp [e] at hn
      · exact e
  have pos := timed_start hf
  have pos' := timed_stop hf
  have sum := nanos_sum hf
  have no : ¬ (0 : Int64) < 0 := by decide
  have hsub : nanos f.start + nanos f.duration - nanos f.start = nanos f.duration := by
    rw [Int64.add_comm, Int64.add_sub_cancel]
  have hrole := h.role
  cases hr : f.role <;> rw [hr] at hrole <;> dsimp only at hrole
  · obtain ⟨a, b, c, d⟩ := hrole
    rw [timing_at hf.start a, timing_at (nonzero_stop hf) b, timing_none c, timing_none d] at h8 h10
    rw [timing_at hf.start a, timing_at (nonzero_stop hf) b, timing_none c, timing_none d] at h9
    rw [if_pos ⟨pos, pos'⟩] at h9 h10
    refine ⟨h1.trans h.id, h2.trans h.trace, h3.trans h.parent, h4.trans h.name, service, h9, ?_, ?_, tags⟩
    · rw [h10, sum, hsub, timed_duration hf]
    · rw [h8, sum, hr]
  · obtain ⟨a, b, c, d⟩ := hrole
    rw [timing_at hf.start a, timing_at (nonzero_stop hf) b, timing_none c, timing_none d] at h8 h9 h10
    rw [if_neg (fun x => no x.1), if_pos ⟨pos, pos'⟩] at h9 h10
    refine ⟨h1.trans h.id, h2.trans h.trace, h3.trans h.parent, h4.trans h.name, service, h9, ?_, ?_, tags⟩
    · rw [h10, sum, hsub, timed_duration hf]
    · rw [h8, sum, hr]
  · obtain ⟨a, b, c, d⟩ := hrole
    rw [timing_none a, timing_none b, timing_none c, timing_none d] at h8 h9 h10
    rw [if_neg (fun x => no x.1), if_neg (fun x => no x.1)] at h9 h10
    refine ⟨h1.trans h.id, h2.trans h.trace, h3.trans h.parent, h4.trans h.name, service, ?_, ?_, ?_, tags⟩
    · rw [h9, h.timestamp]
    · rw [h10, h.duration, timed_duration hf]
    · rw [h8, hr]

theorem shown {s : Span} (hf : f.Timed) (h : WrittenAs f s) : Shown f s := by
  cases h with
  | v1 h => exact shown_v1 hf h
  | v2 h => exact shown_v2 hf h
  | jaeger h => exact shown_jaeger hf h

end

end Verif
