import Verif.Proofs.TagHeap
import Verif.Props.Redeliver

/-!
# C85: nobody writes to the tags of another span, or of a span that was sent
-/

namespace Verif

open Spec Std

theorem tagRun_inv {p : World × TagState} (h : TagRun p) : Reachable p.1 ∧ TagInv (pendingSpans p.1.c) (emittedOf p.1.removed) p.2 := by
  induction h with
  | init now =>
    have none : ∀ k id a, ¬ ({} : TagState).Owns k id a := by
      rintro k id a ⟨l, q, h, _⟩
      simp at h
    refine ⟨.init now, ⟨fun k => ?_, fun k l hl => ?_, fun k id a h => absurd h (none _ _ _), fun k id k' id' a h => absurd h (none _ _ _), rfl, (fun l hl => nomatch hl), List.Pairwise.nil⟩⟩
    · simp [pendingSpans]
    · simp [pendingSpans] at hl
  | @step p q _ hs ih =>
    obtain ⟨hw, inv⟩ := ih
    cases hs with
    | receive now1 now2 s ordNew ordClient h1 h2 hon hoc => exact ⟨.receive now1 now2 s hw h1 h2, (inv.receive now1 now2 hon hoc).2.2⟩
    | @tick w st i hv h1 =>
      refine ⟨.tick i hw hv h1, ?_⟩
      obtain ⟨_, _, _, htr, _, _, hnd, hmem⟩ := tick_eq w.c i hv
      have hfin : ∀ r ∈ (w.c.tick i).2, ∀ out, r.fate = .emitted out → Finished r.id r.tree.spans out :=
        fun r hr out ho => ((removed_spec (Reachable.tick i hw hv h1) r (List.mem_append_right _ hr)).2 out ho).1
      obtain ⟨_, _, h3⟩ := inv.removeAll _ hnd (fun r hr => by unfold pendingSpans; rw [hmem r hr]; rfl) hfin
      have e1 : pendingSpans (w.tick i).c = fun k => if (w.c.tick i).2.any (fun r => r.id == k) then none else pendingSpans w.c k := by
        funext k
        show Option.map Tree.spans ((w.c.tick i).1.traces[k]?) = _
        rw [htr]
        split <;> rfl
      have e2 : emittedOf (w.tick i).removed = emittedOf w.removed ++ emittedOf (w.c.tick i).2 := List.filterMap_append
      simp only [e1, e2]
      exact h3

theorem tagStep_frame {p q : World × TagState} (h : TagRun p) (hs : TagStep p q) :
    p.2.delivered <+: q.2.delivered ∧ p.2.heap.length ≤ q.2.heap.length ∧
    ∀ a, a < p.2.heap.length → q.2.heap.getD a {} ≠ p.2.heap.getD a {} → ∃ s, q.1.received = p.1.received ++ [s] ∧ p.2.Owns s.trace s.id a := by
  obtain ⟨hw, inv⟩ := tagRun_inv h
  cases hs with
  | receive now1 now2 s ordNew ordClient h1 h2 hon hoc =>
    obtain ⟨h3, h4, _⟩ := inv.receive now1 now2 hon hoc
    refine ⟨?_, h3, fun a ha hne => ⟨s, rfl, Classical.byContradiction fun hc => hne (h4 a ha hc)⟩⟩
    simp only [TagState.receive]
    split <;> exact List.prefix_rfl
  | @tick w st i hv h1 =>
    obtain ⟨_, _, _, htr, _, _, hnd, hmem⟩ := tick_eq w.c i hv
    have hfin : ∀ r ∈ (w.c.tick i).2, ∀ out, r.fate = .emitted out → Finished r.id r.tree.spans out :=
      fun r hr out ho => ((removed_spec (Reachable.tick i hw hv h1) r (List.mem_append_right _ hr)).2 out ho).1
    obtain ⟨h3, h4, _⟩ := inv.removeAll _ hnd (fun r hr => by unfold pendingSpans; rw [hmem r hr]; rfl) hfin
    refine ⟨h4, ?_, fun a _ hne => absurd ?_ hne⟩
    · show st.heap.length ≤ _
      rw [h3]
    · simp only [h3]

/-- C85: the tags that are seen through the addresses are those of the model that has maps as values, for the pending and for the sent spans. -/
theorem C85_values {w : World} {st : TagState} (h : TagRun (w, st)) :
    (∀ k : Id, (st.pending[k]?).map (List.map (RSpan.read st.heap)) = (w.c.traces[k]?).map Tree.spans) ∧
    st.delivered.map (List.map (RSpan.read st.heap)) = emittedOf w.removed :=
  ⟨(tagRun_inv h).2.value, (tagRun_inv h).2.sent⟩

/-- C85: the map of a span that was sent is never written again. -/
theorem C85_sent {p q : World × TagState} (h : TagRun p) (hs : TagStep p q) {l : List RSpan} (hl : l ∈ p.2.delivered) {s : RSpan} (hsl : s ∈ l) {a : Nat} (ha : s.ref = some a) :
    l ∈ q.2.delivered ∧ ∃ c, p.2.heap[a]? = some c ∧ q.2.heap[a]? = some c := by
  obtain ⟨_, inv⟩ := tagRun_inv h
  obtain ⟨h1, h2, h3⟩ := tagStep_frame h hs
  obtain ⟨hb, hno⟩ := inv.sbound l hl s hsl a ha
  have e : q.2.heap.getD a {} = p.2.heap.getD a {} := Classical.byContradiction fun hc => by
    obtain ⟨x, _, hx⟩ := h3 a hb hc
    exact hno _ _ hx
  refine ⟨h1.subset hl, p.2.heap[a], List.getElem?_eq_getElem hb, ?_⟩
  have hb' : a < q.2.heap.length := Nat.lt_of_lt_of_le hb h2
  rw [List.getD_eq_getElem?_getD, List.getD_eq_getElem?_getD, List.getElem?_eq_getElem hb, List.getElem?_eq_getElem hb'] at e
  rw [List.getElem?_eq_getElem hb']
  exact congrArg some e

/-- C85: the map of a pending span is written only when a span with its trace and its id is received. -/
theorem C85_pending {p q : World × TagState} (h : TagRun p) (hs : TagStep p q) {k : Id} {l : List RSpan} (hl : p.2.pending[k]? = some l) {s : RSpan} (hsl : s ∈ l)
    {a : Nat} (ha : s.ref = some a) (hw : q.2.heap[a]? ≠ p.2.heap[a]?) : ∃ x, q.1.received = p.1.received ++ [x] ∧ x.trace = k ∧ x.id = s.val.id := by
  obtain ⟨_, inv⟩ := tagRun_inv h
  obtain ⟨_, h2, h3⟩ := tagStep_frame h hs
  have own : p.2.Owns k s.val.id a := ⟨l, s, hl, hsl, rfl, ha⟩
  have hb := inv.bound _ _ _ own
  have hb' : a < q.2.heap.length := Nat.lt_of_lt_of_le hb h2
  have hne : q.2.heap.getD a {} ≠ p.2.heap.getD a {} := by
    intro hc
    rw [List.getD_eq_getElem?_getD, List.getD_eq_getElem?_getD, List.getElem?_eq_getElem hb, List.getElem?_eq_getElem hb'] at hc
    rw [List.getElem?_eq_getElem hb, List.getElem?_eq_getElem hb'] at hw
    exact hw (congrArg some hc)
  obtain ⟨x, h4, h5⟩ := h3 a hb hne
  obtain ⟨h6, h7⟩ := inv.unique _ _ _ _ _ h5 own
  exact ⟨x, h4, h6, h7⟩

/-- C85: no two spans that were sent have the same map, not even in different traces; and none has the map of a pending span. -/
theorem C85_single {w : World} {st : TagState} (h : TagRun (w, st)) :
    (st.delivered.flatten.filterMap RSpan.ref).Nodup ∧
    ∀ l ∈ st.delivered, ∀ s ∈ l, ∀ a, s.ref = some a → ∀ (k : Id) (l' : List RSpan) (s' : RSpan), st.pending[k]? = some l' → s' ∈ l' → s'.ref ≠ some a :=
  ⟨(tagRun_inv h).2.single, fun l hl s hs a ha k l' s' hp hs' hc => ((tagRun_inv h).2.sbound l hl s hs a ha).2 k s'.val.id ⟨l', s', hp, hs', rfl, hc⟩⟩

/-- Every history of the collector is a history with maps. -/
theorem tagRun_exists {w : World} (h : Reachable w) : ∃ st, TagRun (w, st) := by
  induction h with
  | init now => exact ⟨_, .init now⟩
  | @receive w now1 now2 s _ h1 h2 ih =>
    obtain ⟨st, hst⟩ := ih
    obtain ⟨_, inv⟩ := tagRun_inv hst
    have : ∃ ordClient, ∀ l q, st.pending[s.trace]? = some l → q ∈ l → q.val.id = s.id → IsRange ordClient ((q.read st.heap).tags.getD ∅) := by
      by_cases he : ∃ l q, st.pending[s.trace]? = some l ∧ q ∈ l ∧ q.val.id = s.id
      · obtain ⟨l, q, hl, hq, hid⟩ := he
        refine ⟨((q.read st.heap).tags.getD ∅).toList, fun l' q' hl' hq' hid' => ?_⟩
        rw [hl] at hl'
        cases hl'
        have hv := inv.value s.trace
        rw [hl] at hv
        have hsort := inv.sorted _ _ hv.symm
        have e : q'.read st.heap = q.read st.heap := mem_eq_of_id (sorted_ids hsort) (List.mem_map_of_mem hq') (List.mem_map_of_mem hq) (hid'.trans hid.symm)
        rw [e]
        exact isRange_refl _
      · exact ⟨[], fun l q hl hq hid => absurd ⟨l, q, hl, hq, hid⟩ he⟩
    obtain ⟨ordClient, hoc⟩ := this
    exact ⟨_, .step hst (.receive now1 now2 s (s.tags.getD ∅).toList ordClient h1 h2 (isRange_refl _) hoc)⟩
  | tick i _ hv h1 ih =>
    obtain ⟨st, hst⟩ := ih
    exact ⟨_, .step hst (.tick i hv h1)⟩

/-! ## Examples -/

private def client : Span := { id := 2, trace := 1, parent := 1, tags := some ((∅ : TagMap).insert b!"a" b!"1"), timings := { CS := 5, CR := 9 } }
private def server : Span := { id := 2, trace := 1, parent := 1, tags := some ((∅ : TagMap).insert b!"b" b!"2"), timings := { SR := 6, SS := 8 } }

/-- A server half is written to the map of the client half; a client half makes a new map. -/
private def twice : TagState := ((({} : TagState).receive {} [(b!"a", b!"1")] [] client).receive {} [(b!"b", b!"2")] [] server)
private def thrice : TagState := twice.receive {} [(b!"a", b!"1")] [(b!"a", b!"1"), (b!"b", b!"2")] client

example : twice.heap.map (·.writes) = [1, 0] ∧ (twice.pending[(1 : Id)]?).map (List.map RSpan.ref) = some [some 0] := by decide +kernel
example : thrice.heap.map (·.writes) = [1, 0, 0, 3] ∧ (thrice.pending[(1 : Id)]?).map (List.map RSpan.ref) = some [some 3] := by decide +kernel

/-- The assumptions can be met, with a trace that was sent and that has tags. -/
example : ∃ p q : World × TagState, TagRun p ∧ TagStep p q ∧ ∃ l ∈ p.2.delivered, ∃ s ∈ l, ∃ a, s.ref = some a := by
  let x : Span := { id := 1, trace := 7, tags := some ((∅ : TagMap).insert b!"a" b!"1") }
  have hm : (gathered 7 (receivedFor 7 [x])).spans.map (fun s => (s.id, s.parent, s.tags.isSome)) = [(1, 0, true)] := by decide +kernel
  obtain ⟨y, hy⟩ : ∃ y, (gathered 7 (receivedFor 7 [x])).spans = [y] := List.length_eq_one_iff.mp (by simpa using congrArg List.length hm)
  rw [hy] at hm
  simp only [List.map_cons, List.map_nil, List.cons.injEq, Prod.mk.injEq, and_true] at hm
  obtain ⟨hid, hp, ht⟩ := hm
  obtain ⟨w, out, hw, hr, hf⟩ := flood_emits [x] 7 (by decide +kernel) (by decide +kernel) (by decide +kernel) (.inl ⟨y, by
    rw [hy]
    exact ⟨⟨by simp, .inr fun q hq => by rw [List.mem_singleton.mp hq, hid, hp]; decide⟩, fun q hq => by simpa using hq.1⟩⟩)
  rw [hy] at hf
  obtain ⟨st, hst⟩ := tagRun_exists hw
  obtain ⟨i, hv, h1, _⟩ := exists_valid w.c w.clock w.clock (fun _ => w.clock) (Int.le_refl _)
  refine ⟨(w, st), _, hst, .tick i hv (by rw [h1]), ?_⟩
  have hmem : out ∈ emittedOf w.removed := mem_emittedOf.mpr ⟨_, hr, rfl⟩
  rw [← (C85_values hst).2, List.mem_map] at hmem
  obtain ⟨l, hld, hlo⟩ := hmem
  have htags : ∃ s ∈ out, s.tags = y.tags := by
    obtain ⟨base, r, hrep, _, hcor⟩ := hf
    have e := corrected_map hcor Span.tags (fun _ _ _ => rfl)
    have hx : y ∈ base := by
      rcases hrep with ⟨_, _, _, _, hp, _⟩ | ⟨_, rfl⟩
      · exact hp.mem_iff.mpr (by simp)
      · simp
    exact List.mem_map.mp (e ▸ List.mem_map_of_mem (f := Span.tags) hx)
  obtain ⟨s, hs, hst'⟩ := htags
  rw [← hlo] at hs
  obtain ⟨q, hq, rfl⟩ := List.mem_map.mp hs
  refine ⟨l, hld, q, hq, ?_⟩
  cases href : q.ref with
  | some a => exact ⟨a, rfl⟩
  | none =>
    simp only [RSpan.read, href, Option.map_none] at hst'
    rw [← hst'] at ht
    cases ht

end Verif
