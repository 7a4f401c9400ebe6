import Verif.Proofs.TagForward

/-!
# C168: a converter may write to the tags of its span
-/

namespace Verif

open Spec Std

variable {κ : Type} {edit : κ → Span → Edit × κ} {k : κ} {g g' : TagForward κ}

/-- C168: what the targets have, as it is in memory now, is what the converter gives if maps are values; what waits for the forwarder, and what is pending, is as if there were no converter. -/
theorem C168_values (h : g.Reachable edit k) :
    g.out.map (List.map (RSpan.read g.st.heap)) = (convertTraces (byValue edit) k (emittedOf g.world.removed)).take g.out.length ∧
    g.st.delivered.map (List.map (RSpan.read g.st.heap)) = (emittedOf g.world.removed).drop (g.out.length + g.current.toList.length) ∧
    (∀ id : Id, (g.st.pending[id]?).map (List.map (RSpan.read g.st.heap)) = (g.world.c.traces[id]?).map Tree.spans) ∧
    Reachable g.world := by
  obtain ⟨hw, tags, fwd, pre, h1, h2⟩ := h.inv
  have hlen : g.out.length = fwd.length := by
    have := congrArg List.length h1
    rw [List.length_map, convertTraces_length] at this
    exact this
  have htake : ∀ l, emittedOf g.world.removed = fwd ++ l → g.out.map (List.map (RSpan.read g.st.heap)) = (convertTraces (byValue edit) k (emittedOf g.world.removed)).take g.out.length := by
    intro l hl
    rw [hl, convertTraces_append, List.take_append_of_le_length (by rw [convertTraces_length]; omega), h1, hlen, List.take_of_length_le]
    rw [convertTraces_length]
  cases hc : g.current with
  | none =>
    rw [hc] at h2
    refine ⟨htake _ h2.1, ?_, tags.value, hw⟩
    rw [h2.1, hlen]
    simp
  | some c =>
    rw [hc] at h2
    obtain ⟨done, todo⟩ := c
    refine ⟨htake _ h2.1, ?_, tags.value, hw⟩
    rw [h2.1, hlen, List.drop_append]
    simp

/-- C168: no step writes to the map of a span that the targets have. -/
theorem C168_sent (h : g.Reachable edit k) (hs : g.Step edit g') {l : List RSpan} (hl : l ∈ g.out) {s : RSpan} (hsl : s ∈ l) {a : Nat} (ha : s.ref = some a) :
    l ∈ g'.out ∧ a < g.st.heap.length ∧ g'.st.heap.getD a {} = g.st.heap.getD a {} := by
  have inv := h.inv
  have hm : s ∈ g.out.flatten := List.mem_flatten.mpr ⟨l, hl, hsl⟩
  have hb : a < g.st.heap.length := (inv.tags.sbound l (by simp [TagForward.all, hl]) s hsl a ha).1
  cases hs with
  | collect hs => exact ⟨hl, hb, (inv.collect hs).2 s (by simp only [TagForward.all, List.flatten_append, List.mem_append]; exact .inl (.inl hm)) a ha⟩
  | take _ _ => exact ⟨hl, hb, rfl⟩
  | convert hc => exact ⟨hl, hb, (inv.convert hc).2.1 s (List.mem_append_left _ hm) a ha⟩
  | send _ => exact ⟨List.mem_append_left _ hl, hb, rfl⟩

/-- C168: no two spans that left the collector have the same map, wherever they are, and none has the map of a pending span. -/
theorem C168_single (h : g.Reachable edit k) :
    (g.all.flatten.filterMap RSpan.ref).Nodup ∧
    ∀ q ∈ g.all.flatten, ∀ a, q.ref = some a → ∀ (id : Id) (l : List RSpan) (q' : RSpan), g.st.pending[id]? = some l → q' ∈ l → q'.ref ≠ some a := by
  refine ⟨h.inv.tags.single, fun q hq a ha id l q' hp hq' hc => ?_⟩
  obtain ⟨t, ht, hqt⟩ := List.mem_flatten.mp hq
  exact (h.inv.tags.sbound t ht q hqt a ha).2 id q'.val.id ⟨l, q', hp, hq', rfl, hc⟩

/-- A map that is written in a step of the forwarder is that of the span that it converts. -/
theorem C168_own {done todo : List RSpan} {s : RSpan} (h : g.Reachable edit k) (hc : g.current = some (done, s :: todo)) (hs : g.Step edit g') (hp : g'.current ≠ g.current)
    {a : Nat} (ha : a < g.st.heap.length) (hne : g'.st.heap.getD a {} ≠ g.st.heap.getD a {}) : s.ref = some a := by
  cases hs with
  | collect _ => exact absurd rfl hp
  | take _ hn => rw [hc] at hn; cases hn
  | send hn => rw [hc] at hn; cases hn
  | @convert done' s' todo' hn =>
    rw [hc] at hn
    cases hn
    refine Classical.byContradiction fun hsa => hne ?_
    have hb : ∀ a, s.ref = some a → a < g.st.heap.length := fun a ha =>
      (h.inv.tags.sbound (done ++ s :: todo) (by simp [TagForward.all, hc]) s (by simp) a ha).1
    exact ((edit g.conv (s.read g.st.heap)).1.apply_spec hb).2.1 a ha hsa

/-- C168: the forwarder gets through everything, and then the targets have all traces. -/
theorem C168_drains (h : g.Reachable edit k) : ∃ g' : TagForward κ, g'.Reachable edit k ∧ g'.world = g.world ∧ g'.current = none ∧ g'.st.delivered = [] ∧
    g'.out.map (List.map (RSpan.read g'.st.heap)) = convertTraces (byValue edit) k (emittedOf g.world.removed) := by
  have work : ∀ (n : Nat) (todo done : List RSpan) (g : TagForward κ), todo.length = n → g.current = some (done, todo) → g.Reachable edit k →
      ∃ g' : TagForward κ, g'.Reachable edit k ∧ g'.world = g.world ∧ g'.current = none ∧ g'.st.delivered = g.st.delivered := by
    intro n
    induction n with
    | zero =>
      intro todo done g hn hc h
      rw [List.length_eq_zero_iff] at hn
      subst hn
      exact ⟨_, .step h (.send g hc), rfl, rfl, rfl⟩
    | succ n ih =>
      intro todo done g hn hc h
      match todo, hn with
      | s :: todo, hn =>
        obtain ⟨g', h1, h2, h3, h4⟩ := ih todo _ _ (by simpa using hn) rfl (.step h (.convert g hc))
        exact ⟨g', h1, h2, h3, h4⟩
  have idle : ∃ g' : TagForward κ, g'.Reachable edit k ∧ g'.world = g.world ∧ g'.current = none := by
    cases hc : g.current with
    | none => exact ⟨g, h, rfl, hc⟩
    | some c =>
      obtain ⟨g', h1, h2, h3, _⟩ := work _ c.2 c.1 g rfl hc h
      exact ⟨g', h1, h2, h3⟩
  have all : ∀ (n : Nat) (g : TagForward κ), g.st.delivered.length = n → g.current = none → g.Reachable edit k →
      ∃ g' : TagForward κ, g'.Reachable edit k ∧ g'.world = g.world ∧ g'.current = none ∧ g'.st.delivered = [] := by
    intro n
    induction n with
    | zero => intro g hn hc h; exact ⟨g, h, rfl, hc, List.length_eq_zero_iff.mp hn⟩
    | succ n ih =>
      intro g hn hc h
      match hd : g.st.delivered with
      | [] => rw [hd] at hn; cases hn
      | t :: rest =>
        obtain ⟨g1, h1, h2, h3, h4⟩ := work _ t [] _ rfl rfl (.step h (.take g hd hc))
        obtain ⟨g2, h5, h6, h7, h8⟩ := ih g1 (by rw [h4]; rw [hd] at hn; simpa using hn) h3 h1
        exact ⟨g2, h5, h6.trans h2, h7, h8⟩
  obtain ⟨g1, h1, h2, h3⟩ := idle
  obtain ⟨g2, h4, h5, h6, h7⟩ := all _ g1 rfl h3 h1
  refine ⟨g2, h4, h5.trans h2, h6, h7, ?_⟩
  obtain ⟨e1, e2, _⟩ := C168_values h4
  rw [h6, h7, h5, h2] at e2
  have hlen : (emittedOf g.world.removed).length ≤ g2.out.length := by
    have := congrArg List.length e2
    simp at this
    omega
  rw [e1, h5, h2, List.take_of_length_le]
  rw [convertTraces_length]; exact hlen

/-- Every history of the collector is one with a forwarder, and with a converter of any kind. -/
theorem C168_exists (edit : κ → Span → Edit × κ) (k : κ) {w : World} (hw : Reachable w) : ∃ g : TagForward κ, g.Reachable edit k ∧ g.world = w := by
  obtain ⟨st, hst⟩ := tagRun_exists hw
  have : ∀ p : World × TagState, TagRun p → (⟨p.1, p.2, k, none, []⟩ : TagForward κ).Reachable edit k := by
    intro p hp
    induction hp with
    | init now => exact .init now
    | @step p q _ hs ih => exact .step ih (.collect _ hs)
  exact ⟨_, this _ hst, rfl⟩

/-! ## A converter that adds a tag -/

/-- `span.AddTag(key, value); return span, nil`. -/
def addingTag (key value : Str) : Unit → Span → Edit × Unit := fun _ s =>
  (match s.tags with
  | some m => { contents := some (m.insert key value), result := some (s, .same) }
  | none => { result := some (s, .fresh ((∅ : TagMap).insert key value)) }, ())

/-- As a function of values, it adds the tag to the span. -/
theorem addingTag_value (key value : Str) (s : Span) : byValue (addingTag key value) () s = (some { s with tags := some ((s.tags.getD ∅).insert key value) }, ()) := by
  unfold byValue addingTag Edit.value Edit.left
  cases s.tags <;> rfl

/-- It writes to the map of the span, if there is one. -/
theorem C168_in_place (key value : Str) : ∃ (h : TagHeap) (s : RSpan), s.ref = some 0 ∧
    ((addingTag key value () (s.read h)).1.apply h s).2.map RSpan.ref = some (some 0) ∧
    (((addingTag key value () (s.read h)).1.apply h s).1.map (·.writes)) = [1] := by
  exact ⟨[{}], { ref := some 0 }, rfl, rfl, rfl⟩

theorem mem_adding {key value : Str} {s : Span} (hs : s.id ≠ 0 ∧ s.trace ≠ 0) : ∀ {l : List Span}, s ∈ l →
    { s with tags := some ((s.tags.getD ∅).insert key value) } ∈ (convertAll (byValue (addingTag key value)) () l).1
  | x :: l, h => by
    unfold convertAll
    rcases List.mem_cons.mp h with rfl | h
    · refine List.mem_append_left _ ?_
      rw [addingTag_value]
      exact List.mem_filter.mpr ⟨by simp, decide_eq_true hs⟩
    · exact List.mem_append_right _ (mem_adding hs h)

theorem mem_adding_traces {key value : Str} {s : Span} (hs : s.id ≠ 0 ∧ s.trace ≠ 0) {t : List Span} (h : s ∈ t) : ∀ {l : List (List Span)}, t ∈ l →
    ∃ t' ∈ convertTraces (byValue (addingTag key value)) () l, { s with tags := some ((s.tags.getD ∅).insert key value) } ∈ t'
  | x :: l, ht => by
    unfold convertTraces
    rcases List.mem_cons.mp ht with rfl | ht
    · exact ⟨_, by simp, mem_adding hs h⟩
    · obtain ⟨t', h1, h2⟩ := mem_adding_traces hs h ht
      exact ⟨t', List.mem_cons_of_mem _ h1, h2⟩

/-- A trace of one span with a tag is sent to the targets, and has both tags there. -/
theorem C168_witness : ∃ g : TagForward Unit, g.Reachable (addingTag b!"env" b!"test") () ∧ ∃ t ∈ g.out, ∃ s ∈ t, ∃ a, s.ref = some a ∧ a < g.st.heap.length ∧
    (g.st.heap.getD a {}).tags[b!"env"]? = some b!"test" ∧ (g.st.heap.getD a {}).tags[b!"a"]? = some b!"1" := by
  let x : Span := { id := 1, trace := 7, tags := some ((∅ : TagMap).insert b!"a" b!"1") }
  have hm : (gathered 7 (receivedFor 7 [x])).spans.map (fun s => (s.id, s.parent, s.trace, (s.tags.getD ∅)[b!"a"]?)) = [(1, 0, 7, some b!"1")] := by decide +kernel
  obtain ⟨y, hy⟩ : ∃ y, (gathered 7 (receivedFor 7 [x])).spans = [y] := List.length_eq_one_iff.mp (by simpa using congrArg List.length hm)
  rw [hy] at hm
  simp only [List.map_cons, List.map_nil, List.cons.injEq, Prod.mk.injEq, and_true] at hm
  obtain ⟨hid, hp, ht, htag⟩ := hm
  obtain ⟨w, out, hw, hr, hf⟩ := flood_emits [x] 7 (by decide +kernel) (by decide +kernel) (by decide +kernel) (.inl ⟨y, by
    rw [hy]
    exact ⟨⟨by simp, .inr fun q hq => by rw [List.mem_singleton.mp hq, hid, hp]; decide⟩, fun q hq => by simpa using hq.1⟩⟩)
  rw [hy] at hf
  obtain ⟨g, hg, rfl⟩ := C168_exists (addingTag b!"env" b!"test") () hw
  obtain ⟨g', hg', _, _, _, hout⟩ := C168_drains hg
  refine ⟨g', hg', ?_⟩
  have hmem : out ∈ emittedOf g.world.removed := mem_emittedOf.mpr ⟨_, hr, rfl⟩
  obtain ⟨s, hs, hsy⟩ : ∃ s ∈ out, (s.id, s.trace, s.tags) = (y.id, y.trace, y.tags) := by
    obtain ⟨base, r, hrep, _, hcor⟩ := hf
    have e := corrected_map hcor (fun s => (s.id, s.trace, s.tags)) (fun _ _ _ => rfl)
    have hx : y ∈ base := by
      rcases hrep with ⟨_, _, _, _, hp, _⟩ | ⟨_, rfl⟩
      · exact hp.mem_iff.mpr (by simp)
      · simp
    exact List.mem_map.mp (e ▸ List.mem_map_of_mem (f := fun s => (s.id, s.trace, s.tags)) hx)
  simp only [Prod.mk.injEq] at hsy
  obtain ⟨t', h1, h2⟩ := mem_adding_traces (key := b!"env") (value := b!"test") ⟨by rw [hsy.1, hid]; decide, by rw [hsy.2.1, ht]; decide⟩ hs hmem
  rw [← hout] at h1
  obtain ⟨t, ht1, rfl⟩ := List.mem_map.mp h1
  obtain ⟨q, hq, hqe⟩ := List.mem_map.mp h2
  refine ⟨t, ht1, q, hq, ?_⟩
  have htags : q.ref.map (fun a => (g'.st.heap.getD a {}).tags) = some ((s.tags.getD ∅).insert b!"env" b!"test") := congrArg Span.tags hqe
  cases hqr : q.ref with
  | none => rw [hqr] at htags; cases htags
  | some a =>
    rw [hqr] at htags
    simp only [Option.map_some, Option.some.injEq] at htags
    refine ⟨a, rfl, (hg'.inv.tags.sbound t (by simp [TagForward.all, ht1]) q hq a hqr).1, ?_, ?_⟩
    · rw [htags]; simp
    · rw [htags, hsy.2.2, ExtTreeMap.getElem?_insert, if_neg (by decide +kernel)]; exact htag

end Verif
