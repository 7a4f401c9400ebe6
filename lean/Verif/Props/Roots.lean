import Verif.Props.Shape
import Verif.Props.Clocks
import Verif.Props.Convert
import Verif.Spec.Roots

/-!
# C128: the parent id of the root

`t` is a trace that the sink received from the forwarder, with a converter that keeps the ids. Its spans are sent to Datadog with these ids (C58).
-/

namespace Verif

open Spec Std

theorem foldl_merged_parent (l : List Span) (a : Span) (i : Id) (h : ∀ s ∈ l, s.id = i) :
    (l.foldl merged a).parent = if a.parent = 0 then toldParent i l else a.parent := by
  induction l generalizing a with
  | nil =>
    by_cases e : a.parent = 0
    · rw [if_pos e]; exact e
    · rw [if_neg e]; rfl
  | cons s l ih =>
    rw [List.foldl_cons, ih _ (fun q hq => h q (List.mem_cons_of_mem _ hq))]
    have hm : (merged a s).parent = if a.parent = 0 then s.parent else a.parent := rfl
    by_cases e : a.parent = 0
    · rw [if_pos e] at hm
      rw [hm, if_pos e, toldParent]
      by_cases e2 : s.parent = 0
      · rw [if_pos e2, if_neg (fun q => q.2 e2)]
      · rw [if_neg e2, if_pos ⟨h s (by simp), e2⟩]
    · rw [if_neg e] at hm
      rw [hm, if_neg e, if_neg e]

theorem toldParent_filter (i : Id) (l : List Span) : toldParent i (l.filter fun s => s.id == i) = toldParent i l := by
  induction l with
  | nil => rfl
  | cons s l ih =>
    by_cases e : s.id = i
    · rw [List.filter_cons_of_pos (by simpa using e), toldParent, toldParent, ih]
    · rw [List.filter_cons_of_neg (by simpa using e), toldParent, if_neg (fun q => e q.1), ih]

/-- The span held for an id has the parent that was told for it. -/
theorem held_parent {i : Id} {l : List Span} {x : Span} (h : held i l = some x) : x.parent = toldParent i l := by
  unfold held at h
  rw [← toldParent_filter]
  have hall : ∀ s ∈ l.filter (fun s => s.id == i), s.id = i := fun s hs => by simpa using (List.mem_filter.mp hs).2
  generalize l.filter (fun s => s.id == i) = f at h hall
  cases f with
  | nil => cases h
  | cons s rest =>
    cases h
    rw [foldl_merged_parent rest _ i (fun q hq => hall q (List.mem_cons_of_mem _ hq)), toldParent]
    show (if s.parent = 0 then _ else s.parent) = _
    by_cases e : s.parent = 0
    · rw [if_pos e, if_neg (fun q => q.2 e)]
    · rw [if_neg e, if_pos ⟨hall s (by simp), e⟩]

variable {κ : Type} {conv : κ → Span → Option Span × κ} {k : κ} {outcomes : List Parsed} {s : System κ}

/-- What is received by the sink, in terms of what the collector held. -/
theorem received_links (hc : Transparent conv) (h : System.Reachable conv k outcomes s) {t : List Span} (ht : t ∈ s.sink.received) :
    ∃ r ∈ s.world.removed, (∃ out, r.fate = .emitted out) ∧ r.id ≠ 0 ∧ (∀ x ∈ r.tree.spans, x.id ≠ 0) ∧
      ∃ base, Repaired r.id r.tree.spans base ∧ ∀ e, e ∈ t.map link ↔ e ∈ base.map link ∧ e.1 ≠ 0 := by
  obtain ⟨k', out, hout, rfl⟩ := convertTraces_origin ((C61_prefix h).1.subset ht)
  obtain ⟨r, hr, ho⟩ := mem_emittedOf.mp hout
  have hw : Reachable s.world := by
    obtain ⟨_, _, _, _, inv⟩ := h.inv
    exact inv.world
  obtain ⟨hn, base, r0, hrep, h2, hcor, h4⟩ := emitted_links hw hr ho
  obtain ⟨_, hid, htr, _⟩ := C45_emitted_traces hw hr ho
  have ok := (reachable_inv hw).gone r hr
  refine ⟨r, hr, ⟨out, ho⟩, hid, fun x hx => (ok.traced hx).2.2, base, hrep, fun e => ?_⟩
  rw [convertAll_transparent hc k' out, ← h4]
  constructor
  · intro he
    obtain ⟨y, hy, rfl⟩ := List.mem_map.mp he
    obtain ⟨hy1, hy2⟩ := List.mem_filter.mp hy
    have hy2 := of_decide_eq_true hy2
    exact ⟨List.mem_map_of_mem hy1, hy2.1⟩
  · rintro ⟨he, h0⟩
    obtain ⟨y, hy, rfl⟩ := List.mem_map.mp he
    exact List.mem_map_of_mem (List.mem_filter.mpr ⟨hy, decide_eq_true ⟨h0, by rw [htr y hy]; exact hid⟩⟩)

/-- C128: a span with the parent id 0 is a root candidate. -/
theorem C128_zero (hc : Transparent conv) (h : System.Reachable conv k outcomes s) {t : List Span} (ht : t ∈ s.sink.received) {x : Span} (hx : x ∈ t) (h0 : x.parent = 0) :
    IsRootOf t x := by
  obtain ⟨r, _, _, _, _, base, _, hl⟩ := received_links hc h ht
  refine ⟨hx, .inr fun q hq e => ?_⟩
  exact ((hl (link q)).mp (List.mem_map_of_mem hq)).2 (e.trans h0)

/-- C128: which parent the spans of a trace have that gets to the sink. All spans that were told are there. The parent of a span is either the one that was told for the span; or the span was made up, as the missing parent of all root candidates,
and its parent id is the id of the trace. -/
theorem C128_parents (hc : Transparent conv) (h : System.Reachable conv k outcomes s) {t : List Span} (ht : t ∈ s.sink.received) :
    ∃ r ∈ s.world.removed, (∃ out, r.fate = .emitted out) ∧ r.id ≠ 0 ∧ (∀ m ∈ r.tree.members, ∃ x ∈ t, x.id = m.id) ∧ ∀ x ∈ t,
      ((∃ m ∈ r.tree.members, m.id = x.id) ∧ x.parent = toldParent x.id r.tree.members) ∨
      ((∀ m ∈ r.tree.members, m.id ≠ x.id) ∧ SharedParent r.tree.spans x.id ∧ x.parent = r.id) := by
  obtain ⟨r, hr, hout, hid, hz, base, hrep, hl⟩ := received_links hc h ht
  have hw : Reachable s.world := by
    obtain ⟨_, _, _, _, inv⟩ := h.inv
    exact inv.world
  have ok := (reachable_inv hw).gone r hr
  refine ⟨r, hr, hout, hid, fun m hm => ?_, fun x hx => ?_⟩
  · obtain ⟨q, hq, eq⟩ := (ok.inv.ids m.id).mpr ⟨m, hm, rfl⟩
    have hqb : q ∈ base := by
      rcases hrep with ⟨p, f, _, _, hperm, _⟩ | ⟨_, rfl⟩
      · exact hperm.mem_iff.mpr (List.mem_cons_of_mem _ hq)
      · exact hq
    obtain ⟨x, hx, ex⟩ := List.mem_map.mp ((hl (link q)).mpr ⟨List.mem_map_of_mem hqb, hz q hq⟩)
    exact ⟨x, hx, (link_eq ex).1.trans eq⟩
  obtain ⟨y, hy, ey⟩ := List.mem_map.mp ((hl (link x)).mp (List.mem_map_of_mem hx)).1
  obtain ⟨e1, e2⟩ := link_eq ey
  have told : y ∈ r.tree.spans → (∃ m ∈ r.tree.members, m.id = x.id) ∧ x.parent = toldParent x.id r.tree.members := by
    intro hy
    refine ⟨?_, ?_⟩
    · obtain ⟨m, hm, e⟩ := (ok.inv.ids y.id).mp ⟨y, hy, rfl⟩
      exact ⟨m, hm, e.trans e1⟩
    · have := held_parent (ok.inv.mem_held hy)
      rw [← e1, ← e2]
      exact this
  rcases hrep with ⟨p, f, hsp, hf, hperm, hpw⟩ | ⟨_, rfl⟩
  · rcases List.mem_cons.mp (hperm.mem_iff.mp hy) with rfl | hy
    · right
      refine ⟨?_, by rw [← e1, hf.id]; exact hsp, by rw [← e2, hf.parent]⟩
      intro m hm e
      obtain ⟨q, hq, eq⟩ := (ok.inv.ids m.id).mpr ⟨m, hm, rfl⟩
      have hnd : (base.map Span.id).Nodup := List.pairwise_map.mpr (hpw.imp fun hab e => by rw [e] at hab; exact absurd hab (Int64.lt_irrefl))
      have hnd := (hperm.map Span.id).nodup_iff.mp hnd
      rw [List.map_cons] at hnd
      exact (List.nodup_cons.mp hnd).1 (List.mem_map.mpr ⟨q, hq, by rw [eq, e, e1]⟩)
    · exact .inl (told hy)
  · exact .inl (told hy)

theorem toldParent_origin {i : Id} {l : List Span} (h : toldParent i l ≠ 0) : ∃ m ∈ l, m.id = i ∧ m.parent = toldParent i l := by
  induction l with
  | nil => exact absurd rfl h
  | cons s l ih =>
    rw [toldParent] at h ⊢
    by_cases e : s.id = i ∧ s.parent ≠ 0
    · rw [if_pos e]
      exact ⟨s, by simp, e.1, rfl⟩
    · rw [if_neg e] at h ⊢
      obtain ⟨m, hm, h1, h2⟩ := ih h
      exact ⟨m, List.mem_cons_of_mem _ hm, h1, h2⟩

/-- C128: which parent a root candidate has: 0; or itself, as it was told; or a span that was told, but not sent; or the span was made up, and its parent id is the id of the trace. -/
theorem C128_roots (hc : Transparent conv) (h : System.Reachable conv k outcomes s) {t : List Span} (ht : t ∈ s.sink.received) :
    ∃ r ∈ s.world.removed, (∃ out, r.fate = .emitted out) ∧ r.id ≠ 0 ∧ ∀ x, IsRootOf t x →
      x.parent = 0 ∨
      (x.parent = x.id ∧ ∃ m ∈ r.tree.members, m.id = x.id ∧ m.parent = x.id) ∨
      ((∃ m ∈ r.tree.members, m.id = x.id ∧ m.parent = x.parent) ∧ ∀ m ∈ r.tree.members, m.id ≠ x.parent) ∨
      ((∀ m ∈ r.tree.members, m.id ≠ x.id) ∧ SharedParent r.tree.spans x.id ∧ x.parent = r.id) := by
  obtain ⟨r, hr, hout, hid, hall, hp⟩ := C128_parents hc h ht
  refine ⟨r, hr, hout, hid, fun x hx => ?_⟩
  rcases hp x hx.1 with ⟨hm, e⟩ | hmade
  · by_cases h0 : x.parent = 0
    · exact .inl h0
    · right
      obtain ⟨m, hm, e1, e2⟩ := toldParent_origin (e ▸ h0)
      rw [← e] at e2
      rcases hx.2 with hself | hno
      · exact .inl ⟨hself, m, hm, e1, e2.trans hself⟩
      · right; left
        refine ⟨⟨m, hm, e1, e2⟩, fun q hq eq => ?_⟩
        obtain ⟨y, hy, ey⟩ := hall q hq
        exact hno y hy (ey.trans eq)
  · exact .inr (.inr (.inr hmade))

/-- C128, partial: if the trace was told completely, the spans with the parent id 0 are exactly the root candidates. Missing: traces in which a span is told to be its own parent, as it is in the
jaeger format (`C128_fails`, `C128_jaeger`), and those with a root that was made up (`C128_made_up`). -/
theorem C128_partial (hc : Transparent conv) (h : System.Reachable conv k outcomes s) {t : List Span} (ht : t ∈ s.sink.received) :
    ∃ r ∈ s.world.removed, (∃ out, r.fate = .emitted out) ∧ (ToldCompletely r.tree.members → ∀ x ∈ t, IsRootOf t x ↔ x.parent = 0) := by
  obtain ⟨r, hr, hout, hid, hall, hp⟩ := C128_parents hc h ht
  have hw : Reachable s.world := by
    obtain ⟨_, _, _, _, inv⟩ := h.inv
    exact inv.world
  have ok := (reachable_inv hw).gone r hr
  refine ⟨r, hr, hout, fun hcomp x hx => ⟨fun hroot => ?_, C128_zero hc h ht hx⟩⟩
  by_cases h0 : x.parent = 0
  · exact h0
  exfalso
  rcases hp x hx with ⟨⟨m, hm, em⟩, e⟩ | ⟨_, hsp, _⟩
  · have := hcomp m hm (by rw [em, ← e]; exact h0)
    rw [em, ← e] at this
    obtain ⟨h1, q, hq, eq⟩ := this
    rcases hroot.2 with hself | hno
    · exact h1 hself
    · obtain ⟨y, hy, ey⟩ := hall q hq
      exact hno y hy (ey.trans eq)
  · -- all root candidates have the parent id 0, so nothing with an id was made up
    obtain ⟨⟨a, _, ha, _⟩, hpar⟩ := hsp
    have hxid : x.id ≠ 0 := by
      obtain ⟨r', _, _, _, _, base, _, hl⟩ := received_links hc h ht
      exact ((hl (link x)).mp (List.mem_map_of_mem hx)).2
    have ea : a.parent = toldParent a.id r.tree.members := held_parent (x := a.withTags) (ok.inv.mem_held ha.1)
    obtain ⟨m, hm, em⟩ := (ok.inv.ids a.id).mp ⟨a, ha.1, rfl⟩
    have := hcomp m hm (by rw [em, ← ea, hpar a ha]; exact hxid)
    rw [em, ← ea] at this
    obtain ⟨h1, q, hq, eq⟩ := this
    rcases ha.2 with hself | hno
    · exact h1 hself
    · obtain ⟨y, hy, ey⟩ := (ok.inv.ids q.id).mpr ⟨q, hq, rfl⟩
      exact hno y hy (ey.trans eq)

theorem flood_links (conv : κ → Span → Option Span × κ) (hc : Transparent conv) (k : κ) (l : List Span) (tr : Id) (hl : receivedFor tr l = l) (hne : l ≠ []) (htr : tr ≠ 0)
    (hn : (l.map Span.id).Nodup) (hlarge : ¬ Large (gathered tr l)) (hroot : Rooted tr (gathered tr l).spans) :
    ∃ outcomes s, System.Reachable conv k outcomes s ∧ ∃ t ∈ s.sink.received, ∃ base, Repaired tr (gathered tr l).spans base ∧ t.map link = (base.map link).filter fun e => e.1 ≠ 0 := by
  obtain ⟨w, out, hw, ho, hf⟩ := flood_emits l tr (by rw [hl]; exact hne) (by rw [hl]; exact hn) (by rw [hl]; exact hlarge) (by rw [hl]; exact hroot)
  rw [hl] at ho hf
  obtain ⟨outcomes, s, h1, _, rfl, h3⟩ := C61_adequate conv k hw
  obtain ⟨k', ht⟩ := mem_convertTraces conv k (mem_emittedOf.mpr ⟨_, ho, rfl⟩)
  obtain ⟨base, r0, hrep, _, hcor⟩ := hf
  refine ⟨outcomes, s, h1, (convertAll conv k' out).1, by rw [h3]; exact ht, base, hrep, ?_⟩
  obtain ⟨_, _, htr', _⟩ := C45_emitted_traces hw ho rfl
  rw [convertAll_transparent hc k' out, ← corrected_map hcor link (fun _ _ _ => rfl), List.filter_map]
  congr 1
  refine List.filter_congr fun y hy => ?_
  have := htr' y hy
  simp only [Function.comp, link, this]
  exact decide_eq_decide.mpr ⟨fun h => h.1, fun h => ⟨h, htr⟩⟩

theorem flood_unique (conv : κ → Span → Option Span × κ) (hc : Transparent conv) (k : κ) (l : List Span) (tr : Id) (hl : receivedFor tr l = l) (hne : l ≠ []) (htr : tr ≠ 0)
    (hn : (l.map Span.id).Nodup) (hlarge : ¬ Large (gathered tr l)) {links : List (Id × Id)} (hmap : (gathered tr l).spans.map link = links) {x : Id × Id} (hx : x ∈ links)
    (hx' : RootLink links x) (hone : ∀ y ∈ links, RootLink links y → y.1 = x.1) (h0 : ∀ y ∈ links, y.1 ≠ 0) :
    ∃ outcomes s, System.Reachable conv k outcomes s ∧ ∃ t ∈ s.sink.received, t.map link = links := by
  subst hmap
  obtain ⟨a, ha, rfl⟩ := List.mem_map.mp hx
  have hid : ∀ q, IsRootOf (gathered tr l).spans q → q.id = a.id := fun q hq =>
    hone _ (List.mem_map_of_mem hq.1) (isRootOf_iff.mp hq).2
  have hinv : (gathered tr l).Inv := (assemble_inv_members 0 tr (l.map fun s => ((0 : Time), s))).1
  have hroot : UniqueRoot (gathered tr l).spans a :=
    ⟨isRootOf_iff.mpr ⟨ha, hx'⟩, fun q hq => SortedDesc.uniqueIds hinv.sorted q hq.1 a ha (hid q hq)⟩
  obtain ⟨outcomes, s, h1, t, ht, base, hrep, e⟩ := flood_links conv hc k l tr hl hne htr hn hlarge (.inl ⟨_, hroot⟩)
  refine ⟨outcomes, s, h1, t, ht, ?_⟩
  rcases hrep with ⟨p, f, ⟨⟨a, b, ha, hb, hab⟩, _⟩, _⟩ | ⟨_, rfl⟩
  · exact absurd (by rw [hroot.2 a ha, hroot.2 b hb]) hab
  · rw [e, List.filter_eq_self]
    exact fun y hy => decide_eq_true (h0 y hy)

/-- C128 does not hold as stated: a trace of one span that is told to be its own parent gets to the sink with this parent, whatever the converter does besides keeping ids. -/
theorem C128_fails (conv : κ → Span → Option Span × κ) (hc : Transparent conv) (k : κ) :
    ∃ outcomes s, System.Reachable conv k outcomes s ∧ ∃ t ∈ s.sink.received, t.map link = [(2, 2)] := by
  let l : List Span := [{ id := 2, trace := 7, parent := 2 }]
  exact flood_unique conv hc k l 7 rfl (by simp [l]) (by decide) (by decide) (by decide +kernel) (links := [(2, 2)]) (by decide +kernel) (x := (2, 2)) (by decide) (by decide)
    (by decide) (by decide)

/-- C128 does not hold as stated: the root that is made up for two calls of which the caller (5) did not tell is sent with the id of the trace (7) as its parent id. -/
theorem C128_made_up (conv : κ → Span → Option Span × κ) (hc : Transparent conv) (k : κ) :
    ∃ outcomes s, System.Reachable conv k outcomes s ∧ ∃ t ∈ s.sink.received, (t.map link).Perm [(5, 7), (2, 5), (1, 5)] := by
  let l : List Span := [{ id := 1, trace := 7, parent := 5 }, { id := 2, trace := 7, parent := 5 }]
  have hmap : (gathered 7 l).spans.map link = [(2, 5), (1, 5)] := by decide +kernel
  have hshared : SharedParent (gathered 7 l).spans 5 := by
    refine ⟨?_, ?_⟩
    · obtain ⟨a, ha, ea⟩ := List.mem_map.mp (show ((2 : Id), (5 : Id)) ∈ (gathered 7 l).spans.map link by rw [hmap]; simp)
      obtain ⟨b, hb, eb⟩ := List.mem_map.mp (show ((1 : Id), (5 : Id)) ∈ (gathered 7 l).spans.map link by rw [hmap]; simp)
      refine ⟨a, b, isRootOf_iff.mpr ⟨ha, ?_⟩, isRootOf_iff.mpr ⟨hb, ?_⟩, ?_⟩
      · rw [hmap, ea]; decide
      · rw [hmap, eb]; decide
      · rw [show a.id = 2 from congrArg Prod.fst ea, show b.id = 1 from congrArg Prod.fst eb]; decide
    · intro q hq
      have := List.mem_map_of_mem (f := link) hq.1
      rw [hmap] at this
      exact (show ∀ x ∈ [((2 : Id), (5 : Id)), (1, 5)], x.2 = 5 by decide) _ this
  have h7 : ∀ q ∈ (gathered 7 l).spans, q.id ≠ 7 := by
    intro q hq
    have := List.mem_map_of_mem (f := link) hq
    rw [hmap] at this
    exact (show ∀ x ∈ [((2 : Id), (5 : Id)), (1, 5)], x.1 ≠ 7 by decide) _ this
  obtain ⟨outcomes, s, h1, t, ht, base, hrep, e⟩ := flood_links conv hc k l 7 rfl (by simp [l]) (by decide) (by decide) (by decide +kernel) (.inr ⟨⟨5, hshared⟩, h7⟩)
  refine ⟨outcomes, s, h1, t, ht, ?_⟩
  rcases hrep with ⟨p, f, hsp, hf, hperm, _⟩ | ⟨hno, _⟩
  · have hp : p = 5 := by
      obtain ⟨⟨y, _, hy, _⟩, hall⟩ := hshared
      exact (hsp.2 y hy).symm.trans (hall y hy)
    subst hp
    rw [e]
    refine ((hperm.map link).filter _).trans ?_
    rw [List.map_cons, hmap, show link f = (5, 7) by rw [link, hf.id, hf.parent]]
    exact List.Perm.refl _
  · exact absurd hshared (hno 5)

/-- C128: a span of the jaeger format without a parent is told to be its own parent, … -/
theorem C128_jaeger (v : JaegerSpan) (procs : TagMap) (h : ∀ r ∈ v.references, r.1 ≠ b!"CHILD_OF") : (v.toSpan procs).parent = v.spanId := by
  exact ((C32_jaeger v procs).2.2.2.2.1 h).1.trans (C32_jaeger v procs).1

/-- C128: … and in the version 1 and 2 of the Zipkin format it is told to have the parent id 0. -/
theorem C128_zipkin : (∀ v : SpanV2, v.parentId = 0 → v.toSpan.parent = 0) ∧ ∀ v : SpanV1, v.parentId = 0 → v.toSpan.parent = 0 := by
  exact ⟨fun v h => (C64_v2_fields v).2.2.1.trans h, fun v h => (C64_v1_fields v).2.2.1.trans h⟩

/-- C128: a trace that is told completely, and gets to the sink. -/
theorem C128_witness (conv : κ → Span → Option Span × κ) (hc : Transparent conv) (k : κ) :
    ∃ outcomes s, System.Reachable conv k outcomes s ∧ ∃ t ∈ s.sink.received, t.map link = [(2, 1), (1, 0)] := by
  let l : List Span := [{ id := 1, trace := 7 }, { id := 2, trace := 7, parent := 1 }]
  exact flood_unique conv hc k l 7 rfl (by simp [l]) (by decide) (by decide) (by decide +kernel) (links := [(2, 1), (1, 0)]) (by decide +kernel) (x := (1, 0)) (by decide) (by decide)
    (by decide) (by decide)

/-- The parents that are told for the spans of a trace: the client of the call 2 does not tell its parent, the server does. -/
example : let l : List Span := [{ id := 1, trace := 7 }, { id := 2, trace := 7 }, { id := 2, trace := 7, parent := 1 }]
    toldParent 1 l = 0 ∧ toldParent 2 l = 1 ∧ ToldCompletely l := by
  refine ⟨by decide, by decide, ?_⟩
  intro m hm
  rcases List.mem_cons.mp hm with rfl | hm
  · intro h; exact absurd (by decide) h
  · have e : m.id = 2 := by
      rcases List.mem_cons.mp hm with rfl | hm
      · rfl
      · rw [List.mem_singleton.mp hm]
    rw [e]
    exact fun _ => ⟨by decide, { id := 1, trace := 7 }, by simp, by decide⟩

end Verif
