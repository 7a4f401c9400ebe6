import Verif.Props.Redeliver
import Verif.Props.Formats

/-!
# C161: how a span is shown is decided by what is above it
-/

namespace Verif

open Spec Std

/-- Two spans are the same, but for no tags and an empty list of tags. -/
def Alike (a b : Span) : Prop := a.withTags = b.withTags

theorem Alike.timestamp {a b : Span} (h : Alike a b) : a.timestamp = b.timestamp := (congrArg Span.timestamp h :)
theorem Alike.duration {a b : Span} (h : Alike a b) : a.duration = b.duration := (congrArg Span.duration h :)
theorem Alike.timings {a b : Span} (h : Alike a b) : a.timings = b.timings := (congrArg Span.timings h :)

theorem Alike.all {a b : Span} (h : Alike a b) : HasAllTimings a ↔ HasAllTimings b := by
  unfold HasAllTimings
  rw [h.timings]

theorem skew_alike {a b : Span} (h : Alike a b) : skew a = skew b := by
  simp only [skew, h.all, h.timings]

theorem shift_alike {l l' : List Span} (h : Pairwise₂ Alike l l') : shift l = shift l' := by
  induction h with
  | nil => rfl
  | cons h1 _ ih => rw [shift, shift, ih, skew_alike h1]

theorem shiftedStart_alike {l l' : List Span} (h : Pairwise₂ Alike l l') {a b : Span} (hs : Alike a b) : shiftedStart l a = shiftedStart l' b := by
  simp only [shiftedStart, hs.all, shift_alike h, hs.timings, hs.timestamp]

theorem start_alike {l l' : List Span} (h : Pairwise₂ Alike l l') : ∀ {a b : Span}, Alike a b → start l a = start l' b := by
  induction h with
  | nil => intro a b hs; exact shiftedStart_alike .nil hs
  | cons h1 h2 ih =>
    intro a b hs
    rw [start, start, shiftedStart_alike (.cons h1 h2) hs, ih h1]

theorem corrected_alike {l l' : List Span} (h : Pairwise₂ Alike l l') {a b : Span} (hs : Alike a b) : Alike (corrected l a) (corrected l' b) := by
  have e := start_alike h hs
  have e2 := hs.timings
  have e3 := hs.duration
  have e4 : HasAllTimings a = HasAllTimings b := by unfold HasAllTimings; rw [e2]
  unfold Alike corrected Span.withTags at *
  simp only [Span.mk.injEq] at hs
  obtain ⟨h1, h2, h3, h4, h5, h6, h7, h8, h9⟩ := hs
  simp_all

/-- A span that was received is in the repaired trace. -/
theorem held_in_base {clock k t base} (ok : TreeOk clock k t) (hrep : Repaired k t.spans base) {id : Id} {x : Span} (hx : held id t.members = some x) : ∃ b ∈ base, b.withTags = x := by
  obtain ⟨b, hb, e⟩ := List.mem_map.mp ((mem_spans_iff ok x).mpr ⟨id, hx⟩)
  rcases hrep with ⟨_, _, _, _, hperm, _⟩ | ⟨_, rfl⟩
  · exact ⟨b, hperm.mem_iff.mpr (List.mem_cons_of_mem _ hb), e⟩
  · exact ⟨b, hb, e⟩

theorem held_base_eq {clock k t base} (ok : TreeOk clock k t) (hrep : Repaired k t.spans base) (hn : (base.map Span.id).Nodup) {x b : Span} (hb : b ∈ base)
    (hx : held b.id t.members = some x) : b.withTags = x := by
  obtain ⟨b', hb', e⟩ := held_in_base ok hrep hx
  have e' : b'.id = b.id := (congrArg Span.id e :).trans (held_origin hx).1
  rw [← mem_eq_of_id hn hb' hb e', e]

/-- C161: two traces are sent, perhaps by different proxies, with the same root. If all reports of a span and of the spans above it were the same (each was received for both, with the same outcome of merging its reports), the
span is sent with the same name, service, parent, start, duration and tags both times, whatever else belongs to the traces. -/
theorem C161_above {w w' : World} (hw : Reachable w) (hw' : Reachable w') {r r' : Removal} (hr : r ∈ w.removed) (hr' : r' ∈ w'.removed) {out out' : List Span}
    (ho : r.fate = .emitted out) (ho' : r'.fate = .emitted out') {r0 r0' : Span} (h0 : UniqueRoot out r0) (h0' : UniqueRoot out' r0') (he : r0.id = r0'.id)
    {anc : List Span} {s : Span} (hp : Path out r0 anc s)
    (hsame : ∀ a ∈ s :: anc, ∃ x, held a.id r.tree.members = some x ∧ held a.id r'.tree.members = some x) :
    ∃ s' ∈ out', s'.withTags = s.withTags := by
  obtain ⟨hn, base, b0, hrep, hu, hcor, hl⟩ := emitted_links hw hr ho
  obtain ⟨hn', base', b0', hrep', hu', hcor', hl'⟩ := emitted_links hw' hr' ho'
  have ok := (reachable_inv hw).gone r hr
  have ok' := (reachable_inv hw').gone r' hr'
  have hnb : (base.map Span.id).Nodup := ids_of_links hl ▸ hn
  have hnb' : (base'.map Span.id).Nodup := ids_of_links hl' ▸ hn'
  obtain ⟨c0, hc0, ec0⟩ := uniqueRoot_links hl hn h0
  obtain ⟨c0', hc0', ec0'⟩ := uniqueRoot_links hl' hn' h0'
  have eb : c0 = b0 := hu.2 _ hc0.1
  have eb' : c0' = b0' := hu'.2 _ hc0'.1
  subst eb; subst eb'
  have key : ∃ ancb b ancb' b', Path base c0 ancb b ∧ Path base' c0' ancb' b' ∧ Pairwise₂ Alike ancb ancb' ∧ Alike b b' ∧ link b = link s := by
    clear hcor hcor'
    induction hp with
    | root =>
      obtain ⟨x, h1, h2⟩ := hsame r0 (by simp)
      refine ⟨[], c0, [], c0', .root, .root, .nil, ?_, ec0⟩
      have e1 := (link_eq ec0).1
      have e2 := (link_eq ec0').1
      rw [← e1] at h1
      rw [he, ← e2] at h2
      exact (held_base_eq ok hrep hnb hu.1.1 h1).trans (held_base_eq ok' hrep' hnb' hu'.1.1 h2).symm
    | @child anc p c hp hc h3 h4 ih =>
      obtain ⟨ancb, b, ancb', b', p1, p2, p3, p4, p5⟩ := ih (fun a ha => hsame a (List.mem_cons_of_mem _ ha))
      obtain ⟨x, h1, h2⟩ := hsame c (by simp)
      obtain ⟨d, hd, ed⟩ := links_mem hl hc
      obtain ⟨e1, e2⟩ := link_eq ed
      rw [← e1] at h1
      have ex := held_base_eq ok hrep hnb hd h1
      obtain ⟨d', hd', ed'⟩ := held_in_base ok' hrep' h2
      have hdd : Alike d d' := ex.trans ed'.symm
      obtain ⟨f1, f2⟩ := link_eq (withTags_link hdd)
      refine ⟨b :: ancb, d, b' :: ancb', d', .child p1 hd ?_ ?_, .child p2 hd' ?_ ?_, .cons p4 p3, hdd, ed⟩
      · rw [e2, h3, (link_eq p5).1]
      · rw [e1, e2]; exact h4
      · rw [← f2, e2, h3, ← (link_eq p5).1, (link_eq (withTags_link p4)).1]
      · rw [← f1, ← f2, e1, e2]; exact h4
  obtain ⟨ancb, b, ancb', b', p1, p2, p3, p4, p5⟩ := key
  obtain ⟨i, hi⟩ := List.getElem?_of_mem (Path.mem p1 hu.1.1)
  obtain ⟨j, hj⟩ := List.getElem?_of_mem (Path.mem p2 hu'.1.1)
  have m1 : corrected ancb b ∈ out := List.mem_of_getElem? ((hcor.2 i b hi).1 _ p1)
  have m2 : corrected ancb' b' ∈ out' := List.mem_of_getElem? ((hcor'.2 j b' hj).1 _ p2)
  have hs : s ∈ out := Path.mem hp h0.1.1
  have : corrected ancb b = s := mem_eq_of_id hn m1 hs (link_eq p5).1
  exact ⟨_, m2, by rw [← this]; exact (corrected_alike p3 p4).symm⟩

open FormatWitness in
/-- C161: a root, a call that is known from both sides, and one below it. The second trace has another call below the root, whose server has another clock, and a span below it; the three are sent as before. If the reports of a span
above are others (the clock of the server of the first call), the span below is sent with another start. -/
theorem C161_witness :
    let l (sr : Timestamp) : List Span :=
      [{ id := 5, trace := 5, parent := 0, timestamp := 1600000000000000000, duration := 2000 },
       { id := 7, trace := 5, parent := 5, timestamp := 1600000000000000000, duration := 1000, timings := { CS := 1600000000000000000, CR := 1600000000000001000 } },
       { id := 7, trace := 5, parent := 5, timestamp := sr, duration := 200, timings := { SR := sr, SS := sr + 200 } },
       { id := 8, trace := 5, parent := 7, timestamp := 1600000000000300500, duration := 10 }]
    let more : List Span :=
      [{ id := 4, trace := 5, parent := 5, timestamp := 1600000000000000100, duration := 600, timings := { CS := 1600000000000000100, CR := 1600000000000000700, SR := 1600000000900000300, SS := 1600000000900000500 } },
       { id := 9, trace := 5, parent := 4, timestamp := 1600000000900000400, duration := 20 }]
    let sent (l : List Span) := (emittedOf ((world l).c.tick (input l)).2).map fun t => t.map fun s => (s.id, s.parent, s.timestamp, s.duration)
    sent (l 1600000000000300400) =
      [[(8, 7, 1600000000000000500, 10), (7, 5, 1600000000000000000, 1000), (5, 0, 1600000000000000000, 2000)]] ∧
    sent (more ++ l 1600000000000300400) =
      [[(9, 4, 1600000000000000400, 20), (8, 7, 1600000000000000500, 10), (7, 5, 1600000000000000000, 1000), (5, 0, 1600000000000000000, 2000), (4, 5, 1600000000000000100, 600)]] ∧
    sent (l 1600000000000300300) =
      [[(8, 7, 1600000000000000600, 10), (7, 5, 1600000000000000000, 1000), (5, 0, 1600000000000000000, 2000)]] := by
  refine ⟨?_, ?_, ?_⟩ <;> decide +kernel

end Verif
