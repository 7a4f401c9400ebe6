import Verif.Proofs.Clocks
import Verif.Props.Race

/-!
# C117: a trace of hosts with different clocks is shown on one clock
-/

namespace Verif

open Spec

/-- C117: in an emitted trace, every span that was received and descends from the root has the start at which it really started, on the clock of the host where the trace began. The start is off by at most
half of the difference between the delays of request and answer, for every call on the way to the span that both sides told about; whatever the clocks of the hosts show, and in whichever order their
spans arrive. The duration is the real one. -/
theorem C117_times {w : World} (hw : Reachable w) {r : Removal} (hr : r ∈ w.removed) {out : List Span} (ho : r.fate = .emitted out) {S : Story} {home : Int}
    (ht : S.Told home r.tree.members) (hin : S.InTime home r.tree.members) :
    ∃ r0, UniqueRoot out r0 ∧ ∀ o anc, Path out r0 anc o → (∃ m ∈ r.tree.members, m.id = o.id) →
      (o.timestamp.toInt - (S.start o.id + home)).natAbs ≤ S.inexactOf anc ∧ o.duration.toInt = S.stop o.id - S.start o.id := by
  obtain ⟨hn, base, b0, h1, h2, hcor, h4⟩ := emitted_links hw hr ho
  have hnb : (base.map Span.id).Nodup := ids_of_links h4 ▸ hn
  have set := setting ((reachable_inv hw).gone r hr) ht h1 h2
  obtain ⟨r1, hr1, er1⟩ := uniqueRoot_links h4.symm hnb h2
  refine ⟨r1, hr1, fun o anc hp hm => ?_⟩
  have ho' := hp.mem hr1.1.1
  obtain ⟨b, hb, eb⟩ := links_mem h4 ho'
  obtain ⟨anc', hp', ea⟩ := path_ids h4 hn hr1.1.1 h2.1.1 er1.symm hp hb eb
  obtain ⟨j, hj⟩ := List.getElem?_of_mem hb
  have hc : corrected anc' b ∈ out := List.mem_of_getElem? ((hcor.2 j b hj).1 anc' hp')
  have : corrected anc' b = o := mem_eq_of_id hn hc ho' (link_eq eb).1
  subst this
  obtain ⟨s, hs, es⟩ := (set.ids b.id).mpr hm
  have hbs : b ∈ r.tree.spans := by rw [← set.uniq s (set.sub s hs) b hb es]; exact hs
  obtain ⟨k1, k2⟩ := set.corrected hin hp' hbs
  rw [inexactOf_ids ea] at k1
  exact ⟨k1, k2⟩

/-- C117: if answers take as long as requests, the start is the real one. -/
theorem C117_exact {w : World} (hw : Reachable w) {r : Removal} (hr : r ∈ w.removed) {out : List Span} (ho : r.fate = .emitted out) {S : Story} {home : Int}
    (ht : S.Told home r.tree.members) (hin : S.InTime home r.tree.members) (hb : ∀ id, S.shared id = true → S.bias id = 0) :
    ∀ o ∈ out, ¬ Lost out o → (∃ m ∈ r.tree.members, m.id = o.id) → o.timestamp.toInt = S.start o.id + home ∧ o.duration.toInt = S.stop o.id - S.start o.id := by
  intro o ho' hl hm
  obtain ⟨r0, hr0, h⟩ := C117_times hw hr ho ht hin
  obtain ⟨hn, _⟩ := emitted_links hw hr ho
  obtain ⟨anc, hp⟩ := (path_iff_not_lost hn hr0 ho').mpr hl
  obtain ⟨h1, h2⟩ := h o anc hp hm
  have hz : S.inexactOf anc = 0 := by
    have : ∀ id, S.inexact id = 0 := by
      intro id
      unfold Story.inexact
      split
      · next h => rw [hb id h]; rfl
      · rfl
    have sum : ∀ l : List Span, S.inexactOf l = 0 := by
      intro l
      induction l with
      | nil => rfl
      | cons x l ih =>
        show (List.map _ (x :: l)).sum = 0
        rw [List.map_cons, List.sum_cons, this]
        exact (Nat.zero_add _).trans ih
    exact sum anc
  rw [hz] at h1
  exact ⟨by omega, h2⟩

/-- C117: hence what really happened during a call, is shown within this call. -/
theorem C117_within {w : World} (hw : Reachable w) {r : Removal} (hr : r ∈ w.removed) {out : List Span} (ho : r.fate = .emitted out) {S : Story} {home : Int}
    (ht : S.Told home r.tree.members) (hin : S.InTime home r.tree.members) (hb : ∀ id, S.shared id = true → S.bias id = 0)
    {p c : Span} (hp : p ∈ out) (hc : c ∈ out) (hpl : ¬ Lost out p) (hcl : ¬ Lost out c) (hpm : ∃ m ∈ r.tree.members, m.id = p.id) (hcm : ∃ m ∈ r.tree.members, m.id = c.id)
    (h1 : S.start p.id ≤ S.start c.id) (h2 : S.stop c.id ≤ S.stop p.id) :
    p.timestamp.toInt ≤ c.timestamp.toInt ∧ c.timestamp.toInt + c.duration.toInt ≤ p.timestamp.toInt + p.duration.toInt := by
  obtain ⟨a1, a2⟩ := C117_exact hw hr ho ht hin hb p hp hpl hpm
  obtain ⟨b1, b2⟩ := C117_exact hw hr ho ht hin hb c hc hcl hcm
  omega

namespace ClockWitness

/-- The clock of the callee of span 2 is in the year 1970. The request takes 3 ns and the answer 3 ns. -/
def story : Story where
  parent id := if id = 2 then 1 else if id = 3 then 2 else 0
  shared id := id == 2
  start id := if id = 2 then 1600000000000000010 else if id = 3 then 1600000000000000020 else 1600000000000000000
  arrive _ := 1600000000000000013
  leave _ := 1600000000000000047
  stop id := if id = 2 then 1600000000000000050 else if id = 3 then 1600000000000000040 else 1600000000000000060
  caller id := if id = 3 then -1600000000000000000 else 7
  callee id := if id = 1 then 7 else -1600000000000000000

def told : List Span :=
  [{ id := 2, trace := 9, parent := 1, timestamp := 13, duration := 34, timings := { SR := 13, SS := 47 } },
   { id := 3, trace := 9, parent := 2, timestamp := 20, duration := 20 },
   { id := 1, trace := 9, timestamp := 1600000000000000007, duration := 60 },
   { id := 2, trace := 9, parent := 1, timestamp := 1600000000000000017, duration := 40, timings := { CS := 1600000000000000017, CR := 1600000000000000057 } }]

def world : World := told.foldl (fun w s => w.receive 0 0 s) { clock := 0 }

def input : TickInput :=
  { now1 := 9000000000, now2 := 9000000000, nowFake := fun _ => 0, order := world.c.traces.toList, sorted := [], blOrder := [] }

theorem valid : input.Valid world.c :=
  ⟨.refl _, RaceWitness.perm_nil (by decide +kernel), .nil, RaceWitness.perm_nil (by decide +kernel), Int.le_refl _⟩

theorem reachable : Reachable world :=
  .receive 0 0 _ (.receive 0 0 _ (.receive 0 0 _ (.receive 0 0 _ (.init 0) (by decide) (by decide)) (by decide) (by decide)) (by decide) (by decide)) (by decide) (by decide)

theorem out : (emittedOf (world.c.tick input).2).map (fun t => t.map fun s => (s.id, s.timestamp, s.duration)) =
    [[(3, 1600000000000000027, 20), (2, 1600000000000000017, 40), (1, 1600000000000000007, 60)]] := by decide +kernel

theorem isTold : story.Told 7 told where
  parents := by decide
  inside := by decide
  first := by decide
  halves := by
    intro r hr hs
    simp only [told, List.mem_cons, List.not_mem_nil, or_false] at hr
    rcases hr with rfl | rfl | rfl | rfl
    · exact .inr ⟨rfl, rfl, rfl, rfl⟩
    · cases hs
    · cases hs
    · exact .inl ⟨rfl, rfl, rfl, rfl⟩
  both := by
    intro id hs
    have : id = 2 := by simpa [story] using hs
    subst this
    exact ⟨⟨_, .tail _ (.tail _ (.tail _ (.head _))), rfl, rfl, rfl, rfl, rfl⟩, ⟨_, .head _, rfl, rfl, rfl, rfl, rfl⟩⟩
  dated := by
    intro id hs
    have : id = 2 := by simpa [story] using hs
    subst this
    decide
  lone := by
    intro r hr hs
    simp only [told, List.mem_cons, List.not_mem_nil, or_false] at hr
    rcases hr with rfl | rfl | rfl | rfl
    · cases hs
    · exact ⟨rfl, rfl, rfl⟩
    · exact ⟨rfl, rfl, rfl⟩
    · cases hs
  side := by decide

theorem inTime : story.InTime 7 told := by unfold Story.InTime; decide

end ClockWitness

open ClockWitness in
/-- C117: the callee of the second span is a host whose clock starts in 1970, and its own span arrives first. The trace is shown on the clock of the caller. -/
theorem C117_witness : ∃ w r out, Reachable w ∧ r ∈ w.removed ∧ r.fate = .emitted out ∧ r.tree.members = told ∧ story.Told 7 r.tree.members ∧ story.InTime 7 r.tree.members ∧
    (∀ id, story.shared id = true → story.bias id = 0) ∧
    out.map (fun s => (s.id, s.timestamp, s.duration)) = [(3, 1600000000000000027, 20), (2, 1600000000000000017, 40), (1, 1600000000000000007, 60)] := by
  have hw : Reachable (world.tick input) := .tick input reachable valid (by decide)
  obtain ⟨o, rest, ho⟩ : ∃ o rest, emittedOf (world.c.tick input).2 = o :: rest := by
    have := congrArg List.length ClockWitness.out
    match h : emittedOf (world.c.tick input).2, this with
    | a :: l, _ => exact ⟨a, l, rfl⟩
    | [], this => cases this
  have hmap := ClockWitness.out
  rw [ho] at hmap
  obtain ⟨r, hr, hf⟩ := mem_emittedOf.mp (show o ∈ emittedOf (world.c.tick input).2 by rw [ho]; simp)
  have hr' : r ∈ (world.tick input).removed := List.mem_append_right _ hr
  have hid : ∀ x ∈ (world.c.tick input).2.map (fun r => (r.id, r.tree.members.length)), x = (9, 4) := by decide +kernel
  have hx := hid _ (List.mem_map_of_mem hr)
  have hm : r.tree.members = told := by
    have hi := (reachable_inv hw).infix_ r hr'
    rw [show r.id = 9 from congrArg Prod.fst hx] at hi
    have e : receivedFor 9 (world.tick input).received = told := rfl
    rw [e] at hi
    exact hi.eq_of_length (congrArg Prod.snd hx)
  refine ⟨_, r, o, hw, hr', hf, hm, hm ▸ isTold, hm ▸ inTime, ?_, (List.cons.inj hmap).1⟩
  intro id hs
  have : id = 2 := by simpa [story] using hs
  subst this
  decide

/-- The spans of `ClockWitness.told`, but now the request takes 5 ns and the answer 1 ns. -/
def biasedSpans : List Span :=
  [{ id := 2, trace := 9, parent := 1, timestamp := 15, duration := 34, timings := { SR := 15, SS := 49 } },
   { id := 3, trace := 9, parent := 2, timestamp := 20, duration := 20 },
   { id := 1, trace := 9, timestamp := 1600000000000000007, duration := 60 },
   { id := 2, trace := 9, parent := 1, timestamp := 1600000000000000017, duration := 40, timings := { CS := 1600000000000000017, CR := 1600000000000000057 } }]

/-- C117: the bound is sharp. If the request takes 4 ns longer than the answer, spans of the callee are shown 2 ns too early. -/
theorem C117_sharp :
    let story := { ClockWitness.story with arrive := fun _ => 1600000000000000015, leave := fun _ => 1600000000000000049 }
    story.bias 2 = 4 ∧ story.start 3 + 7 = 1600000000000000027 ∧
    ∃ w, Reachable w ∧ (emittedOf w.removed).map (fun t => t.map fun s => (s.id, s.timestamp, s.duration)) =
      [[(3, 1600000000000000025, 20), (2, 1600000000000000017, 40), (1, 1600000000000000007, 60)]] := by
  refine ⟨by decide, by decide, ?_⟩
  let world : World := biasedSpans.foldl (fun w s => w.receive 0 0 s) { clock := 0 }
  let input : TickInput := { now1 := 9000000000, now2 := 9000000000, nowFake := fun _ => 0, order := world.c.traces.toList, sorted := [], blOrder := [] }
  have hv : input.Valid world.c :=
    ⟨.refl _, RaceWitness.perm_nil (by decide +kernel), .nil, RaceWitness.perm_nil (by decide +kernel), Int.le_refl _⟩
  have hw : Reachable world :=
    .receive 0 0 _ (.receive 0 0 _ (.receive 0 0 _ (.receive 0 0 _ (.init 0) (by decide) (by decide)) (by decide) (by decide)) (by decide) (by decide)) (by decide) (by decide)
  exact ⟨world.tick input, .tick input hw hv (by decide), by decide +kernel⟩

/-! ## C118: a root that is made up covers the spans below it -/

/-- C118, partial: in an emitted trace, a root that was made up starts with or before every span below it, and ends with or after it, if this span is not known from both sides, or has the start and the
duration of the caller; barring overflow. Missing: other spans known from both sides (`C118_fails`). -/
theorem C118_covers_partial {w : World} (hw : Reachable w) {r : Removal} (hr : r ∈ w.removed) {out : List Span} (ho : r.fate = .emitted out)
    {f : Span} (hf : f ∈ out) (hfake : held f.id r.tree.members = none) {s : Span} (hs : s ∈ r.tree.spans) (hpar : s.parent = f.id)
    (hside : HasAllTimings s → s.timestamp = s.timings.CS ∧ s.duration = s.timings.CR - s.timings.CS)
    (hrange : ∀ q ∈ r.tree.spans, 0 ≤ q.timestamp.toInt ∧ q.timestamp.toInt < 2 ^ 62 ∧ 0 ≤ q.duration.toInt ∧ q.duration.toInt < 2 ^ 61) :
    ∃ c ∈ out, c.id = s.id ∧ c.parent = f.id ∧ f.timestamp.toInt ≤ c.timestamp.toInt ∧
      c.timestamp.toInt + c.duration.toInt ≤ f.timestamp.toInt + f.duration.toInt := by
  obtain ⟨hn, base, b0, h1, h2, hcor, h4⟩ := emitted_links hw hr ho
  have hnb : (base.map Span.id).Nodup := ids_of_links h4 ▸ hn
  have hok := (reachable_inv hw).gone r hr
  have hnot : ∀ x ∈ r.tree.spans, x.id ≠ f.id := by
    intro x hx e
    have := hok.inv.mem_held hx
    rw [e, hfake] at this
    cases this
  rcases h1 with ⟨p, g, hsp, hg, hperm, hpw⟩ | ⟨_, rfl⟩
  · have hu : UniqueIds base := SortedDesc.uniqueIds hpw
    -- the span made up is the root
    have hgb : g ∈ base := hperm.mem_iff.mpr (by simp)
    obtain ⟨x, hx, ex⟩ := links_mem h4 hf
    have hxg : x = g := by
      rcases List.mem_cons.mp (hperm.mem_iff.mp hx) with h | h
      · exact h
      · exact absurd (link_eq ex).1 (hnot x h)
    subst hxg
    have hroot : b0 = x := by
      rcases List.mem_cons.mp (hperm.mem_iff.mp h2.1.1) with h | h
      · exact h
      · exfalso
        have hcand : IsRootOf r.tree.spans b0 := ⟨h, h2.1.2.imp id fun hq q hq' => hq q (hperm.mem_iff.mpr (by simp [hq']))⟩
        rcases h2.1.2 with e | e
        · exact hnot b0 h (by rw [← e, hsp.2 b0 hcand, ← hg.id, (link_eq ex).1])
        · exact e x hx (by rw [hg.id, hsp.2 b0 hcand])
    subst hroot
    obtain ⟨i, hi⟩ := List.getElem?_of_mem hx
    have hm0 : corrected [] b0 ∈ out := List.mem_of_getElem? ((hcor.2 i b0 hi).1 [] .root)
    have ef : corrected [] b0 = f := mem_eq_of_id hn hm0 hf (link_eq ex).1
    have hnt : ¬ HasAllTimings b0 := fun h => h.1 (by rw [hg.timings])
    have ef1 : f.timestamp = b0.timestamp := by
      rw [← ef]
      show shiftedStart [] b0 = _
      rw [shiftedStart, if_neg hnt]
      exact Int64.add_zero _
    have ef2 : f.duration = b0.duration := by
      rw [← ef]
      show (if HasAllTimings b0 then _ else b0.duration) = _
      rw [if_neg hnt]
    have idf : b0.id = f.id := (link_eq ex).1
    -- the span below it
    have hsb : s ∈ base := hperm.mem_iff.mpr (by simp [hs])
    have hcand : IsRootOf r.tree.spans s := ⟨hs, .inr fun q hq e => hnot q hq (e.trans hpar)⟩
    have hpath : Path base b0 [b0] s := .child .root hsb (by rw [hpar, idf]) (by rw [hpar]; exact fun e => hnot s hs e.symm)
    obtain ⟨j, hj⟩ := List.getElem?_of_mem hsb
    have hc : corrected [b0] s ∈ out := List.mem_of_getElem? ((hcor.2 j s hj).1 _ hpath)
    have eshift : shiftedStart [b0] s = s.timestamp := by
      unfold shiftedStart
      have e0 : Spec.shift [b0] = 0 := by
        show (0 : Int64) + skew b0 = 0
        rw [show skew b0 = 0 by unfold skew; rw [if_neg hnt]]
        rfl
      rw [e0]
      by_cases h : HasAllTimings s
      · rw [if_pos h, (hside h).1]; exact Int64.add_zero _
      · rw [if_neg h]; exact Int64.add_zero _
    have edur : (corrected [b0] s).duration = s.duration := by
      show (if HasAllTimings s then s.timings.CR - s.timings.CS else s.duration) = _
      by_cases h : HasAllTimings s
      · rw [if_pos h, (hside h).2]
      · rw [if_neg h]
    have est : (corrected [b0] s).timestamp = if s.timestamp < year2020 then f.timestamp else s.timestamp := by
      show Spec.start [b0] s = _
      rw [Spec.start, eshift, ef1]
      have : Spec.start [] b0 = b0.timestamp := by
        show shiftedStart [] b0 = _
        rw [shiftedStart, if_neg hnt]
        exact Int64.add_zero _
      rw [this]
    refine ⟨_, hc, rfl, hpar, ?_⟩
    rw [est, edur, ef1, ef2]
    -- the interval of the root
    have a1 := Int64.le_iff_toInt_le.mp (hg.starts s hcand)
    have a2 := Int64.le_iff_toInt_le.mp (hg.ends s hcand)
    obtain ⟨q, hq, eq⟩ := hg.start
    obtain ⟨q', hq', eq'⟩ := hg.stop
    have rs := hrange s hs
    have rq := hrange q hq.1
    have rq' := hrange q' hq'.1
    have sum : ∀ z : Span, z ∈ r.tree.spans → (z.timestamp + z.duration).toInt = z.timestamp.toInt + z.duration.toInt := by
      intro z hz
      have := hrange z hz
      rw [Int64.toInt_add]
      exact Int.bmod_eq_of_le (by omega) (by omega)
    have b0d : b0.duration.toInt = q'.timestamp.toInt + q'.duration.toInt - q.timestamp.toInt := by
      have : b0.duration = (q'.timestamp + q'.duration) - q.timestamp := by rw [← eq', ← eq, Int64.add_comm]; simp
      rw [this, Int64.toInt_sub, sum q' hq'.1]
      exact Int.bmod_eq_of_le (by omega) (by omega)
    rw [eq', sum q' hq'.1, sum s hs] at a2
    rw [eq] at a1 ⊢
    split <;> omega
  · exfalso
    obtain ⟨x, hx, ex⟩ := links_mem h4 hf
    exact hnot x hx (link_eq ex).1

/-- Where a span below a root that was made up is shown: as the caller told, if both sides told. -/
def Span.shownStart (s : Span) : Int64 := if HasAllTimings s then s.timings.CS else s.timestamp
def Span.shownDuration (s : Span) : Int64 := if HasAllTimings s then s.timings.CR - s.timings.CS else s.duration

/-- C118, exactly: a root that was made up starts with the first and ends with the last of the spans below it, with the times that these have before they are corrected; and a span below it is shown as the caller
told, if both sides told (and from the start of the root on, if its start is before 2020). -/
theorem C118_exact {w : World} (hw : Reachable w) {r : Removal} (hr : r ∈ w.removed) {out : List Span} (ho : r.fate = .emitted out)
    {f : Span} (hf : f ∈ out) (hfake : held f.id r.tree.members = none) {s : Span} (hs : s ∈ r.tree.spans) (hpar : s.parent = f.id)
    (hrange : ∀ q ∈ r.tree.spans, 0 ≤ q.timestamp.toInt ∧ q.timestamp.toInt < 2 ^ 62 ∧ 0 ≤ q.duration.toInt ∧ q.duration.toInt < 2 ^ 61) :
    ((∃ q ∈ r.tree.spans, q.parent = f.id ∧ f.timestamp = q.timestamp) ∧ ∀ q ∈ r.tree.spans, q.parent = f.id → f.timestamp.toInt ≤ q.timestamp.toInt) ∧
    ((∃ q ∈ r.tree.spans, q.parent = f.id ∧ f.timestamp.toInt + f.duration.toInt = q.timestamp.toInt + q.duration.toInt) ∧
      ∀ q ∈ r.tree.spans, q.parent = f.id → q.timestamp.toInt + q.duration.toInt ≤ f.timestamp.toInt + f.duration.toInt) ∧
    ∃ c ∈ out, c.id = s.id ∧ c.parent = f.id ∧ c.timestamp = (if s.shownStart < year2020 then f.timestamp else s.shownStart) ∧ c.duration = s.shownDuration := by
  obtain ⟨hn, base, b0, h1, h2, hcor, h4⟩ := emitted_links hw hr ho
  have hnb : (base.map Span.id).Nodup := ids_of_links h4 ▸ hn
  have hok := (reachable_inv hw).gone r hr
  have hnot : ∀ x ∈ r.tree.spans, x.id ≠ f.id := by
    intro x hx e
    have := hok.inv.mem_held hx
    rw [e, hfake] at this
    cases this
  rcases h1 with ⟨p, g, hsp, hg, hperm, hpw⟩ | ⟨_, rfl⟩
  · have hu : UniqueIds base := SortedDesc.uniqueIds hpw
    -- the span made up is the root
    have hgb : g ∈ base := hperm.mem_iff.mpr (by simp)
    obtain ⟨x, hx, ex⟩ := links_mem h4 hf
    have hxg : x = g := by
      rcases List.mem_cons.mp (hperm.mem_iff.mp hx) with h | h
      · exact h
      · exact absurd (link_eq ex).1 (hnot x h)
    subst hxg
    have hroot : b0 = x := by
      rcases List.mem_cons.mp (hperm.mem_iff.mp h2.1.1) with h | h
      · exact h
      · exfalso
        have hcand : IsRootOf r.tree.spans b0 := ⟨h, h2.1.2.imp id fun hq q hq' => hq q (hperm.mem_iff.mpr (by simp [hq']))⟩
        rcases h2.1.2 with e | e
        · exact hnot b0 h (by rw [← e, hsp.2 b0 hcand, ← hg.id, (link_eq ex).1])
        · exact e x hx (by rw [hg.id, hsp.2 b0 hcand])
    subst hroot
    obtain ⟨i, hi⟩ := List.getElem?_of_mem hx
    have hm0 : corrected [] b0 ∈ out := List.mem_of_getElem? ((hcor.2 i b0 hi).1 [] .root)
    have ef : corrected [] b0 = f := mem_eq_of_id hn hm0 hf (link_eq ex).1
    have hnt : ¬ HasAllTimings b0 := fun h => h.1 (by rw [hg.timings])
    have ef1 : f.timestamp = b0.timestamp := by
      rw [← ef]
      show shiftedStart [] b0 = _
      rw [shiftedStart, if_neg hnt]
      exact Int64.add_zero _
    have ef2 : f.duration = b0.duration := by
      rw [← ef]
      show (if HasAllTimings b0 then _ else b0.duration) = _
      rw [if_neg hnt]
    have idf : b0.id = f.id := (link_eq ex).1
    -- the span below it
    have hsb : s ∈ base := hperm.mem_iff.mpr (by simp [hs])
    have hcand : IsRootOf r.tree.spans s := ⟨hs, .inr fun q hq e => hnot q hq (e.trans hpar)⟩
    have hpath : Path base b0 [b0] s := .child .root hsb (by rw [hpar, idf]) (by rw [hpar]; exact fun e => hnot s hs e.symm)
    obtain ⟨j, hj⟩ := List.getElem?_of_mem hsb
    have hc : corrected [b0] s ∈ out := List.mem_of_getElem? ((hcor.2 j s hj).1 _ hpath)
    have e0 : Spec.shift [b0] = 0 := by
      show (0 : Int64) + skew b0 = 0
      rw [show skew b0 = 0 by unfold skew; rw [if_neg hnt]]
      rfl
    have eshift : shiftedStart [b0] s = s.shownStart := by
      unfold shiftedStart Span.shownStart
      rw [e0]
      split <;> exact Int64.add_zero _
    have est : (corrected [b0] s).timestamp = if s.shownStart < year2020 then f.timestamp else s.shownStart := by
      show Spec.start [b0] s = _
      rw [Spec.start, eshift, ef1]
      have : Spec.start [] b0 = b0.timestamp := by
        show shiftedStart [] b0 = _
        rw [shiftedStart, if_neg hnt]
        exact Int64.add_zero _
      rw [this]
    have cand : ∀ {q : Span}, q ∈ r.tree.spans → q.parent = f.id → IsRootOf r.tree.spans q := fun hq hqp => ⟨hq, .inr fun z hz e => hnot z hz (e.trans hqp)⟩
    have below : ∀ {q : Span}, IsRootOf r.tree.spans q → q ∈ r.tree.spans ∧ q.parent = f.id := fun hq => ⟨hq.1, by rw [hsp.2 _ hq, ← hg.id, idf]⟩
    have sum : ∀ z : Span, z ∈ r.tree.spans → (z.timestamp + z.duration).toInt = z.timestamp.toInt + z.duration.toInt := by
      intro z hz
      have := hrange z hz
      rw [Int64.toInt_add]
      exact Int.bmod_eq_of_le (by omega) (by omega)
    obtain ⟨q, hq, eq⟩ := hg.start
    obtain ⟨q', hq', eq'⟩ := hg.stop
    have rq := hrange q hq.1
    have rq' := hrange q' hq'.1
    have b0d : b0.duration.toInt = q'.timestamp.toInt + q'.duration.toInt - q.timestamp.toInt := by
      have : b0.duration = (q'.timestamp + q'.duration) - q.timestamp := by rw [← eq', ← eq, Int64.add_comm]; simp
      rw [this, Int64.toInt_sub, sum q' hq'.1]
      exact Int.bmod_eq_of_le (by omega) (by omega)
    have hstop : f.timestamp.toInt + f.duration.toInt = q'.timestamp.toInt + q'.duration.toInt := by
      rw [ef1, ef2, eq]; omega
    refine ⟨⟨⟨q, (below hq).1, (below hq).2, by rw [ef1, eq]⟩, fun z hz hzp => ?_⟩, ⟨⟨q', (below hq').1, (below hq').2, hstop⟩, fun z hz hzp => ?_⟩, _, hc, rfl, hpar, est, rfl⟩
    · rw [ef1]; exact Int64.le_iff_toInt_le.mp (hg.starts z (cand hz hzp))
    · have a2 := Int64.le_iff_toInt_le.mp (hg.ends z (cand hz hzp))
      rw [eq', sum q' hq'.1, sum z hz] at a2
      omega
  · exfalso
    obtain ⟨x, hx, ex⟩ := links_mem h4 hf
    exact hnot x hx (link_eq ex).1

/-- C118, exactly: a span below the root that is not from before 2020 is covered iff the interval in which it is shown is within that of the times of all spans below the root before correction. -/
theorem C118_covered_iff {w : World} (hw : Reachable w) {r : Removal} (hr : r ∈ w.removed) {out : List Span} (ho : r.fate = .emitted out)
    {f : Span} (hf : f ∈ out) (hfake : held f.id r.tree.members = none) {s : Span} (hs : s ∈ r.tree.spans) (hpar : s.parent = f.id)
    (hrange : ∀ q ∈ r.tree.spans, 0 ≤ q.timestamp.toInt ∧ q.timestamp.toInt < 2 ^ 62 ∧ 0 ≤ q.duration.toInt ∧ q.duration.toInt < 2 ^ 61) (hdate : ¬ s.shownStart < year2020) :
    (∃ c ∈ out, c.id = s.id ∧ c.parent = f.id ∧ f.timestamp.toInt ≤ c.timestamp.toInt ∧ c.timestamp.toInt + c.duration.toInt ≤ f.timestamp.toInt + f.duration.toInt) ↔
    (∃ q ∈ r.tree.spans, q.parent = f.id ∧ q.timestamp.toInt ≤ s.shownStart.toInt) ∧
      ∃ q ∈ r.tree.spans, q.parent = f.id ∧ s.shownStart.toInt + s.shownDuration.toInt ≤ q.timestamp.toInt + q.duration.toInt := by
  obtain ⟨⟨⟨a, ha1, ha2, ha3⟩, hmin⟩, ⟨⟨b, hb1, hb2, hb3⟩, hmax⟩, c, hc, hid, hcp, hct, hcd⟩ := C118_exact hw hr ho hf hfake hs hpar hrange
  rw [if_neg hdate] at hct
  obtain ⟨hn, _⟩ := emitted_links hw hr ho
  constructor
  · rintro ⟨c', hc', hid', _, h1, h2⟩
    have e : c' = c := mem_eq_of_id hn hc' hc (hid'.trans hid.symm)
    subst e
    rw [hct] at h1 h2
    rw [hcd] at h2
    exact ⟨⟨a, ha1, ha2, ha3 ▸ h1⟩, ⟨b, hb1, hb2, hb3 ▸ h2⟩⟩
  · rintro ⟨⟨q, hq, hqp, h1⟩, ⟨q', hq', hqp', h2⟩⟩
    have i1 := hmin q hq hqp
    have i2 := hmax q' hq' hqp'
    refine ⟨c, hc, hid, hcp, ?_, ?_⟩
    · rw [hct]; omega
    · rw [hct, hcd]; omega

/-- Two calls without their caller. The callee of the first one, whose clock is an hour ahead, tells about it first. -/
def uncoveredSpans : List Span :=
  [{ id := 2, trace := 9, parent := 1, timestamp := 1600003600000000003, duration := 4, timings := { SR := 1600003600000000003, SS := 1600003600000000007 } },
   { id := 2, trace := 9, parent := 1, timestamp := 1600000000000000000, duration := 10, timings := { CS := 1600000000000000000, CR := 1600000000000000010 } },
   { id := 3, trace := 9, parent := 1, timestamp := 1600003600000000100, duration := 5 }]

/-- C118 does not hold as stated: the root that is made up for two calls starts an hour after the first of them. -/
theorem C118_fails : ∃ w, Reachable w ∧ (emittedOf w.removed).map (fun t => t.map fun s => (s.name, s.id, s.parent, s.timestamp, s.duration)) =
    [[([], 3, 1, 1600003600000000100, 5), ([], 2, 1, 1600000000000000000, 10), (b!"fake-root", 1, 9, 1600003600000000003, 102)]] := by
  let world : World := uncoveredSpans.foldl (fun w s => w.receive 0 0 s) { clock := 0 }
  let input : TickInput := { now1 := 9000000000, now2 := 9000000000, nowFake := fun _ => 0, order := world.c.traces.toList, sorted := [], blOrder := [] }
  have hv : input.Valid world.c :=
    ⟨.refl _, RaceWitness.perm_nil (by decide +kernel), .nil, RaceWitness.perm_nil (by decide +kernel), Int.le_refl _⟩
  have hw : Reachable world :=
    .receive 0 0 _ (.receive 0 0 _ (.receive 0 0 _ (.init 0) (by decide) (by decide)) (by decide) (by decide)) (by decide) (by decide)
  exact ⟨world.tick input, .tick input hw hv (by decide), by decide +kernel⟩

/-- The same spans; now the caller tells about the first call first. -/
def coveredSpans : List Span :=
  [{ id := 2, trace := 9, parent := 1, timestamp := 1600000000000000000, duration := 10, timings := { CS := 1600000000000000000, CR := 1600000000000000010 } },
   { id := 2, trace := 9, parent := 1, timestamp := 1600003600000000003, duration := 4, timings := { SR := 1600003600000000003, SS := 1600003600000000007 } },
   { id := 3, trace := 9, parent := 1, timestamp := 1600003600000000100, duration := 5 }]

/-- C118: a made-up root, and a call known from both sides below it. -/
theorem C118_witness : ∃ w r out f s, Reachable w ∧ r ∈ w.removed ∧ r.fate = .emitted out ∧ f ∈ out ∧ held f.id r.tree.members = none ∧ s ∈ r.tree.spans ∧ s.parent = f.id ∧
    HasAllTimings s ∧ s.timestamp = s.timings.CS ∧ s.duration = s.timings.CR - s.timings.CS ∧
    (∀ q ∈ r.tree.spans, 0 ≤ q.timestamp.toInt ∧ q.timestamp.toInt < 2 ^ 62 ∧ 0 ≤ q.duration.toInt ∧ q.duration.toInt < 2 ^ 61) := by
  let world : World := coveredSpans.foldl (fun w s => w.receive 0 0 s) { clock := 0 }
  let input : TickInput := { now1 := 9000000000, now2 := 9000000000, nowFake := fun _ => 0, order := world.c.traces.toList, sorted := [], blOrder := [] }
  have hv : input.Valid world.c :=
    ⟨.refl _, RaceWitness.perm_nil (by decide +kernel), .nil, RaceWitness.perm_nil (by decide +kernel), Int.le_refl _⟩
  have hw : Reachable world :=
    .receive 0 0 _ (.receive 0 0 _ (.receive 0 0 _ (.init 0) (by decide) (by decide)) (by decide) (by decide)) (by decide) (by decide)
  have hw' : Reachable (world.tick input) := .tick input hw hv (by decide)
  have hout : (emittedOf (world.c.tick input).2).map (fun t => t.map Span.id) = [[3, 2, 1]] := by decide +kernel
  obtain ⟨o, rest, ho⟩ : ∃ o rest, emittedOf (world.c.tick input).2 = o :: rest := by
    have := congrArg List.length hout
    match h : emittedOf (world.c.tick input).2, this with
    | a :: l, _ => exact ⟨a, l, rfl⟩
    | [], this => cases this
  rw [ho] at hout
  obtain ⟨r, hr, hf⟩ := mem_emittedOf.mp (show o ∈ emittedOf (world.c.tick input).2 by rw [ho]; simp)
  have hr' : r ∈ (world.tick input).removed := List.mem_append_right _ hr
  have hall1 : ∀ x ∈ (world.c.tick input).2.map (fun r => r.tree.members.map Span.id), x = [2, 2, 3] := by decide +kernel
  have hall2 : ∀ x ∈ (world.c.tick input).2.map (fun r => r.tree.spans.map fun s => ([s.id, s.parent, s.timestamp, s.duration, s.timings.CS, s.timings.CR, s.timings.SS, s.timings.SR] : List Int64)),
      x = [[3, 1, 1600003600000000100, 5, 0, 0, 0, 0], [2, 1, 1600000000000000000, 10, 1600000000000000000, 1600000000000000010, 1600003600000000007, 1600003600000000003]] := by decide +kernel
  have h1 := hall1 _ (List.mem_map_of_mem hr)
  have h2 := hall2 _ (List.mem_map_of_mem hr)
  obtain ⟨f, hfo, ef⟩ := List.mem_map.mp (show (1 : Id) ∈ o.map Span.id by rw [show o.map Span.id = [3, 2, 1] from (List.cons.inj hout).1]; simp)
  obtain ⟨a, b, hsp⟩ : ∃ a b, r.tree.spans = [a, b] := by
    have hl := congrArg List.length h2
    rw [List.length_map] at hl
    match r.tree.spans, hl with
    | [a, b], _ => exact ⟨a, b, rfl⟩
  rw [hsp] at h2
  · simp only [List.map_cons, List.map_nil, List.cons.injEq, and_true] at h2
    obtain ⟨⟨_, _, a3, a4, _⟩, ⟨_, b2, b3, b4, b5, b6, b7, b8⟩⟩ := h2
    refine ⟨_, r, o, f, b, hw', hr', hf, hfo, ?_, by rw [hsp]; simp, by rw [ef]; exact b2, ⟨?_, ?_, ?_, ?_⟩, by rw [b3, b5], by rw [b4, b5, b6]; decide, ?_⟩
    · rw [ef]
      have : r.tree.members.filter (fun s => s.id == 1) = [] := by
        rw [List.filter_eq_nil_iff]
        intro m hm
        have := List.mem_map_of_mem (f := Span.id) hm
        rw [h1] at this
        simp only [List.mem_cons, List.not_mem_nil, or_false] at this
        rcases this with h | h | h <;> rw [h] <;> decide
      unfold held
      rw [this]
    · rw [b5]; decide
    · rw [b6]; decide
    · rw [b7]; decide
    · rw [b8]; decide
    · intro q hq
      rw [hsp] at hq
      simp only [List.mem_cons, List.not_mem_nil, or_false] at hq
      rcases hq with rfl | rfl
      · rw [a3, a4]; decide
      · rw [b3, b4]; decide

end Verif
