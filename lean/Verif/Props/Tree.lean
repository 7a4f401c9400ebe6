import Verif.Proofs.Correct
import Verif.Proofs.Halves

/-!
# C34 - C43: assembling a trace, roots, fake root, timing correction
-/

namespace Verif

open Spec

/-- A trace that has received the given spans at the given times. -/
def assemble (now : Time) (traceId : Id) (l : List (Time × Span)) : Tree :=
  l.foldl (fun t e => t.addSpan e.1 e.2) (newTree now traceId)

theorem assemble_inv_members (now : Time) (traceId : Id) (l : List (Time × Span)) :
    (assemble now traceId l).Inv ∧ (assemble now traceId l).members = l.map Prod.snd ∧
    (assemble now traceId l).traceId = traceId := by
  have key : ∀ (l : List (Time × Span)) (t : Tree), t.Inv →
      (l.foldl (fun t e => t.addSpan e.1 e.2) t).Inv ∧
      (l.foldl (fun t e => t.addSpan e.1 e.2) t).members = t.members ++ l.map Prod.snd ∧
      (l.foldl (fun t e => t.addSpan e.1 e.2) t).traceId = t.traceId := by
    intro l
    induction l with
    | nil => intro t h; exact ⟨h, by simp, rfl⟩
    | cons e l ih =>
      intro t h
      obtain ⟨h1, h2, h3⟩ := ih _ (h.addSpan e.1 e.2)
      refine ⟨h1, ?_, ?_⟩
      · rw [List.foldl_cons, h2]
        have : (t.addSpan e.1 e.2).members = t.members ++ [e.2] := by
          unfold Tree.addSpan; dsimp only; split <;> rfl
        rw [this]; simp
      · rw [List.foldl_cons, h3]; unfold Tree.addSpan; dsimp only; split <;> rfl
  obtain ⟨h1, h2, h3⟩ := key l _ (newTree_inv now traceId)
  exact ⟨h1, by rw [assemble, h2]; rfl, h3⟩

/-! ## C34 -/

/-- C34: the spans of a trace are in strictly decreasing order of their ids, and looking an id up finds
exactly the merged span that should be held for this id, or nothing if no span with this id was received. -/
theorem C34_trace_is_a_map (now : Time) (traceId : Id) (l : List (Time × Span)) :
    let t := assemble now traceId l
    t.spans.Pairwise (fun a b => a.id > b.id) ∧
    (∀ id, ((getSpanRef t.spans id).bind fun i => t.spans[i]?).map Span.withTags = held id (l.map Prod.snd)) ∧
    (∀ s ∈ t.spans, held s.id (l.map Prod.snd) = some s.withTags) := by
  obtain ⟨hi, hm, _⟩ := assemble_inv_members now traceId l
  have href : ∀ id, ((getSpanRef (assemble now traceId l).spans id).bind
      fun i => (assemble now traceId l).spans[i]?) = lookupSpan (assemble now traceId l).spans id := by
    intro id
    cases hg : getSpanRef (assemble now traceId l).spans id with
    | none =>
      have := (getSpanRef_eq_none hi.sorted).mp hg
      rw [lookupSpan_eq_none.mpr this]; rfl
    | some i =>
      obtain ⟨s, hs, he⟩ := (getSpanRef_eq_some hi.sorted).mp hg
      rw [(lookupSpan_eq_some hi.sorted).mpr ⟨List.mem_of_getElem? hs, he⟩]
      exact hs
  refine ⟨hi.sorted, ?_, ?_⟩
  · intro id
    rw [href, hi.holds, hm]
  · intro s hs
    rw [← hm, ← hi.holds, (lookupSpan_eq_some hi.sorted).mpr ⟨hs, rfl⟩]; rfl

/-- C34: an id is found exactly if a span with this id was received, and there are as many spans as
distinct ids. -/
theorem C34_found_iff_received (now : Time) (traceId : Id) (l : List (Time × Span)) (id : Id) :
    (getSpanRef (assemble now traceId l).spans id).isSome ↔ ∃ e ∈ l, e.2.id = id := by
  obtain ⟨hi, hm, _⟩ := assemble_inv_members now traceId l
  have h := hi.holds id
  rw [hm] at h
  have h1 : (held id (l.map Prod.snd)).isSome ↔ ∃ e ∈ l, e.2.id = id := by
    unfold held
    cases hf : (l.map Prod.snd).filter (fun s => s.id == id) with
    | nil =>
      rw [List.filter_eq_nil_iff] at hf
      simp only [Option.isSome_none, Bool.false_eq_true, false_iff]
      rintro ⟨e, he, rfl⟩
      exact hf e.2 (List.mem_map_of_mem he) (by simp)
    | cons s r =>
      have : s ∈ (l.map Prod.snd).filter (fun s => s.id == id) := by rw [hf]; simp
      rw [List.mem_filter, List.mem_map] at this
      obtain ⟨⟨e, he, rfl⟩, hid⟩ := this
      simp only [Option.isSome_some, true_iff]
      exact ⟨e, he, by simpa using hid⟩
  rw [← h1, ← h, Option.isSome_map]
  cases hg : getSpanRef (assemble now traceId l).spans id with
  | none =>
    have := (getSpanRef_eq_none hi.sorted).mp hg
    rw [lookupSpan_eq_none.mpr this]; exact Iff.rfl
  | some i =>
    obtain ⟨s, hs, he⟩ := (getSpanRef_eq_some hi.sorted).mp hg
    rw [(lookupSpan_eq_some hi.sorted).mpr ⟨List.mem_of_getElem? hs, he⟩]
    rfl

/-! ## C35 -/

/-- C35: merging takes service, name and each tag from the second span if that one is a server half,
otherwise from the first, falling back to the other one; identity, start and duration stay those of the
first. This holds for every order in which the tag maps are iterated. -/
theorem C35_merge (first second : Span) (ordNew ordOld : List (Str × Str))
    (hn : IsRange ordNew (second.tags.getD ∅)) (ho : IsRange ordOld (first.tags.getD ∅)) :
    (mergeSpansOrd ordNew ordOld (if idIsUnknown first.parent then { first with parent := second.parent } else first)
      second).withTags = merged first second := by
  rw [mergeSpansOrd_eq _ _ _ _ hn (by split <;> exact ho)]
  exact addToExisting_spec first second

/-- C35: in whichever order a client half and a server half arrive, service, name and tags are the
server's where it has them and the client's otherwise, and all timings of both are kept. -/
theorem C35_server_preferred (c s : Span) (hc : IsClientHalf c) (hs : IsServerHalf s) :
    ∀ m, (m = addToExisting c s ∨ m = addToExisting s c) →
      m.service = firstNonEmpty s.service c.service ∧ m.name = firstNonEmpty s.name c.name ∧
      (∀ k : Str, (m.tags.getD ∅)[k]? = ((s.tags.getD ∅)[k]?).or ((c.tags.getD ∅)[k]?)) ∧
      m.timings = { CS := c.timings.CS, CR := c.timings.CR, SS := s.timings.SS, SR := s.timings.SR } := by
  obtain ⟨c1, c2, c3, c4⟩ := hc
  obtain ⟨s1, s2, s3, s4, s5⟩ := hs
  have hnc : ¬ IsServer c := by
    unfold IsServer; rw [c1, c2]; simp [Int64.lt_irrefl]
  have fv : ∀ a : Timestamp, 0 ≤ a → firstValid a 0 = a := by
    intro a ha
    unfold firstValid
    split
    · rfl
    · next h => exact Int64.le_antisymm ha (Int64.not_lt.mp h)
  have hw : ∀ m : Span, m.service = m.withTags.service ∧ m.name = m.withTags.name ∧
      m.tags.getD ∅ = m.withTags.tags.getD ∅ ∧ m.timings = m.withTags.timings := fun m => ⟨rfl, rfl, rfl, rfl⟩
  rintro m (rfl | rfl)
  · obtain ⟨e1, e2, e3, e4⟩ := hw (addToExisting c s)
    rw [e1, e2, e3, e4, addToExisting_spec]
    simp [merged, s1, fv _ s4, fv _ s5, c1, c2, Std.ExtTreeMap.getElem?_union]
  · obtain ⟨e1, e2, e3, e4⟩ := hw (addToExisting s c)
    rw [e1, e2, e3, e4, addToExisting_spec]
    simp [merged, hnc, fv _ c3, fv _ c4, s2, s3, Std.ExtTreeMap.getElem?_union]

/-- C35: outside of the case of two halves timings can be lost: a second span that has all four timings
does not contribute its client timings. -/
theorem C35_mixed_loses_client_timings :
    ∃ a b : Span, a.timings.CS = 0 ∧ 0 < b.timings.CS ∧ (addToExisting a b).timings.CS = 0 :=
  ⟨{ timings := { SS := 2, SR := 1 } }, { timings := { CS := 1, CR := 4, SS := 3, SR := 2 } }, by decide⟩

example : IsClientHalf { timings := { CS := 10, CR := 20 } } ∧
    IsServerHalf { timings := { SR := 1000, SS := 1001 } } := by
  unfold IsClientHalf IsServerHalf IsServer; decide +kernel

/-! ## C40 - C42 -/

/-- C40, C41, C42 in one: `correctTreeTimings` started at a root candidate of a trace returns (for every
recursion limit of at least the number of spans, hence without any limit), calls itself on each
descendant of the root exactly once and on nothing else, and leaves each span as specified. -/
theorem correct_full {spans : List Span} (hs : SortedDesc spans) {i : Nat} (hi : i ∈ roots spans) :
    ∃ r st', spans[i]? = some r ∧ IsRootOf spans r ∧
      (∀ fuel, spans.length ≤ fuel → correctTree fuel { spans := spans } i none 0 = some st') ∧
      st'.visits.Nodup ∧ (∀ j, j ∈ st'.visits ↔ ∃ s anc, spans[j]? = some s ∧ Path spans r anc s) ∧
      st'.spans.length = spans.length ∧
      ∀ (j : Nat) (s : Span), spans[j]? = some s →
        (∀ anc, Path spans r anc s → st'.spans[j]? = some (corrected anc s)) ∧
        ((∀ anc, ¬ Path spans r anc s) → st'.spans[j]? = some s) := by
  obtain ⟨r, hir, hr⟩ := mem_roots.mp hi
  have hb : ∀ j, Below spans r r [] j ↔ ∃ s anc, spans[j]? = some s ∧ Path spans r anc s := by
    intro j
    constructor
    · rintro ⟨s, l, hj, hp, _⟩; exact ⟨s, l, hj, hp⟩
    · rintro ⟨s, l, hj, hp⟩
      refine ⟨s, l, hj, hp, ?_⟩
      clear hj
      induction hp with
      | root => exact List.suffix_refl _
      | child _ _ _ _ ih => exact ih.trans (List.suffix_cons _ _)
  have main : ∃ st', correctTree spans.length { spans := spans } i none 0 = some st' ∧
      Effect (orig := spans) (r := r) (Below spans r r []) { spans := spans } st' := by
    have hlt : i < spans.length := (List.getElem?_eq_some_iff.mp hir).1
    have := correctTree_spec hs hr spans.length { spans := spans } i r [] none hir Path.root
      (by simp) rfl (fun _ _ => rfl) rfl
    exact this
  obtain ⟨st', hst', hsk, hdone, hkeep, new, hv, hnd, hmem⟩ := main
  refine ⟨r, st', hir, hr, fun fuel hf => correctTree_mono' hf hst', ?_, ?_, hsk.length, ?_⟩
  · rw [hv]; simpa using hnd
  · intro j; rw [hv]; simp only [List.append_nil]; rw [hmem, hb]
  · intro j s hj
    constructor
    · intro anc hp
      exact hdone j ((hb j).mpr ⟨s, anc, hj, hp⟩) s anc hj hp
    · intro hno
      rw [hkeep j (fun h => by
        obtain ⟨s', anc, hj', hp⟩ := (hb j).mp h
        rw [hj] at hj'; cases hj'; exact hno anc hp)]
      exact hj

/-- C40: timing correction returns for every trace assembled from received spans and every root
candidate, and visits each span at most once. -/
theorem C40_correction_terminates (now : Time) (traceId : Id) (l : List (Time × Span)) (i : Nat)
    (hi : i ∈ roots (assemble now traceId l).spans) :
    ∃ st', (∀ fuel, (assemble now traceId l).spans.length ≤ fuel →
        correctTree fuel { spans := (assemble now traceId l).spans } i none 0 = some st') ∧
      st'.visits.Nodup := by
  obtain ⟨r, st', _, _, h, hn, _⟩ := correct_full (assemble_inv_members now traceId l).1.sorted hi
  exact ⟨st', h, hn⟩

/-- C41: each descendant of the root (with the path of ancestors `anc`) is corrected as specified and
everything else is unchanged. `Spec.corrected` reads: the start is that of the client (if all four
timings are known) or of the span itself, plus the sum of the skews measured along the path; if this is
before 2020 the corrected start of the parent is taken instead; the duration is the client's interval if
all four timings are known. -/
theorem C41_correction (now : Time) (traceId : Id) (l : List (Time × Span)) (i : Nat) (r : Span) (out : CorrectState)
    (fuel : Nat) (hi : i ∈ roots (assemble now traceId l).spans) (hr : (assemble now traceId l).spans[i]? = some r)
    (hout : correctTree fuel { spans := (assemble now traceId l).spans } i none 0 = some out)
    (j : Nat) (s : Span) (hj : (assemble now traceId l).spans[j]? = some s) :
    (∀ anc, Path (assemble now traceId l).spans r anc s → out.spans[j]? = some (corrected anc s)) ∧
    ((∀ anc, ¬ Path (assemble now traceId l).spans r anc s) → out.spans[j]? = some s) := by
  obtain ⟨r', st', hr', _, h, _, _, _, hspec⟩ := correct_full (assemble_inv_members now traceId l).1.sorted hi
  rw [hr] at hr'; cases hr'
  have h1 := h (max fuel (assemble now traceId l).spans.length) (by omega)
  have h2 := correctTree_mono' (show fuel ≤ max fuel (assemble now traceId l).spans.length by omega) hout
  rw [h1] at h2; cases h2
  exact hspec j s hj

/-- C42: timing correction changes nothing but start and duration, and neither the number nor the order of
the spans. (For an arbitrary list of spans, node and parent.) -/
theorem C42_only_times_change (fuel : Nat) (st : CorrectState) (i : Nat) (parent : Option Nat) (off : Duration)
    (out : CorrectState) (hout : correctTree fuel st i parent off = some out) :
    out.spans.map (fun s => { s with timestamp := 0, duration := 0 }) =
      st.spans.map (fun s => { s with timestamp := 0, duration := 0 }) := by
  induction fuel generalizing st i parent off out with
  | zero => simp [correctTree] at hout
  | succ fuel ih =>
    rw [correctTree] at hout
    split at hout
    · cases hout; rfl
    · next n hn =>
      have hnode : ∀ ps, { (correctNode n ps off).1 with timestamp := 0, duration := 0 } =
          ({ n with timestamp := 0, duration := 0 } : Span) := by
        intro ps
        unfold correctNode
        dsimp only
        cases ps <;> dsimp only <;> (repeat' split) <;> rfl
      have hset : ∀ x : Span, { x with timestamp := 0, duration := 0 } = ({ n with timestamp := 0, duration := 0 } : Span) →
          (st.spans.set i x).map (fun s => ({ s with timestamp := 0, duration := 0 } : Span)) =
          st.spans.map (fun s => ({ s with timestamp := 0, duration := 0 } : Span)) := by
        intro x hx
        rw [List.map_set, hx]
        apply List.ext_getElem?
        intro j
        rw [List.getElem?_set]
        split
        · next hij =>
          subst hij
          have := (List.getElem?_eq_some_iff.mp hn).1
          rw [if_pos (by simpa using this), List.getElem?_map, hn]; rfl
        · rfl
      have hfold : ∀ (cs : List Nat) (o : Duration) (s0 : CorrectState),
          cs.foldlM (fun st child => correctTree fuel st child (some i) o) s0 = some out →
          out.spans.map (fun s => ({ s with timestamp := 0, duration := 0 } : Span)) =
          s0.spans.map (fun s => ({ s with timestamp := 0, duration := 0 } : Span)) := by
        intro cs o
        induction cs with
        | nil => intro s0 h; cases h; rfl
        | cons c cs ihc =>
          intro s0 h
          rw [List.foldlM_cons] at h
          cases hc : correctTree fuel s0 c (some i) o with
          | none => rw [hc] at h; simp at h
          | some s1 =>
            rw [hc] at h
            rw [ihc s1 h, ih _ _ _ _ _ hc]
      rw [hfold _ _ _ hout]
      exact hset _ (hnode _)

/-- Non-vacuity of C40-C42: a trace with a root, a child with all four timings and a grandchild dated
before 2020, and two spans that are each other's parent. -/
def sampleTrace : List (Time × Span) :=
  [(0, { id := 1, parent := 1, trace := 1, timestamp := 1600000000000000000, duration := 10 }),
   (1, { id := 2, parent := 1, trace := 1, timestamp := 1600000000000000005, duration := 10,
         timings := { CS := 1600000000000000001, CR := 1600000000000000009,
                      SR := 1600000000000000103, SS := 1600000000000000105 } }),
   (2, { id := 3, parent := 2, trace := 1, timestamp := 7, duration := 1 }),
   (3, { id := 4, parent := 2, trace := 1, timestamp := 1600000000000000104, duration := 1 }),
   (4, { id := 5, parent := 6, trace := 1, timestamp := 9, duration := 1 }),
   (5, { id := 6, parent := 5, trace := 1, timestamp := 8, duration := 1 })]

example : roots (assemble 0 1 sampleTrace).spans = [5] := by decide +kernel
example : ((correctTree 6 { spans := (assemble 0 1 sampleTrace).spans } 5 none 0).map fun st =>
    (st.spans.map fun s => (s.id, s.timestamp), st.visits)) =
    some ([(6, 8), (5, 9), (4, 1600000000000000005), (3, 1600000000000000001), (2, 1600000000000000001),
      (1, 1600000000000000000)], [3, 2, 4, 5]) := by decide +kernel

/-! ## C43 -/

/-- The offset that `correctTreeTimings` hands to the children of a node. -/
theorem correctNode_offset (s : Span) (p : Option Timestamp) (off : Duration) :
    (correctNode s p off).2 = off + skew s := by
  have hall : (s.timings.CR ≠ 0 ∧ s.timings.CS ≠ 0 ∧ s.timings.SR ≠ 0 ∧ s.timings.SS ≠ 0) ↔ HasAllTimings s := by
    unfold HasAllTimings; grind
  have hsk : (if s.timings.CR ≠ 0 ∧ s.timings.CS ≠ 0 ∧ s.timings.SR ≠ 0 ∧ s.timings.SS ≠ 0 then
      off + ((s.timings.CR + s.timings.CS) / 2 - (s.timings.SR + s.timings.SS) / 2) else off) = off + skew s := by
    unfold skew
    simp only [hall]
    split <;> simp
  rw [← hsk]
  unfold correctNode
  have ht : (if off ≠ 0 then { s with timestamp := s.timestamp + off } else s).timings = s.timings := by
    split <;> rfl
  dsimp only
  rw [ht]
  cases p <;> dsimp only <;> (repeat' split) <;> rfl

/-- C43: if none of the four timings is further than 146 years from 1970, then shifting the server's
interval by the offset that timing correction computes for the children of the span puts its midpoint on
the midpoint of the client's interval up to 1ns (half a nanosecond for timings after 1970): the
statement compares twice the midpoints. -/
theorem C43_skew_centres (s : Span) (p : Option Timestamp) (h : HasAllTimings s)
    (h1 : -2 ^ 62 ≤ s.timings.CS.toInt) (h2 : s.timings.CS.toInt < 2 ^ 62)
    (h3 : -2 ^ 62 ≤ s.timings.CR.toInt) (h4 : s.timings.CR.toInt < 2 ^ 62)
    (h5 : -2 ^ 62 ≤ s.timings.SS.toInt) (h6 : s.timings.SS.toInt < 2 ^ 62)
    (h7 : -2 ^ 62 ≤ s.timings.SR.toInt) (h8 : s.timings.SR.toInt < 2 ^ 62) :
    let client := s.timings.CR.toInt + s.timings.CS.toInt
    let offset := (correctNode s p 0).2.toInt
    let server := (s.timings.SR.toInt + offset) + (s.timings.SS.toInt + offset)
    (-2 ≤ client - server ∧ client - server ≤ 2) ∧
    (0 ≤ s.timings.CS.toInt → 0 ≤ s.timings.CR.toInt → 0 ≤ s.timings.SS.toInt → 0 ≤ s.timings.SR.toInt →
      -1 ≤ client - server ∧ client - server ≤ 1) := by
  have hsk : (skew s).toInt = (s.timings.CR.toInt + s.timings.CS.toInt).tdiv 2 -
      (s.timings.SR.toInt + s.timings.SS.toInt).tdiv 2 := by
    have two : Int64.toInt 2 = 2 := rfl
    have half : ∀ x : Int, -2 ^ 63 ≤ x → x < 2 ^ 63 - 1 → -2 ^ 62 ≤ x.tdiv 2 ∧ x.tdiv 2 < 2 ^ 62 := by
      intro x h1 h2
      rw [Int.tdiv_eq_ediv]; simp only [show Int.sign 2 = 1 from rfl]; split <;> omega
    have a1 := half (s.timings.CR.toInt + s.timings.CS.toInt) (by omega) (by omega)
    have a2 := half (s.timings.SR.toInt + s.timings.SS.toInt) (by omega) (by omega)
    unfold skew
    rw [if_pos h, Int64.toInt_sub, Int64.toInt_div_of_ne_right _ _ (by decide),
      Int64.toInt_div_of_ne_right _ _ (by decide), Int64.toInt_add, Int64.toInt_add, two,
      Int.bmod_eq_of_le (n := _ + _) (by omega) (by omega), Int.bmod_eq_of_le (n := _ + _) (by omega) (by omega),
      Int.bmod_eq_of_le (by omega) (by omega)]
  intro client offset server
  have hoff : offset = (skew s).toInt := by
    simp only [offset]; rw [correctNode_offset, Int64.zero_add]
  have e1 : ∀ x : Int, x.tdiv 2 = x / 2 + if 0 ≤ x ∨ x % 2 = 0 then 0 else 1 := by
    intro x
    rw [Int.tdiv_eq_ediv]; simp only [show Int.sign 2 = 1 from rfl]
    by_cases hx : 0 ≤ x ∨ 2 ∣ x <;> grind
  rw [e1, e1] at hsk
  constructor
  · simp only [client, server]; rw [hoff]; split at hsk <;> split at hsk <;> omega
  · intro p1 p2 p3 p4
    simp only [client, server]; rw [hoff]; split at hsk <;> split at hsk <;> omega

example : skew { timings :=
    { CS := 1600000000000000000, CR := 1600000000000000101
      SR := 1500000000000000010, SS := 1500000000000000020 } } = 100000000000000035 := by decide +kernel

/-! ## C37 -/

/-- C37: the root candidates are exactly the spans that are their own parent or whose parent was not
received; each is listed once, in the order of the trace. -/
theorem C37_roots (spans : List Span) :
    (∀ i, i ∈ roots spans ↔ ∃ s, spans[i]? = some s ∧ (s.parent = s.id ∨ ∀ q ∈ spans, q.id ≠ s.parent)) ∧
    (roots spans).Pairwise (· < ·) := by
  constructor
  · intro i
    rw [mem_roots]
    constructor
    · rintro ⟨s, hs, h⟩; exact ⟨s, hs, h.2⟩
    · rintro ⟨s, hs, h⟩; exact ⟨s, hs, List.mem_of_getElem? hs, h⟩
  · exact List.Pairwise.filter _ List.pairwise_lt_range

/-! ## C38 -/

/-- correct.go:258-262: the spans after the possible injection of a fake root. -/
theorem pick_roots_cases (spans : List Span) : (pick spans (roots spans)).length = (roots spans).length := by
  unfold pick
  have : ∀ l : List Nat, (∀ i ∈ l, i < spans.length) → (l.filterMap (spans[·]?)).length = l.length := by
    intro l
    induction l with
    | nil => intro _; rfl
    | cons i l ih =>
      intro h
      have hi := List.getElem?_eq_getElem (h i (by simp))
      rw [List.filterMap_cons, hi]
      simp [ih (fun j hj => h j (by simp [hj]))]
  apply this
  intro i hi
  obtain ⟨s, hs, _⟩ := mem_roots.mp hi
  exact (List.getElem?_eq_some_iff.mp hs).1

/-- C38: if several root candidates share one parent then this parent was not received, so a fake root
with this id is added; afterwards there is exactly one root candidate, namely the fake root, if no span
has the trace id as its id, and there is none at all otherwise. -/
theorem C38_fake_root_partial (t : Tree) (now : Time) (hinv : t.Inv) (htr : ∀ s ∈ t.spans, s.trace = t.traceId)
    (first : Span) (rest : List Span) (hroots : pick t.spans (roots t.spans) = first :: rest)
    (hmany : 1 < (roots t.spans).length) (hsame : allTheSameParent (first :: rest) = true) :
    let t' := t.addSpan now (createFakeRoot first rest)
    (∀ s ∈ t.spans, s.id ≠ first.parent) ∧
    t'.spans.Perm (createFakeRoot first rest :: t.spans) ∧
    ((∀ s ∈ t.spans, s.id ≠ t.traceId) → ∃ i, roots t'.spans = [i] ∧
      t'.spans[i]? = some (createFakeRoot first rest)) ∧
    ((∃ s ∈ t.spans, s.id = t.traceId) → roots t'.spans = []) ∧
    (createFakeRoot first rest).trace = t.traceId ∧ (createFakeRoot first rest).id = first.parent ∧ (createFakeRoot first rest).parent = t.traceId := by
  have hu := hinv.sorted.uniqueIds
  have hsame := allTheSameParent_iff.mp hsame
  have hall : ∀ s, IsRootOf t.spans s → s.parent = first.parent := by
    intro s hs
    have := mem_pick_roots.mpr hs
    rw [hroots] at this
    exact hsame s this first (by simp)
  have hfirst : IsRootOf t.spans first := mem_pick_roots.mp (by rw [hroots]; simp)
  -- there is a second, different candidate
  have hnd : (pick t.spans (roots t.spans)).Nodup := by
    unfold pick
    rw [List.Nodup, List.pairwise_filterMap]
    refine List.Pairwise.imp ?_ (roots_nodup t.spans)
    intro i j hij a ha b hb hab
    subst hab
    exact hij (idx_unique hinv.sorted ha hb)
  obtain ⟨second, hsec⟩ : ∃ s, s ∈ rest := by
    have := pick_roots_cases t.spans
    rw [hroots, List.length_cons] at this
    cases rest with
    | nil => simp at this; omega
    | cons s _ => exact ⟨s, by simp⟩
  have hne : second ≠ first := by
    rw [hroots, List.nodup_cons] at hnd
    intro h; rw [h] at hsec; exact hnd.1 hsec
  have hsecond : IsRootOf t.spans second := mem_pick_roots.mp (by rw [hroots]; simp [hsec])
  have hnew : ∀ s ∈ t.spans, s.id ≠ first.parent := by
    intro s hs he
    have self : ∀ x, IsRootOf t.spans x → x.id = first.parent := by
      intro x hx
      have hp := hall x hx
      rcases hx.2 with h | h
      · rw [← h, hp]
      · exact absurd (he.trans hp.symm) (h s hs)
    exact hne (hu second hsecond.1 first hfirst.1 ((self _ hsecond).trans (self _ hfirst).symm))
  intro t'
  have hF : (createFakeRoot first rest).id = first.parent := rfl
  have hFp : (createFakeRoot first rest).parent = t.traceId := htr first hfirst.1
  have hsp : t'.spans = spansAppend t.spans (createFakeRoot first rest) := by
    have hn : getSpanRef t.spans (createFakeRoot first rest).id = none :=
      (getSpanRef_eq_none hinv.sorted).mpr hnew
    simp only [t', Tree.addSpan, hn]
  have hperm : t'.spans.Perm (createFakeRoot first rest :: t.spans) := by
    rw [hsp]; exact spansAppend_perm hinv.sorted _
  have hmem : ∀ s, s ∈ t'.spans ↔ s = createFakeRoot first rest ∨ s ∈ t.spans := by
    intro s; rw [hperm.mem_iff]; simp
  have hold : ∀ s ∈ t.spans, ¬ IsRootOf t'.spans s := by
    intro s hs hr
    by_cases hrs : IsRootOf t.spans s
    · have hp := hall s hrs
      rcases hr.2 with h | h
      · exact hnew s hs (by rw [← h]; exact hp)
      · exact h _ ((hmem _).mpr (Or.inl rfl)) (by rw [hF, hp])
    · apply hrs
      refine ⟨hs, ?_⟩
      rcases hr.2 with h | h
      · exact Or.inl h
      · exact Or.inr fun q hq => h q ((hmem q).mpr (Or.inr hq))
  refine ⟨hnew, hperm, ?_, ?_, htr first hfirst.1, hF, hFp⟩
  · intro hno
    have hFroot : IsRootOf t'.spans (createFakeRoot first rest) := by
      refine ⟨(hmem _).mpr (Or.inl rfl), ?_⟩
      rw [hF, hFp]
      by_cases h : t.traceId = first.parent
      · exact Or.inl h
      · right
        intro q hq
        rcases (hmem q).mp hq with rfl | hq
        · rw [hF]; exact fun he => h he.symm
        · exact hno q hq
    obtain ⟨i, hi⟩ := List.getElem?_of_mem hFroot.1
    refine ⟨i, ?_, hi⟩
    have honly : ∀ j ∈ roots t'.spans, j = i := by
      intro j hj
      obtain ⟨s, hs, hr⟩ := mem_roots.mp hj
      rcases (hmem s).mp hr.1 with rfl | hm
      · exact idx_unique (hinv.addSpan now _).sorted hs hi
      · exact (hold s hm hr).elim
    have hin : i ∈ roots t'.spans := mem_roots.mpr ⟨_, hi, hFroot⟩
    have hnd' := roots_nodup t'.spans
    generalize roots t'.spans = rs at honly hin hnd'
    match rs, hin with
    | [j], hin => simp at hin; rw [hin]
    | j :: k :: rs, _ =>
      have h1 := honly j (by simp)
      have h2 := honly k (by simp)
      rw [h1, h2] at hnd'
      simp at hnd'
  · rintro ⟨s, hs, hst⟩
    rw [List.eq_nil_iff_forall_not_mem]
    intro i hi
    obtain ⟨x, hx, hr⟩ := mem_roots.mp hi
    rcases (hmem x).mp hr.1 with rfl | hm
    · rcases hr.2 with h | h
      · rw [hFp, hF] at h
        exact hnew s hs (hst.trans h)
      · exact h s ((hmem s).mpr (Or.inr hs)) (by rw [hst, hFp])
    · exact hold x hm hr

/-- C38, negation of the unconditional claim: two spans without a received parent, one of which has
the trace id as its id; after the injection there is no root candidate at all. -/
theorem C38_not_always_repaired :
    ∃ l : List (Time × Span), ∃ first rest,
      pick (assemble 0 7 l).spans (roots (assemble 0 7 l).spans) = first :: rest ∧
      allTheSameParent (first :: rest) = true ∧
      roots ((assemble 0 7 l).addSpan 0 (createFakeRoot first rest)).spans = [] := by
  refine ⟨[(0, { id := 7, trace := 7, parent := 9 }), (0, { id := 8, trace := 7, parent := 9 })], ?_⟩
  generalize hl : ([(0, { id := 7, trace := 7, parent := 9 }),
    (0, { id := 8, trace := 7, parent := 9 })] : List (Time × Span)) = l
  have h1 : (pick (assemble 0 7 l).spans (roots (assemble 0 7 l).spans)).length = 2 := by
    subst hl; decide +kernel
  have h2 : allTheSameParent (pick (assemble 0 7 l).spans (roots (assemble 0 7 l).spans)) = true := by
    subst hl; decide +kernel
  have h3 : (match pick (assemble 0 7 l).spans (roots (assemble 0 7 l).spans) with
      | first :: rest => roots ((assemble 0 7 l).addSpan 0 (createFakeRoot first rest)).spans
      | [] => []) = [] := by
    subst hl; decide +kernel
  obtain ⟨first, rest, e⟩ := List.exists_cons_of_length_eq_add_one h1
  rw [e] at h2 h3
  exact ⟨first, rest, e, h2, h3⟩

example : roots ((assemble 0 7 [(0, { id := 1, trace := 7, parent := 9 }), (0, { id := 8, trace := 7, parent := 9 })]).addSpan 0
    (createFakeRoot { id := 8, trace := 7, parent := 9 } [{ id := 1, trace := 7, parent := 9 }])).spans = [0] := by
  decide +kernel

/-! ## C39 -/

theorem fakeRoot_bounds (first : Span) (rest : List Span) :
    let b := rest.foldl (fun (b : Timestamp × Timestamp) s =>
      let lo := if s.timestamp < b.1 then s.timestamp else b.1
      let ts := tsAdd s.timestamp s.duration
      let hi := if ts > b.2 then ts else b.2
      (lo, hi)) (first.timestamp, tsAdd first.timestamp first.duration)
    (∀ s ∈ first :: rest, b.1 ≤ s.timestamp ∧ tsAdd s.timestamp s.duration ≤ b.2) ∧
    (∃ s ∈ first :: rest, b.1 = s.timestamp) ∧ (∃ s ∈ first :: rest, b.2 = tsAdd s.timestamp s.duration) := by
  have key : ∀ (rest : List Span) (pre : List Span) (b0 : Timestamp × Timestamp),
      (∀ s ∈ pre, b0.1 ≤ s.timestamp ∧ tsAdd s.timestamp s.duration ≤ b0.2) →
      (∃ s ∈ pre, b0.1 = s.timestamp) → (∃ s ∈ pre, b0.2 = tsAdd s.timestamp s.duration) →
      let b := rest.foldl (fun (b : Timestamp × Timestamp) s =>
        let lo := if s.timestamp < b.1 then s.timestamp else b.1
        let ts := tsAdd s.timestamp s.duration
        let hi := if ts > b.2 then ts else b.2
        (lo, hi)) b0
      (∀ s ∈ pre ++ rest, b.1 ≤ s.timestamp ∧ tsAdd s.timestamp s.duration ≤ b.2) ∧
      (∃ s ∈ pre ++ rest, b.1 = s.timestamp) ∧ (∃ s ∈ pre ++ rest, b.2 = tsAdd s.timestamp s.duration) := by
    intro rest
    induction rest with
    | nil => intro pre b0 h1 h2 h3; simpa using ⟨h1, h2, h3⟩
    | cons x rest ih =>
      intro pre b0 h1 h2 h3
      have := ih (pre ++ [x])
        (if x.timestamp < b0.1 then x.timestamp else b0.1,
         if tsAdd x.timestamp x.duration > b0.2 then tsAdd x.timestamp x.duration else b0.2) ?_ ?_ ?_
      · simpa using this
      · intro s hs
        rcases List.mem_append.mp hs with hs | hs
        · obtain ⟨a, b⟩ := h1 s hs
          constructor
          · dsimp only; split
            · next h => exact Int64.le_of_lt (Int64.lt_of_lt_of_le h a)
            · exact a
          · dsimp only; split
            · next h => exact Int64.le_of_lt (Int64.lt_of_le_of_lt b h)
            · exact b
        · simp only [List.mem_singleton] at hs
          subst hs
          constructor
          · dsimp only; split
            · exact Int64.le_refl _
            · next h => exact Int64.not_lt.mp h
          · dsimp only; split
            · exact Int64.le_refl _
            · next h => exact Int64.not_lt.mp h
      · dsimp only; split
        · exact ⟨x, by simp, rfl⟩
        · obtain ⟨s, hs, h⟩ := h2; exact ⟨s, by simp [hs], h⟩
      · dsimp only; split
        · exact ⟨x, by simp, rfl⟩
        · obtain ⟨s, hs, h⟩ := h3; exact ⟨s, by simp [hs], h⟩
  exact key rest [first] _ (by simp) ⟨first, by simp, rfl⟩ ⟨first, by simp, rfl⟩

/-- C39: the fake root starts at the earliest start and ends at the latest end of the adopted spans
(in the program's own 64-bit arithmetic, without any assumption). -/
theorem C39_fake_root_spans_children (first : Span) (rest : List Span) :
    let f := createFakeRoot first rest
    (∀ s ∈ first :: rest, f.timestamp ≤ s.timestamp ∧
      tsAdd s.timestamp s.duration ≤ tsAdd f.timestamp f.duration) ∧
    (∃ s ∈ first :: rest, f.timestamp = s.timestamp) ∧
    (∃ s ∈ first :: rest, tsAdd f.timestamp f.duration = tsAdd s.timestamp s.duration) := by
  have h := fakeRoot_bounds first rest
  intro f
  have he : tsAdd f.timestamp f.duration = (rest.foldl (fun (b : Timestamp × Timestamp) s =>
      let lo := if s.timestamp < b.1 then s.timestamp else b.1
      let ts := tsAdd s.timestamp s.duration
      let hi := if ts > b.2 then ts else b.2
      (lo, hi)) (first.timestamp, tsAdd first.timestamp first.duration)).2 := by
    have hg : ∀ a b : Int64, a + (b - a) = b := by
      intro a b
      rw [Int64.add_comm, Int64.sub_add_cancel]
    exact hg _ _
  rw [he]
  exact h

/-- C39 in terms of integers: if no end of an adopted span overflows and the spans do not extend over more
than 292 years, the duration of the fake root is the exact, non-negative distance from the earliest start
to the latest end for non-negative durations. -/
theorem C39_fake_root_duration (first : Span) (rest : List Span)
    (hend : ∀ s ∈ first :: rest, (tsAdd s.timestamp s.duration).toInt = s.timestamp.toInt + s.duration.toInt)
    (hdur : ∀ s ∈ first :: rest, 0 ≤ s.duration.toInt)
    (hspan : ∀ s ∈ first :: rest, ∀ q ∈ first :: rest,
      s.timestamp.toInt + s.duration.toInt - q.timestamp.toInt < 2 ^ 63) :
    let f := createFakeRoot first rest
    0 ≤ f.duration.toInt ∧
    ∀ s ∈ first :: rest, f.timestamp.toInt ≤ s.timestamp.toInt ∧
      s.timestamp.toInt + s.duration.toInt ≤ f.timestamp.toInt + f.duration.toInt := by
  obtain ⟨h1, ⟨a, ha, hlo⟩, ⟨b, hb, hhi⟩⟩ := fakeRoot_bounds first rest
  intro f
  have hd : f.duration = tsAdd b.timestamp b.duration - a.timestamp := by
    rw [← hhi, ← hlo]; rfl
  have ht : f.timestamp = a.timestamp := hlo
  have h2 := h1 a ha
  rw [hhi] at h2
  have e2 := Int64.le_iff_toInt_le.mp h2.2
  rw [hend a ha, hend b hb] at e2
  have hda := hdur a ha
  have hsp := hspan b hb a ha
  have hdI : f.duration.toInt = b.timestamp.toInt + b.duration.toInt - a.timestamp.toInt := by
    rw [hd, Int64.toInt_sub, hend b hb, Int.bmod_eq_of_le (by omega) (by omega)]
  refine ⟨by omega, ?_⟩
  intro s hs
  obtain ⟨p1, p2⟩ := h1 s hs
  rw [hlo] at p1
  rw [hhi] at p2
  have p1 := Int64.le_iff_toInt_le.mp p1
  have p2 := Int64.le_iff_toInt_le.mp p2
  rw [hend s hs, hend b hb] at p2
  rw [ht, hdI]
  exact ⟨p1, by omega⟩

example : (createFakeRoot { id := 8, trace := 7, parent := 9, timestamp := 5, duration := 7 }
    [{ id := 1, trace := 7, parent := 9, timestamp := 3, duration := 2 }]).duration = 9 := by decide +kernel

/-! ## C36 -/

/-- C36: let two histories differ only in the order in which a complete client half and a complete server
half of one span arrive. Then the assembled traces have the same root candidates, and after timing
correction from any of them every span that descends from it is the same in both (up to a nil or empty
tag map). -/
theorem C36_halves_commute_partial (now now' : Time) (traceId : Id) (pre post pre' post' : List (Time × Span))
    (t1 t2 t3 t4 : Time) (c s : Span) (h : CompleteHalves c s)
    (hpre : pre.map Prod.snd = pre'.map Prod.snd) (hpost : post.map Prod.snd = post'.map Prod.snd) :
    let x := assemble now traceId (pre ++ (t1, c) :: (t2, s) :: post)
    let y := assemble now' traceId (pre' ++ (t3, s) :: (t4, c) :: post')
    roots x.spans = roots y.spans ∧
    ∀ i ∈ roots x.spans, ∃ ox oy,
      (∀ fuel, x.spans.length ≤ fuel → correctTree fuel { spans := x.spans } i none 0 = some ox) ∧
      (∀ fuel, y.spans.length ≤ fuel → correctTree fuel { spans := y.spans } i none 0 = some oy) ∧
      ∀ j ∈ ox.visits, (ox.spans[j]?).map Span.withTags = (oy.spans[j]?).map Span.withTags := by
  intro x y
  obtain ⟨ix, mx, _⟩ := assemble_inv_members now traceId (pre ++ (t1, c) :: (t2, s) :: post)
  obtain ⟨iy, my, _⟩ := assemble_inv_members now' traceId (pre' ++ (t3, s) :: (t4, c) :: post')
  have hmx : x.members = pre.map Prod.snd ++ c :: s :: post.map Prod.snd := by rw [mx]; simp
  have hmy : y.members = pre.map Prod.snd ++ s :: c :: post.map Prod.snd := by rw [my, hpre, hpost]; simp
  have hte : TimeEqList x.spans y.spans := by
    apply timeEqList_of_lookup ix.sorted iy.sorted
    intro id
    have hx := ix.holds id
    have hy := iy.holds id
    rw [hmx] at hx
    rw [hmy] at hy
    rcases held_swap h (pre.map Prod.snd) (post.map Prod.snd) id with ⟨e1, e2⟩ | ⟨a, b, e1, e2, hab⟩
    · left
      rw [e1] at hx; rw [e2] at hy
      exact ⟨Option.map_eq_none_iff.mp hx, Option.map_eq_none_iff.mp hy⟩
    · right
      rw [e1] at hx; rw [e2] at hy
      obtain ⟨a', ha', rfl⟩ := Option.map_eq_some_iff.mp hx
      obtain ⟨b', hb', rfl⟩ := Option.map_eq_some_iff.mp hy
      exact ⟨a', b', ha', hb', TimeEq.of_withTags hab⟩
  have hroot : ∀ i, i ∈ roots x.spans ↔ i ∈ roots y.spans := by
    intro i
    rw [mem_roots, mem_roots]
    constructor
    · rintro ⟨a, ha, hr⟩
      obtain ⟨b, hb, hab⟩ := hte.get ha
      exact ⟨b, hb, hte.isRoot (List.mem_of_getElem? hb) hab hr⟩
    · rintro ⟨b, hb, hr⟩
      have hi : i < x.spans.length := by rw [hte.1]; exact (List.getElem?_eq_some_iff.mp hb).1
      have ha : x.spans[i]? = some x.spans[i] := List.getElem?_eq_getElem hi
      have hab := hte.2 i _ _ ha hb
      refine ⟨_, ha, List.mem_of_getElem? ha, ?_⟩
      rcases hr.2 with h1 | h1
      · left; rw [hab.parent, hab.id]; exact h1
      · right
        intro q hq
        obtain ⟨p, hp, hqp⟩ := hte.mem hq
        rw [hqp.id, hab.parent]; exact h1 p hp
  have hre : roots x.spans = roots y.spans := by
    unfold roots at hroot ⊢
    rw [hte.1] at hroot ⊢
    apply List.filter_congr
    intro i hi
    have := hroot i
    rw [List.mem_filter, List.mem_filter] at this
    rw [Bool.eq_iff_iff]
    simpa [hi] using this
  refine ⟨hre, ?_⟩
  intro i hi
  obtain ⟨rx, ox, hrx, hrxr, fx, _, vx, _, sx⟩ := correct_full ix.sorted hi
  obtain ⟨ry, oy, hry, hryr, fy, _, _, _, sy⟩ := correct_full iy.sorted ((hroot i).mp hi)
  refine ⟨ox, oy, fx, fy, ?_⟩
  intro j hj
  obtain ⟨a, anc, ha, hp⟩ := (vx j).mp hj
  obtain ⟨b, hb, hab⟩ := hte.get ha
  have hrr : TimeEq rx ry := hte.2 i _ _ hrx hry
  obtain ⟨anc', hp', _, hst⟩ := path_transfer iy.sorted hte hryr.1 hrr hp b (List.mem_of_getElem? hb) hab
  rw [(sx j a ha).1 anc hp, (sy j b hb).1 anc' hp']
  simp only [Option.map_some]
  rw [corrected_eq hab hst]

/-- C36 fails for incomplete halves: without the four timings the start is that of the half that
arrived first. -/
theorem C36_incomplete_halves_depend_on_order :
    ∃ c s : Span, IsClientHalf c ∧ IsServerHalf s ∧ c.id = s.id ∧ c.parent = s.parent ∧
      (merged c s).timestamp ≠ (merged s c).timestamp ∧ ¬ HasAllTimings (merged c s) :=
  ⟨{ id := 1, parent := 1, timestamp := 5, timings := { CS := 5 } },
   { id := 1, parent := 1, timestamp := 6, timings := { SR := 6, SS := 7 } },
   by unfold IsClientHalf IsServerHalf IsServer; decide +kernel⟩

example : CompleteHalves { id := 1, parent := 1, trace := 1, timestamp := 5, timings := { CS := 5, CR := 9 } }
    { id := 1, parent := 0, trace := 1, timestamp := 6, timings := { SR := 6, SS := 7 } } := by
  constructor <;> first
    | decide +kernel
    | (unfold IsClientHalf; decide +kernel)
    | (unfold IsServerHalf IsServer; decide +kernel)
    | exact Or.inr (Or.inr rfl)

end Verif
