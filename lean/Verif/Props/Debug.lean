import Verif.Proofs.Debug
import Verif.Proofs.Finish
import Verif.Props.Tree

/-!
# C72, C73: printing a trace
-/

namespace Verif

open Spec

theorem shown_below {spans : List Span} {r : Span} (hr : IsRootOf spans r) {d : Nat} {s : Span} (h : ShownBelow spans 0 r d s) : Shown spans d s := by
  induction h with
  | self => exact .root hr
  | child _ hd hc ih => exact .child ih hd hc

theorem shown_root {spans : List Span} {d : Nat} {s : Span} (h : Shown spans d s) : ∃ r, IsRootOf spans r ∧ ShownBelow spans 0 r d s := by
  induction h with
  | root hr => exact ⟨_, hr, .self⟩
  | child _ hd hc ih =>
    obtain ⟨r, hr, h⟩ := ih
    exact ⟨r, hr, .child h hd hc⟩

theorem printed_rootLines (spans : List Span) (trace : Id) (idx : Nat) (l : List Nat) :
    printed (rootLines spans trace idx l) = l.flatMap fun i => printed (subtreeLines spans 6 i) := by
  unfold rootLines
  induction l generalizing idx with
  | nil => rfl
  | cons i l ih =>
    rw [List.zipIdx_cons, List.flatMap_cons, List.flatMap_cons, printed_append, ih]
    rfl

/-- The lines printed for a trace. -/
def traceLines (spans : List Span) : List LogLine :=
  match pick spans (roots spans) with
  | [] => []
  | first :: _ => rootLines spans first.trace 0 (roots spans) ++ [.blank]

theorem debugPrintTrace_eq (spans : List Span) (fuel : Nat) (hf : 7 ≤ fuel) : debugPrintTrace true fuel spans = some (traceLines spans) := by
  unfold debugPrintTrace traceLines
  rw [if_neg (by decide)]
  cases pick spans (roots spans) with
  | nil => rfl
  | cons first _ => simp only; rw [printRoots_eq spans fuel hf]; rfl

theorem printed_traceLines (spans : List Span) : printed (traceLines spans) = (roots spans).flatMap fun i => printed (subtreeLines spans 6 i) := by
  unfold traceLines
  cases h : pick spans (roots spans) with
  | nil =>
    have : roots spans = [] := by
      rw [List.eq_nil_iff_forall_not_mem]
      intro i hi
      obtain ⟨s, hs, hr⟩ := mem_roots.mp hi
      have := mem_pick_roots.mpr hr
      rw [h] at this
      cases this
    rw [this]
    rfl
  | cons first _ =>
    simp only
    rw [printed_append, printed_rootLines]
    exact List.append_nil _

/-- C72: printing returns for any list of spans whatsoever, whatever the parents are; nothing is printed unless the level of the log is `DebugLevel`. -/
theorem C72_returns (spans : List Span) : ∃ lines, ∀ fuel, 7 ≤ fuel → debugPrintTrace true fuel spans = some lines ∧ debugPrintTrace false fuel spans = some [] :=
  ⟨traceLines spans, fun fuel hf => ⟨debugPrintTrace_eq spans fuel hf, rfl⟩⟩

/-- C72: exactly the spans are printed that are at most six levels below a root candidate and, like their ancestors, among the first 32 of their siblings; each with its depth. -/
theorem C72_shown {spans : List Span} {fuel : Nat} {lines : List LogLine} (hf : 7 ≤ fuel) (h : debugPrintTrace true fuel spans = some lines) (d : Nat) (s : Span) :
    (d, s) ∈ printed lines ↔ Shown spans d s := by
  rw [debugPrintTrace_eq spans fuel hf] at h
  cases h
  rw [printed_traceLines, List.mem_flatMap]
  constructor
  · rintro ⟨i, hi, h⟩
    obtain ⟨r, hr, hroot⟩ := mem_roots.mp hi
    exact shown_below hroot ((mem_printed_subtree (by omega) hr).mp h)
  · intro h
    obtain ⟨r, hr, h⟩ := shown_root h
    obtain ⟨i, hi⟩ := List.getElem?_of_mem hr.1
    exact ⟨i, mem_roots.mpr ⟨r, hi, hr⟩, (mem_printed_subtree (by omega) hi).mpr h⟩

/-- C72: for a trace assembled from received spans no span is printed twice, and the number of lines is linear in the number of spans. -/
theorem C72_once (now : Time) (traceId : Id) (l : List (Time × Span)) {fuel : Nat} {lines : List LogLine} (hf : 7 ≤ fuel)
    (h : debugPrintTrace true fuel (assemble now traceId l).spans = some lines) :
    ((printed lines).map Prod.snd).Nodup ∧ lines.length ≤ 3 * (assemble now traceId l).spans.length + 1 := by
  have hs : SortedDesc (assemble now traceId l).spans := (assemble_inv_members now traceId l).1.sorted
  generalize (assemble now traceId l).spans = spans at *
  rw [debugPrintTrace_eq spans fuel hf] at h
  cases h
  have hnd : ((printed (traceLines spans)).map Prod.snd).Nodup := by
    rw [printed_traceLines, List.map_flatMap, List.Nodup, List.flatMap, List.pairwise_flatten]
    constructor
    · intro l hl
      obtain ⟨i, hi, rfl⟩ := List.mem_map.mp hl
      obtain ⟨r, hr, hroot⟩ := mem_roots.mp hi
      exact (subtree_nodup hs hroot 6 hr .root).1
    · rw [List.pairwise_map]
      have hn : (roots spans).Pairwise (· ≠ ·) := List.Pairwise.filter _ List.nodup_range
      refine List.Pairwise.imp_of_mem ?_ hn
      intro a b ha hb hab x hx y hy e
      subst e
      obtain ⟨ra, hra, roota⟩ := mem_roots.mp ha
      obtain ⟨rb, hrb, rootb⟩ := mem_roots.mp hb
      obtain ⟨j, hj, s, l, hjs, hp, _⟩ := (subtree_nodup hs roota 6 hra .root).2 x hx
      obtain ⟨j', hj', s', l', hjs', hp', _⟩ := (subtree_nodup hs rootb 6 hrb .root).2 x hy
      rw [hj] at hjs; cases hjs
      rw [hj'] at hjs'; cases hjs'
      have := root_unique hs.uniqueIds roota rootb hp hp'
      subst this
      exact hab (idx_unique hs hra hrb)
  refine ⟨hnd, ?_⟩
  have hsub : (printed (traceLines spans)).length ≤ spans.length := by
    have h1 : ((printed (traceLines spans)).map Prod.snd).length ≤ spans.length := by
      apply List.Nodup.length_le_of_subset hnd
      intro s hs'
      obtain ⟨⟨d, s⟩, hm, rfl⟩ := List.mem_map.mp hs'
      have := (C72_shown (spans := spans) (Nat.le_refl 7) (debugPrintTrace_eq spans 7 (Nat.le_refl 7)) d s).mp hm
      cases this with
      | root hr => exact hr.1
      | child _ _ hc => exact (List.mem_filter.mp (List.mem_of_mem_take hc)).1
    simpa using h1
  have hroots : (roots spans).length ≤ spans.length := by
    refine Nat.le_trans (List.length_filter_le ..) ?_
    simp
  have hlen : ∀ (trace : Id) (l : List Nat) (idx : Nat), (rootLines spans trace idx l).length ≤ l.length + 2 * (l.flatMap fun i => printed (subtreeLines spans 6 i)).length := by
    intro trace l
    induction l with
    | nil => intro idx; simp [rootLines]
    | cons i l ih =>
      intro idx
      have h1 := ih (idx + 1)
      have h2 := subtree_length spans 6 i
      unfold rootLines at h1 ⊢
      simp only [List.zipIdx_cons, List.flatMap_cons, List.length_append, List.length_cons] at h1 h2 ⊢
      omega
  rw [printed_traceLines] at hsub
  unfold traceLines
  cases pick spans (roots spans) with
  | nil => simp
  | cons first _ =>
    simp only [List.length_append, List.length_singleton]
    have := hlen first.trace (roots spans) 0
    omega

/-- A root, its child, and two spans that are parents of each other: the latter are not printed. -/
theorem C72_witness : debugPrintTrace true 7
      [{ id := 5, parent := 4, trace := 9 }, { id := 4, parent := 5, trace := 9 }, { id := 2, parent := 1, trace := 9 }, { id := 1, parent := 1, trace := 9 }] =
    some [.root 9 0, .node 0 { id := 1, parent := 1, trace := 9 }, .node 1 { id := 2, parent := 1, trace := 9 }, .blank] := by
  rfl

/-! ## C73 -/

/-- The number in each line about children that were left out is the number of the children of a printed span (on the level of the line) that were not printed. -/
def CountsOmitted (spans : List Span) (lines : List LogLine) : Prop :=
  ∀ d k, .more d k ∈ lines → ∃ p, (d, p) ∈ printed lines ∧
    k = ((siblings spans p.id).length : Int) - ((siblings spans p.id).take 32).length

/-- C73, what holds: the number is greater by one. (By `C72_shown` the children that are not printed are all but the first 32.) -/
theorem C73_partial {spans : List Span} {fuel : Nat} {lines : List LogLine} (hf : 7 ≤ fuel) (h : debugPrintTrace true fuel spans = some lines)
    {d : Nat} {k : Int} (hk : .more d k ∈ lines) :
    ∃ p, (d, p) ∈ printed lines ∧ d < 6 ∧ 32 < (siblings spans p.id).length ∧
      k = ((siblings spans p.id).length : Int) - ((siblings spans p.id).take 32).length + 1 := by
  have h0 := h
  rw [debugPrintTrace_eq spans fuel hf] at h
  cases h
  have hm : ∃ i ∈ roots spans, .more d k ∈ subtreeLines spans 6 i := by
    unfold traceLines at hk
    split at hk
    · cases hk
    · rcases List.mem_append.mp hk with hk | hk
      · unfold rootLines at hk
        obtain ⟨⟨i, n⟩, hi, hk⟩ := List.mem_flatMap.mp hk
        rcases List.mem_cons.mp hk with hk | hk
        · cases hk
        · exact ⟨i, (List.mem_zipIdx' hi).2 ▸ List.getElem_mem _, hk⟩
      · simp at hk
  obtain ⟨i, hi, hk⟩ := hm
  obtain ⟨r, hr, hroot⟩ := mem_roots.mp hi
  obtain ⟨p, hp, hd, hlen, e⟩ := mem_more_subtree (by omega) hr hk
  refine ⟨p, (C72_shown hf h0 d p).mpr (shown_below hroot hp), hd, hlen, ?_⟩
  rw [List.length_take, e]
  omega

/-- A root with 33 children. -/
def wideTrace : List Span :=
  (List.range 33).map (fun i => ({ id := Int64.ofNat (100 - i), parent := 1, trace := 1, name := b!"child" } : Span)) ++ [{ id := 1, parent := 1, trace := 1, name := b!"root" }]

/-- C73 is false: one child is left out, the line says two. -/
theorem C73_fails : ∃ lines, debugPrintTrace true 7 wideTrace = some lines ∧ (printed lines).length = 33 ∧ wideTrace.length = 34 ∧ LogLine.more 0 2 ∈ lines ∧
    ¬ CountsOmitted wideTrace lines := by
  have h := debugPrintTrace_eq wideTrace 7 (Nat.le_refl 7)
  have hmore : LogLine.more 0 2 ∈ traceLines wideTrace := List.mem_of_getElem? (i := 34) rfl
  refine ⟨traceLines wideTrace, h, by decide +kernel, by decide +kernel, hmore, ?_⟩
  intro hc
  obtain ⟨p, hp, e⟩ := hc 0 2 hmore
  have hmem : p ∈ wideTrace := by
    cases (C72_shown (Nat.le_refl 7) h 0 p).mp hp with
    | root hr => exact hr.1
  have key : ∀ s ∈ wideTrace, (siblings wideTrace s.id).length ≤ 33 := by decide +kernel
  have := key p hmem
  rw [List.length_take] at e
  omega

end Verif
