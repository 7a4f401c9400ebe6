import Verif.Props.Tree
import Verif.Proofs.Maps
import Verif.Spec.Collector

/-!
# What `finishTraces` does with one trace
-/

namespace Verif

open Spec

theorem two_roots {spans : List Span} {p : Id} (hs : SortedDesc spans) (h : SharedParent spans p) :
    ∃ first second rest, pick spans (roots spans) = first :: second :: rest ∧
      allTheSameParent (first :: second :: rest) = true := by
  obtain ⟨⟨a, b, ha, hb, hab⟩, hp⟩ := h
  have ma := mem_pick_roots.mpr ha
  have mb := mem_pick_roots.mpr hb
  have hall : allTheSameParent (pick spans (roots spans)) = true := by
    rw [allTheSameParent_iff]
    intro x hx y hy
    rw [hp x (mem_pick_roots.mp hx), hp y (mem_pick_roots.mp hy)]
  generalize hl : pick spans (roots spans) = l at ma mb hall
  match l, ma, mb, hall with
  | [x], ma, mb, _ =>
    simp only [List.mem_singleton] at ma mb
    exact absurd (by rw [ma, mb]) hab
  | x :: y :: rest, _, _, hall => exact ⟨x, y, rest, rfl, hall⟩

theorem pick_roots_nodup {spans : List Span} (hs : SortedDesc spans) : (pick spans (roots spans)).Nodup := by
  unfold pick
  rw [List.Nodup, List.pairwise_filterMap]
  refine List.Pairwise.imp ?_ (roots_nodup spans)
  intro i j hij a ha b hb hab
  subst hab
  exact hij (idx_unique hs ha hb)

theorem sharedParent_of_pick {spans : List Span} (hs : SortedDesc spans) {first second : Span} {rest : List Span}
    (hp : pick spans (roots spans) = first :: second :: rest)
    (h : allTheSameParent (first :: second :: rest) = true) : SharedParent spans first.parent := by
  have hf : IsRootOf spans first := mem_pick_roots.mp (by rw [hp]; simp)
  have hse : IsRootOf spans second := mem_pick_roots.mp (by rw [hp]; simp)
  refine ⟨⟨first, second, hf, hse, ?_⟩, ?_⟩
  · intro he
    have := hs.uniqueIds _ hf.1 _ hse.1 he
    have hn := pick_roots_nodup hs
    rw [hp, this] at hn
    simp at hn
  · intro q hq
    have := mem_pick_roots.mpr hq
    rw [hp] at this
    exact allTheSameParent_iff.mp h q this first (by simp)

theorem uniqueRoot_iff {spans : List Span} (hs : SortedDesc spans) (r : Span) :
    UniqueRoot spans r ↔ ∃ i, roots spans = [i] ∧ spans[i]? = some r := by
  constructor
  · rintro ⟨hr, hu⟩
    obtain ⟨i, hi, hir⟩ : ∃ i, i ∈ roots spans ∧ spans[i]? = some r := by
      obtain ⟨i, hi⟩ := List.getElem?_of_mem hr.1
      exact ⟨i, mem_roots.mpr ⟨r, hi, hr⟩, hi⟩
    have honly : ∀ j ∈ roots spans, j = i := by
      intro j hj
      obtain ⟨s, hj', hs'⟩ := mem_roots.mp hj
      rw [hu s hs'] at hj'
      exact idx_unique hs hj' hir
    have hnd := roots_nodup spans
    refine ⟨i, ?_, hir⟩
    generalize roots spans = l at hi honly hnd
    match l, hi with
    | [j], hi => simp only [List.mem_singleton] at hi; rw [hi]
    | j :: k :: l, _ =>
      have h1 := honly j (by simp)
      have h2 := honly k (by simp)
      rw [h1, h2] at hnd
      simp at hnd
  · rintro ⟨i, hi, hir⟩
    have hr : IsRootOf spans r := by
      obtain ⟨s, hs1, hs2⟩ := mem_roots.mp (show i ∈ roots spans by rw [hi]; simp)
      rw [hir] at hs1; cases hs1; exact hs2
    refine ⟨hr, ?_⟩
    intro q hq
    obtain ⟨j, hj⟩ := List.getElem?_of_mem hq.1
    have : j ∈ roots spans := mem_roots.mpr ⟨q, hj, hq⟩
    rw [hi, List.mem_singleton] at this
    subst this
    rw [hj] at hir
    exact Option.some.inj hir

/-- The tree invariants needed here: spans belong to the trace. -/
structure Tree.Ok (t : Tree) : Prop where
  inv : t.Inv
  trace : ∀ s ∈ t.spans, s.trace = t.traceId

theorem withFakeRoot_spec {t : Tree} (nf : Time) (h : t.Ok) :
    (withFakeRoot nf t).Inv ∧ Repaired t.traceId t.spans (withFakeRoot nf t).spans ∧
    ((∃ r, UniqueRoot (withFakeRoot nf t).spans r) ↔ Rooted t.traceId t.spans) := by
  have hs := h.inv.sorted
  by_cases hsp : ∃ p, SharedParent t.spans p
  · obtain ⟨p, hsp⟩ := hsp
    obtain ⟨first, second, rest, hp, hall⟩ := two_roots hs hsp
    have hw : withFakeRoot nf t = t.addSpan nf (createFakeRoot first (second :: rest)) := by
      unfold withFakeRoot; rw [hp]; dsimp only; rw [if_pos hall]
    have hmany : 1 < (roots t.spans).length := by
      rw [← pick_roots_cases, hp]; simp
    have hsp' := sharedParent_of_pick hs hp hall
    have hpe : p = first.parent := (hsp.2 first (mem_pick_roots.mp (by rw [hp]; simp))).symm
    subst hpe
    obtain ⟨c1, c2, c3, c4, _⟩ := C38_fake_root_partial t nf h.inv h.trace first (second :: rest) hp hmany hall
    have hinv := h.inv.addSpan nf (createFakeRoot first (second :: rest))
    have hmem : ∀ q, IsRootOf t.spans q ↔ q ∈ first :: second :: rest := by
      intro q; rw [← hp]; exact mem_pick_roots.symm
    obtain ⟨d1, ⟨q1, hq1, e1⟩, ⟨q2, hq2, e2⟩⟩ := C39_fake_root_spans_children first (second :: rest)
    have hft : first.trace = t.traceId := h.trace _ ((hmem first).mpr (by simp)).1
    rw [hw]
    refine ⟨hinv, Or.inl ⟨first.parent, _, hsp, ?_, c2, hinv.sorted⟩, ?_⟩
    · exact ⟨rfl, hft, hft, rfl, rfl, rfl, rfl, fun q hq => (d1 q ((hmem q).mp hq)).1,
        ⟨q1, (hmem q1).mpr hq1, e1⟩, fun q hq => (d1 q ((hmem q).mp hq)).2, ⟨q2, (hmem q2).mpr hq2, e2⟩⟩
    · constructor
      · rintro ⟨r, hr⟩
        right
        refine ⟨⟨_, hsp⟩, ?_⟩
        intro s hs' he
        have := c4 ⟨s, hs', he⟩
        obtain ⟨i, hi, _⟩ := (uniqueRoot_iff hinv.sorted r).mp hr
        rw [this] at hi; simp at hi
      · rintro (⟨r, hr⟩ | ⟨_, hno⟩)
        · obtain ⟨⟨a, b, ha, hb, hab⟩, _⟩ := hsp
          exact absurd (by rw [hr.2 a ha, hr.2 b hb]) hab
        · obtain ⟨i, hi, hi'⟩ := c3 hno
          exact ⟨_, (uniqueRoot_iff hinv.sorted _).mpr ⟨i, hi, hi'⟩⟩
  · have hw : withFakeRoot nf t = t := by
      unfold withFakeRoot
      split
      · next first second rest hp =>
        split
        · next hall => exact absurd ⟨_, sharedParent_of_pick hs hp hall⟩ hsp
        · rfl
      · rfl
    have hsp' : ∀ p, ¬ SharedParent t.spans p := fun p hp => hsp ⟨p, hp⟩
    rw [hw]
    refine ⟨h.inv, Or.inr ⟨hsp', rfl⟩, ?_⟩
    constructor
    · exact Or.inl
    · rintro (h | ⟨h, _⟩)
      · exact h
      · exact absurd h hsp

/-- `finishTree` meets its specification. -/
theorem finishTree_spec {t : Tree} (nf : Time) (h : t.Ok) :
    (∃ out, finishTree nf t = .emitted out ∧ Rooted t.traceId t.spans ∧ Finished t.traceId t.spans out) ∨
    (finishTree nf t = .noRoot ∧ ¬ Rooted t.traceId t.spans) := by
  obtain ⟨hinv, hrep, hroot⟩ := withFakeRoot_spec nf h
  by_cases hr : Rooted t.traceId t.spans
  · left
    obtain ⟨r, hu⟩ := hroot.mpr hr
    obtain ⟨i, hi, hir⟩ := (uniqueRoot_iff hinv.sorted r).mp hu
    obtain ⟨r', st, hr', _, hf, _, _, hlen, hsp⟩ := correct_full hinv.sorted (show i ∈ roots _ by rw [hi]; simp)
    rw [hir] at hr'; cases hr'
    refine ⟨st.spans, ?_, hr, _, r, hrep, hu, hlen, hsp⟩
    unfold finishTree
    dsimp only
    rw [hi]
    dsimp only
    rw [hf _ (Nat.le_refl _)]
  · right
    refine ⟨?_, hr⟩
    unfold finishTree
    dsimp only
    split
    · next i hi =>
      exfalso
      apply hr
      apply hroot.mp
      obtain ⟨s, hs1, _⟩ := mem_roots.mp (show i ∈ roots _ by rw [hi]; simp)
      exact ⟨s, (uniqueRoot_iff hinv.sorted s).mpr ⟨i, hi, hs1⟩⟩
    · rfl

end Verif
