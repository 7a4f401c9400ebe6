import Verif.Spec.Rename
import Verif.Proofs.Observe

/-!
# The ids are only names
-/

namespace Verif

open Spec Std

section
variable {n : Renaming}

/-! ## Merging -/

theorem addTags_ids (s : Span) (a b c : Id) (l : List (Str × Str)) :
    addTags { s with trace := a, id := b, parent := c } l = { addTags s l with trace := a, id := b, parent := c } := by
  rw [addTags_tags, addTags_tags]

theorem mergeSpansOrd_ids (o1 o2 : List (Str × Str)) (s t : Span) (a b c a' b' c' : Id) :
    mergeSpansOrd o1 o2 { s with trace := a, id := b, parent := c } { t with trace := a', id := b', parent := c' } =
      { mergeSpansOrd o1 o2 s t with trace := a, id := b, parent := c } := by
  unfold mergeSpansOrd
  simp only [addTags_tags]
  repeat' split
  all_goals rfl

theorem rename_zero {k a : Id} : n.span k a = 0 ↔ a = 0 :=
  ⟨fun h => n.spans (h.trans (n.noSpan k).symm), fun h => by rw [h, n.noSpan]⟩

theorem renameTrace_zero {a : Id} : n.trace a = 0 ↔ a = 0 :=
  ⟨fun h => n.traces (h.trans n.noTrace.symm), fun h => by rw [h, n.noTrace]⟩

theorem mergeSpans_apply {s t : Span} : n.apply (mergeSpans s t) = mergeSpans (n.apply s) (n.apply t) := by
  have h := mergeSpansOrd_ids (tagsList t.tags) (tagsList s.tags) s t (n.trace s.trace) (n.span s.trace s.id) (n.span s.trace s.parent)
    (n.trace t.trace) (n.span t.trace t.id) (n.span t.trace t.parent)
  have e : mergeSpans (n.apply s) (n.apply t) = { mergeSpans s t with trace := n.trace s.trace, id := n.span s.trace s.id, parent := n.span s.trace s.parent } := h
  rw [e]
  unfold Renaming.apply
  rw [mergeSpans_trace, mergeSpans_id, mergeSpans_parent]

theorem addToExisting_apply {s t : Span} (h : s.trace = t.trace) : n.apply (addToExisting s t) = addToExisting (n.apply s) (n.apply t) := by
  unfold addToExisting
  rw [mergeSpans_apply]
  congr 1
  have e : idIsUnknown (n.apply s).parent = idIsUnknown s.parent := by
    unfold idIsUnknown Renaming.apply
    dsimp only
    rw [Bool.eq_iff_iff]
    simp only [beq_iff_eq, decide_eq_true_eq, rename_zero]
  rw [e]
  split
  · unfold Renaming.apply
    rw [h]
  · rfl

/-! ## Trees -/

/-- The relation between two pending traces, with what is known about both. -/
structure RenTree (n : Renaming) (k : Id) (t t' : Tree) : Prop where
  ok : t.Ok
  ok' : t'.Ok
  id : t.traceId = k
  id' : t'.traceId = n.trace k
  spans : t'.spans.Perm (t.spans.map n.apply)
  started : t'.started = t.started
  updated : t'.updated = t.updated
  nodeCount : t'.nodeCount = t.nodeCount
  members : t'.members = t.members.map n.apply

theorem RenTree.renamed {k : Id} {t t' : Tree} (h : RenTree n k t t') : RenamedTree n t t' :=
  ⟨by rw [h.id', h.id], h.spans, h.started, h.updated, h.members⟩

/-- In a sorted list, changing the element at the place of an id is changing the elements with this id. -/
theorem modify_eq_map {l : List Span} (hs : SortedDesc l) {id : Id} {i : Nat} (hi : getSpanRef l id = some i) (f : Span → Span) :
    l.modify i f = l.map fun a => if a.id = id then f a else a := by
  obtain ⟨s, hs1, hs2⟩ := (getSpanRef_eq_some hs).mp hi
  apply List.ext_getElem?
  intro j
  rw [List.getElem?_modify, List.getElem?_map]
  cases hj : l[j]? with
  | none => split <;> rfl
  | some a =>
    simp only [Option.map_some]
    by_cases e : i = j
    · subst e
      rw [hs1] at hj
      cases hj
      simp [hs2]
    · have hne : a.id ≠ id := by
        intro he
        have : getSpanRef l id = some j := (getSpanRef_eq_some hs).mpr ⟨a, hj, he⟩
        rw [hi] at this
        exact e (Option.some.inj this)
      simp [e, hne]

theorem addSpan_ok {t : Tree} (h : t.Ok) {s : Span} (hs : s.trace = t.traceId) (now : Time) : (t.addSpan now s).Ok := by
  refine ⟨h.inv.addSpan now s, ?_⟩
  rw [(t.addSpan_fields now s).1]
  unfold Tree.addSpan
  dsimp only
  split
  · intro a ha
    rcases List.mem_cons.mp ((spansAppend_perm h.inv.sorted s).mem_iff.mp ha) with rfl | ha
    · exact hs
    · exact h.trace a ha
  · next i hi =>
    intro a ha
    rw [show ({ t with updated := now, members := t.members ++ [s] } : Tree).spans = t.spans from rfl] at hi
    dsimp only at ha
    rw [modify_eq_map h.inv.sorted hi] at ha
    obtain ⟨b, hb, rfl⟩ := List.mem_map.mp ha
    split
    · unfold addToExisting
      rw [mergeSpans_trace]
      split <;> exact h.trace b hb
    · exact h.trace b hb

theorem RenTree.addSpan {k : Id} {t t' : Tree} (h : RenTree n k t t') (now : Time) {s : Span} (hs : s.trace = k) :
    RenTree n k (t.addSpan now s) (t'.addSpan now (n.apply s)) := by
  have hid : ∀ a ∈ t.spans, ((n.apply a).id = (n.apply s).id ↔ a.id = s.id) := by
    intro a ha
    have : a.trace = k := (h.ok.trace a ha).trans h.id
    show n.span a.trace a.id = n.span s.trace s.id ↔ _
    rw [this, hs]
    exact ⟨n.spans, fun e => by rw [e]⟩
  refine ⟨addSpan_ok h.ok (by rw [hs, h.id]) now, addSpan_ok h.ok' (by show n.trace s.trace = _; rw [hs, h.id']) now, by rw [(t.addSpan_fields now s).1, h.id],
    by rw [(t'.addSpan_fields now _).1, h.id'], ?_, by rw [(t.addSpan_fields now s).2.1, (t'.addSpan_fields now _).2.1, h.started],
    by rw [(t.addSpan_fields now s).2.2, (t'.addSpan_fields now _).2.2], ?_, by rw [Tree.addSpan_members, Tree.addSpan_members, h.members, List.map_append]; rfl⟩
  · unfold Tree.addSpan
    dsimp only
    cases hg : getSpanRef t.spans s.id with
    | none =>
      have h1 := (getSpanRef_eq_none h.ok.inv.sorted).mp hg
      have h2 : getSpanRef t'.spans (n.apply s).id = none := by
        refine (getSpanRef_eq_none h.ok'.inv.sorted).mpr ?_
        intro a' ha'
        obtain ⟨a, ha, rfl⟩ := List.mem_map.mp (h.spans.mem_iff.mp ha')
        exact fun e => h1 a ha ((hid a ha).mp e)
      rw [h2]
      exact ((spansAppend_perm h.ok'.inv.sorted _).trans (h.spans.cons _)).trans ((spansAppend_perm h.ok.inv.sorted s).map n.apply).symm
    | some i =>
      obtain ⟨a, ha, hai⟩ := (getSpanRef_eq_some h.ok.inv.sorted).mp hg
      have ham := List.mem_of_getElem? ha
      have h2 : ∃ j, getSpanRef t'.spans (n.apply s).id = some j := by
        obtain ⟨j, hj⟩ := List.getElem?_of_mem (h.spans.mem_iff.mpr (List.mem_map_of_mem ham))
        exact ⟨j, (getSpanRef_eq_some h.ok'.inv.sorted).mpr ⟨_, hj, (hid a ham).mpr hai⟩⟩
      obtain ⟨j, hj⟩ := h2
      rw [hj]
      dsimp only
      rw [modify_eq_map h.ok.inv.sorted hg, modify_eq_map h.ok'.inv.sorted hj]
      refine (h.spans.map _).trans ?_
      rw [List.map_map, List.map_map]
      refine List.Perm.of_eq (List.map_congr_left ?_)
      intro b hb
      dsimp only [Function.comp]
      simp only [hid b hb]
      split
      · rw [addToExisting_apply ((h.ok.trace b hb).trans (h.id.trans hs.symm))]
      · rfl
  · have e1 : getSpanRef t'.spans (n.apply s).id = none ↔ getSpanRef t.spans s.id = none := by
      rw [getSpanRef_eq_none h.ok'.inv.sorted, getSpanRef_eq_none h.ok.inv.sorted]
      constructor
      · exact fun x a ha e => x _ (h.spans.mem_iff.mpr (List.mem_map_of_mem ha)) ((hid a ha).mpr e)
      · intro x a' ha'
        obtain ⟨a, ha, rfl⟩ := List.mem_map.mp (h.spans.mem_iff.mp ha')
        exact fun e => x a ha ((hid a ha).mp e)
    unfold Tree.addSpan
    dsimp only
    cases hg : getSpanRef t.spans s.id with
    | none => rw [e1.mpr hg]; show t'.nodeCount + 1 = t.nodeCount + 1; rw [h.nodeCount]
    | some i =>
      cases hg' : getSpanRef t'.spans (n.apply s).id with
      | none => rw [e1.mp hg'] at hg; cases hg
      | some j => exact h.nodeCount

theorem RenTree.new (now : Time) (k : Id) : RenTree n k (newTree now k) (newTree now (n.trace k)) := by
  refine ⟨⟨newTree_inv _ _, ?_⟩, ⟨newTree_inv _ _, ?_⟩, rfl, rfl, .nil, rfl, rfl, rfl, rfl⟩ <;> intro s hs <;> exact absurd hs List.not_mem_nil

/-! ## Roots and corrections -/

/-- Two lists of spans of a trace, the one with other ids. -/
structure RenList (n : Renaming) (k : Id) (l l' : List Span) : Prop where
  unique : UniqueIds l
  trace : ∀ s ∈ l, s.trace = k
  perm : l'.Perm (l.map n.apply)

section
variable {k : Id} {l l' : List Span} (h : RenList n k l l')
include h

theorem RenList.mem {s' : Span} : s' ∈ l' ↔ ∃ s ∈ l, n.apply s = s' := by rw [h.perm.mem_iff, List.mem_map]

theorem RenList.applyMem {s : Span} (hs : s ∈ l) : n.apply s ∈ l' := h.mem.mpr ⟨s, hs, rfl⟩

theorem RenList.idIff {a b : Span} (ha : a ∈ l) (hb : b ∈ l) : (n.apply a).id = (n.apply b).id ↔ a.id = b.id := by
  show n.span a.trace a.id = n.span b.trace b.id ↔ _
  rw [h.trace a ha, h.trace b hb]
  exact ⟨n.spans, fun e => by rw [e]⟩

theorem RenList.parentIff {a b : Span} (ha : a ∈ l) (hb : b ∈ l) : (n.apply a).parent = (n.apply b).id ↔ a.parent = b.id := by
  show n.span a.trace a.parent = n.span b.trace b.id ↔ _
  rw [h.trace a ha, h.trace b hb]
  exact ⟨n.spans, fun e => by rw [e]⟩

theorem RenList.inj {a b : Span} (ha : a ∈ l) (hb : b ∈ l) (e : n.apply a = n.apply b) : a = b :=
  h.unique a ha b hb ((h.idIff ha hb).mp (congrArg Span.id e))

theorem RenList.rootIff {s : Span} (hs : s ∈ l) : IsRootOf l' (n.apply s) ↔ IsRootOf l s := by
  unfold IsRootOf
  refine and_congr ⟨fun _ => hs, fun _ => h.applyMem hs⟩ (or_congr (h.parentIff hs hs) ?_)
  constructor
  · intro x q hq e
    exact x _ (h.applyMem hq) ((h.parentIff hs hq).mpr e.symm).symm
  · intro x q' hq'
    obtain ⟨q, hq, rfl⟩ := h.mem.mp hq'
    exact fun e => x q hq ((h.parentIff hs hq).mp e.symm).symm

theorem RenList.root {s' : Span} : IsRootOf l' s' ↔ ∃ s, IsRootOf l s ∧ n.apply s = s' := by
  constructor
  · intro x
    obtain ⟨s, hs, rfl⟩ := h.mem.mp x.1
    exact ⟨s, (h.rootIff hs).mp x, rfl⟩
  · rintro ⟨s, x, rfl⟩
    exact (h.rootIff x.1).mpr x

theorem RenList.uniqueRoot {r' : Span} : UniqueRoot l' r' ↔ ∃ r, UniqueRoot l r ∧ n.apply r = r' := by
  constructor
  · rintro ⟨h1, h2⟩
    obtain ⟨r, hr, rfl⟩ := h.root.mp h1
    exact ⟨r, ⟨hr, fun q hq => h.inj hq.1 hr.1 (h2 _ ((h.rootIff hq.1).mpr hq))⟩, rfl⟩
  · rintro ⟨r, ⟨h1, h2⟩, rfl⟩
    refine ⟨(h.rootIff h1.1).mpr h1, ?_⟩
    intro q' hq'
    obtain ⟨q, hq, rfl⟩ := h.root.mp hq'
    rw [h2 q hq]

theorem RenList.sharedParent {p' : Id} : SharedParent l' p' ↔ ∃ p, SharedParent l p ∧ n.span k p = p' := by
  constructor
  · rintro ⟨⟨a', b', ha', hb', hab⟩, h2⟩
    obtain ⟨a, ha, rfl⟩ := h.root.mp ha'
    obtain ⟨b, hb, rfl⟩ := h.root.mp hb'
    refine ⟨a.parent, ⟨⟨a, b, ha, hb, fun e => hab ((h.idIff ha.1 hb.1).mpr e)⟩, ?_⟩, ?_⟩
    · intro q hq
      have e1 := h2 _ ((h.rootIff hq.1).mpr hq)
      have e2 := h2 _ ha'
      have e3 : n.span q.trace q.parent = n.span a.trace a.parent := e1.trans e2.symm
      rw [h.trace q hq.1, h.trace a ha.1] at e3
      exact n.spans e3
    · rw [← h2 _ ha', ← h.trace a ha.1]; rfl
  · rintro ⟨p, ⟨⟨a, b, ha, hb, hab⟩, h2⟩, rfl⟩
    refine ⟨⟨_, _, (h.rootIff ha.1).mpr ha, (h.rootIff hb.1).mpr hb, fun e => hab ((h.idIff ha.1 hb.1).mp e)⟩, ?_⟩
    intro q' hq'
    obtain ⟨q, hq, rfl⟩ := h.root.mp hq'
    show n.span q.trace q.parent = _
    rw [h.trace q hq.1, h2 q hq]

theorem RenList.rooted : Rooted (n.trace k) l' ↔ Rooted k l := by
  unfold Rooted
  refine or_congr ?_ (and_congr ?_ ?_)
  · constructor
    · rintro ⟨r', hr'⟩
      obtain ⟨r, hr, _⟩ := h.uniqueRoot.mp hr'
      exact ⟨r, hr⟩
    · rintro ⟨r, hr⟩
      exact ⟨_, h.uniqueRoot.mpr ⟨r, hr, rfl⟩⟩
  · constructor
    · rintro ⟨r', hr'⟩
      obtain ⟨r, hr, _⟩ := h.sharedParent.mp hr'
      exact ⟨r, hr⟩
    · rintro ⟨r, hr⟩
      exact ⟨_, h.sharedParent.mpr ⟨r, hr, rfl⟩⟩
  · constructor
    · intro x s hs e
      refine x _ (h.applyMem hs) ?_
      show n.span s.trace s.id = _
      rw [h.trace s hs, e, n.root]
    · intro x s' hs'
      obtain ⟨s, hs, rfl⟩ := h.mem.mp hs'
      intro e
      have e : n.span s.trace s.id = n.trace k := e
      rw [h.trace s hs, ← n.root k] at e
      exact x s hs (n.spans e)

theorem RenList.fakeRoot {p : Id} {f f' : Span} (hf : FakeRoot k p l f) (hf' : FakeRoot (n.trace k) (n.span k p) l' f') : n.apply f = f' := by
  have hts : f'.timestamp = f.timestamp := by
    obtain ⟨q, hq, e⟩ := hf.start
    obtain ⟨q', hq', e'⟩ := hf'.start
    obtain ⟨a, ha, rfl⟩ := h.root.mp hq'
    have h1 : f'.timestamp ≤ f.timestamp := by rw [e]; exact hf'.starts (n.apply q) ((h.rootIff hq.1).mpr hq)
    have h2 : f.timestamp ≤ f'.timestamp := by rw [e']; exact hf.starts a ha
    exact Int64.le_antisymm h1 h2
  have hend : f'.timestamp + f'.duration = f.timestamp + f.duration := by
    obtain ⟨q, hq, e⟩ := hf.stop
    obtain ⟨q', hq', e'⟩ := hf'.stop
    obtain ⟨a, ha, rfl⟩ := h.root.mp hq'
    have h1 : f.timestamp + f.duration ≤ f'.timestamp + f'.duration := by rw [e]; exact hf'.ends (n.apply q) ((h.rootIff hq.1).mpr hq)
    have h2 : f'.timestamp + f'.duration ≤ f.timestamp + f.duration := by rw [e']; exact hf.ends a ha
    exact Int64.le_antisymm h2 h1
  rw [hts] at hend
  have hd : f'.duration = f.duration := (Int64.add_right_inj f.timestamp).mp hend
  unfold Renaming.apply
  rw [hf.id, hf.trace, hf.parent, n.root]
  ext1
  · exact hf'.id.symm
  · exact hf'.parent.symm
  · exact hf'.trace.symm
  · exact hf.name.trans hf'.name.symm
  · exact hf.service.trans hf'.service.symm
  · exact hts.symm
  · exact hd.symm
  · exact hf.tags.trans hf'.tags.symm
  · exact hf.timings.trans hf'.timings.symm

theorem RenList.repaired {base base' : List Span} (hb : Repaired k l base) (hb' : Repaired (n.trace k) l' base') : base'.Perm (base.map n.apply) := by
  rcases hb with ⟨p, f, h1, h2, h3, _⟩ | ⟨h1, rfl⟩
  · rcases hb' with ⟨p', f', g1, g2, g3, _⟩ | ⟨g1, rfl⟩
    · obtain ⟨q, hq, rfl⟩ := h.sharedParent.mp g1
      have : q = p := by
        obtain ⟨⟨a, _, ha, _⟩, ha2⟩ := hq
        rw [← ha2 a ha, h1.2 a ha]
      subst this
      have := h.fakeRoot h2 g2
      subst this
      exact (g3.trans (h.perm.cons _)).trans (h3.map n.apply).symm
    · exact absurd (h.sharedParent.mpr ⟨p, h1, rfl⟩) (g1 _)
  · rcases hb' with ⟨p', f', g1, g2, g3, _⟩ | ⟨g1, rfl⟩
    · obtain ⟨q, hq, _⟩ := h.sharedParent.mp g1
      exact absurd hq (h1 q)
    · exact h.perm

theorem RenList.path {r : Span} (hr : r ∈ l) {anc : List Span} {s : Span} (hp : Path l r anc s) : Path l' (n.apply r) (anc.map n.apply) (n.apply s) := by
  induction hp with
  | root => exact .root
  | @child anc p c hp hc e1 e2 ih =>
    exact .child ih (h.applyMem hc) ((h.parentIff hc (Path.mem hp hr)).mpr e1) fun e => e2 ((h.parentIff hc hc).mp e)

theorem RenList.pathBack {r : Span} (hr : r ∈ l) {anc' : List Span} {s' : Span} (hp : Path l' (n.apply r) anc' s') :
    ∃ anc s, Path l r anc s ∧ anc.map n.apply = anc' ∧ n.apply s = s' := by
  induction hp with
  | root => exact ⟨[], r, .root, rfl, rfl⟩
  | @child anc' p' c' hp hc e1 e2 ih =>
    obtain ⟨anc, p, h1, rfl, rfl⟩ := ih
    obtain ⟨c, hc', rfl⟩ := h.mem.mp hc
    exact ⟨p :: anc, c, .child h1 hc' ((h.parentIff hc' (Path.mem h1 hr)).mp e1) fun e => e2 ((h.parentIff hc' hc').mpr e), rfl, rfl⟩

end

theorem start_apply (anc : List Span) (s : Span) : Spec.start (anc.map n.apply) (n.apply s) = Spec.start anc s := by
  have hsh : ∀ anc : List Span, shift (anc.map n.apply) = shift anc := by
    intro anc
    induction anc with
    | nil => rfl
    | cons p anc ih => show shift (anc.map n.apply) + skew (n.apply p) = shift anc + skew p; rw [ih]; rfl
  have hst : ∀ (anc : List Span) (s : Span), shiftedStart (anc.map n.apply) (n.apply s) = shiftedStart anc s := by
    intro anc s
    unfold shiftedStart
    rw [hsh]
    rfl
  induction anc generalizing s with
  | nil => exact hst [] s
  | cons p anc ih =>
    show (if shiftedStart ((p :: anc).map n.apply) (n.apply s) < year2020 then Spec.start (anc.map n.apply) (n.apply p) else shiftedStart ((p :: anc).map n.apply) (n.apply s)) = _
    rw [hst, ih]
    rfl

theorem corrected_apply (anc : List Span) (s : Span) : corrected (anc.map n.apply) (n.apply s) = n.apply (corrected anc s) := by
  unfold corrected
  rw [start_apply]
  rfl

/-- The correction of each span of a list. -/
theorem corrected_fun {base : List Span} {r : Span} {out : List Span} (h : Corrected base r out) :
    ∃ c : Span → Span, out = base.map c ∧ ∀ s ∈ base, (∀ anc, Path base r anc s → c s = corrected anc s) ∧ ((∀ anc, ¬ Path base r anc s) → c s = s) := by
  classical
  have key : ∀ s ∈ base, ∃ j : Nat, base[j]? = some s ∧ ∃ x, out[j]? = some x := by
    intro s hs
    obtain ⟨j, hj⟩ := List.getElem?_of_mem hs
    have hlt := (List.getElem?_eq_some_iff.mp hj).1
    exact ⟨j, hj, out[j]'(by rw [h.1]; exact hlt), List.getElem?_eq_getElem _⟩
  let c : Span → Span := fun s => if hp : ∃ anc, Path base r anc s then corrected hp.choose s else s
  have hc : ∀ (j : Nat) (s : Span), base[j]? = some s → out[j]? = some (c s) := by
    intro j s hj
    by_cases hp : ∃ anc, Path base r anc s
    · have : c s = corrected hp.choose s := dif_pos hp
      rw [this]
      exact (h.2 j s hj).1 _ hp.choose_spec
    · have : c s = s := dif_neg hp
      rw [this]
      exact (h.2 j s hj).2 fun anc ha => hp ⟨anc, ha⟩
  refine ⟨c, ?_, ?_⟩
  · apply List.ext_getElem?
    intro j
    rw [List.getElem?_map]
    cases hj : base[j]? with
    | none =>
      have : out.length ≤ j := by rw [h.1]; exact List.getElem?_eq_none_iff.mp hj
      rw [List.getElem?_eq_none this]; rfl
    | some s => rw [hc j s hj]; rfl
  · intro s hs
    obtain ⟨j, hj, _⟩ := key s hs
    have e := hc j s hj
    refine ⟨fun anc ha => ?_, fun ha => ?_⟩
    · have := (h.2 j s hj).1 anc ha
      rw [e] at this
      exact Option.some.inj this
    · have := (h.2 j s hj).2 ha
      rw [e] at this
      exact Option.some.inj this

theorem RenList.corrected {k : Id} {base base' : List Span} (h : RenList n k base base') {r : Span} (hr : r ∈ base) {out out' : List Span}
    (hc : Corrected base r out) (hc' : Corrected base' (n.apply r) out') : out'.Perm (out.map n.apply) := by
  obtain ⟨c, rfl, h1⟩ := corrected_fun hc
  obtain ⟨c', rfl, h1'⟩ := corrected_fun hc'
  refine (h.perm.map c').trans (List.Perm.of_eq ?_)
  rw [List.map_map, List.map_map]
  refine List.map_congr_left fun s hs => ?_
  show c' (n.apply s) = n.apply (c s)
  by_cases hp : ∃ anc, Path base r anc s
  · obtain ⟨anc, hp⟩ := hp
    rw [(h1 s hs).1 anc hp, (h1' _ (h.applyMem hs)).1 _ (h.path hr hp), corrected_apply]
  · rw [(h1 s hs).2 fun anc ha => hp ⟨anc, ha⟩]
    refine (h1' _ (h.applyMem hs)).2 fun anc' ha' => ?_
    obtain ⟨anc, s1, g1, _, g3⟩ := h.pathBack hr ha'
    rw [h.inj (Path.mem g1 hr) hs g3] at g1
    exact hp ⟨anc, g1⟩

theorem repaired_unique {k : Id} {l base : List Span} (hl : SortedDesc l) (h : Repaired k l base) : UniqueIds base := by
  rcases h with ⟨_, _, _, _, _, h⟩ | ⟨_, rfl⟩
  · exact SortedDesc.uniqueIds h
  · exact hl.uniqueIds

theorem repaired_traces {k : Id} {l base : List Span} (hl : ∀ s ∈ l, s.trace = k) (h : Repaired k l base) : ∀ s ∈ base, s.trace = k := by
  rcases h with ⟨_, f, _, hf, hp, _⟩ | ⟨_, rfl⟩
  · intro s hs
    rcases List.mem_cons.mp (hp.mem_iff.mp hs) with rfl | hs
    · exact hf.trace
    · exact hl s hs
  · exact hl

theorem RenTree.finish {k : Id} {t t' : Tree} (h : RenTree n k t t') (now now' : Time) : RenamedFate n (finishTree now t) (finishTree now' t') := by
  have hl : RenList n k t.spans t'.spans := ⟨h.ok.inv.sorted.uniqueIds, fun s hs => (h.ok.trace s hs).trans h.id, h.spans⟩
  have e1 := finishTree_spec now h.ok
  have e2 := finishTree_spec now' h.ok'
  rw [h.id] at e1
  rw [h.id'] at e2
  rcases e1 with ⟨out, f1, f2, base, r, f3, f4, f5⟩ | ⟨f1, f2⟩
  · rcases e2 with ⟨out', g1, g2, base', r', g3, g4, g5⟩ | ⟨g1, g2⟩
    · rw [f1, g1]
      have hb : RenList n k base base' := ⟨repaired_unique h.ok.inv.sorted f3, repaired_traces hl.trace f3, hl.repaired f3 g3⟩
      obtain ⟨r0, hr0, rfl⟩ := hb.uniqueRoot.mp g4
      have : r0 = r := f4.2 r0 hr0.1
      subst this
      exact .emitted (hb.corrected hr0.1.1 f5 g5)
    · exact absurd (hl.rooted.mpr f2) g2
  · rcases e2 with ⟨out', g1, g2, _⟩ | ⟨g1, g2⟩
    · exact absurd (hl.rooted.mp g2) f2
    · rw [f1, g1]; exact .noRoot

/-! ## Maps of traces -/

/-- Maps of traces. -/
structure RenMap (n : Renaming) (m m' : ExtTreeMap Id Tree) : Prop where
  same : ∀ k : Id, (m[k]? = none ∧ m'[n.trace k]? = none) ∨ ∃ t t', m[k]? = some t ∧ m'[n.trace k]? = some t' ∧ RenTree n k t t'
  noOther : ∀ (j : Id) (t' : Tree), m'[j]? = some t' → ∃ k, j = n.trace k

/-- Entries. -/
def RenEntry (n : Renaming) (e e' : Id × Tree) : Prop := e'.1 = n.trace e.1 ∧ RenTree n e.1 e.2 e'.2

theorem RenMap.insert {m m' : ExtTreeMap Id Tree} (h : RenMap n m m') (k : Id) {t t' : Tree} (ht : RenTree n k t t') : RenMap n (m.insert k t) (m'.insert (n.trace k) t') := by
  refine ⟨fun j => ?_, fun j x hj => ?_⟩
  · rw [get_insert, get_insert]
    by_cases e : k = j
    · subst e
      exact .inr ⟨t, t', by simp, by simp, ht⟩
    · rw [if_neg e, if_neg (fun x => e (n.traces x))]
      exact h.same j
  · rw [get_insert] at hj
    split at hj
    · next e => exact ⟨k, e.symm⟩
    · exact h.noOther j x hj

theorem RenMap.erase {m m' : ExtTreeMap Id Tree} (h : RenMap n m m') (k : Id) : RenMap n (m.erase k) (m'.erase (n.trace k)) := by
  refine ⟨fun j => ?_, fun j x hj => ?_⟩
  · rw [get_erase, get_erase]
    by_cases e : k = j
    · subst e
      exact .inl ⟨by simp, by simp⟩
    · rw [if_neg e, if_neg (fun x => e (n.traces x))]
      exact h.same j
  · rw [get_erase] at hj
    split at hj
    · cases hj
    · exact h.noOther j x hj

/-- The corresponding entry of the other map. -/
def renOther (n : Renaming) (m' : ExtTreeMap Id Tree) (e : Id × Tree) : Id × Tree := (n.trace e.1, (m'[n.trace e.1]?).getD e.2)

theorem RenMap.range {m m' : ExtTreeMap Id Tree} (h : RenMap n m m') {l : List (Id × Tree)} (hl : IsRange l m) :
    IsRange (l.map (renOther n m')) m' ∧ Pairwise₂ (RenEntry n) l (l.map (renOther n m')) := by
  have he : ∀ e ∈ l, ∃ t', m'[n.trace e.1]? = some t' ∧ RenTree n e.1 e.2 t' := by
    intro e he
    have := (mem_range hl).mp he
    rcases h.same e.1 with ⟨a, b⟩ | ⟨t, t', a, b, ht⟩
    · rw [a] at this; cases this
    · rw [a] at this
      cases this
      exact ⟨t', b, ht⟩
  refine ⟨range_of_mem_iff ?_ ?_, .ofMap fun e hm => ?_⟩
  · refine nodup_of_keys ?_
    rw [List.map_map]
    have hk := range_keys_nodup hl
    have : (Prod.fst ∘ renOther n m') = n.trace ∘ (Prod.fst : Id × Tree → Id) := rfl
    rw [this, ← List.map_map]
    exact List.Pairwise.map n.trace (fun a b hab x => hab (n.traces x)) hk
  · intro k v
    rw [List.mem_map]
    constructor
    · rintro ⟨e, hm, heq⟩
      obtain ⟨t', h1, _⟩ := he e hm
      unfold renOther at heq
      rw [h1] at heq
      cases heq
      exact h1
    · intro hv
      obtain ⟨j, rfl⟩ := h.noOther k v hv
      rcases h.same j with ⟨a, b⟩ | ⟨t, t', a, b, ht⟩
      · rw [b] at hv; cases hv
      · refine ⟨(j, t), (mem_range hl).mpr a, ?_⟩
        unfold renOther
        rw [hv]
        rfl
  · obtain ⟨t', h1, h2⟩ := he e hm
    refine ⟨rfl, ?_⟩
    unfold renOther
    rw [h1]
    exact h2

theorem RenTree.tooLarge {k : Id} {t t' : Tree} (h : RenTree n k t t') : t'.tooLarge = t.tooLarge := by unfold Tree.tooLarge; rw [h.nodeCount]

theorem ren_spanCountOf {l l' : List (Id × Tree)} (h : Pairwise₂ (RenEntry n) l l') : spanCountOf l = spanCountOf l' := by
  unfold spanCountOf
  refine h.fold (S := fun a b => a = b) ?_ rfl
  rintro c d a b rfl ⟨_, hab⟩
  rw [hab.tooLarge, hab.nodeCount]

theorem ren_totalNodes {l l' : List (Id × Tree)} (h : Pairwise₂ (RenEntry n) l l') : totalNodes l = totalNodes l' := by
  unfold totalNodes
  refine h.fold (S := fun a b => a = b) ?_ rfl
  rintro c d a b rfl ⟨_, hab⟩
  rw [hab.nodeCount]

theorem spanCountOf_perm {l l' : List (Id × Tree)} (h : l.Perm l') : spanCountOf l = spanCountOf l' := by
  unfold spanCountOf
  refine h.foldl_eq' ?_ _
  intro a _ b _ z
  split <;> split <;> omega

theorem totalNodes_perm {l l' : List (Id × Tree)} (h : l.Perm l') : totalNodes l = totalNodes l' := by
  unfold totalNodes
  refine h.foldl_eq' ?_ _
  intro a _ b _ z
  omega

theorem RenMap.spanCount {m m' : ExtTreeMap Id Tree} (h : RenMap n m m') : spanCountOf m.toList = spanCountOf m'.toList := by
  obtain ⟨h1, h2⟩ := h.range (isRange_refl m)
  rw [ren_spanCountOf h2, spanCountOf_perm h1]

theorem RenMap.total {m m' : ExtTreeMap Id Tree} (h : RenMap n m m') : totalNodes m.toList = totalNodes m'.toList := by
  obtain ⟨h1, h2⟩ := h.range (isRange_refl m)
  rw [ren_totalNodes h2, totalNodes_perm h1]

theorem RenMap.size {m m' : ExtTreeMap Id Tree} (h : RenMap n m m') : m.size = m'.size := by
  obtain ⟨h1, h2⟩ := h.range (isRange_refl m)
  rw [← ExtTreeMap.length_toList, ← ExtTreeMap.length_toList, h2.len]
  exact h1.length_eq

/-! ## The blacklist -/

/-- Blacklists. -/
structure RenBlack (n : Renaming) (b b' : ExtTreeMap Id Unit) : Prop where
  same : ∀ k : Id, b'[n.trace k]? = b[k]?
  noOther : ∀ j : Id, b'[j]? = some () → ∃ k, j = n.trace k

theorem RenBlack.insert {b b' : ExtTreeMap Id Unit} (h : RenBlack n b b') (k : Id) : RenBlack n (b.insert k ()) (b'.insert (n.trace k) ()) := by
  refine ⟨fun j => ?_, fun j hj => ?_⟩
  · rw [get_insert, get_insert]
    by_cases e : k = j
    · subst e; simp
    · rw [if_neg e, if_neg (fun x => e (n.traces x))]
      exact h.same j
  · rw [get_insert] at hj
    split at hj
    · next e => exact ⟨k, e.symm⟩
    · exact h.noOther j hj

theorem RenBlack.erase {b b' : ExtTreeMap Id Unit} (h : RenBlack n b b') (k : Id) : RenBlack n (b.erase k) (b'.erase (n.trace k)) := by
  refine ⟨fun j => ?_, fun j hj => ?_⟩
  · rw [get_erase, get_erase]
    by_cases e : k = j
    · subst e; simp
    · rw [if_neg e, if_neg (fun x => e (n.traces x))]
      exact h.same j
  · rw [get_erase] at hj
    split at hj
    · cases hj
    · exact h.noOther j hj

theorem RenBlack.range {b b' : ExtTreeMap Id Unit} (h : RenBlack n b b') {l : List (Id × Unit)} (hl : IsRange l b) : IsRange (l.map fun e => (n.trace e.1, ())) b' := by
  refine range_of_mem_iff ?_ ?_
  · refine nodup_of_keys ?_
    rw [List.map_map]
    have hk := range_keys_nodup hl
    have : (Prod.fst ∘ fun e : Id × Unit => (n.trace e.1, ())) = n.trace ∘ (Prod.fst : Id × Unit → Id) := rfl
    rw [this, ← List.map_map]
    exact List.Pairwise.map n.trace (fun a b hab x => hab (n.traces x)) hk
  · intro k v
    rw [List.mem_map]
    constructor
    · rintro ⟨e, hm, heq⟩
      cases heq
      rw [h.same]
      exact (mem_range hl).mp hm
    · intro hv
      obtain ⟨j, rfl⟩ := h.noOther k hv
      rw [h.same] at hv
      exact ⟨(j, ()), (mem_range hl).mpr hv, rfl⟩

theorem RenBlack.size {b b' : ExtTreeMap Id Unit} (h : RenBlack n b b') : b.size = b'.size := by
  have := (h.range (isRange_refl b)).length_eq
  rw [← ExtTreeMap.length_toList, ← ExtTreeMap.length_toList, ← this, List.length_map]

theorem RenBlack.trim (l : List (Id × Unit)) {b b' : ExtTreeMap Id Unit} (h : RenBlack n b b') :
    RenBlack n (trimBlacklist l b) (trimBlacklist (l.map fun e => (n.trace e.1, ())) b') := by
  induction l generalizing b b' with
  | nil => exact h
  | cons e l ih =>
    obtain ⟨k, u⟩ := e
    rw [List.map_cons]
    unfold trimBlacklist
    rw [h.size]
    split
    · exact h
    · exact ih (h.erase k)

theorem RenBlack.contains {b b' : ExtTreeMap Id Unit} (h : RenBlack n b b') (k : Id) : b'.contains (n.trace k) = b.contains k := by
  rw [Bool.eq_iff_iff, contains_iff, contains_iff, h.same]

/-! ## The collector -/

/-- Collectors. -/
structure RenCollector (n : Renaming) (c c' : Collector) : Prop where
  traces : RenMap n c.traces c'.traces
  blacklist : RenBlack n c.blacklist c'.blacklist
  metrics : c'.metrics = c.metrics

/-- Collectors and what left them. -/
def RenPair (n : Renaming) (p p' : Collector × List Removal) : Prop := RenCollector n p.1 p'.1 ∧ Pairwise₂ (RenamedRemoval n) p.2 p'.2

theorem ren_finishOne {dU dS : Time} {nf nf' : Id → Time} {p p' : Collector × List Removal} (h : RenPair n p p') {e e' : Id × Tree} (he : RenEntry n e e') :
    RenPair n (finishOne dU dS nf p e) (finishOne dU dS nf' p' e') := by
  obtain ⟨k, t⟩ := e
  obtain ⟨k', t'⟩ := e'
  obtain ⟨rfl, ht⟩ := he
  dsimp only at ht
  obtain ⟨⟨h1, h2, h3⟩, h4⟩ := h
  have app : ∀ {f f' : Fate}, RenamedFate n f f' → Pairwise₂ (RenamedRemoval n) (p.2 ++ [⟨k, t, f⟩]) (p'.2 ++ [⟨n.trace k, t', f'⟩]) :=
    fun hf => h4.app (.cons ⟨rfl, ht.renamed, hf⟩ .nil)
  unfold finishOne
  dsimp only
  rw [ht.tooLarge, ht.updated, ht.started, ht.nodeCount, h3]
  split
  · exact ⟨⟨h1, h2, h3⟩, h4⟩
  · split
    · exact ⟨⟨h1.erase _, h2.insert _, rfl⟩, app .tooLarge⟩
    · split
      · exact ⟨⟨h1.erase _, h2.insert _, rfl⟩, app .tooOld⟩
      · have hf := ht.finish (nf k) (nf' (n.trace k))
        revert hf
        generalize finishTree (nf k) t = f
        generalize finishTree (nf' (n.trace k)) t' = f'
        intro hf
        cases hf with
        | emitted hs => exact ⟨⟨h1.erase _, h2, rfl⟩, app (.emitted hs)⟩
        | noRoot => exact ⟨⟨h1.erase _, h2, rfl⟩, app .noRoot⟩
        | tooLarge => exact ⟨⟨h1.erase _, h2, rfl⟩, app .tooLarge⟩
        | tooOld => exact ⟨⟨h1.erase _, h2, rfl⟩, app .tooOld⟩
        | discarded => exact ⟨⟨h1.erase _, h2, rfl⟩, app .discarded⟩

theorem ren_finishLoop {c c' : Collector} (h : RenCollector n c c') {i i' : TickInput} (h1 : i'.now1 = i.now1) (h2 : i'.now2 = i.now2)
    (ho : Pairwise₂ (RenEntry n) i.order i'.order) : RenPair n (c.finishLoop i) (c'.finishLoop i') := by
  unfold Collector.finishLoop
  dsimp only
  rw [← h.traces.spanCount, h1, h2]
  exact ho.fold (S := RenPair n) (fun _ _ _ _ hp he => ren_finishOne hp he) ⟨h, .nil⟩

theorem ren_discardLoop {l l' : List (Id × Tree)} (h : Pairwise₂ (RenEntry n) l l') : ∀ (m : Int) {c c' : Collector} {r r' : List Removal} (ds dt : Nat), RenCollector n c c' →
    Pairwise₂ (RenamedRemoval n) r r' →
    RenCollector n (discardLoop l m c r ds dt).1 (discardLoop l' m c' r' ds dt).1 ∧
    Pairwise₂ (RenamedRemoval n) (discardLoop l m c r ds dt).2.1 (discardLoop l' m c' r' ds dt).2.1 ∧
    (discardLoop l m c r ds dt).2.2 = (discardLoop l' m c' r' ds dt).2.2 := by
  induction h with
  | nil => intro m c c' r r' ds dt hc hr; exact ⟨hc, hr, rfl⟩
  | @cons e e' l l' he _ ih =>
    intro m c c' r r' ds dt hc hr
    obtain ⟨k, t⟩ := e
    obtain ⟨k', t'⟩ := e'
    obtain ⟨rfl, ht⟩ := he
    dsimp only at ht
    unfold discardLoop
    split
    · exact ⟨hc, hr, rfl⟩
    · rw [ht.nodeCount]
      exact ih _ _ _ ⟨hc.traces.erase _, hc.blacklist, hc.metrics⟩ (hr.app (.cons ⟨rfl, ht.renamed, .discarded⟩ .nil))

theorem ren_discardSuspicious {c c' : Collector} (h : RenCollector n c c') {l l' : List (Id × Tree)} (hl : Pairwise₂ (RenEntry n) l l') :
    RenPair n (discardSuspicious l c) (discardSuspicious l' c') := by
  unfold discardSuspicious
  dsimp only
  rw [h.traces.total]
  split
  · exact ⟨h, .nil⟩
  · obtain ⟨d1, d2, d3⟩ := ren_discardLoop hl (totalNodes c'.traces.toList) 0 0 h (.nil (R := RenamedRemoval n))
    refine ⟨⟨d1.traces, d1.blacklist, ?_⟩, d2⟩
    dsimp only
    rw [d1.metrics, d3]

theorem ren_shed {c c' : Collector} (h : RenCollector n c c') {i i' : TickInput} (h1 : i'.now1 = i.now1) (h2 : i'.now2 = i.now2)
    (ho : Pairwise₂ (RenEntry n) i.order i'.order) (hs : Pairwise₂ (RenEntry n) i.sorted i'.sorted) : RenPair n (c.shed i) (c'.shed i') := by
  obtain ⟨⟨f1, f2, f3⟩, f4⟩ := ren_finishLoop h h1 h2 ho
  unfold Collector.shed
  dsimp only
  rw [← h.traces.spanCount, ← f1.size, f3]
  have hc : RenCollector n
      { (c.finishLoop i).1 with metrics := { (c.finishLoop i).1.metrics with spansInflight := spanCountOf c.traces.toList, tracesInflight := (c.finishLoop i).1.traces.size } }
      { (c'.finishLoop i').1 with metrics := { (c.finishLoop i).1.metrics with spansInflight := spanCountOf c.traces.toList, tracesInflight := (c.finishLoop i).1.traces.size } } :=
    ⟨f1, f2, rfl⟩
  split
  · obtain ⟨d1, d2⟩ := ren_discardSuspicious hc hs
    exact ⟨d1, f4.app d2⟩
  · exact ⟨hc, f4⟩

/-- Every tick of the one collector is possible for the other. -/
theorem ren_tick {c c' : Collector} (h : RenCollector n c c') {i : TickInput} (hv : i.Valid c) (nf' : Id → Time) :
    ∃ i' : TickInput, i'.Valid c' ∧ i'.now1 = i.now1 ∧ i'.now2 = i.now2 ∧ i'.nowFake = nf' ∧ RenPair n (c.tick i) (c'.tick i') := by
  obtain ⟨o1, o2⟩ := h.traces.range hv.order
  let i1 : TickInput := ⟨i.now1, i.now2, nf', i.order.map (renOther n c'.traces), [], []⟩
  have f := ren_finishLoop h (i := i) (i' := i1) rfl rfl o2
  obtain ⟨s1, s2⟩ := f.1.traces.range hv.sorted
  let i2 : TickInput := ⟨i.now1, i.now2, nf', i.order.map (renOther n c'.traces), i.sorted.map (renOther n (c'.finishLoop i1).1.traces), i.blOrder.map fun e => (n.trace e.1, ())⟩
  have g := ren_shed h (i := i) (i' := i2) rfl rfl o2 s2
  refine ⟨i2, ⟨o1, s1, ?_, g.1.blacklist.range hv.blOrder, hv.clock⟩, rfl, rfl, rfl, ?_⟩
  · have hd := hv.desc
    show (i.sorted.map (renOther n (c'.finishLoop i1).1.traces)).Pairwise _
    have e : (i.sorted.map fun e => e.2.nodeCount) = (i.sorted.map (renOther n (c'.finishLoop i1).1.traces)).map fun e => e.2.nodeCount :=
      s2.mapEq fun a b hab => hab.2.nodeCount.symm
    have hd' := (List.pairwise_map (f := fun e : Id × Tree => e.2.nodeCount) (R := fun a b => a ≥ b)).mpr hd
    rw [e] at hd'
    exact List.pairwise_map.mp hd'
  · unfold Collector.tick
    exact ⟨⟨g.1.traces, g.1.blacklist.trim _, g.1.metrics⟩, g.2⟩

theorem apply_traced (s : Span) : ((n.apply s).trace = 0 ∨ (n.apply s).id = 0) ↔ (s.trace = 0 ∨ s.id = 0) :=
  or_congr renameTrace_zero rename_zero

theorem ren_receive {c c' : Collector} (h : RenCollector n c c') (now1 now2 : Time) (s : Span) :
    RenCollector n (c.receive now1 now2 s) (c'.receive now1 now2 (n.apply s)) := by
  unfold Collector.receive
  simp only [apply_traced]
  rw [show (n.apply s).trace = n.trace s.trace from rfl, h.blacklist.contains]
  split
  · exact h
  · split
    · exact ⟨h.traces, h.blacklist, by dsimp only; rw [h.metrics]⟩
    · refine ⟨h.traces.insert _ (RenTree.addSpan ?_ _ rfl), h.blacklist, h.metrics⟩
      rcases h.traces.same s.trace with ⟨a, b⟩ | ⟨t, t', a, b, ht⟩
      · rw [a, b]; exact .new _ _
      · rw [a, b]; exact ht

/-- The relation between two histories. -/
structure RenWorld (n : Renaming) (w w' : World) : Prop where
  collector : RenCollector n w.c w'.c
  received : w'.received = w.received.map n.apply
  refused : w'.refused = w.refused.map n.apply
  removed : Pairwise₂ (RenamedRemoval n) w.removed w'.removed
  clock : w'.clock = w.clock

theorem RenWorld.renamed {w w' : World} (h : RenWorld n w w') : RenamedWorld n w w' := by
  refine ⟨fun k => ?_, h.collector.traces.noOther, h.collector.blacklist.same, h.collector.blacklist.noOther, h.collector.metrics, h.received, h.refused, h.removed, h.clock⟩
  rcases h.collector.traces.same k with x | ⟨t, t', a, b, ht⟩
  · exact .inl x
  · exact .inr ⟨t, t', a, b, ht.renamed⟩

theorem ren_after {start : Time} {l l' : List Happening} {w : World} (hw : After start l w) (h : Pairwise₂ (RenamedHappening n) l l') :
    ∃ w', After start l' w' ∧ RenWorld n w w' := by
  induction hw generalizing l' with
  | start =>
    cases h
    exact ⟨_, .start, ⟨⟨⟨fun k => .inl ⟨by simp, by simp⟩, by simp⟩, ⟨by simp, by simp⟩, rfl⟩, rfl, rfl, .nil, rfl⟩⟩
  | @receive l w now1 now2 s hw hc hn ih =>
    cases h with
    | cons h1 h =>
      cases h1
      obtain ⟨w', hw', hr⟩ := ih h
      refine ⟨_, .receive hw' (by rw [hr.clock]; exact hc) hn, ren_receive hr.collector now1 now2 s, ?_, ?_, hr.removed, rfl⟩
      · show w'.received ++ [n.apply s] = (w.received ++ [s]).map n.apply
        rw [hr.received, List.map_append]
        rfl
      · show (if ¬ ((n.apply s).trace = 0 ∨ (n.apply s).id = 0) ∧ w'.c.blacklist.contains (n.apply s).trace then w'.refused ++ [n.apply s] else w'.refused) =
          (if ¬ (s.trace = 0 ∨ s.id = 0) ∧ w.c.blacklist.contains s.trace then w.refused ++ [s] else w.refused).map n.apply
        simp only [apply_traced]
        rw [show (n.apply s).trace = n.trace s.trace from rfl, hr.collector.blacklist.contains, hr.refused]
        split
        · rw [List.map_append]; rfl
        · rfl
  | @tick l w i hw hv hc ih =>
    cases h with
    | cons h1 h =>
      cases h1 with
      | @tick _ _ _ nf' =>
        obtain ⟨w', hw', hr⟩ := ih h
        obtain ⟨i', hv', e1, e2, e3, hp⟩ := ren_tick hr.collector hv nf'
        refine ⟨w'.tick i', ?_, hp.1, hr.received, hr.refused, hr.removed.app hp.2, e2⟩
        rw [← e1, ← e2, ← e3]
        exact .tick hw' hv' (by rw [hr.clock, e1]; exact hc)

end

end Verif
