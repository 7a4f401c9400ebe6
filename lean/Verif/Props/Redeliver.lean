import Verif.Proofs.Redeliver
import Verif.Props.Shape

/-!
# C83, C84: spans that are received again or in another order
-/

namespace Verif

open Spec Std

/-! ## What is emitted depends on the spans only up to a nil tag map -/

theorem path_unique {l : List Span} (hn : (l.map Span.id).Nodup) {r : Span} (hr : IsRootOf l r) {anc : List Span} {s : Span} (h : Path l r anc s) :
    ∀ {anc'}, Path l r anc' s → anc = anc' := by
  have noparent : ∀ p ∈ l, r.parent = p.id → r.parent ≠ r.id → False := by
    intro p hp h1 h2
    rcases hr.2 with h3 | h3
    · exact h2 h3
    · exact h3 p hp h1.symm
  induction h with
  | root =>
    intro anc' h'
    cases h' with
    | root => rfl
    | child hp _ h3 h4 => exact (noparent _ (hp.mem hr.1) h3 h4).elim
  | @child anc p c hp _ h3 h4 ih =>
    intro anc' h'
    cases h' with
    | root => exact (noparent _ (hp.mem hr.1) h3 h4).elim
    | @child anc' p' _ hp' _ h3' _ =>
      have : p = p' := mem_eq_of_id hn (hp.mem hr.1) (hp'.mem hr.1) (h3.symm.trans h3')
      subst this
      rw [ih hp']

theorem links_withTags (l : List Span) : (l.map Span.withTags).map link = l.map link := by
  rw [List.map_map]; rfl

theorem start_withTags : ∀ (anc : List Span) (s : Span), start (anc.map Span.withTags) s.withTags = start anc s
  | [], s => rfl
  | p :: anc, s => by
    have hshift : ∀ anc : List Span, shift (anc.map Span.withTags) = shift anc := by
      intro anc
      induction anc with
      | nil => rfl
      | cons q anc ih => simp only [List.map_cons, shift, ih]; rfl
    have e : shiftedStart ((p :: anc).map Span.withTags) s.withTags = shiftedStart (p :: anc) s := by
      unfold shiftedStart
      rw [hshift]; rfl
    rw [List.map_cons, start, start, start_withTags anc p]
    rw [List.map_cons] at e
    rw [e]

theorem path_withTags {l : List Span} {r s : Span} {anc : List Span} (h : Path l r anc s) : Path (l.map Span.withTags) r.withTags (anc.map Span.withTags) s.withTags := by
  induction h with
  | root => exact .root
  | child _ hc h3 h4 ih => exact .child ih (List.mem_map_of_mem hc) h3 h4

theorem corrected_withTags {base out : List Span} {r : Span} (hn : (base.map Span.id).Nodup) (hr : IsRootOf base r) (h : Corrected base r out) :
    Corrected (base.map Span.withTags) r.withTags (out.map Span.withTags) := by
  refine ⟨by rw [List.length_map, List.length_map]; exact h.1, fun j s' hj => ?_⟩
  rw [List.getElem?_map, Option.map_eq_some_iff] at hj
  obtain ⟨s, hs, rfl⟩ := hj
  obtain ⟨h1, h2⟩ := h.2 j s hs
  have hl := links_withTags base
  have hr' : IsRootOf (base.map Span.withTags) r.withTags := isRootOf_links hl.symm (List.mem_map_of_mem hr.1) (show link r.withTags = link r from rfl) hr
  have hn' : ((base.map Span.withTags).map Span.id).Nodup := ids_of_links hl ▸ hn
  constructor
  · intro anc' hp
    obtain ⟨anc, hp0⟩ := path_links hl hn' hr'.1 hr.1 rfl hp (List.mem_of_getElem? hs) rfl
    have := path_unique hn' hr' hp (path_withTags hp0)
    subst this
    rw [List.getElem?_map, h1 anc hp0, Option.map_some]
    unfold corrected
    rw [start_withTags]
    rfl
  · intro hno
    rw [List.getElem?_map, h2 (fun anc hp => hno _ (path_withTags hp))]
    rfl

theorem corrected_unique {base out out' : List Span} {r : Span} (h : Corrected base r out) (h' : Corrected base r out') : out = out' := by
  apply List.ext_getElem?
  intro j
  cases hj : base[j]? with
  | none =>
    rw [List.getElem?_eq_none_iff] at hj
    rw [List.getElem?_eq_none_iff.mpr (by rw [h.1]; exact hj), List.getElem?_eq_none_iff.mpr (by rw [h'.1]; exact hj)]
  | some s =>
    by_cases hp : ∃ anc, Path base r anc s
    · obtain ⟨anc, hp⟩ := hp
      rw [(h.2 j s hj).1 anc hp, (h'.2 j s hj).1 anc hp]
    · have hno : ∀ anc, ¬ Path base r anc s := fun anc h => hp ⟨anc, h⟩
      rw [(h.2 j s hj).2 hno, (h'.2 j s hj).2 hno]

theorem withTags_mem {l l' : List Span} (h : l.map Span.withTags = l'.map Span.withTags) {s : Span} (hs : s ∈ l) : ∃ s' ∈ l', s'.withTags = s.withTags := by
  have : s.withTags ∈ l'.map Span.withTags := by rw [← h]; exact List.mem_map_of_mem hs
  exact List.mem_map.mp this

theorem links_of_withTags {l l' : List Span} (h : l.map Span.withTags = l'.map Span.withTags) : l.map link = l'.map link := by
  rw [← links_withTags l, h, links_withTags]

theorem withTags_link {a b : Span} (h : a.withTags = b.withTags) : link a = link b := (congrArg link h :)

theorem isRootOf_withTags {l l' : List Span} (h : l.map Span.withTags = l'.map Span.withTags) {s : Span} (hs : IsRootOf l s) : ∃ s', IsRootOf l' s' ∧ s'.withTags = s.withTags := by
  obtain ⟨s', hs', he⟩ := withTags_mem h hs.1
  exact ⟨s', isRootOf_links (links_of_withTags h) hs' (withTags_link he) hs, he⟩

theorem sharedParent_withTags {l l' : List Span} (h : l.map Span.withTags = l'.map Span.withTags) {p : Id} (hs : SharedParent l p) : SharedParent l' p := by
  obtain ⟨⟨a, b, ha, hb, hab⟩, hall⟩ := hs
  obtain ⟨a', ha', ea⟩ := isRootOf_withTags h ha
  obtain ⟨b', hb', eb⟩ := isRootOf_withTags h hb
  refine ⟨⟨a', b', ha', hb', ?_⟩, fun q hq => ?_⟩
  · rw [(link_eq (withTags_link ea)).1, (link_eq (withTags_link eb)).1]; exact hab
  · obtain ⟨q', hq', eq⟩ := isRootOf_withTags h.symm hq
    rw [← (link_eq (withTags_link eq)).2]
    exact hall q' hq'

theorem fakeRoot_unique {l l' : List Span} (h : l.map Span.withTags = l'.map Span.withTags) {k p : Id} {f f' : Span} (hf : FakeRoot k p l f) (hf' : FakeRoot k p l' f') : f = f' := by
  have key : ∀ {l l' : List Span}, l.map Span.withTags = l'.map Span.withTags → ∀ {f f' : Span}, FakeRoot k p l f → FakeRoot k p l' f' →
      f.timestamp ≤ f'.timestamp ∧ f'.timestamp + f'.duration ≤ f.timestamp + f.duration := by
    intro l l' h f f' hf hf'
    constructor
    · obtain ⟨q, hq, e⟩ := hf'.start
      obtain ⟨q', hq', e'⟩ := isRootOf_withTags h.symm hq
      rw [e, ← show q'.timestamp = q.timestamp from (congrArg Span.timestamp e' :)]
      exact hf.starts q' hq'
    · obtain ⟨q, hq, e⟩ := hf'.stop
      obtain ⟨q', hq', e'⟩ := isRootOf_withTags h.symm hq
      rw [e, ← show q'.timestamp = q.timestamp from (congrArg Span.timestamp e' :), ← show q'.duration = q.duration from (congrArg Span.duration e' :)]
      exact hf.ends q' hq'
  obtain ⟨a1, a2⟩ := key h hf hf'
  obtain ⟨b1, b2⟩ := key h.symm hf' hf
  have e1 : f.timestamp = f'.timestamp := Int64.le_antisymm a1 b1
  have e2 : f.timestamp + f.duration = f'.timestamp + f'.duration := Int64.le_antisymm b2 a2
  rw [e1, Int64.add_right_inj] at e2
  have h1 := hf.id; have h2 := hf.trace; have h3 := hf.parent; have h4 := hf.name; have h5 := hf.service; have h6 := hf.tags; have h7 := hf.timings
  have h1' := hf'.id; have h2' := hf'.trace; have h3' := hf'.parent; have h4' := hf'.name; have h5' := hf'.service; have h6' := hf'.tags; have h7' := hf'.timings
  cases f; cases f'
  simp_all

/-- What is emitted is determined by the spans of the trace. -/
theorem finished_ext {k : Id} {spans spans' out out' : List Span} (hs : SortedDesc spans) (hs' : SortedDesc spans') (he : spans.map Span.withTags = spans'.map Span.withTags)
    (h : Finished k spans out) (h' : Finished k spans' out') : out.map Span.withTags = out'.map Span.withTags := by
  obtain ⟨base, r, hrep, hr, hc⟩ := h
  obtain ⟨base', r', hrep', hr', hc'⟩ := h'
  have wt : ∀ {l : List Span}, l.Pairwise (fun a b => a.id > b.id) → (l.map Span.withTags).Pairwise (fun a b => a.id > b.id) := by
    intro l hl
    rw [List.pairwise_map]; exact hl
  have hsort : SortedDesc base ∧ SortedDesc base' ∧ base.map Span.withTags = base'.map Span.withTags := by
    rcases hrep with ⟨p, f, hsp, hf, hperm, hpw⟩ | ⟨hno, rfl⟩ <;> rcases hrep' with ⟨p', f', hsp', hf', hperm', hpw'⟩ | ⟨hno', rfl⟩
    · refine ⟨hpw, hpw', ?_⟩
      have hp : p = p' := by
        obtain ⟨⟨a, _, ha, _⟩, hall⟩ := sharedParent_withTags he hsp
        exact (hall a ha).symm.trans (hsp'.2 a ha)
      subst hp
      have := fakeRoot_unique he hf hf'
      subst this
      refine sorted_ext (wt hpw) (wt hpw') fun x => ?_
      rw [(hperm.map Span.withTags).mem_iff, (hperm'.map Span.withTags).mem_iff, List.map_cons, List.map_cons, he]
    · exact absurd (sharedParent_withTags he hsp) (hno' p)
    · exact absurd (sharedParent_withTags he.symm hsp') (hno p')
    · exact ⟨hs, hs', he⟩
  obtain ⟨s1, s2, eb⟩ := hsort
  have c1 := corrected_withTags (sortedDesc_ids s1) hr.1 hc
  have c2 := corrected_withTags (sortedDesc_ids s2) hr'.1 hc'
  have er : r.withTags = r'.withTags := by
    obtain ⟨q, hq, e⟩ := isRootOf_withTags eb hr.1
    rw [← hr'.2 q hq, e]
  rw [er, eb] at c1
  exact corrected_unique c1 c2

/-- Two traces that hold the same for every id are emitted alike, whenever and wherever they are. -/
theorem emitted_congr {w w' : World} (hw : Reachable w) (hw' : Reachable w') {r r' : Removal} (hr : r ∈ w.removed) (hr' : r' ∈ w'.removed) (hid : r.id = r'.id)
    {out out' : List Span} (ho : r.fate = .emitted out) (ho' : r'.fate = .emitted out') (he : ∀ id, held id r.tree.members = held id r'.tree.members) :
    out.map Span.withTags = out'.map Span.withTags := by
  have i := ((reachable_inv hw).gone r hr).inv
  have i' := ((reachable_inv hw').gone r' hr').inv
  have f := ((removed_spec hw r hr).2 out ho).1
  have f' := ((removed_spec hw' r' hr').2 out' ho').1
  rw [← hid] at f'
  exact finished_ext i.sorted i'.sorted (spans_eq_of_held i i' he) f f'

/-! ## C83 -/

/-- C83, partial: if a span is received again while its trace is pending, and since no other span of this kind (server half or not) with the same id and other values was received, then
the spans of all pending traces stay what they are. Missing: ids that are used for several server halves, or for several client halves with different times (`C83_fails`). -/
theorem C83_partial {w : World} (hw : Reachable w) {x : Span} {t : Tree} (ht : w.c.traces[x.trace]? = some t) (hx : x ∈ t.members)
    (hc : ∀ y ∈ t.members, y.id = x.id → Compatible x y) (now1 now2 : Time) :
    (∃ t', (w.c.receive now1 now2 x).traces[x.trace]? = some t' ∧ t'.spans.map Span.withTags = t.spans.map Span.withTags ∧ t'.started = t.started ∧ t'.nodeCount = t.nodeCount) ∧
    (∀ k, k ≠ x.trace → (w.c.receive now1 now2 x).traces[k]? = w.c.traces[k]?) ∧ (w.c.receive now1 now2 x).blacklist = w.c.blacklist := by
  have hinv := reachable_inv hw
  have ok := hinv.trees _ _ ht
  have htr := (ok.members x hx).2
  have hnt : ¬ (x.trace = 0 ∨ x.id = 0) := fun h => (not_traced_iff x).mp h htr
  have hb : w.c.blacklist.contains x.trace = false := by
    have := hinv.disjoint _ _ ht
    rw [ExtTreeMap.contains_eq_isSome_getElem?, this]; rfl
  have hrec : w.c.receive now1 now2 x = { w.c with traces := w.c.traces.insert x.trace (t.addSpan now2 x) } := by
    unfold Collector.receive
    rw [if_neg hnt, hb, ht]
    rfl
  rw [hrec]
  refine ⟨⟨t.addSpan now2 x, by rw [get_insert, if_pos rfl], ?_, (t.addSpan_fields now2 x).2.1, ?_⟩, fun k hk => by rw [get_insert, if_neg (fun h => hk h.symm)], rfl⟩
  · refine spans_eq_of_held (ok.inv.addSpan now2 x) ok.inv fun id => ?_
    rw [t.addSpan_members]
    exact held_append_self hx hc id
  · have hsome : (getSpanRef t.spans x.id).isSome := by
      have := (ok.inv.ids x.id).mpr ⟨x, hx, rfl⟩
      obtain ⟨s, hs, hid⟩ := this
      rw [Option.isSome_iff_ne_none]
      intro hn
      exact (getSpanRef_eq_none ok.inv.sorted).mp hn s hs hid
    obtain ⟨i, hi⟩ := Option.isSome_iff_exists.mp hsome
    unfold Tree.addSpan
    simp only [hi]

theorem gathered_members (k : Id) (l : List Span) : (gathered k l).members = l := by
  have := (assemble_inv_members 0 k (l.map fun s => ((0 : Time), s))).2.1
  rw [List.map_map] at this
  exact this.trans (List.map_id _)

/-- Two server halves of one span. -/
def twoServers : List Span :=
  [{ id := 1, trace := 7, name := b!"a", timings := { SR := 1, SS := 2 } }, { id := 1, trace := 7, name := b!"b", timings := { SR := 3, SS := 4 } }]

/-- C83 does not hold as stated: of two server halves with the same id, the one received last wins, and it is another one after the first is received again. -/
theorem C83_fails : ∃ w x t, Reachable w ∧ w.c.traces[x.trace]? = some t ∧ x ∈ t.members ∧
    ∀ t', (w.c.receive 0 0 x).traces[x.trace]? = some t' → t'.spans.map Span.withTags ≠ t.spans.map Span.withTags := by
  let x : Span := { id := 1, trace := 7, name := b!"a", timings := { SR := 1, SS := 2 } }
  have h1 := (flood_spec twoServers).2.2 7
  rw [show receivedFor 7 twoServers = twoServers by rfl, if_neg (by simp [twoServers])] at h1
  have h2 := (flood_spec (twoServers ++ [x])).2.2 7
  rw [show receivedFor 7 (twoServers ++ [x]) = twoServers ++ [x] by rfl, if_neg (by simp [twoServers]), flood_append] at h2
  refine ⟨flood twoServers, x, gathered 7 twoServers, flood_reachable _, h1, ?_, fun t' ht' he => ?_⟩
  · rw [gathered_members]; simp [twoServers, x]
  · have e : t' = gathered 7 (twoServers ++ [x]) := Option.some.inj (ht'.symm.trans h2)
    subst e
    have := congrArg (List.map Span.name) he
    rw [List.map_map, List.map_map] at this
    exact absurd this (by decide +kernel)

/-- The hypotheses of `C83_partial` can be met with a client and a server half that were both received twice. -/
example : ∃ w x t, Reachable w ∧ w.c.traces[x.trace]? = some t ∧ x ∈ t.members ∧ (∀ y ∈ t.members, y.id = x.id → Compatible x y) ∧ t.members.length = 5 ∧ t.spans.length = 2 := by
  let c : Span := { id := 1, trace := 7, name := b!"a", timings := { CS := 1, CR := 4 } }
  let x : Span := { id := 1, trace := 7, name := b!"b", timings := { SR := 2, SS := 3 } }
  let l := [c, x, c, x, { id := 2, trace := 7, parent := 1 }]
  have h1 := (flood_spec l).2.2 7
  rw [show receivedFor 7 l = l by rfl, if_neg (by simp [l])] at h1
  have hm := gathered_members 7 l
  refine ⟨flood l, x, gathered 7 l, flood_reachable _, h1, by rw [hm]; simp [l], ?_, by rw [hm]; rfl, by decide +kernel⟩
  intro y hy hid
  rw [hm] at hy
  have hs : IsServer x := by decide
  unfold Compatible
  rw [if_pos hs]
  simp only [l, List.mem_cons, List.not_mem_nil, or_false] at hy
  intro hsy
  rcases hy with rfl | rfl | rfl | rfl | rfl
  · exact absurd hsy (by decide)
  · rfl
  · exact absurd hsy (by decide)
  · rfl
  · exact absurd hid (by decide)

/-! ## C84 -/

/-- C84: if for every span id the spans received with this id are the same in the same order, then in whatever way they were mixed, the same trace is emitted. -/
theorem C84_order {w w' : World} (hw : Reachable w) (hw' : Reachable w') {r r' : Removal} (hr : r ∈ w.removed) (hr' : r' ∈ w'.removed) (hid : r.id = r'.id)
    {out out' : List Span} (ho : r.fate = .emitted out) (ho' : r'.fate = .emitted out')
    (h : ∀ id, r.tree.members.filter (fun s => s.id == id) = r'.tree.members.filter (fun s => s.id == id)) :
    out.map Span.withTags = out'.map Span.withTags := by
  refine emitted_congr hw hw' hr hr' hid ho ho' fun id => ?_
  unfold held
  rw [h id]

/-- C84: in particular, spans with different ids can arrive in any order. -/
theorem C84_perm {w w' : World} (hw : Reachable w) (hw' : Reachable w') {r r' : Removal} (hr : r ∈ w.removed) (hr' : r' ∈ w'.removed) (hid : r.id = r'.id)
    {out out' : List Span} (ho : r.fate = .emitted out) (ho' : r'.fate = .emitted out')
    (hp : r.tree.members.Perm r'.tree.members) (hn : (r.tree.members.map Span.id).Nodup) :
    out.map Span.withTags = out'.map Span.withTags := by
  refine C84_order hw hw' hr hr' hid ho ho' fun id => ?_
  have hperm := hp.filter (fun s => s.id == id)
  have hlen : (r.tree.members.filter (fun s => s.id == id)).length ≤ 1 := by
    have hn' : ((r.tree.members.filter (fun s => s.id == id)).map Span.id).Nodup := hn.sublist (List.filter_sublist.map _)
    generalize hq : r.tree.members.filter (fun s => s.id == id) = q at *
    match q with
    | [] => simp
    | [_] => simp
    | a :: b :: q =>
      have ha : a ∈ r.tree.members.filter (fun s => s.id == id) := by rw [hq]; simp
      have hb : b ∈ r.tree.members.filter (fun s => s.id == id) := by rw [hq]; simp
      rw [List.mem_filter] at ha hb
      have e1 : a.id = id := by simpa using ha.2
      have e2 : b.id = id := by simpa using hb.2
      simp [e1, e2] at hn'
  generalize r.tree.members.filter (fun s => s.id == id) = q at *
  match q with
  | [] => exact (List.nil_perm.mp hperm).symm
  | [a] => exact List.singleton_perm.mp hperm

/-- The hypotheses of `C84_perm` can be met with a root and its child. -/
example : ∃ w w' r r' out out', Reachable w ∧ Reachable w' ∧ r ∈ w.removed ∧ r' ∈ w'.removed ∧ r.id = r'.id ∧ r.fate = .emitted out ∧ r'.fate = .emitted out' ∧
    r.tree.members.Perm r'.tree.members ∧ (r.tree.members.map Span.id).Nodup ∧ r.tree.members ≠ r'.tree.members := by
  let a : Span := { id := 1, trace := 7 }
  let b : Span := { id := 2, trace := 7, parent := 1 }
  have hroot : ∀ l : List Span, (gathered 7 l).spans.map link = [(2, 1), (1, 0)] → Rooted 7 (gathered 7 l).spans := by
    intro l hl
    obtain ⟨x, hx, ex⟩ := List.mem_map.mp (show ((1 : Id), (0 : Id)) ∈ (gathered 7 l).spans.map link by rw [hl]; simp)
    refine .inl ⟨x, isRootOf_iff.mpr ⟨hx, by rw [hl, ex]; decide⟩, fun q hq => ?_⟩
    have h1 := (isRootOf_iff.mp hq).2
    have h2 := List.mem_map_of_mem (f := link) hq.1
    rw [hl] at h1 h2
    have e := (show ∀ x ∈ [((2 : Id), (1 : Id)), (1, 0)], RootLink [(2, 1), (1, 0)] x → x = (1, 0) by decide) _ h2 h1
    refine mem_eq_of_id ?_ hq.1 hx (congrArg Prod.fst (e.trans ex.symm))
    rw [show (gathered 7 l).spans.map Span.id = ((gathered 7 l).spans.map link).map Prod.fst by rw [List.map_map]; rfl, hl]
    decide
  obtain ⟨w, out, hw, hr, _⟩ := flood_emits [a, b] 7 (by decide +kernel) (by decide +kernel) (by decide +kernel) (hroot _ (by decide +kernel))
  obtain ⟨w', out', hw', hr', _⟩ := flood_emits [b, a] 7 (by decide +kernel) (by decide +kernel) (by decide +kernel) (hroot _ (by decide +kernel))
  refine ⟨w, w', _, _, out, out', hw, hw', hr, hr', rfl, rfl, rfl, ?_⟩
  simp only [gathered_members]
  rw [show receivedFor 7 [a, b] = [a, b] by rfl, show receivedFor 7 [b, a] = [b, a] by rfl]
  refine ⟨.swap b a [], by decide, fun h => ?_⟩
  have := congrArg (List.map Span.id) h
  exact absurd this (by decide)

end Verif
