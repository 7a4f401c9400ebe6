import Verif.Props.Redeliver

/-!
# C36 and C83, exactly: when the order of halves matters, and when a span that is received again matters
-/

namespace Verif

open Spec Std

/-! ## C83 -/

/-- Receiving a span changes nothing exactly if everything in it is there. -/
theorem merged_eq_iff (a x : Span) : merged a x = a ↔ Absorbed x a := by
  constructor
  · intro h
    have := absorbed_merged a x
    rwa [h] at this
  · exact fun h => h.merged_eq

theorem held_of_spans {t t' : Tree} (h : t.Inv) (h' : t'.Inv) (he : t.spans.map Span.withTags = t'.spans.map Span.withTags) (id : Id) : held id t.members = held id t'.members := by
  have key : ∀ {t t' : Tree}, t.Inv → t'.Inv → t.spans.map Span.withTags = t'.spans.map Span.withTags → ∀ x, held id t.members = some x → held id t'.members = some x := by
    intro t t' h h' he x hx
    obtain ⟨s, hs, hid⟩ := (h.ids id).mpr ((held_isSome _ _).mp (by rw [hx]; rfl))
    obtain ⟨s', hs', e⟩ := withTags_mem he hs
    have h1 := h.mem_held hs
    have h2 := h'.mem_held hs'
    have hid' : s'.id = id := (show s'.id = s.id from (congrArg Span.id e :)).trans hid
    rw [hid, hx] at h1
    rw [hid', e] at h2
    rw [h2, h1]
  cases h1 : held id t.members with
  | some x => exact (key h h' he x h1).symm
  | none =>
    cases h2 : held id t'.members with
    | none => rfl
    | some x => rw [key h' h he.symm x h2] at h1; cases h1

/-- C83, exactly: a span of a pending trace changes its spans, unless the trace has a span with this id that has everything that is in it already. -/
theorem C83_exact {w : World} (hw : Reachable w) {x : Span} {t : Tree} (ht : w.c.traces[x.trace]? = some t) (hx : x.id ≠ 0) (now1 now2 : Time) :
    ∃ t', (w.c.receive now1 now2 x).traces[x.trace]? = some t' ∧
      (t'.spans.map Span.withTags = t.spans.map Span.withTags ↔ ∃ h ∈ t.spans, h.id = x.id ∧ Absorbed x h.withTags) := by
  have hinv := reachable_inv hw
  have ok := hinv.trees _ _ ht
  have htr : x.trace ≠ 0 := by
    obtain ⟨m, hm⟩ := List.exists_mem_of_ne_nil _ ok.nonempty
    obtain ⟨h1, h2⟩ := ok.members m hm
    intro h
    exact (not_traced_iff m).mp (Or.inl (h1.trans h)) h2
  have hb : w.c.blacklist.contains x.trace = false := by
    have := hinv.disjoint _ _ ht
    rw [ExtTreeMap.contains_eq_isSome_getElem?, this]; rfl
  have hrec : w.c.receive now1 now2 x = { w.c with traces := w.c.traces.insert x.trace (t.addSpan now2 x) } := by
    unfold Collector.receive
    rw [if_neg (fun h => h.elim htr hx), hb, ht]
    rfl
  rw [hrec]
  refine ⟨t.addSpan now2 x, by rw [get_insert, if_pos rfl], ?_⟩
  have inv' := ok.inv.addSpan now2 x
  have app := fun id => held_append id t.members x
  constructor
  · intro he
    have h1 := held_of_spans inv' ok.inv he x.id
    rw [t.addSpan_members, app, if_pos rfl] at h1
    cases hh : held x.id t.members with
    | none => rw [hh] at h1; cases h1
    | some a =>
      rw [hh] at h1
      obtain ⟨s, hs, hid⟩ := (ok.inv.ids x.id).mpr ((held_isSome _ _).mp (by rw [hh]; rfl))
      have h2 := ok.inv.mem_held hs
      rw [hid, hh] at h2
      refine ⟨s, hs, hid, (merged_eq_iff _ _).mp ?_⟩
      rw [← Option.some.inj h2]
      exact Option.some.inj h1
  · rintro ⟨s, hs, hid, ha⟩
    refine spans_eq_of_held inv' ok.inv fun id => ?_
    rw [t.addSpan_members, app]
    split
    · next h =>
      have h2 := ok.inv.mem_held hs
      rw [hid, h] at h2
      rw [h2]
      exact congrArg some ha.merged_eq
    · rfl

/-! ## C36 -/

/-- With a span in front, a server half and another span commute, but for the parent. -/
theorem merged_swap (m c s : Span) (hc : ¬ IsServer c) (hs : IsServer s) :
    merged (merged m c) s = { merged (merged m s) c with parent := firstParent [m, c, s] } := by
  have e : ((some (c.tags.getD ∅ ∪ m.tags.getD ∅)).getD ∅ ∪ s.tags.getD ∅ : TagMap) = c.tags.getD ∅ ∪ ((some (m.tags.getD ∅ ∪ s.tags.getD ∅)).getD ∅) := by
    apply ExtTreeMap.ext_getElem?
    intro k
    simp only [Option.getD_some, ExtTreeMap.getElem?_union]
    cases (s.tags.getD ∅)[k]? <;> cases (m.tags.getD ∅)[k]? <;> cases (c.tags.getD ∅)[k]? <;> rfl
  unfold merged
  simp only [if_neg hc, if_pos hs, ← firstNonEmpty_assoc, e, Span.mk.injEq, true_and, and_true]
  unfold firstParent firstParent firstParent firstParent
  by_cases h1 : m.parent = 0
  · by_cases h2 : c.parent = 0
    · simp only [h1, h2, if_true]
      by_cases h3 : s.parent = 0
      · simp [h3]
      · simp [h3]
    · simp [h1, h2]
  · simp [h1]

theorem merged_parent (a b : Span) : (merged a b).parent = if a.parent = 0 then b.parent else a.parent := rfl

theorem foldl_parent (l : List Span) (m : Span) : (l.foldl merged m).parent = firstParent (m :: l) := by
  induction l generalizing m with
  | nil => simp only [List.foldl_nil, firstParent]; split <;> simp_all
  | cons x l ih =>
    rw [List.foldl_cons, ih]
    simp only [firstParent, merged_parent]
    by_cases h : m.parent = 0
    · simp [h]
    · simp [h]

/-- Equal, but for the parent. -/
def SameBut (a b : Span) : Prop := { a with parent := 0 } = { b with parent := 0 }

theorem SameBut.merged {a b : Span} (h : SameBut a b) (x : Span) : SameBut (merged a x) (Spec.merged b x) := by
  have : b = { a with parent := b.parent } := by
    unfold SameBut at h
    cases a; cases b
    simp only [Span.mk.injEq] at h ⊢
    simp [h]
  rw [this]
  unfold SameBut Spec.merged
  by_cases hs : IsServer x
  · simp only [if_pos hs]
  · simp only [if_neg hs]

theorem SameBut.foldl {a b : Span} (h : SameBut a b) (l : List Span) : SameBut (l.foldl Spec.merged a) (l.foldl Spec.merged b) := by
  induction l generalizing a b with
  | nil => exact h
  | cons x l ih => exact ih (h.merged x)

theorem SameBut.trans {a b c : Span} (h : SameBut a b) (h' : SameBut b c) : SameBut a c := Eq.trans h h'

theorem SameBut.symm {a b : Span} (h : SameBut a b) : SameBut b a := Eq.symm h

theorem other_then_servers (l : List Span) (m c : Span) (hl : ∀ s ∈ l, IsServer s) (hc : ¬ IsServer c) : SameBut (l.foldl merged (merged m c)) (merged (l.foldl merged m) c) := by
  induction l generalizing m with
  | nil => rfl
  | cons s l ih =>
    rw [List.foldl_cons, List.foldl_cons]
    refine SameBut.trans (SameBut.foldl ?_ l) (ih (merged m s) (fun s' hs' => hl s' (List.mem_cons_of_mem _ hs')))
    rw [merged_swap m c s hc (hl s (by simp))]
    rfl

/-- As if all server halves came before all other spans, but for the parent. -/
theorem foldl_sorted (l : List Span) (m : Span) :
    SameBut (l.foldl merged m) ((l.filter fun s => !decide (IsServer s)).foldl merged ((l.filter fun s => decide (IsServer s)).foldl merged m)) := by
  induction l generalizing m with
  | nil => rfl
  | cons x l ih =>
    rw [List.foldl_cons]
    by_cases hs : IsServer x
    · rw [List.filter_cons_of_pos (by simpa using hs), List.filter_cons_of_neg (by simpa using hs), List.foldl_cons]
      exact ih _
    · rw [List.filter_cons_of_neg (by simpa using hs), List.filter_cons_of_pos (by simpa using hs), List.foldl_cons]
      refine (ih _).trans (SameBut.foldl (other_then_servers _ _ _ (fun s hs' => ?_) hs) _)
      simpa using (List.mem_filter.mp hs').2

theorem firstParent_withTags (s : Span) (l : List Span) : firstParent (s.withTags :: l) = firstParent (s :: l) := rfl

theorem SameBut.eq {a b : Span} (h : SameBut a b) (hp : a.parent = b.parent) : a = b := by
  unfold SameBut at h
  cases a; cases b
  simp only [Span.mk.injEq] at h ⊢
  simp_all

theorem held_interleaved {id : Id} {l l' : List Span} (h : Interleaved (l.filter fun s => s.id == id) (l'.filter fun s => s.id == id)) : held id l = held id l' := by
  unfold held
  generalize l.filter (fun s => s.id == id) = q at h
  generalize l'.filter (fun s => s.id == id) = q' at h
  match q, q', h with
  | [], [], _ => rfl
  | [], b :: q', h => exact absurd h.first (by simp)
  | a :: q, [], h => exact absurd h.first (by simp)
  | a :: q, b :: q', h =>
    have e : a = b := by simpa using h.first
    subst e
    have h1 := foldl_sorted q a.withTags
    have h2 := foldl_sorted q' a.withTags
    have h3 := h.servers
    have h4 := h.others
    simp only [List.tail_cons] at h3 h4
    rw [h3, h4] at h1
    simp only [Option.some.injEq]
    refine SameBut.eq (h1.trans (Eq.symm h2)) ?_
    rw [foldl_parent, foldl_parent, firstParent_withTags, firstParent_withTags]
    exact h.parent

/-- C36: once a span is there, server halves and other spans with its id can be interleaved in any way, as long as the same parent is the first known one: the same is emitted. -/
theorem C36_interleaved_partial {w w' : World} (hw : Reachable w) (hw' : Reachable w') {r r' : Removal} (hr : r ∈ w.removed) (hr' : r' ∈ w'.removed) (hid : r.id = r'.id)
    {out out' : List Span} (ho : r.fate = .emitted out) (ho' : r'.fate = .emitted out')
    (h : ∀ id, Interleaved (r.tree.members.filter fun s => s.id == id) (r'.tree.members.filter fun s => s.id == id)) :
    out.map Span.withTags = out'.map Span.withTags :=
  emitted_congr hw hw' hr hr' hid ho ho' fun id => held_interleaved (h id)

/-- C36, exactly: two halves, of which only one is a server half, are the same whichever is first, exactly if they are exchangeable. -/
theorem C36_exact (c s : Span) (hc : ¬ IsServer c) (hs : IsServer s) : merged c.withTags s = merged s.withTags c ↔ Exchangeable c s := by
  have fv : ∀ a b : Timestamp, firstValid a b = a ↔ 0 < a ∨ a = b := by
    intro a b
    unfold firstValid
    split
    · next h => simp [h]
    · next h => simp [h, eq_comm]
  have pp : ∀ a b : Id, (if a = 0 then b else a) = (if b = 0 then a else b) ↔ a = 0 ∨ b = 0 ∨ a = b := by
    intro a b
    by_cases ha : a = 0
    · by_cases hb : b = 0
      · simp [ha, hb]
      · simp [ha, hb]
    · by_cases hb : b = 0
      · simp [ha, hb]
      · simp [ha, hb]
  unfold merged
  simp only [if_pos hs, if_neg hc, Span.withTags, Option.getD_some, Span.mk.injEq, Timings.mk.injEq, true_and]
  constructor
  · rintro ⟨h1, h2, h3, h4, h5, h6, h7, h8, h9⟩
    exact ⟨h1, h3, h4, h5, (pp _ _).mp h2, (fv _ _).mp h6.symm, (fv _ _).mp h7.symm, ((fv _ _).mp h8).imp_right Eq.symm, ((fv _ _).mp h9).imp_right Eq.symm⟩
  · rintro ⟨h1, h3, h4, h5, h2, h6, h7, h8, h9⟩
    exact ⟨h1, (pp _ _).mpr h2, h3, h4, h5, ((fv _ _).mpr h6).symm, ((fv _ _).mpr h7).symm, (fv _ _).mpr (h8.imp_right Eq.symm), (fv _ _).mpr (h9.imp_right Eq.symm)⟩

/-- C36: two exchangeable halves, in any context. -/
theorem held_exchange {c s : Span} (hc : ¬ IsServer c) (hs : IsServer s) (h : Exchangeable c s) (l : List Span) (id : Id) : held id (c :: s :: l) = held id (s :: c :: l) := by
  unfold held
  by_cases hid : c.id = id
  · have hid' : s.id = id := h.id ▸ hid
    simp only [List.filter_cons, hid, hid', beq_self_eq_true, if_true, List.foldl_cons]
    rw [(C36_exact c s hc hs).mpr h]
  · have hid' : ¬ s.id = id := h.id ▸ hid
    simp [hid, hid']

/-- The hypotheses of `C36_exact` and of `C36_interleaved_partial` can be met. -/
theorem C36_exact_witness :
    (∃ c s : Span, ¬ IsServer c ∧ IsServer s ∧ Exchangeable c s ∧ c.name ≠ s.name) ∧
    ∃ l l' : List Span, Interleaved l l' ∧ l ≠ l' ∧ l.length = 3 := by
  let a : Span := { id := 1, trace := 7, parent := 7 }
  let c : Span := { id := 1, trace := 7, name := b!"c", timings := { CS := 1, CR := 4 } }
  let s : Span := { id := 1, trace := 7, name := b!"s", timings := { SR := 2, SS := 3 } }
  have hc : ¬ IsServer c := by decide
  have hs : IsServer s := by decide
  refine ⟨⟨c, s, hc, hs, ⟨rfl, rfl, rfl, rfl, .inl rfl, .inl (by decide), .inl (by decide), .inl (by decide), .inl (by decide)⟩, by decide⟩, [a, c, s], [a, s, c], ⟨rfl, ?_, ?_, by decide⟩, ?_, rfl⟩
  · simp [hc, hs]
  · simp [hc, hs]
  · intro h
    have := congrArg (List.map Span.name) h
    exact absurd this (by decide)

end Verif
