import Verif.Proofs.Correct

/-!
# Exchanging the two halves of a shared span
-/

namespace Verif

open Spec

/-- Equal up to a nil or empty tag map and, if all four timings are known, up to start and duration
(which the correction replaces in this case). -/
structure TimeEq (a b : Span) : Prop where
  id : a.id = b.id
  parent : a.parent = b.parent
  trace : a.trace = b.trace
  name : a.name = b.name
  service : a.service = b.service
  tags : a.tags.getD ∅ = b.tags.getD ∅
  timings : a.timings = b.timings
  time : HasAllTimings a ∨ (a.timestamp = b.timestamp ∧ a.duration = b.duration)

theorem TimeEq.refl (a : Span) : TimeEq a a :=
  ⟨rfl, rfl, rfl, rfl, rfl, rfl, rfl, Or.inr ⟨rfl, rfl⟩⟩

theorem TimeEq.of_withTags {a b : Span} (h : TimeEq a.withTags b.withTags) : TimeEq a b :=
  ⟨h.id, h.parent, h.trace, h.name, h.service, h.tags, h.timings, h.time⟩

theorem firstValid_ne {a b : Timestamp} (h : b ≠ 0) : firstValid a b ≠ 0 := by
  unfold firstValid
  split
  · next h' => intro he; rw [he] at h'; exact Int64.lt_irrefl h'
  · exact h

theorem merged_hasAll {a b : Span} (h : HasAllTimings a) : HasAllTimings (merged a b) := by
  obtain ⟨h1, h2, h3, h4⟩ := h
  unfold HasAllTimings merged
  dsimp only
  split
  · exact ⟨h1, h2, firstValid_ne h3, firstValid_ne h4⟩
  · exact ⟨firstValid_ne h1, firstValid_ne h2, h3, h4⟩

theorem TimeEq.merged {a b : Span} (h : TimeEq a b) (x : Span) : TimeEq (merged a x) (merged b x) := by
  refine ⟨h.id, ?_, h.trace, ?_, ?_, ?_, ?_, ?_⟩
  · simp only [Spec.merged, h.parent]
  · simp only [Spec.merged]; split <;> simp [h.name]
  · simp only [Spec.merged]; split <;> simp [h.service]
  · simp only [Spec.merged]; split <;> simp [h.tags]
  · simp only [Spec.merged, h.timings]
  · rcases h.time with h1 | h1
    · exact Or.inl (merged_hasAll h1)
    · exact Or.inr h1

theorem TimeEq.foldl_merged {a b : Span} (h : TimeEq a b) (l : List Span) :
    TimeEq (l.foldl Spec.merged a) (l.foldl Spec.merged b) := by
  induction l generalizing a b with
  | nil => exact h
  | cons x l ih => exact ih (h.merged x)

/-- Equal parents, or one of the halves does not know its parent. -/
def CompatibleParents (c s : Span) : Prop := c.parent = s.parent ∨ c.parent = 0 ∨ s.parent = 0

/-- A client half and a server half of one span, each with both of its timings. -/
structure CompleteHalves (c s : Span) : Prop where
  client : IsClientHalf c
  server : IsServerHalf s
  cs : c.timings.CS ≠ 0
  cr : c.timings.CR ≠ 0
  ss : s.timings.SS ≠ 0
  sr : s.timings.SR ≠ 0
  id : c.id = s.id
  trace : c.trace = s.trace
  parent : CompatibleParents c s

theorem pos_of_nonneg_ne {a : Int64} (h : 0 ≤ a) (h' : a ≠ 0) : 0 < a :=
  Int64.lt_iff_le_and_ne.mpr ⟨h, h'.symm⟩

theorem firstNonEmpty_assoc (a b c : Str) :
    firstNonEmpty (firstNonEmpty a b) c = firstNonEmpty a (firstNonEmpty b c) := by
  unfold firstNonEmpty; grind

theorem union_assoc (a b c : TagMap) : a ∪ b ∪ c = a ∪ (b ∪ c) := by
  apply Std.ExtTreeMap.ext_getElem?
  intro k
  simp only [Std.ExtTreeMap.getElem?_union]
  cases c[k]? <;> simp

/-- The two halves alone. -/
theorem halves_first {c s : Span} (h : CompleteHalves c s) :
    TimeEq (merged c.withTags s) (merged s.withTags c) := by
  have hnc : ¬ IsServer c := by
    unfold IsServer; rw [h.client.1, h.client.2.1]; simp [Int64.lt_irrefl]
  have hs := h.server.1
  have hcs := pos_of_nonneg_ne h.client.2.2.1 h.cs
  have hcr := pos_of_nonneg_ne h.client.2.2.2 h.cr
  have hss := pos_of_nonneg_ne h.server.2.2.2.1 h.ss
  have hsr := pos_of_nonneg_ne h.server.2.2.2.2 h.sr
  have e : ∀ x : Span, x.withTags.parent = x.parent ∧ x.withTags.name = x.name ∧ x.withTags.service = x.service ∧
    x.withTags.tags.getD ∅ = x.tags.getD ∅ ∧ x.withTags.timings = x.timings := fun x => ⟨rfl, rfl, rfl, rfl, rfl⟩
  refine ⟨h.id, ?_, h.trace, ?_, ?_, ?_, ?_, ?_⟩
  · simp only [merged, e]
    rcases h.parent with h | h | h <;> grind
  · simp only [merged, e, hs, hnc, if_true, if_false]
  · simp only [merged, e, hs, hnc, if_true, if_false]
  · simp only [merged, e, hs, hnc, if_true, if_false]
  · simp only [merged, e, hs, hnc, if_true, if_false, firstValid, hcs, hcr, hss, hsr]
  · left
    simp only [HasAllTimings, merged, e, hs, if_true, firstValid, hss, hsr]
    exact ⟨h.cs, h.cr, h.ss, h.sr⟩

/-- The two halves after another span with the same id. -/
theorem halves_later {c s : Span} (h : CompleteHalves c s) (x : Span) :
    merged (merged x c) s = merged (merged x s) c := by
  have hnc : ¬ IsServer c := by
    unfold IsServer; rw [h.client.1, h.client.2.1]; simp [Int64.lt_irrefl]
  have hs := h.server.1
  ext1
  · rfl
  · simp only [merged]
    rcases h.parent with h | h | h <;> grind
  · rfl
  · simp only [merged, hs, hnc, if_true, if_false, firstNonEmpty_assoc]
  · simp only [merged, hs, hnc, if_true, if_false, firstNonEmpty_assoc]
  · rfl
  · rfl
  · simp only [merged, hs, hnc, if_true, if_false, Option.getD_some, union_assoc]
  · simp only [merged, hs, hnc, if_true, if_false]

/-- What is held for each id, for the two orders. -/
theorem held_swap {c s : Span} (h : CompleteHalves c s) (pre post : List Span) (id : Id) :
    (held id (pre ++ c :: s :: post) = none ∧ held id (pre ++ s :: c :: post) = none) ∨
    ∃ a b, held id (pre ++ c :: s :: post) = some a ∧ held id (pre ++ s :: c :: post) = some b ∧ TimeEq a b := by
  unfold held
  simp only [List.filter_append, List.filter_cons]
  by_cases hid : c.id = id
  · have hsid : s.id = id := by rw [← h.id]; exact hid
    simp only [hid, hsid, beq_self_eq_true, if_true]
    right
    cases pre.filter (fun s => s.id == id) with
    | nil =>
      exact ⟨_, _, rfl, rfl, (halves_first h).foldl_merged _⟩
    | cons x l =>
      refine ⟨_, _, rfl, rfl, ?_⟩
      rw [List.append_eq, List.append_eq, List.foldl_append, List.foldl_append, List.foldl_cons, List.foldl_cons, List.foldl_cons,
        List.foldl_cons, halves_later h]
      exact TimeEq.refl _
  · have hsid : ¬ s.id = id := by rw [← h.id]; exact hid
    have h1 : (c.id == id) = false := by simpa using hid
    have h2 : (s.id == id) = false := by simpa using hsid
    simp only [h1, h2]
    simp only [Bool.false_eq_true, if_false]
    cases (pre.filter (fun s => s.id == id) ++ post.filter (fun s => s.id == id)) with
    | nil => left; exact ⟨rfl, rfl⟩
    | cons x l => right; exact ⟨_, _, rfl, rfl, TimeEq.refl _⟩

/-! ## Traces that agree up to `TimeEq` -/

/-- Position by position. -/
def TimeEqList (l l' : List Span) : Prop :=
  l.length = l'.length ∧ ∀ (i : Nat) (a b : Span), l[i]? = some a → l'[i]? = some b → TimeEq a b

theorem sorted_ids_eq {l l' : List Span} (h : SortedDesc l) (h' : SortedDesc l')
    (hm : ∀ id, (∃ s ∈ l, s.id = id) ↔ (∃ s ∈ l', s.id = id)) : l.map Span.id = l'.map Span.id := by
  rw [sortedDesc_iff_ids] at h h'
  have nd : ∀ {l : List Id}, l.Pairwise (fun a b => b < a) → l.Nodup := by
    intro l h
    refine List.Pairwise.imp ?_ h
    intro a b hab he; subst he; exact Int64.lt_irrefl hab
  have hp : (l.map Span.id).Perm (l'.map Span.id) := by
    rw [List.perm_ext_iff_of_nodup (nd h) (nd h')]
    intro id; simpa using hm id
  refine List.Perm.eq_of_pairwise ?_ h h' hp
  intro a b _ _ hab hba
  exact absurd (Int64.lt_trans hab hba) Int64.lt_irrefl

theorem timeEqList_of_lookup {l l' : List Span} (h : SortedDesc l) (h' : SortedDesc l')
    (hl : ∀ id, (lookupSpan l id = none ∧ lookupSpan l' id = none) ∨
      ∃ a b, lookupSpan l id = some a ∧ lookupSpan l' id = some b ∧ TimeEq a b) : TimeEqList l l' := by
  have hids := sorted_ids_eq h h' (by
    intro id
    rcases hl id with ⟨h1, h2⟩ | ⟨a, b, h1, h2, _⟩
    · rw [lookupSpan_eq_none] at h1 h2
      constructor
      · rintro ⟨s, hs, he⟩; exact (h1 s hs he).elim
      · rintro ⟨s, hs, he⟩; exact (h2 s hs he).elim
    · rw [lookupSpan_eq_some h] at h1
      rw [lookupSpan_eq_some h'] at h2
      exact ⟨fun _ => ⟨b, h2⟩, fun _ => ⟨a, h1⟩⟩)
  refine ⟨by simpa using congrArg List.length hids, ?_⟩
  intro i a b ha hb
  have : (l.map Span.id)[i]? = (l'.map Span.id)[i]? := by rw [hids]
  rw [List.getElem?_map, List.getElem?_map, ha, hb] at this
  have hab : a.id = b.id := Option.some.inj this
  rcases hl a.id with ⟨h1, _⟩ | ⟨x, y, h1, h2, hxy⟩
  · rw [lookupSpan_eq_none] at h1
    exact (h1 a (List.mem_of_getElem? ha) rfl).elim
  · rw [(lookupSpan_eq_some h).mpr ⟨List.mem_of_getElem? ha, rfl⟩] at h1
    rw [hab, (lookupSpan_eq_some h').mpr ⟨List.mem_of_getElem? hb, rfl⟩] at h2
    cases h1; cases h2; exact hxy

theorem TimeEqList.get {l l' : List Span} (h : TimeEqList l l') {i : Nat} {a : Span} (ha : l[i]? = some a) :
    ∃ b, l'[i]? = some b ∧ TimeEq a b := by
  have hi : i < l'.length := by rw [← h.1]; exact (List.getElem?_eq_some_iff.mp ha).1
  have hb : l'[i]? = some l'[i] := List.getElem?_eq_getElem hi
  exact ⟨_, hb, h.2 i _ _ ha hb⟩

theorem TimeEqList.mem {l l' : List Span} (h : TimeEqList l l') {a : Span} (ha : a ∈ l) :
    ∃ b ∈ l', TimeEq a b := by
  obtain ⟨i, hi⟩ := List.getElem?_of_mem ha
  obtain ⟨b, hb, hab⟩ := h.get hi
  exact ⟨b, List.mem_of_getElem? hb, hab⟩

theorem TimeEqList.symm_mem {l l' : List Span} (h : TimeEqList l l') {b : Span} (hb : b ∈ l') :
    ∃ a ∈ l, TimeEq a b := by
  obtain ⟨i, hi⟩ := List.getElem?_of_mem hb
  have hi' : i < l.length := by rw [h.1]; exact (List.getElem?_eq_some_iff.mp hi).1
  have ha : l[i]? = some l[i] := List.getElem?_eq_getElem hi'
  exact ⟨_, List.mem_of_getElem? ha, h.2 i _ _ ha hi⟩

theorem TimeEqList.isRoot {l l' : List Span} (h : TimeEqList l l') {a b : Span} (hb : b ∈ l')
    (hab : TimeEq a b) (hr : IsRootOf l a) : IsRootOf l' b := by
  refine ⟨hb, ?_⟩
  rcases hr.2 with h1 | h1
  · left; rw [← hab.parent, ← hab.id]; exact h1
  · right
    intro q hq
    obtain ⟨p, hp, hpq⟩ := h.symm_mem hq
    rw [← hpq.id, ← hab.parent]; exact h1 p hp

theorem TimeEq.skew {a b : Span} (h : TimeEq a b) : skew a = skew b := by
  have hall : HasAllTimings a ↔ HasAllTimings b := by unfold HasAllTimings; rw [h.timings]
  unfold Spec.skew; simp only [hall, h.timings]

/-- Corresponding paths give the same correction. -/
theorem path_transfer {l l' : List Span} (hs : SortedDesc l') (h : TimeEqList l l') {r r' : Span}
    (hr' : r' ∈ l') (hrr : TimeEq r r') {anc : List Span} {s : Span} (hp : Path l r anc s) :
    ∀ s' ∈ l', TimeEq s s' → ∃ anc', Path l' r' anc' s' ∧ shift anc = shift anc' ∧ start anc s = start anc' s' := by
  have hall : ∀ {a b : Span}, TimeEq a b → (HasAllTimings a ↔ HasAllTimings b) := by
    intro a b h; unfold HasAllTimings; rw [h.timings]
  have hss : ∀ {a b : Span} {x y}, TimeEq a b → shift x = shift y → shiftedStart x a = shiftedStart y b := by
    intro a b x y hab hxy
    unfold shiftedStart
    simp only [hall hab, hxy, hab.timings]
    rcases hab.time with h1 | h1
    · rw [if_pos ((hall hab).mp h1), if_pos ((hall hab).mp h1)]
    · rw [h1.1]
  induction hp with
  | root =>
    intro s' hs' hab
    have : s' = r' := hs.uniqueIds s' hs' r' hr' (hab.id.symm.trans hrr.id)
    subst this
    exact ⟨[], Path.root, rfl, hss hab rfl⟩
  | child hp hm hpar hne ih =>
    rename_i anc p c
    intro s' hs' hab
    have hpm : ∃ q ∈ l', TimeEq p q := by
      cases hp with
      | root => exact ⟨r', hr', hrr⟩
      | child _ hm _ _ => exact h.mem hm
    obtain ⟨q, hq, hpq⟩ := hpm
    obtain ⟨anc', hp', hsh, hst⟩ := ih q hq hpq
    have hsh' : shift (p :: anc) = shift (q :: anc') := by
      show shift anc + Spec.skew p = shift anc' + Spec.skew q
      rw [hsh, hpq.skew]
    refine ⟨q :: anc', Path.child hp' hs' ?_ ?_, hsh', ?_⟩
    · rw [← hab.parent, hpar, hpq.id]
    · rw [← hab.parent, ← hab.id]; exact hne
    · simp only [start, hss hab hsh', hst]

theorem corrected_eq {a b : Span} {anc anc' : List Span} (h : TimeEq a b) (hst : start anc a = start anc' b) :
    (corrected anc a).withTags = (corrected anc' b).withTags := by
  have hall : HasAllTimings a ↔ HasAllTimings b := by unfold HasAllTimings; rw [h.timings]
  unfold corrected Span.withTags
  ext1
  · exact h.id
  · exact h.parent
  · exact h.trace
  · exact h.name
  · exact h.service
  · exact hst
  · simp only [hall, h.timings]
    rcases h.time with h1 | h1
    · rw [if_pos (hall.mp h1), if_pos (hall.mp h1)]
    · rw [h1.2]
  · exact congrArg some h.tags
  · exact h.timings

end Verif
