import Verif.Model.Tree
import Verif.Proofs.Tags
import Verif.Spec.Tree

namespace Verif

/-! ## sort.Search -/

theorem sortSearchLoop_spec (f : Nat → Bool) (n i j : Nat) (hij : i ≤ j) (hj : j ≤ n)
    (mono : ∀ a b, a ≤ b → b < n → f a = true → f b = true)
    (hlo : ∀ k, k < i → f k = false) (hhi : ∀ k, j ≤ k → k < n → f k = true) :
    sortSearchLoop f i j ≤ n ∧ (∀ k, k < sortSearchLoop f i j → f k = false) ∧
    (∀ k, sortSearchLoop f i j ≤ k → k < n → f k = true) := by
  induction hd : j - i using Nat.strongRecOn generalizing i j with
  | ind d ih =>
    rw [sortSearchLoop]
    split
    · next hlt =>
      simp only
      split
      · next hf =>
        apply ih (j - ((i + j) / 2 + 1)) (by omega) _ _ (by omega) hj _ hhi rfl
        intro k hk
        cases hfk : f k with
        | false => rfl
        | true =>
          have := mono k ((i + j) / 2) (by omega) (by omega) hfk
          rw [this] at hf; contradiction
      · next hf =>
        have hf : f ((i + j) / 2) = true := by simpa using hf
        apply ih ((i + j) / 2 - i) (by omega) _ _ (by omega) (by omega) hlo _ rfl
        intro k hk hkn
        exact mono _ k hk hkn hf
    · have : i = j := by omega
      subst this
      exact ⟨hj, hlo, hhi⟩

theorem sortSearch_spec (f : Nat → Bool) (n : Nat)
    (mono : ∀ a b, a ≤ b → b < n → f a = true → f b = true) :
    sortSearch n f ≤ n ∧ (∀ k, k < sortSearch n f → f k = false) ∧
    (∀ k, sortSearch n f ≤ k → k < n → f k = true) :=
  sortSearchLoop_spec f n 0 n (by omega) (by omega) mono (by intro k hk; omega) (by intro k hk h; omega)

theorem sortSearchLoop_congr (f g : Nat → Bool) (n : Nat) (h : ∀ k, k < n → f k = g k) (i j : Nat)
    (hj : j ≤ n) : sortSearchLoop f i j = sortSearchLoop g i j := by
  induction hd : j - i using Nat.strongRecOn generalizing i j with
  | ind d ih =>
    rw [sortSearchLoop, sortSearchLoop]
    split
    · next hlt =>
      simp only
      rw [h ((i + j) / 2) (by omega), ih _ (by omega) _ _ hj rfl, ih _ (by omega) _ _ (by omega) rfl]
    · rfl

/-- `sort.Search` only calls its function with arguments in range. -/
theorem sortSearch_congr (f g : Nat → Bool) (n : Nat) (h : ∀ k, k < n → f k = g k) :
    sortSearch n f = sortSearch n g := sortSearchLoop_congr f g n h 0 n (by omega)

/-! ## The sorted slice of spans -/

/-- Strictly decreasing ids. -/
def SortedDesc (l : List Span) : Prop := l.Pairwise (fun a b => b.id < a.id)

theorem SortedDesc.get_lt {l : List Span} (h : SortedDesc l) {i j : Nat} {a b : Span} (hij : i < j)
    (ha : l[i]? = some a) (hb : l[j]? = some b) : b.id < a.id := by
  obtain ⟨hi, ha⟩ := List.getElem?_eq_some_iff.mp ha
  obtain ⟨hj, hb⟩ := List.getElem?_eq_some_iff.mp hb
  have := List.pairwise_iff_getElem.mp h i j hi hj hij
  rw [ha, hb] at this; exact this

theorem idAtLeast_of_get {l : List Span} {id i s} (h : l[i]? = some s) :
    idAtLeast l id i = decide (id ≥ s.id) := by
  unfold idAtLeast; rw [h]

theorem idAtLeast_mono {l : List Span} (h : SortedDesc l) (id : Id) :
    ∀ a b, a ≤ b → b < l.length → idAtLeast l id a = true → idAtLeast l id b = true := by
  intro a b hab hb ha
  have h1 : l[a]? = some l[a] := List.getElem?_eq_getElem (by omega)
  have h2 : l[b]? = some l[b] := List.getElem?_eq_getElem hb
  rw [idAtLeast_of_get h1] at ha
  rw [idAtLeast_of_get h2]
  simp only [decide_eq_true_eq] at *
  by_cases hab' : a = b
  · subst hab'; exact ha
  · have := h.get_lt (show a < b by omega) h1 h2
    exact Int64.le_trans (Int64.le_of_lt this) ha

/-- The insertion point found by the binary search. -/
def insertPos (l : List Span) (id : Id) : Nat := sortSearch l.length (idAtLeast l id)

theorem insertPos_spec {l : List Span} (h : SortedDesc l) (id : Id) :
    insertPos l id ≤ l.length ∧
    (∀ k s, k < insertPos l id → l[k]? = some s → id < s.id) ∧
    (∀ k s, insertPos l id ≤ k → l[k]? = some s → s.id ≤ id) := by
  obtain ⟨h1, h2, h3⟩ := sortSearch_spec (idAtLeast l id) l.length (idAtLeast_mono h id)
  refine ⟨h1, ?_, ?_⟩
  · intro k s hk hs
    have := h2 k hk
    rw [idAtLeast_of_get hs] at this
    simpa using this
  · intro k s hk hs
    have := h3 k hk (List.getElem?_eq_some_iff.mp hs).1
    rw [idAtLeast_of_get hs] at this
    simpa using this

theorem getSpanRef_eq_some {l : List Span} (h : SortedDesc l) {id : Id} {i : Nat} :
    getSpanRef l id = some i ↔ ∃ s, l[i]? = some s ∧ s.id = id := by
  obtain ⟨h1, h2, h3⟩ := insertPos_spec h id
  have hdef : getSpanRef l id = match l[insertPos l id]? with
    | some s => if s.id = id then some (insertPos l id) else none
    | none => none := rfl
  rw [hdef]
  constructor
  · intro hh
    split at hh
    · next s hs =>
      split at hh
      · next he => cases hh; exact ⟨s, hs, he⟩
      · contradiction
    · contradiction
  · rintro ⟨s, hs, rfl⟩
    have hle : insertPos l s.id ≤ i := by
      rcases Nat.lt_or_ge i (insertPos l s.id) with hlt | hge
      · exact absurd (h2 i s hlt hs) (Int64.lt_irrefl)
      · exact hge
    have : insertPos l s.id = i := by
      rcases Nat.lt_or_ge (insertPos l s.id) i with hlt | hge
      · have hp : insertPos l s.id < l.length := by
          have := (List.getElem?_eq_some_iff.mp hs).1; omega
        have hq : l[insertPos l s.id]? = some l[insertPos l s.id] := List.getElem?_eq_getElem hp
        have a := h3 _ _ (Nat.le_refl _) hq
        have b := h.get_lt hlt hq hs
        exact absurd (Int64.lt_of_lt_of_le b a) Int64.lt_irrefl
      · omega
    rw [this, hs]; simp

theorem getSpanRef_eq_none {l : List Span} (h : SortedDesc l) {id : Id} :
    getSpanRef l id = none ↔ ∀ s ∈ l, s.id ≠ id := by
  constructor
  · intro hn s hs he
    obtain ⟨i, hi⟩ := List.getElem?_of_mem hs
    have := (getSpanRef_eq_some h).mpr ⟨s, hi, he⟩
    rw [hn] at this; contradiction
  · intro hall
    cases hg : getSpanRef l id with
    | none => rfl
    | some i =>
      obtain ⟨s, hs, he⟩ := (getSpanRef_eq_some h).mp hg
      exact absurd he (hall s (List.mem_of_getElem? hs))

theorem insert_copy (l : List Span) (p : Nat) (x s : Span) (h : p ≤ l.length) :
    (copyWithin (l ++ [x]) (p + 1) p).set p s = l.take p ++ s :: l.drop p := by
  have hn : min ((l ++ [x]).length - (p + 1)) ((l ++ [x]).length - p) = l.length - p := by
    simp only [List.length_append, List.length_cons, List.length_nil]; omega
  unfold copyWithin
  simp only [hn]
  have h1 : ((l ++ [x]).drop p).take (l.length - p) = l.drop p := by
    rw [List.drop_append_of_le_length h, List.take_append_of_le_length (by simp), List.take_of_length_le (by simp)]
  have h2 : (l ++ [x]).drop (p + 1 + (l.length - p)) = [] := by
    apply List.drop_eq_nil_of_le; simp; omega
  rw [h1, h2, List.append_nil]
  have h3 : ∃ y, (l ++ [x]).take (p + 1) = l.take p ++ [y] := by
    have hlt : p < (l ++ [x]).length := by simp; omega
    refine ⟨(l ++ [x])[p], ?_⟩
    rw [List.take_succ_eq_append_getElem hlt, List.take_append_of_le_length h]
  obtain ⟨y, hy⟩ := h3
  rw [hy, List.append_assoc]
  rw [List.set_append_right _ _ (by simp; omega)]
  have : p - (l.take p).length = 0 := by simp; omega
  rw [this]; rfl

theorem spansAppend_eq {l : List Span} (s : Span) (h : insertPos l s.id ≤ l.length) :
    spansAppend l s = l.take (insertPos l s.id) ++ s :: l.drop (insertPos l s.id) :=
  insert_copy l _ _ s h

theorem mem_take_get {l : List Span} {n : Nat} {a : Span} (h : a ∈ l.take n) :
    ∃ k, k < n ∧ l[k]? = some a := by
  obtain ⟨k, hk⟩ := List.getElem?_of_mem h
  rw [List.getElem?_take] at hk
  split at hk
  · next hlt => exact ⟨k, hlt, hk⟩
  · contradiction

theorem mem_drop_get {l : List Span} {n : Nat} {a : Span} (h : a ∈ l.drop n) :
    ∃ k, n ≤ k ∧ l[k]? = some a := by
  obtain ⟨k, hk⟩ := List.getElem?_of_mem h
  rw [List.getElem?_drop] at hk
  exact ⟨n + k, by omega, hk⟩

theorem spansAppend_sorted {l : List Span} (h : SortedDesc l) (s : Span) (hn : ∀ a ∈ l, a.id ≠ s.id) :
    SortedDesc (spansAppend l s) := by
  obtain ⟨h1, h2, h3⟩ := insertPos_spec h s.id
  rw [spansAppend_eq s h1]
  have hh : SortedDesc (l.take (insertPos l s.id) ++ l.drop (insertPos l s.id)) := by
    rw [List.take_append_drop]; exact h
  unfold SortedDesc at hh ⊢
  rw [List.pairwise_append] at hh ⊢
  obtain ⟨ha, hb, hc⟩ := hh
  refine ⟨ha, ?_, ?_⟩
  · rw [List.pairwise_cons]
    refine ⟨?_, hb⟩
    intro a hm
    obtain ⟨k, hk, hs⟩ := mem_drop_get hm
    have := h3 k a hk hs
    exact Int64.lt_iff_le_and_ne.mpr ⟨this, hn a (List.mem_of_mem_drop hm)⟩
  · intro a hm b hb'
    rcases List.mem_cons.mp hb' with rfl | hb'
    · obtain ⟨k, hk, hs⟩ := mem_take_get hm
      exact h2 k a hk hs
    · exact hc a hm b hb'

theorem spansAppend_perm {l : List Span} (h : SortedDesc l) (s : Span) :
    (spansAppend l s).Perm (s :: l) := by
  obtain ⟨h1, _, _⟩ := insertPos_spec h s.id
  rw [spansAppend_eq s h1]
  refine List.perm_middle.trans ?_
  rw [List.take_append_drop]

/-! ## Merging -/

theorem addTags_tags (s : Span) (l : List (Str × Str)) :
    addTags s l = { s with tags := if l = [] then s.tags else some (insertAll l (s.tags.getD ∅)) } := by
  unfold addTags insertAll
  induction l generalizing s with
  | nil => rfl
  | cons e l ih =>
    rw [List.foldl_cons, ih]
    cases l with
    | nil => rfl
    | cons e' l => rfl

/-- The iteration orders do not influence the result of merging. -/
theorem mergeSpansOrd_eq (ordNew ordClient : List (Str × Str)) (upd new : Span)
    (hn : IsRange ordNew (new.tags.getD ∅)) (hc : IsRange ordClient (upd.tags.getD ∅)) :
    mergeSpansOrd ordNew ordClient upd new = mergeSpans upd new := by
  have key : ∀ (s : Span) (l m), IsRange l m → addTags s l = addTags s m.toList := by
    intro s l m h
    rw [addTags_tags, addTags_tags, insertAll_order h (isRange_toList m)]
    have : l = [] ↔ m.toList = [] := by
      rw [isRange_nil_iff h, isRange_nil_iff (isRange_toList m)]
    simp only [this]
  unfold mergeSpans mergeSpansOrd tagsList
  simp only [key _ _ _ hn, key _ _ _ hc]

theorem mergeSpans_id (upd new : Span) : (mergeSpans upd new).id = upd.id := by
  unfold mergeSpans mergeSpansOrd
  simp only [addTags_tags]
  grind

theorem mergeSpans_parent (upd new : Span) : (mergeSpans upd new).parent = upd.parent := by
  unfold mergeSpans mergeSpansOrd
  simp only [addTags_tags]
  grind

theorem mergeSpans_trace (upd new : Span) : (mergeSpans upd new).trace = upd.trace := by
  unfold mergeSpans mergeSpansOrd
  simp only [addTags_tags]
  grind

theorem mergeSpans_timestamp (upd new : Span) : (mergeSpans upd new).timestamp = upd.timestamp := by
  unfold mergeSpans mergeSpansOrd
  simp only [addTags_tags]
  grind

theorem mergeSpans_duration (upd new : Span) : (mergeSpans upd new).duration = upd.duration := by
  unfold mergeSpans mergeSpansOrd
  simp only [addTags_tags]
  grind

@[simp] theorem addToExisting_id (upd new : Span) : (addToExisting upd new).id = upd.id := by
  unfold addToExisting; rw [mergeSpans_id]; split <;> rfl

@[simp] theorem addToExisting_trace (upd new : Span) : (addToExisting upd new).trace = upd.trace := by
  unfold addToExisting; rw [mergeSpans_trace]; split <;> rfl

theorem addToExisting_parent (upd new : Span) :
    (addToExisting upd new).parent = if upd.parent = 0 then new.parent else upd.parent := by
  unfold addToExisting idIsUnknown; rw [mergeSpans_parent]
  by_cases h : upd.parent = 0 <;> simp [h]

theorem mergeSpans_service (a b : Span) : (mergeSpans a b).service =
    if Spec.IsServer b then Spec.firstNonEmpty b.service a.service else Spec.firstNonEmpty a.service b.service := by
  unfold mergeSpans mergeSpansOrd Spec.firstNonEmpty Spec.IsServer tsIsValid
  simp only [addTags_tags]
  grind

theorem mergeSpans_name (a b : Span) : (mergeSpans a b).name =
    if Spec.IsServer b then Spec.firstNonEmpty b.name a.name else Spec.firstNonEmpty a.name b.name := by
  unfold mergeSpans mergeSpansOrd Spec.firstNonEmpty Spec.IsServer tsIsValid
  simp only [addTags_tags]
  grind

theorem mergeSpans_timings (a b : Span) : (mergeSpans a b).timings =
    if Spec.IsServer b then
        { CS := a.timings.CS, CR := a.timings.CR
          SS := Spec.firstValid b.timings.SS a.timings.SS, SR := Spec.firstValid b.timings.SR a.timings.SR }
      else
        { CS := Spec.firstValid b.timings.CS a.timings.CS, CR := Spec.firstValid b.timings.CR a.timings.CR
          SS := a.timings.SS, SR := a.timings.SR } := by
  unfold mergeSpans mergeSpansOrd Spec.firstValid Spec.IsServer tsIsValid
  simp only [addTags_tags, apply_ite Span.timings, ite_self, Bool.or_eq_true, decide_eq_true_eq, gt_iff_lt]
  by_cases h : 0 < b.timings.SR ∨ 0 < b.timings.SS <;> simp only [h, if_true, if_false]
  · ext1 <;> simp only [apply_ite Timings.CS, apply_ite Timings.CR, apply_ite Timings.SS,
      apply_ite Timings.SR, ite_self]
  · ext1 <;> simp only [apply_ite Timings.CS, apply_ite Timings.CR, apply_ite Timings.SS,
      apply_ite Timings.SR, ite_self]

theorem union_eq_insertAll (m m0 : TagMap) : insertAll m.toList m0 = m0 ∪ m := by
  apply Std.ExtTreeMap.ext_getElem?; intro k
  rw [insertAll_get_range (isRange_toList m), Std.ExtTreeMap.getElem?_union]

theorem union_empty (m : TagMap) : m ∪ (∅ : TagMap) = m := by
  apply Std.ExtTreeMap.ext_getElem?; intro k; rw [Std.ExtTreeMap.getElem?_union]; simp

theorem empty_union (m : TagMap) : (∅ : TagMap) ∪ m = m := by
  apply Std.ExtTreeMap.ext_getElem?; intro k; rw [Std.ExtTreeMap.getElem?_union]; simp

theorem toList_eq_nil (m : TagMap) : m.toList = [] ↔ m = ∅ := isRange_nil_iff (isRange_toList m)

theorem addTags_getD (s : Span) (m : TagMap) :
    (addTags s m.toList).tags.getD ∅ = s.tags.getD ∅ ∪ m := by
  rw [addTags_tags]
  simp only
  split
  · next h => rw [(toList_eq_nil m).mp h, union_empty]
  · rw [union_eq_insertAll]; rfl

theorem mergeSpans_tags (a b : Span) : (mergeSpans a b).tags.getD ∅ =
    if Spec.IsServer b then a.tags.getD ∅ ∪ b.tags.getD ∅ else b.tags.getD ∅ ∪ a.tags.getD ∅ := by
  have hs : (tsIsValid b.timings.SR || tsIsValid b.timings.SS) = decide (Spec.IsServer b) := by
    rw [Bool.eq_iff_iff]; simp only [tsIsValid, Bool.or_eq_true, decide_eq_true_eq, gt_iff_lt]; exact Iff.rfl
  unfold mergeSpans mergeSpansOrd tagsList
  rw [hs]
  by_cases h : Spec.IsServer b
  · simp only [h, decide_true, if_true]
    have : ∀ s : Span, s.tags = a.tags → (addTags s (b.tags.getD ∅).toList).tags.getD ∅ =
        a.tags.getD ∅ ∪ b.tags.getD ∅ := by
      intro s h; rw [addTags_getD, h]
    grind
  · simp only [h, decide_false]
    have : ∀ s : Span, s.tags = none → (addTags (addTags s (b.tags.getD ∅).toList) (a.tags.getD ∅).toList).tags.getD ∅ =
        b.tags.getD ∅ ∪ a.tags.getD ∅ := by
      intro s h; rw [addTags_getD, addTags_getD, h]; rw [Option.getD_none, empty_union]
    grind

/-- `AddSpan` on an existing span is merging as specified, up to a nil or empty tag map. -/
theorem addToExisting_spec (a b : Span) : (addToExisting a b).withTags = Spec.merged a b := by
  have hp := addToExisting_parent a b
  unfold addToExisting idIsUnknown at hp
  unfold addToExisting Span.withTags Spec.merged idIsUnknown
  ext1
  · simp only [mergeSpans_id]; split <;> rfl
  · exact hp
  · simp only [mergeSpans_trace]; split <;> rfl
  · simp only [mergeSpans_name]; grind
  · simp only [mergeSpans_service]; grind
  · simp only [mergeSpans_timestamp]; split <;> rfl
  · simp only [mergeSpans_duration]; split <;> rfl
  · simp only [mergeSpans_tags]; grind
  · simp only [mergeSpans_timings]; grind

theorem merged_withTags_left (a b : Span) : Spec.merged a.withTags b = Spec.merged a b := by
  unfold Spec.merged Span.withTags
  ext1 <;> grind

/-! ## AddSpan -/


theorem map_id_modify (l : List Span) (i : Nat) (new : Span) :
    (l.modify i (addToExisting · new)).map Span.id = l.map Span.id := by
  apply List.ext_getElem?
  intro j
  rw [List.getElem?_map, List.getElem?_map, List.getElem?_modify]
  split
  · cases l[j]? <;> simp
  · cases l[j]? <;> simp

theorem sortedDesc_iff_ids (l : List Span) :
    SortedDesc l ↔ (l.map Span.id).Pairwise (fun a b => b < a) := by
  unfold SortedDesc
  rw [List.pairwise_map]

/-- The span with the given id. -/
def lookupSpan (l : List Span) (id : Id) : Option Span := l.find? (fun s => s.id == id)

theorem lookupSpan_eq_some {l : List Span} (h : SortedDesc l) {id : Id} {s : Span} :
    lookupSpan l id = some s ↔ s ∈ l ∧ s.id = id := by
  unfold lookupSpan
  constructor
  · intro hf
    exact ⟨List.mem_of_find?_eq_some hf, by simpa using List.find?_some hf⟩
  · rintro ⟨hm, rfl⟩
    cases hf : l.find? (fun x => x.id == s.id) with
    | none =>
      rw [List.find?_eq_none] at hf
      exact absurd (by simp) (hf s hm)
    | some s' =>
      have h1 := List.mem_of_find?_eq_some hf
      have h2 : s'.id = s.id := by simpa using List.find?_some hf
      obtain ⟨i, hi⟩ := List.getElem?_of_mem hm
      obtain ⟨j, hj⟩ := List.getElem?_of_mem h1
      rcases Nat.lt_trichotomy i j with hlt | heq | hgt
      · have := h.get_lt hlt hi hj; rw [h2] at this; exact absurd this Int64.lt_irrefl
      · subst heq; rw [hi] at hj; exact hj.symm
      · have := h.get_lt hgt hj hi; rw [h2] at this; exact absurd this Int64.lt_irrefl

theorem lookupSpan_eq_none {l : List Span} {id : Id} : lookupSpan l id = none ↔ ∀ s ∈ l, s.id ≠ id := by
  unfold lookupSpan
  rw [List.find?_eq_none]
  simp

/-- Two sorted slices with the same lookups are equal. -/
theorem sortedDesc_ext {l l' : List Span} (h : SortedDesc l) (h' : SortedDesc l')
    (hl : ∀ id, lookupSpan l id = lookupSpan l' id) : l = l' := by
  have hsub : ∀ {l l' : List Span}, SortedDesc l → SortedDesc l' →
      (∀ id, lookupSpan l id = lookupSpan l' id) → ∀ s ∈ l, s ∈ l' := by
    intro l l' h h' hl s hs
    have h1 := (lookupSpan_eq_some h).mpr ⟨hs, rfl⟩
    rw [hl] at h1
    exact ((lookupSpan_eq_some h').mp h1).1
  have nd : ∀ {l : List Span}, SortedDesc l → l.Nodup := by
    intro l h
    refine List.Pairwise.imp ?_ h
    intro a b hab he; subst he; exact Int64.lt_irrefl hab
  have hp : l.Perm l' := by
    rw [List.perm_ext_iff_of_nodup (nd h) (nd h')]
    intro s
    exact ⟨hsub h h' hl s, hsub h' h (fun id => (hl id).symm) s⟩
  unfold SortedDesc at h h'
  refine List.Perm.eq_of_pairwise ?_ h h' hp
  intro a b _ _ hab hba
  exact absurd (Int64.lt_trans hab hba) Int64.lt_irrefl

theorem held_append (id : Id) (l : List Span) (new : Span) :
    Spec.held id (l ++ [new]) =
      if new.id = id then
        match Spec.held id l with
        | none => some new.withTags
        | some s => some (Spec.merged s new)
      else Spec.held id l := by
  unfold Spec.held
  rw [List.filter_append]
  by_cases h : new.id = id
  · simp only [h, List.filter_cons, beq_self_eq_true, List.filter_nil, if_true]
    cases l.filter (fun s => s.id == id) with
    | nil => rfl
    | cons a r => simp [List.foldl_append]
  · simp [h]

/-- What is true of every tree made by `newTree` and `AddSpan`. -/
structure Tree.Inv (t : Tree) : Prop where
  sorted : SortedDesc t.spans
  count : t.nodeCount.toNat = t.spans.length % 65536
  holds : ∀ id, (lookupSpan t.spans id).map Span.withTags = Spec.held id t.members

theorem newTree_inv (now : Time) (id : Id) : (newTree now id).Inv :=
  ⟨List.Pairwise.nil, rfl, fun _ => rfl⟩

theorem Tree.Inv.addSpan {t : Tree} (h : t.Inv) (now : Time) (new : Span) : (t.addSpan now new).Inv := by
  unfold Tree.addSpan
  dsimp only
  split
  · next hn =>
    have hn := (getSpanRef_eq_none h.sorted).mp hn
    have hp := spansAppend_perm h.sorted new
    have hs := spansAppend_sorted h.sorted new hn
    refine ⟨hs, ?_, ?_⟩
    · simp only
      rw [hp.length_eq, List.length_cons, UInt16.toNat_add, h.count]
      simp
    · intro id
      dsimp only
      rw [held_append, ← h.holds]
      split
      · next he =>
        subst he
        rw [(lookupSpan_eq_some hs).mpr ⟨hp.mem_iff.mpr (by simp), rfl⟩, lookupSpan_eq_none.mpr hn]
        rfl
      · next he =>
        congr 1
        cases hl : lookupSpan t.spans id with
        | none =>
          rw [lookupSpan_eq_none] at hl ⊢
          intro s hs
          rcases List.mem_cons.mp (hp.mem_iff.mp hs) with rfl | hs
          · exact he
          · exact hl s hs
        | some s =>
          rw [lookupSpan_eq_some h.sorted] at hl
          rw [lookupSpan_eq_some hs]
          exact ⟨hp.mem_iff.mpr (List.mem_cons_of_mem _ hl.1), hl.2⟩
  · next idx hi =>
    obtain ⟨s, hs, he⟩ := (getSpanRef_eq_some h.sorted).mp hi
    have hsort : SortedDesc (t.spans.modify idx (addToExisting · new)) := by
      rw [sortedDesc_iff_ids, map_id_modify, ← sortedDesc_iff_ids]; exact h.sorted
    refine ⟨hsort, ?_, ?_⟩
    · simp only [List.length_modify]; exact h.count
    · intro id
      dsimp only
      rw [held_append, ← h.holds]
      split
      · next hid =>
        subst hid
        rw [(lookupSpan_eq_some h.sorted).mpr ⟨List.mem_of_getElem? hs, he⟩]
        have : addToExisting s new ∈ t.spans.modify idx (addToExisting · new) := by
          apply List.mem_of_getElem? (i := idx)
          rw [List.getElem?_modify, hs]; simp
        rw [(lookupSpan_eq_some hsort).mpr ⟨this, by rw [addToExisting_id, he]⟩]
        simp only [Option.map_some]
        rw [addToExisting_spec, merged_withTags_left]
      · next hid =>
        congr 1
        cases hl : lookupSpan t.spans id with
        | none =>
          rw [lookupSpan_eq_none] at hl ⊢
          intro x hx hxid
          have : id ∈ t.spans.map Span.id := by
            rw [← map_id_modify t.spans idx new, ← hxid]; exact List.mem_map_of_mem hx
          obtain ⟨y, hy, hyid⟩ := List.mem_map.mp this
          exact hl y hy hyid
        | some x =>
          rw [lookupSpan_eq_some h.sorted] at hl
          rw [lookupSpan_eq_some hsort]
          refine ⟨?_, hl.2⟩
          obtain ⟨j, hj⟩ := List.getElem?_of_mem hl.1
          apply List.mem_of_getElem? (i := j)
          rw [List.getElem?_modify, hj]
          have : idx ≠ j := by
            rintro rfl
            rw [hs] at hj; cases hj
            exact hid (he.symm.trans hl.2)
          simp [this]

end Verif
