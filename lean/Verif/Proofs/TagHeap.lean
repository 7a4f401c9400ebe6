import Verif.Model.TagHeap
import Verif.Proofs.Shape
import Verif.Props.Collector

/-!
# Tag maps as references
-/

namespace Verif

open Spec Std

/-- What may have changed when maps were written through `s`, which became `s'`. -/
structure Grows (h h' : TagHeap) (s s' : RSpan) : Prop where
  len : h.length ≤ h'.length
  frame : ∀ a, a < h.length → s.ref ≠ some a → h'.getD a {} = h.getD a {}
  own : ∀ b, s'.ref = some b → b < h'.length ∧ (s.ref = some b ∨ h.length ≤ b)

theorem Grows.refl {h : TagHeap} {s : RSpan} (hs : ∀ a, s.ref = some a → a < h.length) : Grows h h s s :=
  ⟨Nat.le_refl _, fun _ _ _ => rfl, fun b hb => ⟨hs b hb, .inl hb⟩⟩

theorem Grows.trans {h h' h'' : TagHeap} {s s' s'' : RSpan} (g : Grows h h' s s') (g' : Grows h' h'' s' s'') : Grows h h'' s s'' := by
  refine ⟨Nat.le_trans g.len g'.len, fun a ha hne => ?_, fun b hb => ?_⟩
  · rw [g'.frame a (Nat.lt_of_lt_of_le ha g.len), g.frame a ha hne]
    intro he
    rcases (g.own a he).2 with h1 | h1
    · exact hne h1
    · omega
  · obtain ⟨h1, h2⟩ := g'.own b hb
    refine ⟨h1, ?_⟩
    rcases h2 with h2 | h2
    · exact (g.own b h2).2
    · exact .inr (Nat.le_trans g.len h2)

theorem addTagR_spec {h : TagHeap} {s : RSpan} (hs : ∀ a, s.ref = some a → a < h.length) (key value : Str) :
    Grows h (addTagR h s key value).1 s (addTagR h s key value).2 ∧ (addTagR h s key value).2.val = s.val ∧
    (addTagR h s key value).2.read (addTagR h s key value).1 = (s.read h).addTag key value := by
  obtain ⟨val, ref⟩ := s
  cases ref with
  | none =>
    refine ⟨⟨by simp [addTagR], fun a ha _ => ?_, fun b hb => ?_⟩, rfl, ?_⟩
    · simp only [addTagR, List.getD_eq_getElem?_getD]
      rw [List.getElem?_append_left ha]
    · simp only [addTagR, Option.some.injEq] at hb
      subst hb
      exact ⟨by simp [addTagR], .inr (Nat.le_refl _)⟩
    · simp only [addTagR, RSpan.read, Span.addTag, Option.map_some, Option.map_none, Option.getD_none, List.getD_eq_getElem?_getD]
      rw [List.getElem?_append_right (Nat.le_refl _)]
      simp; rfl
  | some a =>
    have ha := hs a rfl
    refine ⟨⟨by simp [addTagR], fun b _ hne => ?_, fun b hb => ?_⟩, rfl, ?_⟩
    · simp only [addTagR, List.getD_eq_getElem?_getD]
      rw [List.getElem?_set_ne (fun e => hne (by rw [e]))]
    · exact ⟨by simp only [addTagR, List.length_set]; exact hs b hb, .inl hb⟩
    · simp only [addTagR, RSpan.read, Span.addTag, Option.map_some, Option.getD_some]
      rw [List.getD_eq_getElem?_getD, List.getElem?_set_self ha]
      rfl

theorem addTagsR_spec (ord : List (Str × Str)) : ∀ {h : TagHeap} {s : RSpan}, (∀ a, s.ref = some a → a < h.length) →
    Grows h (addTagsR h s ord).1 s (addTagsR h s ord).2 ∧ (addTagsR h s ord).2.val = s.val ∧
    (addTagsR h s ord).2.read (addTagsR h s ord).1 = addTags (s.read h) ord := by
  induction ord with
  | nil => exact fun hs => ⟨.refl hs, rfl, rfl⟩
  | cons e ord ih =>
    intro h s hs
    obtain ⟨g, hv, hr⟩ := addTagR_spec hs e.1 e.2
    obtain ⟨g', hv', hr'⟩ := ih (h := (addTagR h s e.1 e.2).1) (s := (addTagR h s e.1 e.2).2) (fun a ha => (g.own a ha).1)
    refine ⟨g.trans g', hv'.trans hv, ?_⟩
    show (addTagsR (addTagR h s e.1 e.2).1 (addTagR h s e.1 e.2).2 ord).2.read _ = _
    rw [show addTagsR h s (e :: ord) = addTagsR (addTagR h s e.1 e.2).1 (addTagR h s e.1 e.2).2 ord from rfl, hr', hr]
    rfl

theorem Grows.of_ref {h h' : TagHeap} {s s' t t' : RSpan} (g : Grows h h' s s') (h1 : t.ref = s.ref) (h2 : t'.ref = s'.ref) : Grows h h' t t' :=
  ⟨g.len, fun a ha hne => g.frame a ha (by rw [← h1]; exact hne), fun b hb => by rw [h1]; exact g.own b (by rw [← h2]; exact hb)⟩

theorem Grows.of_none {h h' : TagHeap} {s s' t : RSpan} (g : Grows h h' s s') (hn : s.ref = none) : Grows h h' t s' :=
  ⟨g.len, fun a ha _ => g.frame a ha (by rw [hn]; simp), fun b hb => by
    obtain ⟨h1, h2⟩ := g.own b hb
    rw [hn] at h2
    rcases h2 with h2 | h2
    · cases h2
    · exact ⟨h1, .inr h2⟩⟩

theorem mergeR_spec (ordNew ordClient : List (Str × Str)) {h : TagHeap} {upd : RSpan} (new : RSpan) (hs : ∀ a, upd.ref = some a → a < h.length) :
    Grows h (mergeR ordNew ordClient h upd new).1 upd (mergeR ordNew ordClient h upd new).2 ∧
    ∀ g : TagHeap, (mergeR ordNew ordClient h upd new).2.read (mergeR ordNew ordClient h upd new).1 = mergeSpansOrd ordNew ordClient (upd.read h) (new.read g) := by
  unfold mergeR mergeSpansOrd
  by_cases hserver : (tsIsValid new.val.timings.SR || tsIsValid new.val.timings.SS) = true
  · rw [if_pos hserver]
    simp only []
    generalize hs1 : (if new.val.service ≠ [] then ({ upd with val := { upd.val with service := new.val.service } } : RSpan) else upd) = s1
    generalize hs2 : (if new.val.name ≠ [] then ({ s1 with val := { s1.val with name := new.val.name } } : RSpan) else s1) = s2
    have r1 : s1.ref = upd.ref := by rw [← hs1]; split <;> rfl
    have r2 : s2.ref = upd.ref := by rw [← hs2, ← r1]; split <;> rfl
    obtain ⟨gr, hv, hr⟩ := addTagsR_spec ordNew (h := h) (s := s2) (fun a ha => hs a (by rw [← r2]; exact ha))
    refine ⟨gr.of_ref r2.symm ?_, fun g => ?_⟩
    · split <;> split <;> rfl
    · rw [if_pos (show (tsIsValid (new.read g).timings.SR || tsIsValid (new.read g).timings.SS) = true from hserver)]
      have e1 : (if (new.read g).service ≠ [] then { upd.read h with service := (new.read g).service } else upd.read h) = s1.read h := by
        rw [← hs1, apply_ite (RSpan.read h)]; rfl
      have e2 : (if (new.read g).name ≠ [] then { s1.read h with name := (new.read g).name } else s1.read h) = s2.read h := by
        rw [← hs2, apply_ite (RSpan.read h)]; rfl
      simp only [e1, e2, ← hr]
      rw [show (new.read g).timings = new.val.timings from rfl]
      by_cases c1 : tsIsValid new.val.timings.SR = true <;> by_cases c2 : tsIsValid new.val.timings.SS = true <;> simp only [c1, c2] <;> rfl
  · rw [if_neg hserver]
    simp only []
    generalize hs1 : (if upd.val.service = [] then ({ upd with val := { upd.val with service := new.val.service } } : RSpan) else upd) = s1
    generalize hs2 : (if s1.val.name = [] then ({ s1 with val := { s1.val with name := new.val.name } } : RSpan) else s1) = s2
    obtain ⟨gr, hv, hr⟩ := addTagsR_spec ordNew (h := h) (s := { s2 with ref := none }) (fun a ha => by cases ha)
    obtain ⟨gr', hv', hr'⟩ := addTagsR_spec ordClient (h := (addTagsR h { s2 with ref := none } ordNew).1) (s := (addTagsR h { s2 with ref := none } ordNew).2) (fun a ha => (gr.own a ha).1)
    refine ⟨((gr.trans gr').of_none rfl).of_ref rfl ?_, fun g => ?_⟩
    · split <;> split <;> rfl
    · rw [if_neg (show ¬ (tsIsValid (new.read g).timings.SR || tsIsValid (new.read g).timings.SS) = true from hserver)]
      have e1 : (if (upd.read h).service = [] then { upd.read h with service := (new.read g).service } else upd.read h) = s1.read h := by
        rw [← hs1, apply_ite (RSpan.read h)]; rfl
      have e2 : (if (s1.read h).name = [] then { s1.read h with name := (new.read g).name } else s1.read h) = s2.read h := by
        rw [← hs2, apply_ite (RSpan.read h)]; rfl
      have e3 : ({ s2.read h with tags := none } : Span) = ({ s2 with ref := none } : RSpan).read h := rfl
      simp only [e1, e2, e3, ← hr, ← hr']
      rw [show (new.read g).timings = new.val.timings from rfl]
      by_cases c1 : tsIsValid new.val.timings.CS = true <;> by_cases c2 : tsIsValid new.val.timings.CR = true <;> simp only [c1, c2] <;> rfl

/-! ## Lists of spans -/

theorem map_val_read (h : TagHeap) (l : List RSpan) : (l.map RSpan.val).map Span.id = (l.map (RSpan.read h)).map Span.id := by
  rw [List.map_map, List.map_map]; rfl

theorem idAtLeast_congr {l l' : List Span} (h : l.map Span.id = l'.map Span.id) (id : Id) : idAtLeast l id = idAtLeast l' id := by
  funext i
  unfold idAtLeast
  have := congrArg (·[i]?) h
  simp only [List.getElem?_map] at this
  cases h1 : l[i]? <;> cases h2 : l'[i]? <;> simp_all

theorem getSpanRef_congr {l l' : List Span} (h : l.map Span.id = l'.map Span.id) (id : Id) : getSpanRef l id = getSpanRef l' id := by
  unfold getSpanRef
  have hl : l.length = l'.length := by simpa using congrArg List.length h
  simp only [idAtLeast_congr h, hl]
  have := congrArg (·[sortSearch l'.length (idAtLeast l' id)]?) h
  simp only [List.getElem?_map] at this
  cases h1 : l[sortSearch l'.length (idAtLeast l' id)]? <;> cases h2 : l'[sortSearch l'.length (idAtLeast l' id)]? <;> simp_all

theorem appendR_read (h : TagHeap) (l : List RSpan) (x : RSpan) : (appendR l x).map (RSpan.read h) = spansAppend (l.map (RSpan.read h)) (x.read h) := by
  unfold appendR spansAppend copyWithin
  rw [idAtLeast_congr (map_val_read h l)]
  simp only [List.map_set, List.map_append, List.map_take, List.map_drop, List.length_map, List.length_append, List.map_cons, List.map_nil, List.length_cons, List.length_nil]
  rfl

theorem insert_copyR (l : List RSpan) (p : Nat) (x s : RSpan) (h : p ≤ l.length) :
    ((l ++ [x]).take (p + 1) ++ ((l ++ [x]).drop p).take (min ((l ++ [x]).length - (p + 1)) ((l ++ [x]).length - p)) ++
      (l ++ [x]).drop (p + 1 + min ((l ++ [x]).length - (p + 1)) ((l ++ [x]).length - p))).set p s = l.take p ++ s :: l.drop p := by
  have hn : min ((l ++ [x]).length - (p + 1)) ((l ++ [x]).length - p) = l.length - p := by
    simp only [List.length_append, List.length_cons, List.length_nil]; omega
  simp only [hn]
  have h1 : ((l ++ [x]).drop p).take (l.length - p) = l.drop p := by
    rw [List.drop_append_of_le_length h, List.take_append_of_le_length (by simp), List.take_of_length_le (by simp)]
  have h2 : (l ++ [x]).drop (p + 1 + (l.length - p)) = [] := by
    apply List.drop_eq_nil_of_le; simp; omega
  rw [h1, h2, List.append_nil]
  have h3 : ∃ y, (l ++ [x]).take (p + 1) = l.take p ++ [y] := by
    have hlt : p < (l ++ [x]).length := by simp; omega
    refine ⟨(l ++ [x])[p], ?_⟩
    rw [List.take_succ_eq_append_getElem hlt, List.take_append_of_le_length h]
  obtain ⟨y, hy⟩ := h3
  rw [hy, List.append_assoc, List.set_append_right _ _ (by simp; omega)]
  have : p - (l.take p).length = 0 := by simp; omega
  rw [this]; rfl

theorem sorted_val {h : TagHeap} {l : List RSpan} (hs : SortedDesc (l.map (RSpan.read h))) : SortedDesc (l.map RSpan.val) := by
  unfold SortedDesc at *
  rw [List.pairwise_map] at *
  exact hs

theorem mem_appendR {h : TagHeap} {l : List RSpan} (hs : SortedDesc (l.map (RSpan.read h))) (x : RSpan) {q : RSpan} (hq : q ∈ appendR l x) : q = x ∨ q ∈ l := by
  obtain ⟨h1, _, _⟩ := insertPos_spec (sorted_val hs) x.val.id
  rw [List.length_map] at h1
  have e : appendR l x = l.take (insertPos (l.map RSpan.val) x.val.id) ++ x :: l.drop (insertPos (l.map RSpan.val) x.val.id) := by
    rw [← insert_copyR l _ {} x h1]
    unfold appendR insertPos
    simp only [List.length_map]
  rw [e, List.mem_append, List.mem_cons] at hq
  rcases hq with hq | rfl | hq
  · exact .inr (List.mem_of_mem_take hq)
  · exact .inl rfl
  · exact .inr (List.mem_of_mem_drop hq)

theorem read_congr {h h' : TagHeap} {q : RSpan} (hq : ∀ a, q.ref = some a → h'.getD a {} = h.getD a {}) : q.read h' = q.read h := by
  unfold RSpan.read
  cases hr : q.ref with
  | none => rfl
  | some a => simp only [Option.map_some, hq a hr]

/-- What may have changed when `new` was added to the spans `l`. -/
structure Adds (h h' : TagHeap) (l l' : List RSpan) (new : RSpan) : Prop where
  len : h.length ≤ h'.length
  frame : ∀ a, a < h.length → (∀ q ∈ l, q.val.id = new.val.id → q.ref ≠ some a) → h'.getD a {} = h.getD a {}
  mem : ∀ q' ∈ l', (q' ∈ l ∧ q'.val.id ≠ new.val.id) ∨
    (q'.val.id = new.val.id ∧ ∀ a, q'.ref = some a → a < h'.length ∧ (new.ref = some a ∨ (∃ q ∈ l, q.val.id = new.val.id ∧ q.ref = some a) ∨ h.length ≤ a))

theorem mergeSpansOrd_id (ordNew ordClient : List (Str × Str)) (upd new : Span) : (mergeSpansOrd ordNew ordClient upd new).id = upd.id := by
  unfold mergeSpansOrd
  simp only [addTags_tags]
  grind

theorem addSpanR_spec {ordNew ordClient : List (Str × Str)} {h : TagHeap} {l : List RSpan} {new : RSpan} (hsort : SortedDesc (l.map (RSpan.read h)))
    (hb : ∀ q ∈ l, ∀ a, q.ref = some a → a < h.length) (hnew : ∀ a, new.ref = some a → a < h.length)
    (hsep : ∀ q ∈ l, ∀ q' ∈ l, ∀ a, q.ref = some a → q'.ref = some a → q.val.id = q'.val.id)
    (hon : IsRange ordNew ((new.read h).tags.getD ∅)) (hoc : ∀ q ∈ l, q.val.id = new.val.id → IsRange ordClient ((q.read h).tags.getD ∅))
    (t : Tree) (ht : t.spans = l.map (RSpan.read h)) (now : Time) :
    Adds h (addSpanR ordNew ordClient h l new).1 l (addSpanR ordNew ordClient h l new).2 new ∧
    (addSpanR ordNew ordClient h l new).2.map (RSpan.read (addSpanR ordNew ordClient h l new).1) = (t.addSpan now (new.read h)).spans := by
  unfold addSpanR Tree.addSpan
  rw [getSpanRef_congr (map_val_read h l)]
  simp only [ht]
  rw [show (new.read h).id = new.val.id from rfl]
  cases hg : getSpanRef (l.map (RSpan.read h)) new.val.id with
  | none =>
    have hno := (getSpanRef_eq_none hsort).mp hg
    refine ⟨⟨Nat.le_refl _, fun _ _ _ => rfl, fun q' hq' => ?_⟩, appendR_read h l new⟩
    rcases mem_appendR hsort new hq' with rfl | hm
    · exact .inr ⟨rfl, fun a ha => ⟨hnew a ha, .inl ha⟩⟩
    · exact .inl ⟨hm, hno (q'.read h) (List.mem_map_of_mem hm)⟩
  | some idx =>
    obtain ⟨s, hs, hid⟩ := (getSpanRef_eq_some hsort).mp hg
    rw [List.getElem?_map] at hs
    cases hu : l[idx]? with
    | none => rw [hu] at hs; cases hs
    | some upd =>
      rw [hu] at hs
      cases hs
      have hid : upd.val.id = new.val.id := hid
      have hul : upd ∈ l := List.mem_of_getElem? hu
      have hlt : idx < l.length := (List.getElem?_eq_some_iff.mp hu).1
      have hgd : l.getD idx {} = upd := by rw [List.getD_eq_getElem?_getD, hu]; rfl
      simp only [hgd]
      generalize hupd : (if idIsUnknown upd.val.parent then ({ upd with val := { upd.val with parent := new.val.parent } } : RSpan) else upd) = upd'
      have hr : upd'.ref = upd.ref := by rw [← hupd]; split <;> rfl
      have hi : upd'.val.id = upd.val.id := by rw [← hupd]; split <;> rfl
      obtain ⟨gr, hv⟩ := mergeR_spec ordNew ordClient (h := h) (upd := upd') new (fun a ha => hb upd hul a (by rw [← hr]; exact ha))
      have hv := hv h
      have hmid : (mergeR ordNew ordClient h upd' new).2.val.id = new.val.id := by
        have := (congrArg Span.id hv :)
        rw [mergeSpansOrd_id] at this
        exact (this.trans hi).trans hid
      have other : ∀ {j : Nat} {q : RSpan}, j ≠ idx → l[j]? = some q → q.val.id ≠ new.val.id := by
        intro j q hj hq he
        have := (getSpanRef_eq_some hsort).mpr ⟨q.read h, by rw [List.getElem?_map, hq]; rfl, he⟩
        rw [hg] at this
        exact hj (Option.some.inj this).symm
      refine ⟨⟨gr.len, fun a ha hne => gr.frame a ha (by rw [hr]; exact hne upd hul hid), fun q' hq' => ?_⟩, ?_⟩
      · obtain ⟨j, hj⟩ := List.getElem?_of_mem hq'
        by_cases hji : j = idx
        · subst hji
          rw [List.getElem?_set_self hlt] at hj
          cases hj
          refine .inr ⟨hmid, fun a ha => ?_⟩
          obtain ⟨h1, h2⟩ := gr.own a ha
          refine ⟨h1, h2.elim (fun h2 => .inr (.inl ⟨upd, hul, hid, by rw [← hr]; exact h2⟩)) (fun h2 => .inr (.inr h2))⟩
        · rw [List.getElem?_set_ne (Ne.symm hji)] at hj
          exact .inl ⟨List.mem_of_getElem? hj, other hji hj⟩
      · apply List.ext_getElem?
        intro j
        rw [List.getElem?_map]
        by_cases hji : j = idx
        · subst hji
          rw [List.getElem?_set_self hlt, List.getElem?_modify_eq, List.getElem?_map, hu]
          show some _ = some (addToExisting (upd.read h) (new.read h))
          rw [Option.some.injEq, hv]
          unfold addToExisting
          rw [← mergeSpansOrd_eq ordNew ordClient _ _ hon]
          · congr 1
            rw [← hupd, apply_ite (RSpan.read h)]; rfl
          · have := hoc upd hul hid
            split <;> exact this
        · rw [List.getElem?_set_ne (Ne.symm hji), List.getElem?_modify_ne _ _ (Ne.symm hji), List.getElem?_map]
          cases hq : l[j]? with
          | none => rfl
          | some q =>
            simp only [Option.map_some, Option.some.injEq]
            refine read_congr fun a ha => gr.frame a (hb q (List.mem_of_getElem? hq) a ha) ?_
            rw [hr]
            intro hc
            exact other hji hq ((hsep q (List.mem_of_getElem? hq) upd hul a ha hc).trans hid)

/-! ## Runs -/

/-- The span `id` of the pending trace `k` has the map at the address `a`. -/
def TagState.Owns (st : TagState) (k id : Id) (a : Nat) : Prop := ∃ l q, st.pending[k]? = some l ∧ q ∈ l ∧ q.val.id = id ∧ q.ref = some a

/-- `tr` are the spans of the pending traces, `em` the emitted traces. -/
structure TagInv (tr : Id → Option (List Span)) (em : List (List Span)) (st : TagState) : Prop where
  value : ∀ k, (st.pending[k]?).map (List.map (RSpan.read st.heap)) = tr k
  sorted : ∀ k l, tr k = some l → SortedDesc l
  bound : ∀ k id a, st.Owns k id a → a < st.heap.length
  unique : ∀ k id k' id' a, st.Owns k id a → st.Owns k' id' a → k = k' ∧ id = id'
  sent : st.delivered.map (List.map (RSpan.read st.heap)) = em
  sbound : ∀ l ∈ st.delivered, ∀ q ∈ l, ∀ a, q.ref = some a → a < st.heap.length ∧ ∀ k id, ¬ st.Owns k id a
  single : (st.delivered.flatten.filterMap RSpan.ref).Nodup

theorem decodeR_spec (h : TagHeap) (s : Span) : h.length ≤ (decodeR h s).1.length ∧ (∀ a, a < h.length → (decodeR h s).1.getD a {} = h.getD a {}) ∧
    (decodeR h s).2.read (decodeR h s).1 = s ∧ (decodeR h s).2.val = s ∧ ∀ a, (decodeR h s).2.ref = some a → h.length ≤ a ∧ a < (decodeR h s).1.length := by
  unfold decodeR
  cases ht : s.tags with
  | none =>
    refine ⟨Nat.le_refl _, fun _ _ => rfl, ?_, rfl, fun a ha => by cases ha⟩
    simp only [RSpan.read, Option.map_none, ← ht]
  | some m =>
    refine ⟨by simp, fun a ha => ?_, ?_, rfl, fun a ha => ?_⟩
    · simp only [List.getD_eq_getElem?_getD]
      rw [List.getElem?_append_left ha]
    · simp only [RSpan.read, Option.map_some, List.getD_eq_getElem?_getD]
      rw [List.getElem?_append_right (Nat.le_refl _)]
      simp [← ht]
    · simp only [Option.some.injEq] at ha
      subst ha
      simp

/-- A step that may change the map of one span. -/
theorem TagInv.write {tr tr' : Id → Option (List Span)} {em : List (List Span)} {st st' : TagState} (inv : TagInv tr em st) (k0 id0 : Id)
    (hlen : st.heap.length ≤ st'.heap.length)
    (hframe : ∀ a, a < st.heap.length → ¬ st.Owns k0 id0 a → st'.heap.getD a {} = st.heap.getD a {})
    (howns : ∀ k id a, st'.Owns k id a → st.Owns k id a ∨ (k = k0 ∧ id = id0 ∧ st.heap.length ≤ a ∧ a < st'.heap.length))
    (hdel : st'.delivered = st.delivered) (hpend : ∀ k, k ≠ k0 → st'.pending[k]? = st.pending[k]?) (htr : ∀ k, k ≠ k0 → tr' k = tr k)
    (hv : (st'.pending[k0]?).map (List.map (RSpan.read st'.heap)) = tr' k0) (hs : ∀ l, tr' k0 = some l → SortedDesc l) : TagInv tr' em st' := by
  refine ⟨fun k => ?_, fun k l hl => ?_, fun k id a ho => ?_, fun k id k' id' a ho ho' => ?_, ?_, fun l hl q hq a ha => ?_, ?_⟩
  · by_cases hk : k = k0
    · subst hk; exact hv
    · rw [htr k hk, ← inv.value k, hpend k hk]
      cases hp : st.pending[k]? with
      | none => rfl
      | some l =>
        simp only [Option.map_some, Option.some.injEq]
        refine List.map_congr_left fun q hq => read_congr fun a ha => ?_
        have ho : st.Owns k q.val.id a := ⟨l, q, hp, hq, rfl, ha⟩
        exact hframe a (inv.bound _ _ _ ho) fun hc => hk (inv.unique _ _ _ _ _ ho hc).1
  · by_cases hk : k = k0
    · subst hk; exact hs l hl
    · rw [htr k hk] at hl; exact inv.sorted k l hl
  · rcases howns _ _ _ ho with h | ⟨_, _, _, h⟩
    · exact Nat.lt_of_lt_of_le (inv.bound _ _ _ h) hlen
    · exact h
  · rcases howns _ _ _ ho with h1 | ⟨h1, h2, h3, h4⟩
    · rcases howns _ _ _ ho' with h1' | ⟨h1', h2', h3', h4'⟩
      · exact inv.unique _ _ _ _ _ h1 h1'
      · have := inv.bound _ _ _ h1; omega
    · rcases howns _ _ _ ho' with h1' | ⟨h1', h2', h3', h4'⟩
      · have := inv.bound _ _ _ h1'; omega
      · exact ⟨h1.trans h1'.symm, h2.trans h2'.symm⟩
  · rw [hdel, ← inv.sent]
    refine List.map_congr_left fun l hl => List.map_congr_left fun q hq => read_congr fun a ha => ?_
    obtain ⟨h1, h2⟩ := inv.sbound l hl q hq a ha
    exact hframe a h1 (h2 _ _)
  · rw [hdel] at hl
    obtain ⟨h1, h2⟩ := inv.sbound l hl q hq a ha
    refine ⟨Nat.lt_of_lt_of_le h1 hlen, fun k id ho => ?_⟩
    rcases howns _ _ _ ho with h | ⟨_, _, h, _⟩
    · exact h2 _ _ h
    · omega
  · rw [hdel]; exact inv.single

/-- The spans of the pending traces. -/
def pendingSpans (c : Collector) (k : Id) : Option (List Span) := (c.traces[k]?).map Tree.spans

theorem receive_pending (c : Collector) (now1 now2 : Time) (s : Span) (k : Id) :
    pendingSpans (c.receive now1 now2 s) k = if (s.trace = 0 ∨ s.id = 0 ∨ c.blacklist.contains s.trace) ∨ s.trace ≠ k then pendingSpans c k
      else some ((((c.traces[s.trace]?).getD (newTree now1 s.trace)).addSpan now2 s).spans) := by
  unfold pendingSpans Collector.receive
  by_cases h1 : s.trace = 0 ∨ s.id = 0
  · rw [if_pos h1, if_pos (by rcases h1 with h1 | h1 <;> simp [h1])]
  · rw [if_neg h1]
    by_cases h2 : c.blacklist.contains s.trace = true
    · rw [if_pos h2, if_pos (by simp [h2])]
    · rw [if_neg h2]
      simp only [get_insert]
      by_cases h3 : s.trace = k
      · rw [if_pos h3, if_neg]
        · rfl
        · rintro ((h | h | h) | h)
          · exact h1 (.inl h)
          · exact h1 (.inr h)
          · exact h2 h
          · exact h h3
      · rw [if_neg h3, if_pos (.inr h3)]

theorem TagInv.receive {c : Collector} {em : List (List Span)} {st : TagState} (inv : TagInv (pendingSpans c) em st) (now1 now2 : Time) {s : Span} {ordNew ordClient : List (Str × Str)}
    (hon : IsRange ordNew (s.tags.getD ∅))
    (hoc : ∀ l q, st.pending[s.trace]? = some l → q ∈ l → q.val.id = s.id → IsRange ordClient ((q.read st.heap).tags.getD ∅)) :
    st.heap.length ≤ (st.receive c ordNew ordClient s).heap.length ∧
    (∀ a, a < st.heap.length → ¬ st.Owns s.trace s.id a → (st.receive c ordNew ordClient s).heap.getD a {} = st.heap.getD a {}) ∧
    TagInv (pendingSpans (c.receive now1 now2 s)) em (st.receive c ordNew ordClient s) := by
  obtain ⟨d1, d2, d3, d4, d5⟩ := decodeR_spec st.heap s
  have old : ∀ (l : List RSpan), st.pending[s.trace]? = some l → ∀ q ∈ l, q.read (decodeR st.heap s).1 = q.read st.heap :=
    fun l hl q hq => read_congr fun a ha => d2 a (inv.bound _ _ _ ⟨l, q, hl, hq, rfl, ha⟩)
  by_cases hk : s.trace = 0 ∨ s.id = 0 ∨ c.blacklist.contains s.trace = true
  · have e : st.receive c ordNew ordClient s = { st with heap := (decodeR st.heap s).1 } := by
      unfold TagState.receive; rw [if_pos hk]
    rw [e]
    refine ⟨d1, fun a ha _ => d2 a ha, inv.write s.trace s.id d1 (fun a ha _ => d2 a ha) (fun k id a ho => .inl ho) rfl (fun _ _ => rfl) (fun k _ => ?_) ?_ (fun l hl => ?_)⟩
    · rw [receive_pending, if_pos (.inl hk)]
    · rw [receive_pending, if_pos (.inl hk), ← inv.value]
      cases hp : st.pending[s.trace]? with
      | none => rfl
      | some l => exact congrArg some (List.map_congr_left (old l hp))
    · rw [receive_pending, if_pos (.inl hk)] at hl
      exact inv.sorted _ l hl
  · generalize hl : (st.pending[s.trace]?).getD [] = l at *
    have e : st.receive c ordNew ordClient s = { st with
        heap := (addSpanR ordNew ordClient (decodeR st.heap s).1 l (decodeR st.heap s).2).1
        pending := st.pending.insert s.trace (addSpanR ordNew ordClient (decodeR st.heap s).1 l (decodeR st.heap s).2).2 } := by
      unfold TagState.receive; rw [if_neg hk]
      simp only [hl]
    have hmem : ∀ q ∈ l, st.pending[s.trace]? = some l := by
      intro q hq
      rw [← hl]
      cases hp : st.pending[s.trace]? with
      | none => rw [hp] at hl; subst hl; cases hq
      | some l' => rfl
    have hspans : ((c.traces[s.trace]?).getD (newTree now1 s.trace)).spans = l.map (RSpan.read (decodeR st.heap s).1) := by
      have hv := inv.value s.trace
      unfold pendingSpans at hv
      rw [← hl]
      cases hp : st.pending[s.trace]? with
      | none =>
        rw [hp] at hv
        cases ht : c.traces[s.trace]? with
        | none => rfl
        | some t => rw [ht] at hv; cases hv
      | some l' =>
        rw [hp] at hv
        cases ht : c.traces[s.trace]? with
        | none => rw [ht] at hv; cases hv
        | some t =>
          rw [ht] at hv
          have hv : l'.map (RSpan.read st.heap) = t.spans := Option.some.inj hv
          simp only [Option.getD_some]
          rw [← hv]
          exact (List.map_congr_left (old l' hp)).symm
    have hsort : SortedDesc (l.map (RSpan.read (decodeR st.heap s).1)) := by
      rw [← hspans]
      cases ht : c.traces[s.trace]? with
      | none => exact List.Pairwise.nil
      | some t => exact inv.sorted s.trace t.spans (by unfold pendingSpans; rw [ht]; rfl)
    obtain ⟨ad, hval⟩ := addSpanR_spec (ordNew := ordNew) (ordClient := ordClient) (new := (decodeR st.heap s).2) hsort
      (fun q hq a ha => Nat.lt_of_lt_of_le (inv.bound _ _ _ ⟨l, q, hmem q hq, hq, rfl, ha⟩) d1) (fun a ha => (d5 a ha).2)
      (fun q hq q' hq' a ha ha' => (inv.unique _ _ _ _ _ ⟨l, q, hmem q hq, hq, rfl, ha⟩ ⟨l, q', hmem q hq, hq', rfl, ha'⟩).2)
      (by rw [d3]; exact hon) (fun q hq hid => by rw [old l (hmem q hq) q hq]; exact hoc l q (hmem q hq) hq (by rw [hid, d4]))
      _ hspans now2
    rw [d3] at hval
    rw [e]
    have hlen := Nat.le_trans d1 ad.len
    have hframe : ∀ a, a < st.heap.length → ¬ st.Owns s.trace s.id a → (addSpanR ordNew ordClient (decodeR st.heap s).1 l (decodeR st.heap s).2).1.getD a {} = st.heap.getD a {} := by
      intro a ha hno
      rw [ad.frame a (Nat.lt_of_lt_of_le ha d1) (fun q hq hid hr => hno ⟨l, q, hmem q hq, hq, by rw [hid, d4], hr⟩)]
      exact d2 a ha
    have htr : pendingSpans (c.receive now1 now2 s) s.trace = some ((((c.traces[s.trace]?).getD (newTree now1 s.trace)).addSpan now2 s).spans) := by
      rw [receive_pending, if_neg]
      rintro (h | h)
      · exact hk h
      · exact h rfl
    refine ⟨hlen, hframe, inv.write s.trace s.id hlen hframe (fun k id a ho => ?_) rfl (fun k hne => ?_) (fun k hne => ?_) ?_ (fun l' hl' => ?_)⟩
    · obtain ⟨l', q', h1, h2, h3, h4⟩ := ho
      simp only [get_insert] at h1
      split at h1
      · next he =>
        subst he
        cases h1
        rcases ad.mem q' h2 with ⟨h5, h6⟩ | ⟨h5, h6⟩
        · exact .inl ⟨l, q', hmem q' h5, h5, h3, h4⟩
        · rw [d4] at h5
          obtain ⟨h7, h8 | ⟨q, h8, h9, h10⟩ | h8⟩ := h6 a h4
          · exact .inr ⟨rfl, h3.symm.trans h5, (d5 a h8).1, h7⟩
          · exact .inl ⟨l, q, hmem q h8, h8, by rw [h9, d4, ← h5, h3], h10⟩
          · exact .inr ⟨rfl, h3.symm.trans h5, Nat.le_trans d1 h8, h7⟩
      · exact .inl ⟨l', q', h1, h2, h3, h4⟩
    · simp only [get_insert]; rw [if_neg (Ne.symm hne)]
    · rw [receive_pending, if_pos (.inr (Ne.symm hne))]
    · simp only [get_insert, if_true, Option.map_some]
      rw [hval, htr]
    · rw [htr] at hl'
      cases hl'
      have ok : ∀ t : Tree, SortedDesc t.spans → SortedDesc (t.addSpan now2 s).spans := by
        intro t ht
        unfold Tree.addSpan
        simp only
        split
        · next hn => exact spansAppend_sorted ht s ((getSpanRef_eq_none ht).mp hn)
        · next idx _ =>
          unfold SortedDesc at *
          have : ((t.spans.modify idx (addToExisting · s)).map Span.id) = t.spans.map Span.id := by
            apply List.ext_getElem?
            intro j
            rw [List.getElem?_map, List.getElem?_map, List.getElem?_modify]
            cases t.spans[j]? with
            | none => rfl
            | some x => simp only [Option.map_eq_map, Option.map_some]; split <;> simp
          rw [← List.pairwise_map (f := Span.id) (R := fun a b => b < a)] at ht ⊢
          rw [this]; exact ht
      exact ok _ (by rw [hspans]; exact hsort)

/-- Tags of the spans of a finished trace. -/
theorem finished_tags {id : Id} {spans out : List Span} (hf : Finished id spans out) {s : Span} (hs : s ∈ out) :
    (∃ q ∈ spans, q.id = s.id ∧ q.tags = s.tags) ∨ ((∀ q ∈ spans, q.id ≠ s.id) ∧ s.tags = none) := by
  obtain ⟨base, r, hrep, _, hcor⟩ := hf
  have e := corrected_map hcor (fun s : Span => (s.id, s.tags)) (fun _ _ _ => rfl)
  obtain ⟨b, hb, he⟩ := List.mem_map.mp (e ▸ List.mem_map_of_mem (f := fun s : Span => (s.id, s.tags)) hs)
  obtain ⟨e1, e2⟩ := Prod.mk.inj he
  rcases hrep with ⟨p, f, _, hfr, hperm, hpw⟩ | ⟨_, rfl⟩
  · rcases List.mem_cons.mp (hperm.mem_iff.mp hb) with rfl | hb'
    · refine .inr ⟨fun q hq hc => ?_, e2.symm.trans hfr.tags⟩
      have hn : (b :: spans).Pairwise (fun a b => a.id ≠ b.id) :=
        (hperm.pairwise_iff (fun h => Ne.symm h)).mp (hpw.imp fun h he => absurd (he ▸ h) Int64.lt_irrefl)
      exact (List.pairwise_cons.mp hn).1 q hq (e1.trans hc.symm)
    · exact .inl ⟨b, hb', e1, e2⟩
  · exact .inl ⟨b, hb, e1, e2⟩

theorem sorted_ids {l : List Span} (h : SortedDesc l) : (l.map Span.id).Nodup := by
  rw [List.Nodup, List.pairwise_map]
  exact List.Pairwise.imp (fun h he => absurd (he ▸ h) Int64.lt_irrefl) h

theorem finished_ids {id : Id} {spans out : List Span} (hs : SortedDesc spans) (hf : Finished id spans out) : (out.map Span.id).Nodup := by
  obtain ⟨base, r, hrep, _, hcor⟩ := hf
  rw [corrected_map hcor Span.id (fun _ _ _ => rfl)]
  rcases hrep with ⟨p, f, _, _, _, hpw⟩ | ⟨_, rfl⟩
  · exact sorted_ids hpw
  · exact sorted_ids hs

theorem TagState.Owns.of_erase {st : TagState} {k0 k id : Id} {a : Nat} {d : List (List RSpan)} (h : TagState.Owns { st with pending := st.pending.erase k0, delivered := d } k id a) :
    k ≠ k0 ∧ st.Owns k id a := by
  obtain ⟨l, q, h1, h2⟩ := h
  simp only [get_erase] at h1
  split at h1
  · cases h1
  · next hne => exact ⟨fun he => hne he.symm, l, q, h1, h2⟩

/-- The addresses that a trace had when it was sent. -/
def sentRefs (spans : List RSpan) (out : List Span) : List RSpan := out.map fun s => { val := s, ref := (spans.find? fun q => q.val.id == s.id).bind RSpan.ref }

theorem mem_sentRefs {spans : List RSpan} {out : List Span} {x : RSpan} (hx : x ∈ sentRefs spans out) :
    x.val ∈ out ∧ ∀ a, x.ref = some a → ∃ q ∈ spans, q.val.id = x.val.id ∧ q.ref = some a := by
  obtain ⟨s, hs, rfl⟩ := List.mem_map.mp hx
  refine ⟨hs, fun a ha => ?_⟩
  simp only [Option.bind_eq_some_iff] at ha
  obtain ⟨q, hq, hr⟩ := ha
  have := List.find?_some hq
  exact ⟨q, List.mem_of_find?_eq_some hq, by simpa using this, hr⟩

theorem sentRefs_read {h : TagHeap} {spans : List RSpan} {out : List Span} {id : Id} (hs : SortedDesc (spans.map (RSpan.read h))) (hf : Finished id (spans.map (RSpan.read h)) out) :
    (sentRefs spans out).map (RSpan.read h) = out := by
  unfold sentRefs
  rw [List.map_map]
  conv => rhs; rw [← List.map_id out]
  refine List.map_congr_left fun s hs' => ?_
  have key : ∀ tags : Option TagMap, tags = s.tags → ({ s with tags := tags } : Span) = s := by rintro _ rfl; rfl
  refine key _ ?_
  simp only
  rcases finished_tags hf hs' with ⟨q, hq, h1, h2⟩ | ⟨h1, h2⟩
  · obtain ⟨x, hx, rfl⟩ := List.mem_map.mp hq
    have hfound : (spans.find? fun q => q.val.id == s.id).isSome := by
      rw [List.find?_isSome]
      exact ⟨x, hx, beq_iff_eq.mpr h1⟩
    obtain ⟨y, hy⟩ := Option.isSome_iff_exists.mp hfound
    have hyid : y.val.id = s.id := by simpa using List.find?_some hy
    have e : y.read h = x.read h := mem_eq_of_id (sorted_ids hs) (List.mem_map_of_mem (List.mem_of_find?_eq_some hy)) hq (hyid.trans h1.symm)
    rw [hy, ← h2, ← e]
    rfl
  · have : (spans.find? fun q => q.val.id == s.id) = none := by
      rw [List.find?_eq_none]
      exact fun q hq hc => h1 _ (List.mem_map_of_mem hq) (beq_iff_eq.mp hc)
    rw [this, h2]
    rfl

theorem TagInv.remove {tr : Id → Option (List Span)} {em : List (List Span)} {st : TagState} (inv : TagInv tr em st) {r : Removal} (htr : tr r.id = some r.tree.spans)
    (hf : ∀ out, r.fate = .emitted out → Finished r.id r.tree.spans out) :
    (st.remove r).heap = st.heap ∧ TagInv (fun k => if k = r.id then none else tr k) (em ++ emittedOf [r]) (st.remove r) := by
  have hval : ∀ k, ((st.pending.erase r.id)[k]?).map (List.map (RSpan.read st.heap)) = if k = r.id then none else tr k := by
    intro k
    rw [get_erase, ← inv.value k]
    by_cases hk : k = r.id
    · rw [if_pos hk, if_pos hk.symm]; rfl
    · rw [if_neg hk, if_neg (Ne.symm hk)]
  have hsort : ∀ k l, (if k = r.id then none else tr k) = some l → SortedDesc l := by
    intro k l hl
    split at hl
    · cases hl
    · exact inv.sorted k l hl
  by_cases he : ∃ out, r.fate = .emitted out
  · obtain ⟨out, ho⟩ := he
    obtain ⟨l, hp, hl⟩ : ∃ l, st.pending[r.id]? = some l ∧ l.map (RSpan.read st.heap) = r.tree.spans := by
      have := inv.value r.id
      rw [htr] at this
      cases hp : st.pending[r.id]? with
      | none => rw [hp] at this; cases this
      | some l => rw [hp] at this; exact ⟨l, rfl, Option.some.inj this⟩
    have hs : SortedDesc (l.map (RSpan.read st.heap)) := by rw [hl]; exact inv.sorted _ _ htr
    have hf := hf out ho
    rw [← hl] at hf
    have e : st.remove r = { st with pending := st.pending.erase r.id, delivered := st.delivered ++ [sentRefs l out] } := by
      unfold TagState.remove
      simp only [ho, hp]
      rfl
    rw [e]
    refine ⟨rfl, hval, hsort, fun k id a h => inv.bound _ _ _ h.of_erase.2, fun k id k' id' a h h' => inv.unique _ _ _ _ _ h.of_erase.2 h'.of_erase.2, ?_, fun x hx q hq a ha => ?_, ?_⟩
    · rw [List.map_append, inv.sent]
      simp only [List.map_cons, List.map_nil, sentRefs_read hs hf, emittedOf, List.filterMap_cons, List.filterMap_nil, ho]
    · rcases List.mem_append.mp hx with hx | hx
      · obtain ⟨h1, h2⟩ := inv.sbound x hx q hq a ha
        exact ⟨h1, fun k id hc => h2 _ _ hc.of_erase.2⟩
      · rw [List.mem_singleton] at hx
        subst hx
        obtain ⟨y, hy, _, hr⟩ := (mem_sentRefs hq).2 a ha
        have own : st.Owns r.id y.val.id a := ⟨l, y, hp, hy, rfl, hr⟩
        refine ⟨inv.bound _ _ _ own, fun k id hc => ?_⟩
        obtain ⟨h1, h2⟩ := hc.of_erase
        exact h1 (inv.unique _ _ _ _ _ h2 own).1
    · simp only [List.flatten_append, List.flatten_cons, List.flatten_nil, List.append_nil, List.filterMap_append]
      rw [List.nodup_append]
      refine ⟨inv.single, ?_, fun a ha b hb hab => ?_⟩
      · rw [List.Nodup, List.pairwise_filterMap]
        unfold sentRefs
        rw [List.pairwise_map]
        have hn := finished_ids hs hf
        rw [List.Nodup, List.pairwise_map] at hn
        refine hn.imp fun {x y} hne b hb b' hb' hbb => ?_
        subst hbb
        obtain ⟨q, hq, h1, h2⟩ : ∃ q ∈ l, q.val.id = x.id ∧ q.ref = some b := by
          rw [Option.bind_eq_some_iff] at hb
          obtain ⟨q, hq, hr⟩ := hb
          exact ⟨q, List.mem_of_find?_eq_some hq, by simpa using List.find?_some hq, hr⟩
        obtain ⟨q', hq', h1', h2'⟩ : ∃ q ∈ l, q.val.id = y.id ∧ q.ref = some b := by
          rw [Option.bind_eq_some_iff] at hb'
          obtain ⟨q, hq, hr⟩ := hb'
          exact ⟨q, List.mem_of_find?_eq_some hq, by simpa using List.find?_some hq, hr⟩
        have := (inv.unique _ _ _ _ _ ⟨l, q, hp, hq, rfl, h2⟩ ⟨l, q', hp, hq', rfl, h2'⟩).2
        exact hne (h1.symm.trans (this.trans h1'))
      · subst hab
        obtain ⟨x, hx, hxa⟩ := List.mem_filterMap.mp ha
        obtain ⟨y, hy, hya⟩ := List.mem_filterMap.mp hb
        obtain ⟨t, ht, hxt⟩ := List.mem_flatten.mp hx
        obtain ⟨z, hz, _, hr⟩ := (mem_sentRefs hy).2 a hya
        exact (inv.sbound t ht x hxt a hxa).2 _ _ ⟨l, z, hp, hz, rfl, hr⟩
  · have e : st.remove r = { st with pending := st.pending.erase r.id } := by
      unfold TagState.remove
      cases hr : r.fate with
      | emitted out => exact absurd ⟨out, hr⟩ he
      | _ => rfl
    have e' : emittedOf [r] = [] := by
      unfold emittedOf
      cases hr : r.fate with
      | emitted out => exact absurd ⟨out, hr⟩ he
      | _ => simp [hr]
    rw [e, e', List.append_nil]
    refine ⟨rfl, hval, hsort, fun k id a h => inv.bound _ _ _ (TagState.Owns.of_erase (d := st.delivered) h).2,
      fun k id k' id' a h h' => inv.unique _ _ _ _ _ (TagState.Owns.of_erase (d := st.delivered) h).2 (TagState.Owns.of_erase (d := st.delivered) h').2, inv.sent,
      fun x hx q hq a ha => ?_, inv.single⟩
    obtain ⟨h1, h2⟩ := inv.sbound x hx q hq a ha
    exact ⟨h1, fun k id hc => h2 _ _ (TagState.Owns.of_erase (d := st.delivered) hc).2⟩

theorem TagInv.removeAll (R : List Removal) : ∀ {tr : Id → Option (List Span)} {em : List (List Span)} {st : TagState}, TagInv tr em st → (R.map Removal.id).Nodup →
    (∀ r ∈ R, tr r.id = some r.tree.spans) → (∀ r ∈ R, ∀ out, r.fate = .emitted out → Finished r.id r.tree.spans out) →
    (R.foldl TagState.remove st).heap = st.heap ∧ st.delivered <+: (R.foldl TagState.remove st).delivered ∧
    TagInv (fun k => if R.any (fun r => r.id == k) then none else tr k) (em ++ emittedOf R) (R.foldl TagState.remove st) := by
  induction R with
  | nil =>
    intro tr em st inv _ _ _
    refine ⟨rfl, List.prefix_rfl, ?_⟩
    simpa [emittedOf] using inv
  | cons r R ih =>
    intro tr em st inv hn htr hf
    rw [List.map_cons, List.nodup_cons] at hn
    obtain ⟨h1, h2⟩ := inv.remove (htr r (by simp)) (hf r (by simp))
    obtain ⟨h3, h4, h5⟩ := ih h2 hn.2 (fun q hq => by
      rw [if_neg]
      · exact htr q (List.mem_cons_of_mem _ hq)
      · intro he; exact hn.1 (he ▸ List.mem_map_of_mem hq)) (fun q hq => hf q (List.mem_cons_of_mem _ hq))
    refine ⟨h3.trans h1, List.IsPrefix.trans ?_ h4, ?_⟩
    · unfold TagState.remove
      split
      · exact List.prefix_append _ _
      · exact List.prefix_rfl
    · rw [List.foldl_cons]
      have e1 : em ++ emittedOf (r :: R) = em ++ emittedOf [r] ++ emittedOf R := by
        rw [List.append_assoc]; congr 1
        unfold emittedOf
        rw [← List.filterMap_append]; rfl
      have e2 : (fun k => if (r :: R).any (fun r => r.id == k) then none else tr k) = fun k => if R.any (fun r => r.id == k) then none else if k = r.id then none else tr k := by
        funext k
        by_cases hk : k = r.id
        · simp [hk]
        · have : (r.id == k) = false := by simpa using Ne.symm hk
          rw [List.any_cons, this, Bool.false_or, if_neg hk]
      rw [e1, e2]
      exact h5

end Verif
