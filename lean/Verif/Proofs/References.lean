import Verif.Model.References
import Verif.Proofs.Observe
import Verif.Proofs.World
import Verif.Proofs.Tick

/-!
# The collector with pointers does what the collector does
-/

namespace Verif.Ref

open Std

/-- The slice is within an array of its capacity. -/
def Good (h : Heap) (s : Slice) : Prop := s.len ≤ s.cap ∧ (s.cap ≠ 0 → ∃ a, h[s.arr]? = some a ∧ a.length = s.cap)

/-- What an operation on a slice may do: it changes no other array, and the new slice has the old array or a new one. -/
structure Moved (h : Heap) (s : Slice) (h' : Heap) (s' : Slice) : Prop where
  good : Good h' s'
  longer : h.length ≤ h'.length
  frame : ∀ a, a < h.length → (s.cap ≠ 0 → a ≠ s.arr) → h'[a]? = h[a]?
  arr : s'.cap ≠ 0 → (s.cap ≠ 0 ∧ s'.arr = s.arr) ∨ h.length ≤ s'.arr

theorem Moved.refl {h : Heap} {s : Slice} (hg : Good h s) : Moved h s h s := ⟨hg, Nat.le_refl _, fun _ _ _ => rfl, fun h => Or.inl ⟨h, rfl⟩⟩

theorem Moved.trans {h h' h'' : Heap} {s s' s'' : Slice} (a : Moved h s h' s') (b : Moved h' s' h'' s'') : Moved h s h'' s'' := by
  refine ⟨b.good, Nat.le_trans a.longer b.longer, fun i hi hs => ?_, fun hc => ?_⟩
  · rw [b.frame i (Nat.lt_of_lt_of_le hi a.longer) (fun hc => ?_), a.frame i hi hs]
    rcases a.arr hc with ⟨hc', e⟩ | h
    · rw [e]; exact hs hc'
    · omega
  · rcases b.arr hc with ⟨hc', e⟩ | h
    · rcases a.arr hc' with ⟨hc'', e'⟩ | h
      · exact Or.inl ⟨hc'', e.trans e'⟩
      · right; rw [e]; exact h
    · exact Or.inr (Nat.le_trans a.longer h)

theorem read_length {h : Heap} {s : Slice} (hg : Good h s) : (s.read h).length = s.len := by
  unfold Slice.read
  rw [List.length_take]
  by_cases hc : s.cap = 0
  · have := hg.1; omega
  · obtain ⟨a, ha, hl⟩ := hg.2 hc
    rw [ha, Option.getD_some, hl]
    exact Nat.min_eq_left hg.1

theorem array_of {h : Heap} {s : Slice} (hg : Good h s) {i : Nat} (hi : i < s.len) : s.cap ≠ 0 ∧ ∃ a, h[s.arr]? = some a ∧ a.length = s.cap ∧ i < a.length ∧ s.read h = a.take s.len := by
  have hc : s.cap ≠ 0 := by have := hg.1; omega
  obtain ⟨a, ha, hl⟩ := hg.2 hc
  exact ⟨hc, a, ha, hl, by have := hg.1; omega, by unfold Slice.read; rw [ha]; rfl⟩

theorem load_eq {h : Heap} {s : Slice} (hg : Good h s) {i : Nat} (hi : i < s.len) : load h (s.arr, i) = (s.read h)[i]? := by
  obtain ⟨_, a, ha, _, _, hr⟩ := array_of hg hi
  unfold load
  rw [hr, List.getElem?_take_of_lt hi, ha]
  rfl

/-- Replacing the array of a slice. -/
theorem moved_set {h : Heap} {s : Slice} {a b : List Span} (hc : s.cap ≠ 0) (ha : h[s.arr]? = some a) (hb : b.length = s.cap) (hl : s.len ≤ s.cap) :
    Moved h s (h.set s.arr b) s ∧ s.read (h.set s.arr b) = b.take s.len := by
  obtain ⟨hlt, _⟩ := List.getElem?_eq_some_iff.mp ha
  have hs : (h.set s.arr b)[s.arr]? = some b := by rw [List.getElem?_set_self hlt]
  refine ⟨⟨⟨hl, fun _ => ⟨b, hs, hb⟩⟩, by rw [List.length_set]; exact Nat.le_refl _, fun i _ hi => ?_, fun h => Or.inl ⟨h, rfl⟩⟩, by unfold Slice.read; rw [hs]; rfl⟩
  rw [List.getElem?_set_ne (Ne.symm (hi hc))]

theorem store_eq {h : Heap} {s : Slice} (hg : Good h s) {i : Nat} (hi : i < s.len) (x : Span) :
    ∃ h', store h (s.arr, i) x = some h' ∧ s.read h' = (s.read h).set i x ∧ Moved h s h' s := by
  obtain ⟨hc, a, ha, hl, hia, hr⟩ := array_of hg hi
  obtain ⟨hm, hr'⟩ := moved_set (b := a.set i x) hc ha (by rw [List.length_set, hl]) hg.1
  refine ⟨h.set s.arr (a.set i x), ?_, ?_, hm⟩
  · unfold store
    dsimp only
    rw [ha]
    dsimp only
    rw [if_pos hia]
  · rw [hr', hr, List.take_set]

theorem grow_eq {h : Heap} {s : Slice} (hg : Good h s) (extra : Nat) :
    ∃ h' s', grow extra h s = some (h', s') ∧ s'.len = s.len + 1 ∧ s'.read h' = s.read h ++ [({} : Span)] ∧ Moved h s h' s' := by
  unfold grow
  split
  · next hlt =>
    have hc : s.cap ≠ 0 := by omega
    obtain ⟨a, ha, hl⟩ := hg.2 hc
    have hm := moved_set (s := { s with len := s.len + 1 }) (b := a.set s.len ({} : Span)) hc ha (by rw [List.length_set]; exact hl) hlt
    refine ⟨h.set s.arr (a.set s.len {}), { s with len := s.len + 1 }, ?_, rfl, ?_, ?_⟩
    · unfold store
      dsimp only
      rw [ha]
      dsimp only
      rw [if_pos (by omega)]
      rfl
    · rw [hm.2]
      unfold Slice.read
      rw [ha, Option.getD_some]
      show (a.set s.len {}).take (s.len + 1) = _
      rw [List.take_add_one, List.take_set_of_le (Nat.le_refl _), List.getElem?_set_self (by omega)]
      rfl
    · exact ⟨hm.1.good, hm.1.longer, hm.1.frame, fun h => Or.inl ⟨h, rfl⟩⟩
  · have hlen := read_length hg
    have ha : (h ++ [s.read h ++ List.replicate (extra + 1) ({} : Span)])[h.length]? = some (s.read h ++ List.replicate (extra + 1) ({} : Span)) := by
      rw [List.getElem?_append_right (Nat.le_refl _), Nat.sub_self]; rfl
    refine ⟨_, _, rfl, rfl, ?_, ⟨⟨Nat.le_add_right _ _, fun _ => ⟨_, ha, ?_⟩⟩, ?_, ?_, fun _ => Or.inr (Nat.le_refl _)⟩⟩
    · show ((h ++ _)[h.length]?.getD []).take (s.len + 1) = _
      rw [ha, Option.getD_some, List.take_append, hlen, List.take_of_length_le (by omega), Nat.add_sub_cancel_left, List.take_replicate]
      simp
    · rw [List.length_append, List.length_replicate, hlen]; show s.len + (extra + 1) = s.len + 1 + extra; omega
    · rw [List.length_append]; omega
    · intro i hi _
      rw [List.getElem?_append_left hi]

theorem copyWithin_length (l : List Span) (d s : Nat) (hd : d ≤ l.length) : (copyWithin l d s).length = l.length := by
  unfold copyWithin
  simp only [List.length_append, List.length_take, List.length_drop]
  omega

theorem shift_eq {h : Heap} {s : Slice} (hg : Good h s) {idx : Nat} (hi : idx + 1 ≤ s.len) :
    ∃ h', shift h s idx = some h' ∧ s.read h' = copyWithin (s.read h) (idx + 1) idx ∧ Moved h s h' s := by
  obtain ⟨hc, a, ha, hl, _, hr⟩ := array_of hg hi
  have hlen := read_length hg
  rw [hr] at hlen
  have hcl := copyWithin_length (a.take s.len) (idx + 1) idx (by omega)
  obtain ⟨hm, hr'⟩ := moved_set (b := copyWithin (a.take s.len) (idx + 1) idx ++ a.drop s.len) hc ha
    (by rw [List.length_append, hcl, hlen, List.length_drop]; have := hg.1; omega) hg.1
  refine ⟨_, ?_, ?_, hm⟩
  · unfold shift
    rw [if_pos hi, ha]
  · rw [hr', hr, List.take_append, hcl, hlen, Nat.sub_self, List.take_zero, List.append_nil, List.take_of_length_le (by omega)]

theorem insertSpan_eq {h : Heap} {s : Slice} (hg : Good h s) (extra : Nat) (x : Span) :
    ∃ h' s', insertSpan extra h s x = some (h', s') ∧ s'.read h' = spansAppend (s.read h) x ∧ Moved h s h' s' := by
  have hlen := read_length hg
  have hidx : sortSearch s.len (idAtLeast (s.read h) x.id) ≤ s.len := sortSearchLoop_le _ _ _ (Nat.zero_le _)
  obtain ⟨h1, s1, e1, l1, r1, m1⟩ := grow_eq hg extra
  obtain ⟨h2, e2, r2, m2⟩ := shift_eq (idx := sortSearch s.len (idAtLeast (s.read h) x.id)) m1.good (by omega)
  obtain ⟨h3, e3, r3, m3⟩ := store_eq (i := sortSearch s.len (idAtLeast (s.read h) x.id)) m2.good (by omega) x
  refine ⟨h3, s1, ?_, ?_, (m1.trans m2).trans m3⟩
  · unfold insertSpan
    dsimp only
    rw [e1]
    dsimp only
    rw [e2]
    dsimp only
    rw [e3]
    rfl
  · rw [r3, r2, r1]
    unfold spansAppend
    rw [hlen]

/-- The tree in memory is the given tree. -/
structure Holds (h : Heap) (t : PTree) (v : Tree) : Prop where
  id : t.traceId = v.traceId
  spans : t.slice.read h = v.spans
  started : t.started = v.started
  updated : t.updated = v.updated
  nodeCount : t.nodeCount = v.nodeCount
  good : Good h t.slice

theorem getSpanRef_lt {l : List Span} {id : Id} {i : Nat} (h : getSpanRef l id = some i) : i < l.length := by
  unfold getSpanRef at h
  dsimp only at h
  split at h
  · next s hs =>
    split at h
    · cases h
      exact (List.getElem?_eq_some_iff.mp hs).1
    · cases h
  · cases h

theorem modify_eq_set {l : List Span} {i : Nat} (h : i < l.length) (f : Span → Span) : l.modify i f = l.set i (f l[i]) := by
  apply List.ext_getElem?
  intro k
  rw [List.getElem?_modify, List.getElem?_set]
  by_cases hk : i = k
  · subst hk
    simp [h]
  · simp [hk]

theorem addSpan_eq {h : Heap} {t : PTree} {v : Tree} (hh : Holds h t v) (extra : Nat) (now : Time) (new : Span) :
    ∃ h' t', addSpan extra h t now new = some (h', t') ∧ Holds h' t' (v.addSpan now new) ∧ Moved h t.slice h' t'.slice := by
  have hg := hh.good
  unfold addSpan getRef Tree.addSpan
  dsimp only
  rw [hh.spans]
  cases hr : getSpanRef v.spans new.id with
  | none =>
    obtain ⟨h', s', e, r, m⟩ := insertSpan_eq hg extra new
    rw [e]
    exact ⟨h', _, rfl, ⟨hh.id, by rw [← hh.spans]; exact r, hh.started, rfl, by show t.nodeCount + 1 = v.nodeCount + 1; rw [hh.nodeCount], m.good⟩, m⟩
  | some i =>
    have hi : i < t.slice.len := by rw [← read_length hg, hh.spans]; exact getSpanRef_lt hr
    have hi' : i < v.spans.length := getSpanRef_lt hr
    have hl : load h (t.slice.arr, i) = some v.spans[i] := by rw [load_eq hg hi, hh.spans]; exact List.getElem?_eq_getElem hi'
    have first : ∃ h1, adopt h (t.slice.arr, i) new.parent = some h1 ∧
        t.slice.read h1 = v.spans.set i (if idIsUnknown v.spans[i].parent then { v.spans[i] with parent := new.parent } else v.spans[i]) ∧ Moved h t.slice h1 t.slice := by
      unfold adopt
      rw [hl, Option.bind_some]
      split
      · obtain ⟨h1, e, r, m⟩ := store_eq hg hi { v.spans[i] with parent := new.parent }
        exact ⟨h1, e, by rw [r, hh.spans], m⟩
      · exact ⟨h, rfl, by rw [hh.spans, List.set_getElem_self], Moved.refl hg⟩
    obtain ⟨h1, e1, r1, m1⟩ := first
    have hl1 : load h1 (t.slice.arr, i) = some (if idIsUnknown v.spans[i].parent then { v.spans[i] with parent := new.parent } else v.spans[i]) := by
      rw [load_eq m1.good hi, r1, List.getElem?_set_self hi']
    obtain ⟨h2, e2, r2, m2⟩ := store_eq m1.good hi (addToExisting v.spans[i] new)
    refine ⟨h2, { t with updated := now }, ?_, ⟨hh.id, ?_, hh.started, rfl, hh.nodeCount, m2.good⟩, m1.trans m2⟩
    · show (adopt h (t.slice.arr, i) new.parent).bind _ = _
      rw [e1, Option.bind_some]
      unfold merge
      rw [hl1, Option.bind_some]
      show (store h1 (t.slice.arr, i) (addToExisting v.spans[i] new)).map _ = _
      rw [e2]
      rfl
    · show t.slice.read h2 = v.spans.modify i (addToExisting · new)
      rw [r2, r1, List.set_set, modify_eq_set hi']

theorem correctNode_some (n : Span) (ts : Timestamp) (offset : Duration) :
    correctNode n (some ts) offset =
      if toMillis (correctNode n none offset).1.timestamp < year2020Millis then ({ (correctNode n none offset).1 with timestamp := ts }, (correctNode n none offset).2)
      else correctNode n none offset := rfl

theorem repair_eq {h : Heap} {s : Slice} (hg : Good h s) {node : Nat} (hn : node < s.len) {parent : Option Nat} (hp : ∀ p, parent = some p → p < s.len ∧ p ≠ node)
    {l : List Span} {n : Span} (hl : l[node]? = some n) {offset : Duration} (hr : s.read h = l.set node (correctNode n none offset).1) :
    ∃ h', repair h (s.arr, node) (parent.map fun i => (s.arr, i)) = some h' ∧ Moved h s h' s ∧
      s.read h' = l.set node (correctNode n (parent.bind fun p => (l[p]?).map (·.timestamp)) offset).1 := by
  have hnl := (List.getElem?_eq_some_iff.mp hl).1
  cases parent with
  | none => exact ⟨h, rfl, Moved.refl hg, hr⟩
  | some p =>
    obtain ⟨hp1, hp2⟩ := hp p rfl
    have hlen := read_length hg
    rw [hr, List.length_set] at hlen
    have hload : load h (s.arr, node) = some (correctNode n none offset).1 := by rw [load_eq hg hn, hr, List.getElem?_set_self hnl]
    have hpl : p < l.length := by omega
    have hloadp : load h (s.arr, p) = some l[p] := by rw [load_eq hg hp1, hr, List.getElem?_set_ne (Ne.symm hp2), List.getElem?_eq_getElem hpl]
    have hb : ((some p).bind fun p => (l[p]?).map (·.timestamp)) = some l[p].timestamp := by rw [Option.bind_some, List.getElem?_eq_getElem hpl]; rfl
    rw [hb, correctNode_some]
    show ∃ h', (load h (s.arr, node)).bind _ = some h' ∧ _
    rw [hload, Option.bind_some]
    dsimp only
    by_cases hm : toMillis (correctNode n none offset).1.timestamp < year2020Millis
    · rw [if_pos hm, if_pos hm, hloadp, Option.bind_some]
      obtain ⟨h', e, r, m⟩ := store_eq hg hn { (correctNode n none offset).1 with timestamp := l[p].timestamp }
      exact ⟨h', e, m, by rw [r, hr, List.set_set]⟩
    · rw [if_neg hm, if_neg hm]
      exact ⟨h, rfl, Moved.refl hg, hr⟩

theorem correctNode_id (n : Span) (p : Option Timestamp) (offset : Duration) : (correctNode n p offset).1.id = n.id ∧ (correctNode n p offset).2 = (correctNode n none offset).2 := by
  unfold correctNode
  dsimp only
  cases p <;> (repeat' split) <;> exact ⟨rfl, rfl⟩

theorem mem_childrenOf' {l : List Span} {id : Id} {i : Nat} (h : i ∈ childrenOf l id) : ∃ s, l[i]? = some s ∧ s.parent = id ∧ s.isRoot = false := by
  unfold childrenOf at h
  obtain ⟨_, h⟩ := List.mem_filter.mp h
  cases hs : l[i]? with
  | none => rw [hs] at h; cases h
  | some s =>
    rw [hs] at h
    simp at h
    exact ⟨s, rfl, h.1, h.2⟩

/-- `correctTreeTimings` through pointers changes the spans as `correctTree` does. -/
theorem correct_eq (s : Slice) (fuel : Nat) : ∀ (h : Heap) (st st' : CorrectState) (node : Nat) (parent : Option Nat) (offset : Duration),
    Good h s → s.read h = st.spans → node < s.len → (∀ p, parent = some p → p < s.len ∧ p ≠ node) → correctTree fuel st node parent offset = some st' →
    ∃ h', correct s fuel h (s.arr, node) (parent.map fun i => (s.arr, i)) offset = some h' ∧ Moved h s h' s ∧ s.read h' = st'.spans := by
  induction fuel with
  | zero => intro h st st' node parent offset _ _ _ _ hc; cases hc
  | succ fuel ih =>
    intro h st st' node parent offset hg hr hn hp hc
    have hlen := read_length hg
    rw [hr] at hlen
    have hnl : node < st.spans.length := by omega
    have hload : load h (s.arr, node) = some st.spans[node] := by rw [load_eq hg hn, hr, List.getElem?_eq_getElem hnl]
    obtain ⟨h1, e1, r1, m1⟩ := store_eq hg hn (correctNode st.spans[node] none offset).1
    rw [hr] at r1
    obtain ⟨h2, e2, m2, r2⟩ := repair_eq m1.good hn hp (List.getElem?_eq_getElem hnl) r1
    unfold correct
    rw [hload, Option.bind_some]
    dsimp only
    rw [e1, Option.bind_some, e2, Option.bind_some]
    unfold correctTree at hc
    rw [List.getElem?_eq_getElem hnl] at hc
    dsimp only at hc
    generalize hrr : correctNode st.spans[node] (parent.bind fun p => (st.spans[p]?).map (·.timestamp)) offset = r at hc r2
    have hid : r.1.id = st.spans[node].id ∧ r.2 = (correctNode st.spans[node] none offset).2 := by rw [← hrr]; exact correctNode_id _ _ _
    have hload2 : load h2 (s.arr, node) = some r.1 := by rw [load_eq m2.good hn, r2, List.getElem?_set_self hnl]
    rw [hload2, Option.bind_some, ← hid.2]
    unfold childRefs
    rw [r2]
    have hch : ∀ c ∈ childrenOf (st.spans.set node r.1) r.1.id, c < s.len ∧ node ≠ c := by
      intro c hc
      obtain ⟨x, hx, hx1, hx2⟩ := mem_childrenOf' hc
      have hlt := (List.getElem?_eq_some_iff.mp hx).1
      rw [List.length_set] at hlt
      refine ⟨by omega, fun e => ?_⟩
      subst e
      rw [List.getElem?_set_self hnl] at hx
      cases hx
      unfold Span.isRoot at hx2
      simp [hx1] at hx2
    have hm : Moved h s h2 s := m1.trans m2
    have hst : s.read h2 = ({ spans := st.spans.set node r.1, visits := node :: st.visits } : CorrectState).spans := r2
    generalize ({ spans := st.spans.set node r.1, visits := node :: st.visits } : CorrectState) = st2 at hc hst
    clear e2 r2 hload2 m2
    generalize childrenOf (st.spans.set node r.1) r.1.id = cs at hch hc
    induction cs generalizing h2 st2 with
    | nil => cases hc; exact ⟨h2, rfl, hm, hst⟩
    | cons c cs ihc =>
      rw [List.foldlM_cons] at hc
      cases hx : correctTree fuel st2 c (some node) r.2 with
      | none => rw [hx] at hc; cases hc
      | some st3 =>
        rw [hx] at hc
        obtain ⟨h3, e3, m3, r3⟩ := ih h2 st2 st3 c (some node) r.2 hm.good hst (hch c List.mem_cons_self).1
          (fun p hp' => by cases hp'; exact ⟨hn, (hch c List.mem_cons_self).2⟩) hx
        obtain ⟨h4, e4, m4, r4⟩ := ihc h3 (hm.trans m3) st3 r3 (fun c' h => hch c' (List.mem_cons_of_mem _ h)) hc
        refine ⟨h4, ?_, m4, r4⟩
        rw [List.map_cons, List.foldlM_cons]
        have e3' : correct s fuel h2 (s.arr, c) (some (s.arr, node)) r.2 = some h3 := e3
        rw [e3']
        exact e4

theorem roots_lt {l : List Span} {i : Nat} (h : i ∈ roots l) : i < l.length := by
  unfold roots at h
  exact List.mem_range.mp (List.mem_filter.mp h).1

theorem mapM_load {h : Heap} {s : Slice} (hg : Good h s) (is : List Nat) (hi : ∀ i ∈ is, i < s.len) : (is.map fun i => (s.arr, i)).mapM (load h) = some (pick (s.read h) is) := by
  induction is with
  | nil => rfl
  | cons i is ih =>
    have hlt := hi i List.mem_cons_self
    have hl : i < (s.read h).length := by rw [read_length hg]; exact hlt
    rw [List.map_cons, List.mapM_cons, load_eq hg hlt, ih fun j hj => hi j (List.mem_cons_of_mem _ hj), List.getElem?_eq_getElem hl]
    unfold pick
    rw [List.filterMap_cons, List.getElem?_eq_getElem hl]
    rfl

theorem fakeRoot_eq {h : Heap} {t : PTree} {v : Tree} (hh : Holds h t v) (extra : Nat) (now : Time) :
    ∃ h' t', fakeRoot extra now h t = some (h', t', rootRefs h' t'.slice) ∧ Holds h' t' (withFakeRoot now v) ∧ Moved h t.slice h' t'.slice := by
  unfold fakeRoot rootRefs withFakeRoot
  dsimp only
  rw [mapM_load hh.good _ (fun i hi => by rw [← read_length hh.good]; exact roots_lt hi), Option.bind_some, hh.spans]
  generalize pick v.spans (roots v.spans) = l
  match l with
  | [] => exact ⟨h, t, by rw [hh.spans], hh, Moved.refl hh.good⟩
  | [_] => exact ⟨h, t, by rw [hh.spans], hh, Moved.refl hh.good⟩
  | first :: second :: rest =>
    dsimp only
    by_cases ha : allTheSameParent (first :: second :: rest) = true
    · rw [if_pos ha, if_pos ha]
      obtain ⟨h', t', e, hh', m⟩ := addSpan_eq hh extra now (createFakeRoot first (second :: rest))
      exact ⟨h', t', by rw [e]; rfl, hh', m⟩
    · rw [if_neg ha, if_neg ha]
      exact ⟨h, t, by rw [hh.spans], hh, Moved.refl hh.good⟩

/-- What happens to a tree in memory is what happens to the tree; other arrays are not touched, and what is sent is in the array of the tree or in a new one. -/
theorem finish_eq {h : Heap} {t : PTree} {v : Tree} (hh : Holds h t v) (extra : Nat) (now : Time) (hs : finishTree now v ≠ .stuck) :
    ∃ h' o s', finish extra now h t = some (h', o) ∧ Moved h t.slice h' s' ∧
      match o with
      | some s => s = s' ∧ s.cap ≠ 0 ∧ finishTree now v = .emitted (s.read h')
      | none => finishTree now v = .noRoot := by
  obtain ⟨h1, t1, e1, hh1, m1⟩ := fakeRoot_eq hh extra now
  unfold finish
  rw [e1, Option.bind_some]
  dsimp only
  unfold finishTree at hs ⊢
  dsimp only at hs ⊢
  unfold rootRefs
  rw [hh1.spans]
  have hlen := read_length hh1.good
  rw [hh1.spans] at hlen
  cases hr : roots (withFakeRoot now v).spans with
  | nil => exact ⟨h1, none, t1.slice, rfl, m1, rfl⟩
  | cons r rs =>
    cases rs with
    | cons r' rs => exact ⟨h1, none, t1.slice, rfl, m1, rfl⟩
    | nil =>
      have hrl : r < t1.slice.len := by rw [← hlen]; exact roots_lt (by rw [hr]; exact List.mem_singleton.mpr rfl)
      rw [hr] at hs
      dsimp only at hs ⊢
      cases hc : correctTree (withFakeRoot now v).spans.length { spans := (withFakeRoot now v).spans } r none 0 with
      | none => rw [hc] at hs; exact absurd rfl hs
      | some st =>
        obtain ⟨h2, e2, m2, r2⟩ := correct_eq t1.slice _ h1 _ st r none 0 hh1.good hh1.spans hrl (fun p hp => by cases hp) hc
        rw [hlen] at e2
        refine ⟨h2, some t1.slice, t1.slice, ?_, m1.trans m2, rfl, ?_, ?_⟩
        · show (correct t1.slice t1.slice.len h1 (t1.slice.arr, r) none 0).map _ = _
          have e2' : correct t1.slice t1.slice.len h1 (t1.slice.arr, r) none 0 = some h2 := e2
          rw [e2']
          rfl
        · have := hh1.good.1; omega
        · rw [r2]

end Verif.Ref
