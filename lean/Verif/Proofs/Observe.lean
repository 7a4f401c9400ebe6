import Verif.Spec.Observe
import Verif.Proofs.Tree
import Verif.Proofs.Tick

/-!
# The collector does not look at names, services, tags and times
-/

namespace Verif

open Spec Std

/-! ## Lists that are related one by one -/

section
variable {α β γ δ : Type} {R : α → β → Prop}

theorem Spec.Pairwise₂.len {l : List α} {l' : List β} (h : Pairwise₂ R l l') : l.length = l'.length := by
  induction h with
  | nil => rfl
  | cons _ _ ih => simp [ih]

theorem Spec.Pairwise₂.app {l m : List α} {l' m' : List β} (h : Pairwise₂ R l l') (k : Pairwise₂ R m m') : Pairwise₂ R (l ++ m) (l' ++ m') := by
  induction h with
  | nil => exact k
  | cons hr _ ih => exact .cons hr ih

theorem Spec.Pairwise₂.tak {l : List α} {l' : List β} (h : Pairwise₂ R l l') (n : Nat) : Pairwise₂ R (l.take n) (l'.take n) := by
  induction h generalizing n with
  | nil => simp only [List.take_nil]; exact .nil
  | cons hr _ ih => cases n with
    | zero => exact .nil
    | succ n => exact .cons hr (ih n)

theorem Spec.Pairwise₂.drp {l : List α} {l' : List β} (h : Pairwise₂ R l l') (n : Nat) : Pairwise₂ R (l.drop n) (l'.drop n) := by
  induction h generalizing n with
  | nil => simp only [List.drop_nil]; exact .nil
  | cons hr ht ih => cases n with
    | zero => exact .cons hr ht
    | succ n => exact ih n

theorem Spec.Pairwise₂.sett {l : List α} {l' : List β} (h : Pairwise₂ R l l') (n : Nat) {a : α} {b : β} (hr : R a b) : Pairwise₂ R (l.set n a) (l'.set n b) := by
  induction h generalizing n with
  | nil => exact .nil
  | cons hr' ht ih => cases n with
    | zero => exact .cons hr ht
    | succ n => exact .cons hr' (ih n)

theorem Spec.Pairwise₂.modif {l : List α} {l' : List β} (h : Pairwise₂ R l l') (n : Nat) {f : α → α} {g : β → β} (hr : ∀ a b, R a b → R (f a) (g b)) :
    Pairwise₂ R (l.modify n f) (l'.modify n g) := by
  induction h generalizing n with
  | nil => simp only [List.modify_nil]; exact .nil
  | cons hr' ht ih => cases n with
    | zero => exact .cons (hr _ _ hr') ht
    | succ n => exact .cons hr' (ih n)

theorem Spec.Pairwise₂.at {l : List α} {l' : List β} (h : Pairwise₂ R l l') (n : Nat) :
    (l[n]? = none ∧ l'[n]? = none) ∨ ∃ a b, l[n]? = some a ∧ l'[n]? = some b ∧ R a b := by
  induction h generalizing n with
  | nil => simp
  | cons hr _ ih => cases n with
    | zero => exact .inr ⟨_, _, rfl, rfl, hr⟩
    | succ n => simpa using ih n

theorem Spec.Pairwise₂.mapEq {l : List α} {l' : List β} (h : Pairwise₂ R l l') {f : α → γ} {g : β → γ} (hr : ∀ a b, R a b → f a = g b) : l.map f = l'.map g := by
  induction h with
  | nil => rfl
  | cons h _ ih => rw [List.map_cons, List.map_cons, hr _ _ h, ih]

theorem Spec.Pairwise₂.ofMap {l : List α} {f : α → β} (h : ∀ a ∈ l, R a (f a)) : Pairwise₂ R l (l.map f) := by
  induction l with
  | nil => exact .nil
  | cons a l ih => exact .cons (h a List.mem_cons_self) (ih fun b hb => h b (List.mem_cons_of_mem _ hb))

theorem Spec.Pairwise₂.fold {l : List α} {l' : List β} (h : Pairwise₂ R l l') {S : γ → δ → Prop} {f : γ → α → γ} {g : δ → β → δ}
    (hr : ∀ c d a b, S c d → R a b → S (f c a) (g d b)) {c : γ} {d : δ} (hs : S c d) : S (l.foldl f c) (l'.foldl g d) := by
  induction h generalizing c d with
  | nil => exact hs
  | cons h _ ih => exact ih (hr _ _ _ _ hs h)

end

/-! ## Spans -/

section
variable {o : Observer}

theorem Spec.SameTo.rfl' (s : Span) : SameTo o s s := ⟨rfl, rfl, rfl, Iff.rfl, fun _ => rfl, fun _ => rfl, fun _ => rfl, fun _ => rfl, fun _ => rfl, fun _ _ => rfl⟩

theorem Spec.SameTo.isRoot {s t : Span} (h : SameTo o s t) : s.isRoot = t.isRoot := by unfold Span.isRoot; rw [h.id, h.parent]

theorem server_later {s : Span} (h : IsServer s) {a b : Timestamp} : 0 < firstValid s.timings.SR a ∨ 0 < firstValid s.timings.SS b := by
  unfold firstValid
  rcases h with h | h
  · exact .inl (by rw [if_pos h]; exact h)
  · exact .inr (by rw [if_pos h]; exact h)

theorem Spec.SameTo.merge {s t s' t' : Span} (h : SameTo o s t) (h' : SameTo o s' t') : SameTo o (mergeSpans s s') (mergeSpans t t') := by
  have hi : IsServer s' ↔ IsServer t' := h'.server
  refine ⟨?_, ?_, ?_, ?_, ?_, ?_, ?_, ?_, ?_, ?_⟩
  · rw [mergeSpans_id, mergeSpans_id, h.id]
  · rw [mergeSpans_parent, mergeSpans_parent, h.parent]
  · rw [mergeSpans_trace, mergeSpans_trace, h.trace]
  · rw [mergeSpans_timings, mergeSpans_timings]
    by_cases hs : IsServer t'
    · rw [if_pos hs, if_pos (hi.mpr hs)]
      exact ⟨fun _ => server_later hs, fun _ => server_later (hi.mpr hs)⟩
    · rw [if_neg hs, if_neg (fun x => hs (hi.mp x))]
      exact h.server
  · intro ho; rw [mergeSpans_timestamp, mergeSpans_timestamp, h.timestamp ho]
  · intro ho; rw [mergeSpans_duration, mergeSpans_duration, h.duration ho]
  · intro ho
    rw [mergeSpans_timings, mergeSpans_timings, h.timings ho, h'.timings ho]
    by_cases hs : IsServer t'
    · rw [if_pos hs, if_pos (hi.mpr hs)]
    · rw [if_neg hs, if_neg (fun x => hs (hi.mp x))]
  · intro ho
    rw [mergeSpans_name, mergeSpans_name, h.name ho, h'.name ho]
    by_cases hs : IsServer t'
    · rw [if_pos hs, if_pos (hi.mpr hs)]
    · rw [if_neg hs, if_neg (fun x => hs (hi.mp x))]
  · intro ho
    rw [mergeSpans_service, mergeSpans_service, h.service ho, h'.service ho]
    by_cases hs : IsServer t'
    · rw [if_pos hs, if_pos (hi.mpr hs)]
    · rw [if_neg hs, if_neg (fun x => hs (hi.mp x))]
  · intro key hk
    rw [mergeSpans_tags, mergeSpans_tags]
    by_cases hs : IsServer t'
    · rw [if_pos hs, if_pos (hi.mpr hs), ExtTreeMap.getElem?_union, ExtTreeMap.getElem?_union, h.tag key hk, h'.tag key hk]
    · rw [if_neg hs, if_neg (fun x => hs (hi.mp x)), ExtTreeMap.getElem?_union, ExtTreeMap.getElem?_union, h.tag key hk, h'.tag key hk]

theorem Spec.SameTo.addToExisting {s t s' t' : Span} (h : SameTo o s t) (h' : SameTo o s' t') : SameTo o (addToExisting s s') (addToExisting t t') := by
  unfold Verif.addToExisting
  refine SameTo.merge ?_ h'
  rw [h.parent]
  split
  · exact { h with parent := h'.parent }
  · exact h

theorem sortSearchLoop_le (f : Nat → Bool) (i j : Nat) (hij : i ≤ j) : sortSearchLoop f i j ≤ j := by
  induction hd : j - i using Nat.strongRecOn generalizing i j with
  | ind d ih =>
    rw [sortSearchLoop]
    split
    · dsimp only
      split
      · exact ih _ (by omega) _ _ (by omega) rfl
      · have := ih _ (by omega) i ((i + j) / 2) (by omega) rfl
        omega
    · omega

theorem insertPos_le (l : List Span) (k : Id) : insertPos l k ≤ l.length := sortSearchLoop_le _ _ _ (by omega)

/-- A relation that says the same about the ids and that is kept when spans are merged. -/
structure Keeps (R : Span → Span → Prop) : Prop where
  id : ∀ {s t : Span}, R s t → s.id = t.id
  add : ∀ {s t s' t' : Span}, R s t → R s' t' → R (addToExisting s s') (addToExisting t t')

theorem keeps_sameTo (o : Observer) : Keeps (SameTo o) := ⟨fun h => h.id, fun h h' => h.addToExisting h'⟩

section
variable {R : Span → Span → Prop} (K : Keeps R)
include K

theorem same_idAtLeast {l l' : List Span} (h : Pairwise₂ R l l') (k : Id) : idAtLeast l k = idAtLeast l' k := by
  funext i
  unfold idAtLeast
  rcases h.at i with ⟨a, b⟩ | ⟨s, t, a, b, hr⟩
  · rw [a, b]
  · rw [a, b]; simp only [K.id hr]

theorem same_getSpanRef {l l' : List Span} (h : Pairwise₂ R l l') (k : Id) : getSpanRef l k = getSpanRef l' k := by
  unfold getSpanRef
  rw [h.len, same_idAtLeast K h]
  dsimp only
  rcases h.at (sortSearch l'.length (idAtLeast l' k)) with ⟨a, b⟩ | ⟨s, t, a, b, hr⟩
  · rw [a, b]
  · rw [a, b]; simp only [K.id hr]

theorem same_spansAppend {l l' : List Span} (h : Pairwise₂ R l l') {s t : Span} (hs : R s t) :
    Pairwise₂ R (spansAppend l s) (spansAppend l' t) := by
  rw [spansAppend_eq s (insertPos_le _ _), spansAppend_eq t (insertPos_le _ _)]
  unfold insertPos
  rw [h.len, same_idAtLeast K h, K.id hs]
  exact (h.tak _).app (.cons hs (h.drp _))

theorem Spec.SameTree.addSpan {t t' : Tree} (h : SameTree R t t') (now : Time) {s s' : Span} (hs : R s s') : SameTree R (t.addSpan now s) (t'.addSpan now s') := by
  have hm : Pairwise₂ R (t.members ++ [s]) (t'.members ++ [s']) := h.members.app (.cons hs .nil)
  unfold Tree.addSpan
  dsimp only
  rw [same_getSpanRef K h.spans, K.id hs]
  split
  · exact ⟨h.traceId, same_spansAppend K h.spans hs, h.started, rfl, by show t.nodeCount + 1 = t'.nodeCount + 1; rw [h.nodeCount], hm⟩
  · exact ⟨h.traceId, h.spans.modif _ fun a b hab => K.add hab hs, h.started, rfl, h.nodeCount, hm⟩

end

theorem same_any {l l' : List Span} (h : Pairwise₂ (SameTo o) l l') (k : Id) : (l.any fun q => q.id == k) = l'.any fun q => q.id == k := by
  induction h with
  | nil => rfl
  | cons hr _ ih => rw [List.any_cons, List.any_cons, hr.id, ih]

theorem same_roots {l l' : List Span} (h : Pairwise₂ (SameTo o) l l') : roots l = roots l' := by
  unfold roots
  rw [h.len]
  congr 1
  funext i
  rcases h.at i with ⟨a, b⟩ | ⟨s, t, a, b, hr⟩
  · rw [a, b]
  · rw [a, b]
    dsimp only
    rw [hr.isRoot, same_any h, hr.parent]

theorem same_childrenOf {l l' : List Span} (h : Pairwise₂ (SameTo o) l l') (k : Id) : childrenOf l k = childrenOf l' k := by
  unfold childrenOf
  rw [h.len]
  congr 1
  funext i
  rcases h.at i with ⟨a, b⟩ | ⟨s, t, a, b, hr⟩
  · rw [a, b]
  · rw [a, b]
    dsimp only
    rw [hr.isRoot, hr.parent]

theorem same_pick {l l' : List Span} (h : Pairwise₂ (SameTo o) l l') (is : List Nat) : Pairwise₂ (SameTo o) (pick l is) (pick l' is) := by
  unfold pick
  induction is with
  | nil => exact .nil
  | cons i is ih =>
    rw [List.filterMap_cons, List.filterMap_cons]
    rcases h.at i with ⟨a, b⟩ | ⟨s, t, a, b, hr⟩
    · rw [a, b]; exact ih
    · rw [a, b]; exact .cons hr ih

theorem same_all {l l' : List Span} (h : Pairwise₂ (SameTo o) l l') (k : Id) : (l.all fun q => k == q.parent) = l'.all fun q => k == q.parent := by
  induction h with
  | nil => rfl
  | cons hr _ ih => rw [List.all_cons, List.all_cons, hr.parent, ih]

theorem same_allTheSameParent {l l' : List Span} (h : Pairwise₂ (SameTo o) l l') : allTheSameParent l = allTheSameParent l' := by
  cases h with
  | nil => rfl
  | cons hr ht =>
    unfold allTheSameParent
    dsimp only
    rw [hr.parent]
    exact same_all (.cons hr ht) _

theorem same_createFakeRoot {s t : Span} (hs : SameTo o s t) {l l' : List Span} (h : Pairwise₂ (SameTo o) l l') : SameTo o (createFakeRoot s l) (createFakeRoot t l') := by
  unfold createFakeRoot
  rw [hs.trace, hs.parent]
  have := fun ho : o.times => h.fold (S := fun (a b : Timestamp × Timestamp) => a = b)
    (f := fun b s => (if s.timestamp < b.1 then s.timestamp else b.1, if tsAdd s.timestamp s.duration > b.2 then tsAdd s.timestamp s.duration else b.2))
    (g := fun b s => (if s.timestamp < b.1 then s.timestamp else b.1, if tsAdd s.timestamp s.duration > b.2 then tsAdd s.timestamp s.duration else b.2))
    (by rintro c d a b rfl hab; rw [hab.timestamp ho, hab.duration ho]) (c := (s.timestamp, tsAdd s.timestamp s.duration)) (d := (t.timestamp, tsAdd t.timestamp t.duration))
    (by rw [hs.timestamp ho, hs.duration ho])
  dsimp only
  refine ⟨rfl, rfl, rfl, Iff.rfl, fun ho => ?_, fun ho => ?_, fun _ => rfl, fun _ => rfl, fun _ => rfl, fun _ _ => rfl⟩
  · dsimp only; rw [this ho]
  · dsimp only; rw [this ho]

theorem same_withFakeRoot {t t' : Tree} (h : SameTree (SameTo o) t t') (now : Time) : SameTree (SameTo o) (withFakeRoot now t) (withFakeRoot now t') := by
  unfold withFakeRoot
  have hp := same_pick h.spans (roots t.spans)
  rw [same_roots h.spans] at hp ⊢
  revert hp
  generalize pick t.spans (roots t'.spans) = l
  generalize pick t'.spans (roots t'.spans) = l'
  intro hp
  cases hp with
  | nil => exact h
  | cons h1 hp => cases hp with
    | nil => exact h
    | cons h2 hp =>
      dsimp only
      rw [same_allTheSameParent (.cons h1 (.cons h2 hp))]
      split
      · exact h.addSpan (keeps_sameTo o) _ (same_createFakeRoot h1 (.cons h2 hp))
      · exact h

theorem correctNode_fixed (s : Span) (p : Option Timestamp) (off : Duration) : (correctNode s p off).1.id = s.id ∧ (correctNode s p off).1.parent = s.parent ∧
    (correctNode s p off).1.trace = s.trace ∧ (correctNode s p off).1.timings = s.timings ∧ (correctNode s p off).1.name = s.name ∧
    (correctNode s p off).1.service = s.service ∧ (correctNode s p off).1.tags = s.tags := by
  unfold correctNode
  dsimp only
  cases p <;> dsimp only <;> (repeat' split) <;> exact ⟨rfl, rfl, rfl, rfl, rfl, rfl, rfl⟩

theorem correctNode_times {s t : Span} (h1 : s.timestamp = t.timestamp) (h2 : s.duration = t.duration) (h3 : s.timings = t.timings) (p : Option Timestamp) (off : Duration) :
    (correctNode s p off).1.timestamp = (correctNode t p off).1.timestamp ∧ (correctNode s p off).1.duration = (correctNode t p off).1.duration ∧
    (correctNode s p off).2 = (correctNode t p off).2 := by
  obtain ⟨id, parent, trace, name, service, ts, d, tags, ti⟩ := s
  obtain ⟨id', parent', trace', name', service', ts', d', tags', ti'⟩ := t
  dsimp only at h1 h2 h3
  subst h1 h2 h3
  unfold correctNode
  dsimp only
  cases p <;> dsimp only <;> (repeat' split) <;> (first | (exact ⟨rfl, rfl, rfl⟩) | (exfalso; simp_all))

theorem same_correctNode {s t : Span} (h : SameTo o s t) {p q : Option Timestamp} (hp : o.times → p = q) {off off' : Duration} (ho : o.times → off = off') :
    SameTo o (correctNode s p off).1 (correctNode t q off').1 ∧ (o.times → (correctNode s p off).2 = (correctNode t q off').2) := by
  obtain ⟨a1, a2, a3, a4, a5, a6, a7⟩ := correctNode_fixed s p off
  obtain ⟨b1, b2, b3, b4, b5, b6, b7⟩ := correctNode_fixed t q off'
  have k := fun x : o.times => correctNode_times (h.timestamp x) (h.duration x) (h.timings x) p off
  refine ⟨⟨?_, ?_, ?_, ?_, ?_, ?_, ?_, ?_, ?_, ?_⟩, ?_⟩
  · rw [a1, b1, h.id]
  · rw [a2, b2, h.parent]
  · rw [a3, b3, h.trace]
  · rw [a4, b4]; exact h.server
  · intro x; rw [(k x).1, hp x, ho x]
  · intro x; rw [(k x).2.1, hp x, ho x]
  · intro x; rw [a4, b4, h.timings x]
  · intro x; rw [a5, b5, h.name x]
  · intro x; rw [a6, b6, h.service x]
  · intro key x; rw [a7, b7, h.tag key x]
  · intro x; rw [(k x).2.2, hp x, ho x]

/-- Two corrections. -/
def SameState (o : Observer) : Option CorrectState → Option CorrectState → Prop
  | none, none => True
  | some s, some t => Pairwise₂ (SameTo o) s.spans t.spans
  | _, _ => False

theorem same_correctTree (fuel : Nat) : ∀ {s t : CorrectState}, Pairwise₂ (SameTo o) s.spans t.spans → ∀ (node : Nat) (parent : Option Nat) {off off' : Duration},
    (o.times → off = off') → SameState o (correctTree fuel s node parent off) (correctTree fuel t node parent off') := by
  induction fuel with
  | zero => intro s t _ _ _ _ _ _; exact trivial
  | succ fuel ih =>
    intro s t h node parent off off' hoff
    unfold correctTree
    rcases h.at node with ⟨a, b⟩ | ⟨x, y, a, b, hr⟩
    · rw [a, b]; exact h
    · rw [a, b]
      dsimp only
      have hp : o.times → (parent.bind fun p => (s.spans[p]?).map (·.timestamp)) = parent.bind fun p => (t.spans[p]?).map (·.timestamp) := by
        intro ho
        cases parent with
        | none => rfl
        | some p =>
          dsimp only [Option.bind_some]
          rcases h.at p with ⟨a, b⟩ | ⟨x, y, a, b, hr⟩
          · rw [a, b]
          · rw [a, b]; simp only [Option.map_some, hr.timestamp ho]
      obtain ⟨c1, c2⟩ := same_correctNode hr hp hoff
      have hset := h.sett node c1
      rw [c1.id, same_childrenOf hset]
      have key : ∀ (l : List Nat) {off off' : Duration} (_ : o.times → off = off') {s1 t1 : CorrectState}, Pairwise₂ (SameTo o) s1.spans t1.spans →
          SameState o (l.foldlM (fun st child => correctTree fuel st child (some node) off) s1) (l.foldlM (fun st child => correctTree fuel st child (some node) off') t1) := by
        intro l off off' hoff
        induction l with
        | nil => intro s1 t1 h1; exact h1
        | cons c l ihl =>
          intro s1 t1 h1
          rw [List.foldlM_cons, List.foldlM_cons]
          have h2 := ih h1 c (some node) hoff
          revert h2
          cases correctTree fuel s1 c (some node) off <;> cases correctTree fuel t1 c (some node) off' <;> intro h2
          · exact h2
          · exact h2.elim
          · exact h2.elim
          · exact ihl h2
      exact key _ c2 hset

theorem same_finishTree {t t' : Tree} (h : SameTree (SameTo o) t t') (now : Time) : SameFate (SameTo o) (finishTree now t) (finishTree now t') := by
  unfold finishTree
  have h2 := same_withFakeRoot h now
  dsimp only
  rw [same_roots h2.spans, h2.spans.len]
  split
  · next r _ =>
    have h3 := same_correctTree (o := o) (withFakeRoot now t').spans.length (s := { spans := (withFakeRoot now t).spans }) (t := { spans := (withFakeRoot now t').spans })
      h2.spans r none (off := 0) (off' := 0) fun _ => rfl
    revert h3
    cases correctTree _ _ r none 0 <;> cases correctTree _ _ r none 0 <;> intro h3
    · exact .stuck
    · exact h3.elim
    · exact h3.elim
    · exact .emitted h3
  · exact .noRoot

end

/-! ## The collector -/

/-- Spans that are related by `R` lead to emitted spans that are related by `S`. -/
structure Simulates (R : Id → Span → Span → Prop) (S : Id → Tree → Span → Span → Prop) : Prop where
  keeps : ∀ k, Keeps (R k)
  finish : ∀ {k : Id} (now : Time) {t t' : Tree}, SameTree (R k) t t' → SameFate (S k t) (finishTree now t) (finishTree now t')

theorem simulates_sameTo (o : Observer) : Simulates (fun _ => SameTo o) (fun _ _ => SameTo o) := ⟨fun _ => keeps_sameTo o, fun now _ _ h => same_finishTree h now⟩

section
variable {R : Id → Span → Span → Prop} {S : Id → Tree → Span → Span → Prop}

/-- Entries of the map of traces. -/
def SameEntry (R : Id → Span → Span → Prop) (e e' : Id × Tree) : Prop := e.1 = e'.1 ∧ SameTree (R e.1) e.2 e'.2

/-- Maps of traces. -/
def SameMap (R : Id → Span → Span → Prop) (m m' : ExtTreeMap Id Tree) : Prop :=
  ∀ k : Id, (m[k]? = none ∧ m'[k]? = none) ∨ ∃ t t', m[k]? = some t ∧ m'[k]? = some t' ∧ SameTree (R k) t t'

theorem same_insert {m m' : ExtTreeMap Id Tree} (h : SameMap R m m') (k : Id) {t t' : Tree} (ht : SameTree (R k) t t') : SameMap R (m.insert k t) (m'.insert k t') := by
  intro j
  rw [ExtTreeMap.getElem?_insert, ExtTreeMap.getElem?_insert]
  split
  · next e =>
    rw [Std.LawfulEqCmp.compare_eq_iff_eq] at e
    subst e
    exact .inr ⟨t, t', rfl, rfl, ht⟩
  · exact h j

theorem same_erase {m m' : ExtTreeMap Id Tree} (h : SameMap R m m') (k : Id) : SameMap R (m.erase k) (m'.erase k) := by
  intro j
  rw [ExtTreeMap.getElem?_erase, ExtTreeMap.getElem?_erase]
  split
  · exact .inl ⟨rfl, rfl⟩
  · exact h j

/-- The corresponding entry of the other map. -/
def other (m' : ExtTreeMap Id Tree) (e : Id × Tree) : Id × Tree := (e.1, (m'[e.1]?).getD e.2)

theorem same_toList {m m' : ExtTreeMap Id Tree} (h : SameMap R m m') : m'.toList = m.toList.map (other m') := by
  have : m' = m.map fun k v => (m'[k]?).getD v := by
    apply ExtTreeMap.ext_getElem?
    intro k
    rw [ExtTreeMap.getElem?_map]
    rcases h k with ⟨a, b⟩ | ⟨t, t', a, b, _⟩
    · rw [a, b]; rfl
    · rw [a, b]; simp [b]
  conv => lhs; rw [this]
  rw [ExtTreeMap.toList_map]
  rfl

theorem same_range {m m' : ExtTreeMap Id Tree} (h : SameMap R m m') {l : List (Id × Tree)} (hl : IsRange l m) :
    IsRange (l.map (other m')) m' ∧ Pairwise₂ (SameEntry R) l (l.map (other m')) := by
  refine ⟨?_, .ofMap fun e he => ?_⟩
  · unfold IsRange
    rw [same_toList h]
    exact List.Perm.map _ hl
  · have := (mem_range hl).mp he
    rcases h e.1 with ⟨a, b⟩ | ⟨t, t', a, b, ht⟩
    · rw [a] at this; cases this
    · rw [a] at this
      cases this
      exact ⟨rfl, by unfold other; rw [b]; exact ht⟩

theorem same_entries {m m' : ExtTreeMap Id Tree} (h : SameMap R m m') : Pairwise₂ (SameEntry R) m.toList m'.toList := by
  rw [same_toList h]
  exact (same_range h (List.Perm.refl _)).2

theorem same_tooLarge {Q : Span → Span → Prop} {t t' : Tree} (h : SameTree Q t t') : t.tooLarge = t'.tooLarge := by unfold Tree.tooLarge; rw [h.nodeCount]

theorem same_spanCountOf {l l' : List (Id × Tree)} (h : Pairwise₂ (SameEntry R) l l') : spanCountOf l = spanCountOf l' := by
  unfold spanCountOf
  refine h.fold (S := fun a b => a = b) ?_ rfl
  rintro c d a b rfl ⟨_, hab⟩
  rw [same_tooLarge hab, hab.nodeCount]

theorem same_totalNodes {l l' : List (Id × Tree)} (h : Pairwise₂ (SameEntry R) l l') : totalNodes l = totalNodes l' := by
  unfold totalNodes
  refine h.fold (S := fun a b => a = b) ?_ rfl
  rintro c d a b rfl ⟨_, hab⟩
  rw [hab.nodeCount]

/-- Collectors. -/
structure SameCollector (R : Id → Span → Span → Prop) (c c' : Collector) : Prop where
  traces : SameMap R c.traces c'.traces
  blacklist : c.blacklist = c'.blacklist
  metrics : c.metrics = c'.metrics

/-- Collectors and what left them. -/
def SamePair (R : Id → Span → Span → Prop) (S : Id → Tree → Span → Span → Prop) (p p' : Collector × List Removal) : Prop := SameCollector R p.1 p'.1 ∧ Pairwise₂ (SameRemoval R S) p.2 p'.2

theorem same_finishOne (sim : Simulates R S) {dU dS : Time} {nf : Id → Time} {p p' : Collector × List Removal} (h : SamePair R S p p') {e e' : Id × Tree} (he : SameEntry R e e') :
    SamePair R S (finishOne dU dS nf p e) (finishOne dU dS nf p' e') := by
  obtain ⟨k, t⟩ := e
  obtain ⟨k', t'⟩ := e'
  obtain ⟨rfl, ht⟩ := he
  dsimp only at ht
  obtain ⟨⟨h1, h2, h3⟩, h4⟩ := h
  have app : ∀ {f f' : Fate}, SameFate (S k t) f f' → Pairwise₂ (SameRemoval R S) (p.2 ++ [⟨k, t, f⟩]) (p'.2 ++ [⟨k, t', f'⟩]) :=
    fun hf => h4.app (.cons ⟨rfl, ht, hf⟩ .nil)
  unfold finishOne
  dsimp only
  rw [same_tooLarge ht, ht.updated, ht.started, ht.nodeCount, h3, h2]
  split
  · exact ⟨⟨h1, h2, h3⟩, h4⟩
  · split
    · exact ⟨⟨same_erase h1 _, rfl, rfl⟩, app .tooLarge⟩
    · split
      · exact ⟨⟨same_erase h1 _, rfl, rfl⟩, app .tooOld⟩
      · have hf := sim.finish (nf k) ht
        revert hf
        generalize finishTree (nf k) t = f
        generalize finishTree (nf k) t' = f'
        intro hf
        cases hf with
        | emitted hs => exact ⟨⟨same_erase h1 _, rfl, rfl⟩, app (.emitted hs)⟩
        | noRoot => exact ⟨⟨same_erase h1 _, rfl, rfl⟩, app .noRoot⟩
        | tooLarge => exact ⟨⟨same_erase h1 _, rfl, rfl⟩, app .tooLarge⟩
        | tooOld => exact ⟨⟨same_erase h1 _, rfl, rfl⟩, app .tooOld⟩
        | discarded => exact ⟨⟨same_erase h1 _, rfl, rfl⟩, app .discarded⟩
        | stuck => exact ⟨⟨same_erase h1 _, rfl, rfl⟩, app .stuck⟩

theorem same_finishLoop (sim : Simulates R S) {c c' : Collector} (h : SameCollector R c c') {i i' : TickInput} (h1 : i.now1 = i'.now1) (h2 : i.now2 = i'.now2) (h3 : i.nowFake = i'.nowFake)
    (ho : Pairwise₂ (SameEntry R) i.order i'.order) : SamePair R S (c.finishLoop i) (c'.finishLoop i') := by
  unfold Collector.finishLoop
  dsimp only
  rw [same_spanCountOf (same_entries h.traces), h1, h2, h3]
  exact ho.fold (S := SamePair R S) (fun _ _ _ _ hp he => same_finishOne sim hp he) ⟨h, .nil⟩

theorem same_discardLoop {l l' : List (Id × Tree)} (h : Pairwise₂ (SameEntry R) l l') : ∀ (n : Int) {c c' : Collector} {r r' : List Removal} (ds dt : Nat), SameCollector R c c' →
    Pairwise₂ (SameRemoval R S) r r' →
    SameCollector R (discardLoop l n c r ds dt).1 (discardLoop l' n c' r' ds dt).1 ∧
    Pairwise₂ (SameRemoval R S) (discardLoop l n c r ds dt).2.1 (discardLoop l' n c' r' ds dt).2.1 ∧
    (discardLoop l n c r ds dt).2.2 = (discardLoop l' n c' r' ds dt).2.2 := by
  induction h with
  | nil => intro n c c' r r' ds dt hc hr; exact ⟨hc, hr, rfl⟩
  | @cons e e' l l' he _ ih =>
    intro n c c' r r' ds dt hc hr
    obtain ⟨k, t⟩ := e
    obtain ⟨k', t'⟩ := e'
    obtain ⟨rfl, ht⟩ := he
    dsimp only at ht
    unfold discardLoop
    split
    · exact ⟨hc, hr, rfl⟩
    · rw [ht.nodeCount]
      exact ih _ _ _ ⟨same_erase hc.traces _, hc.blacklist, hc.metrics⟩ (hr.app (.cons ⟨rfl, ht, .discarded⟩ .nil))

theorem same_discardSuspicious {c c' : Collector} (h : SameCollector R c c') {l l' : List (Id × Tree)} (hl : Pairwise₂ (SameEntry R) l l') :
    SamePair R S (discardSuspicious l c) (discardSuspicious l' c') := by
  unfold discardSuspicious
  dsimp only
  rw [same_totalNodes (same_entries h.traces)]
  split
  · exact ⟨h, .nil⟩
  · obtain ⟨d1, d2, d3⟩ := same_discardLoop hl (totalNodes c'.traces.toList) 0 0 h (.nil (R := SameRemoval R S))
    refine ⟨⟨d1.traces, d1.blacklist, ?_⟩, d2⟩
    dsimp only
    rw [d1.metrics, d3]

theorem same_size {m m' : ExtTreeMap Id Tree} (h : SameMap R m m') : m.size = m'.size := by
  rw [← ExtTreeMap.length_toList, ← ExtTreeMap.length_toList, (same_entries h).len]

theorem same_shed (sim : Simulates R S) {c c' : Collector} (h : SameCollector R c c') {i i' : TickInput} (h1 : i.now1 = i'.now1) (h2 : i.now2 = i'.now2) (h3 : i.nowFake = i'.nowFake)
    (ho : Pairwise₂ (SameEntry R) i.order i'.order) (hs : Pairwise₂ (SameEntry R) i.sorted i'.sorted) : SamePair R S (c.shed i) (c'.shed i') := by
  obtain ⟨⟨f1, f2, f3⟩, f4⟩ := same_finishLoop sim h h1 h2 h3 ho
  unfold Collector.shed
  dsimp only
  rw [same_spanCountOf (same_entries h.traces), same_size f1, f3]
  have hc : SameCollector R
      { (c.finishLoop i).1 with metrics := { (c'.finishLoop i').1.metrics with spansInflight := spanCountOf c'.traces.toList, tracesInflight := (c'.finishLoop i').1.traces.size } }
      { (c'.finishLoop i').1 with metrics := { (c'.finishLoop i').1.metrics with spansInflight := spanCountOf c'.traces.toList, tracesInflight := (c'.finishLoop i').1.traces.size } } :=
    ⟨f1, f2, rfl⟩
  split
  · obtain ⟨d1, d2⟩ := same_discardSuspicious hc hs
    exact ⟨d1, f4.app d2⟩
  · exact ⟨hc, f4⟩

/-- Every tick of the one collector is possible for the other. -/
theorem same_tick (sim : Simulates R S) {c c' : Collector} (h : SameCollector R c c') {i : TickInput} (hv : i.Valid c) :
    ∃ i' : TickInput, i'.Valid c' ∧ i'.now1 = i.now1 ∧ i'.now2 = i.now2 ∧ i'.nowFake = i.nowFake ∧ SamePair R S (c.tick i) (c'.tick i') := by
  obtain ⟨o1, o2⟩ := same_range h.traces hv.order
  let i1 : TickInput := ⟨i.now1, i.now2, i.nowFake, i.order.map (other c'.traces), [], []⟩
  have f := same_finishLoop sim h (i := i) (i' := i1) rfl rfl rfl o2
  obtain ⟨s1, s2⟩ := same_range f.1.traces hv.sorted
  let i2 : TickInput := ⟨i.now1, i.now2, i.nowFake, i.order.map (other c'.traces), i.sorted.map (other (c'.finishLoop i1).1.traces), i.blOrder⟩
  have g := same_shed sim h (i := i) (i' := i2) rfl rfl rfl o2 s2
  refine ⟨i2, ⟨o1, s1, ?_, ?_, hv.clock⟩, rfl, rfl, rfl, ?_⟩
  · have hd := hv.desc
    show (i.sorted.map (other (c'.finishLoop i1).1.traces)).Pairwise _
    have e : (i.sorted.map fun e => e.2.nodeCount) = (i.sorted.map (other (c'.finishLoop i1).1.traces)).map fun e => e.2.nodeCount :=
      s2.mapEq fun a b hab => hab.2.nodeCount
    have hd' := (List.pairwise_map (f := fun e : Id × Tree => e.2.nodeCount) (R := fun a b => a ≥ b)).mpr hd
    rw [e] at hd'
    exact List.pairwise_map.mp hd'
  · show IsRange i.blOrder (c'.shed i2).1.blacklist
    rw [← g.1.blacklist]
    exact hv.blOrder
  · unfold Collector.tick
    refine ⟨⟨g.1.traces, ?_, g.1.metrics⟩, g.2⟩
    show trimBlacklist i.blOrder (c.shed i).1.blacklist = trimBlacklist i.blOrder (c'.shed i2).1.blacklist
    rw [g.1.blacklist]

theorem same_receive (K : ∀ k, Keeps (R k)) {c c' : Collector} (h : SameCollector R c c') (now1 now2 : Time) {s s' : Span} (he : s.trace = s'.trace) (hs : R s.trace s s') :
    SameCollector R (c.receive now1 now2 s) (c'.receive now1 now2 s') := by
  unfold Collector.receive
  rw [he] at hs
  rw [he, (K _).id hs, h.blacklist]
  split
  · exact h
  · split
    · exact ⟨h.traces, rfl, by dsimp only; rw [h.metrics]⟩
    · refine ⟨same_insert h.traces _ (SameTree.addSpan (K _) ?_ _ hs), rfl, h.metrics⟩
      rcases h.traces s'.trace with ⟨a, b⟩ | ⟨t, t', a, b, ht⟩
      · rw [a, b]; exact ⟨rfl, .nil, rfl, rfl, rfl, .nil⟩
      · rw [a, b]; exact ht

theorem same_after (sim : Simulates R S) {start : Time} {l l' : List Happening} {w : World} (hw : After start l w) (h : Pairwise₂ (SameHappening R) l l') :
    ∃ w', After start l' w' ∧ SameWorld R S w w' := by
  induction hw generalizing l' with
  | start =>
    cases h
    exact ⟨_, .start, ⟨fun k => .inl ⟨by simp, by simp⟩, rfl, rfl, .nil, .nil, .nil, rfl⟩⟩
  | @receive l w now1 now2 s hw hc hn ih =>
    cases h with
    | cons h1 h =>
      cases h1 with
      | @receive _ _ _ t he hs =>
        obtain ⟨w', hw', hr⟩ := ih h
        refine ⟨_, .receive hw' (by rw [← hr.clock]; exact hc) hn, ?_⟩
        have hcol := same_receive sim.keeps ⟨hr.pending, hr.blacklist, hr.metrics⟩ now1 now2 he hs
        refine ⟨hcol.traces, hcol.blacklist, hcol.metrics, hr.received.app (.cons hs .nil), ?_, hr.removed, rfl⟩
        show Pairwise₂ (fun s t => R s.trace s t) (if ¬ (s.trace = 0 ∨ s.id = 0) ∧ w.c.blacklist.contains s.trace then w.refused ++ [s] else w.refused)
          (if ¬ (t.trace = 0 ∨ t.id = 0) ∧ w'.c.blacklist.contains t.trace then w'.refused ++ [t] else w'.refused)
        rw [he, (sim.keeps _).id hs, hr.blacklist]
        split
        · exact hr.refused.app (.cons hs .nil)
        · exact hr.refused
  | @tick l w i hw hv hc ih =>
    cases h with
    | cons h1 h =>
      cases h1
      obtain ⟨w', hw', hr⟩ := ih h
      obtain ⟨i', hv', e1, e2, e3, hp⟩ := same_tick sim ⟨hr.pending, hr.blacklist, hr.metrics⟩ hv
      refine ⟨w'.tick i', ?_, ?_⟩
      · rw [← e1, ← e2, ← e3]
        exact .tick hw' hv' (by rw [← hr.clock, e1]; exact hc)
      · exact ⟨hp.1.traces, hp.1.blacklist, hp.1.metrics, hr.received, hr.refused, hr.removed.app hp.2, e2.symm⟩

theorem Spec.After.reachable {start : Time} {l : List Happening} {w : World} (h : After start l w) : Reachable w := by
  induction h with
  | start => exact .init _
  | receive _ h1 h2 ih => exact .receive _ _ _ ih h1 h2
  | tick _ hv hc ih => exact .tick _ ih hv hc

theorem exists_after {w : World} (h : Reachable w) : ∃ start l, After start l w := by
  induction h with
  | init now => exact ⟨now, [], .start⟩
  | receive now1 now2 s _ h1 h2 ih => obtain ⟨st, l, h⟩ := ih; exact ⟨st, _, .receive h h1 h2⟩
  | tick i _ hv hc ih => obtain ⟨st, l, h⟩ := ih; exact ⟨st, _, .tick h hv hc⟩

end

end Verif
