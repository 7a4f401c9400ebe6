import Verif.Spec.Shift
import Verif.Proofs.Observe
import Verif.Proofs.Clocks

/-!
# Helper lemmas for C121
-/

namespace Verif

open Spec Std

/-! ## Lists that are related one by one -/

section
variable {α β : Type} {R S : α → β → Prop}

theorem Spec.Pairwise₂.mono {l : List α} {l' : List β} (h : Pairwise₂ R l l') (hr : ∀ a b, R a b → S a b) : Pairwise₂ S l l' := by
  induction h with
  | nil => exact .nil
  | cons h _ ih => exact .cons (hr _ _ h) ih

theorem Spec.Pairwise₂.both {l : List α} {l' : List β} (h : Pairwise₂ R l l') (h' : Pairwise₂ S l l') : Pairwise₂ (fun a b => R a b ∧ S a b) l l' := by
  induction h with
  | nil => exact .nil
  | cons h _ ih => cases h' with
    | cons k ks => exact .cons ⟨h, k⟩ (ih ks)

theorem Spec.Pairwise₂.flip {l : List α} {l' : List β} (h : Pairwise₂ R l l') : Pairwise₂ (fun b a => R a b) l' l := by
  induction h with
  | nil => exact .nil
  | cons h _ ih => exact .cons h ih

theorem Spec.Pairwise₂.ofGet : ∀ {l : List α} {l' : List β}, l.length = l'.length → (∀ (j : Nat) a b, l[j]? = some a → l'[j]? = some b → R a b) → Pairwise₂ R l l'
  | [], [], _, _ => .nil
  | a :: l, b :: l', hl, h => .cons (h 0 a b rfl rfl) (ofGet (by simpa using hl) fun j x y hx hy => h (j + 1) x y (by simpa using hx) (by simpa using hy))

theorem Spec.Pairwise₂.eq {l l' : List α} (h : Pairwise₂ (fun a b => a = b) l l') : l = l' := by
  induction h with
  | nil => rfl
  | cons h _ ih => rw [h, ih]

end

/-! ## Spans -/

section
variable {d lo hi : Int}

theorem Spec.ToldLater.first (h0 : 0 < lo) (h1 : 0 < lo + d) {a a' b b' : Timestamp} (h : ToldLater d lo hi a b) (h' : ToldLater d lo hi a' b') :
    ToldLater d lo hi (firstValid a a') (firstValid b b') := by
  unfold firstValid
  rcases h with ⟨rfl, rfl⟩ | ⟨x1, x2, x3⟩
  · exact h'
  · rw [if_pos (by rw [Int64.lt_iff_toInt_lt]; exact (by omega : 0 < a.toInt)), if_pos (by rw [Int64.lt_iff_toInt_lt]; exact (by omega : 0 < b.toInt))]
    exact .inr ⟨x1, x2, x3⟩

theorem moved_merge (h0 : 0 < lo) (h1 : 0 < lo + d) {s t s' t' : Span} (h : Moved d lo hi s t) (h' : Moved d lo hi s' t') : Moved d lo hi (mergeSpans s s') (mergeSpans t t') := by
  have hi : IsServer s' ↔ IsServer t' := h'.same.server
  have e : (mergeSpans s s').timestamp = s.timestamp ∧ (mergeSpans t t').timestamp = t.timestamp := ⟨mergeSpans_timestamp .., mergeSpans_timestamp ..⟩
  have e' : (mergeSpans s s').duration = s.duration ∧ (mergeSpans t t').duration = t.duration := ⟨mergeSpans_duration .., mergeSpans_duration ..⟩
  refine ⟨h.same.merge h'.same, ?_, ?_, ?_, ?_, ?_, ?_, ?_⟩
  · rw [e.1, e.2]; exact h.start
  · rw [e.1, e'.1]; exact h.stop
  · rw [e'.1, e'.2]; exact h.duration
  all_goals
    rw [mergeSpans_timings, mergeSpans_timings]
    by_cases hs : IsServer t'
    · rw [if_pos hs, if_pos (hi.mpr hs)]
      dsimp only
      first | exact h.cs | exact h.cr | exact h'.ss.first h0 h1 h.ss | exact h'.sr.first h0 h1 h.sr
    · rw [if_neg hs, if_neg (fun x => hs (hi.mp x))]
      dsimp only
      first | exact h.ss | exact h.sr | exact h'.cs.first h0 h1 h.cs | exact h'.cr.first h0 h1 h.cr

theorem moved_addToExisting (h0 : 0 < lo) (h1 : 0 < lo + d) {s t s' t' : Span} (h : Moved d lo hi s t) (h' : Moved d lo hi s' t') :
    Moved d lo hi (addToExisting s s') (addToExisting t t') := by
  unfold addToExisting
  refine moved_merge h0 h1 ?_ h'
  rw [h.same.parent]
  split
  · exact { h with same := { h.same with parent := h'.same.parent } }
  · exact h

theorem keeps_moved (h0 : 0 < lo) (h1 : 0 < lo + d) : Keeps (Moved d lo hi) := ⟨fun h => h.same.id, moved_addToExisting h0 h1⟩

theorem keeps_movedIn (h0 : 0 < lo) (h1 : 0 < lo + d) (k j : Id) : Keeps (MovedIn k d lo hi j) := by
  by_cases hj : j = k
  · have : MovedIn k d lo hi j = Moved d lo hi := by funext s t; unfold MovedIn; rw [if_pos hj]
    rw [this]
    exact keeps_moved h0 h1
  · have : MovedIn k d lo hi j = fun s t => s = t := by funext s t; unfold MovedIn; rw [if_neg hj]
    rw [this]
    exact ⟨fun h => by rw [h], fun h h' => by rw [h, h']⟩

theorem toInt_add_of {a b : Int64} (h1 : -2 ^ 63 ≤ a.toInt + b.toInt) (h2 : a.toInt + b.toInt < 2 ^ 63) : (a + b).toInt = a.toInt + b.toInt := by
  rw [Int64.toInt_add]
  exact Int.bmod_eq_of_le (by omega) (by omega)

theorem toInt_sub_of {a b : Int64} (h1 : -2 ^ 63 ≤ a.toInt - b.toInt) (h2 : a.toInt - b.toInt < 2 ^ 63) : (a - b).toInt = a.toInt - b.toInt := by
  rw [Int64.toInt_sub]
  exact Int.bmod_eq_of_le (by omega) (by omega)

/-- Start and end of what a fake root covers. -/
structure MovedBounds (d lo hi : Int) (a b : Timestamp × Timestamp) : Prop where
  start : lo ≤ a.1.toInt ∧ a.1.toInt ≤ hi ∧ b.1.toInt = a.1.toInt + d
  stop : lo ≤ a.2.toInt ∧ a.2.toInt ≤ hi ∧ b.2.toInt = a.2.toInt + d

theorem moved_end (h0 : 0 < lo) (h1 : 0 < lo + d) (h2 : hi < 2 ^ 62) (h3 : hi + d < 2 ^ 62) {s t : Span} (h : Moved d lo hi s t) :
    lo ≤ (tsAdd s.timestamp s.duration).toInt ∧ (tsAdd s.timestamp s.duration).toInt ≤ hi ∧ (tsAdd t.timestamp t.duration).toInt = (tsAdd s.timestamp s.duration).toInt + d := by
  have a := h.start
  have b := h.stop
  unfold tsAdd
  rw [h.duration, toInt_add_of (a := s.timestamp) (by omega) (by omega), toInt_add_of (a := t.timestamp) (by omega) (by omega)]
  omega

theorem moved_createFakeRoot (h0 : 0 < lo) (h1 : 0 < lo + d) (h2 : hi < 2 ^ 62) (h3 : hi + d < 2 ^ 62) {s t : Span} (hs : Moved d lo hi s t) {l l' : List Span}
    (h : Pairwise₂ (Moved d lo hi) l l') : Moved d lo hi (createFakeRoot s l) (createFakeRoot t l') := by
  have hsame := same_createFakeRoot hs.same (h.mono fun _ _ x => x.same)
  have hb := h.fold (S := MovedBounds d lo hi)
    (f := fun b s => (if s.timestamp < b.1 then s.timestamp else b.1, if tsAdd s.timestamp s.duration > b.2 then tsAdd s.timestamp s.duration else b.2))
    (g := fun b s => (if s.timestamp < b.1 then s.timestamp else b.1, if tsAdd s.timestamp s.duration > b.2 then tsAdd s.timestamp s.duration else b.2))
    (by
      intro c c' a b hc hab
      have e := moved_end h0 h1 h2 h3 hab
      have e' := hab.start
      obtain ⟨k1, k2⟩ := hc
      refine ⟨?_, ?_⟩ <;> dsimp only
      · by_cases x : a.timestamp < c.1
        · rw [if_pos x, if_pos (by rw [Int64.lt_iff_toInt_lt] at x ⊢; omega)]; exact e'
        · rw [if_neg x, if_neg (by rw [Int64.lt_iff_toInt_lt] at x ⊢; omega)]; exact k1
      · by_cases x : tsAdd a.timestamp a.duration > c.2
        · rw [if_pos x, if_pos (by rw [gt_iff_lt, Int64.lt_iff_toInt_lt] at x ⊢; omega)]; exact e
        · rw [if_neg x, if_neg (by rw [gt_iff_lt, Int64.lt_iff_toInt_lt] at x ⊢; omega)]; exact k2)
    (c := (s.timestamp, tsAdd s.timestamp s.duration)) (d := (t.timestamp, tsAdd t.timestamp t.duration)) ⟨hs.start, moved_end h0 h1 h2 h3 hs⟩
  unfold createFakeRoot at hsame ⊢
  dsimp only at hsame ⊢
  revert hb hsame
  generalize List.foldl _ (s.timestamp, tsAdd s.timestamp s.duration) l = b
  generalize List.foldl _ (t.timestamp, tsAdd t.timestamp t.duration) l' = b'
  rintro hsame ⟨k1, k2⟩
  refine ⟨hsame, k1, ?_, ?_, .inl ⟨rfl, rfl⟩, .inl ⟨rfl, rfl⟩, .inl ⟨rfl, rfl⟩, .inl ⟨rfl, rfl⟩⟩
  · dsimp only
    rw [toInt_sub_of (by omega) (by omega)]
    omega
  · dsimp only
    rw [← Int64.toInt_inj, toInt_sub_of (by omega) (by omega), toInt_sub_of (by omega) (by omega)]
    omega

theorem Spec.SameTree.mono {R S : Span → Span → Prop} {t t' : Tree} (h : SameTree R t t') (hr : ∀ a b, R a b → S a b) : SameTree S t t' :=
  ⟨h.traceId, h.spans.mono hr, h.started, h.updated, h.nodeCount, h.members.mono hr⟩

theorem moved_withFakeRoot (h0 : 0 < lo) (h1 : 0 < lo + d) (h2 : hi < 2 ^ 62) (h3 : hi + d < 2 ^ 62) {t t' : Tree} (h : SameTree (Moved d lo hi) t t') (now : Time) :
    SameTree (Moved d lo hi) (withFakeRoot now t) (withFakeRoot now t') := by
  have h' := h.mono fun _ _ x => x.same
  unfold withFakeRoot
  have hp : Pairwise₂ (Moved d lo hi) (pick t.spans (roots t.spans)) (pick t'.spans (roots t.spans)) := by
    unfold pick
    generalize roots t.spans = is
    induction is with
    | nil => exact .nil
    | cons i is ih =>
      rw [List.filterMap_cons, List.filterMap_cons]
      rcases h.spans.at i with ⟨a, b⟩ | ⟨s, t, a, b, hr⟩
      · rw [a, b]; exact ih
      · rw [a, b]; exact .cons hr ih
  rw [same_roots h'.spans] at hp ⊢
  revert hp
  generalize pick t.spans (roots t'.spans) = l
  generalize pick t'.spans (roots t'.spans) = l'
  intro hp
  cases hp with
  | nil => exact h
  | cons a1 hp => cases hp with
    | nil => exact h
    | cons a2 hp =>
      dsimp only
      rw [same_allTheSameParent ((Pairwise₂.cons a1 (.cons a2 hp)).mono fun _ _ x => x.same)]
      split
      · exact h.addSpan (keeps_moved h0 h1) _ (moved_createFakeRoot h0 h1 h2 h3 a1 (.cons a2 hp))
      · exact h

/-! ## The correction -/

theorem path_related {R : Span → Span → Prop} (hR : ∀ s t, R s t → s.id = t.id ∧ s.parent = t.parent) {l l' : List Span} (h : Pairwise₂ R l l') {r r' : Span} (hr : R r r')
    {anc : List Span} {s : Span} (hp : Path l r anc s) : ∃ anc' s', Path l' r' anc' s' ∧ Pairwise₂ R anc anc' ∧ R s s' := by
  induction hp with
  | root => exact ⟨[], r', .root, .nil, hr⟩
  | @child anc p c _ hc h1 h2 ih =>
    obtain ⟨anc', p', hp', ha, hpp⟩ := ih
    obtain ⟨j, hj⟩ := List.getElem?_of_mem hc
    rcases h.at j with ⟨a, _⟩ | ⟨x, c', a, b, hcc⟩
    · rw [hj] at a; cases a
    · rw [hj] at a
      cases a
      obtain ⟨e1, e2⟩ := hR _ _ hcc
      exact ⟨p' :: anc', c', .child hp' (List.mem_of_getElem? b) (by rw [← e2, h1, (hR _ _ hpp).1]) (by rw [← e2, ← e1]; exact h2), .cons hpp ha, hcc⟩

theorem Spec.ToldLater.zero (h0 : 0 < lo) (h1 : 0 < lo + d) {a b : Timestamp} (h : ToldLater d lo hi a b) : a = 0 ↔ b = 0 := by
  rcases h with ⟨rfl, rfl⟩ | ⟨x1, _, x3⟩
  · exact Iff.rfl
  · have : (0 : Int64).toInt = 0 := rfl
    constructor
    · rintro rfl; omega
    · rintro rfl; omega

theorem Spec.ToldLater.told {a b : Timestamp} (h : ToldLater d lo hi a b) (hn : a ≠ 0) : lo ≤ a.toInt ∧ a.toInt ≤ hi ∧ b.toInt = a.toInt + d := by
  rcases h with ⟨rfl, _⟩ | h
  · exact absurd rfl hn
  · exact h

theorem moved_all (h0 : 0 < lo) (h1 : 0 < lo + d) {s t : Span} (h : Moved d lo hi s t) : HasAllTimings s ↔ HasAllTimings t := by
  unfold HasAllTimings
  rw [ne_eq, ne_eq, ne_eq, ne_eq, ne_eq, ne_eq, ne_eq, ne_eq, h.cs.zero h0 h1, h.cr.zero h0 h1, h.ss.zero h0 h1, h.sr.zero h0 h1]

theorem moved_skew (h0 : 0 < lo) (h1 : 0 < lo + d) (h2 : hi < 2 ^ 62) (h3 : hi + d < 2 ^ 62) {s t : Span} (h : Moved d lo hi s t) :
    skew t = skew s ∧ -(hi - lo) ≤ (skew s).toInt ∧ (skew s).toInt ≤ hi - lo := by
  unfold skew
  by_cases ha : HasAllTimings s
  · rw [if_pos ha, if_pos ((moved_all h0 h1 h).mp ha)]
    obtain ⟨a1, a2, a3, a4⟩ := ha
    have b1 := h.cs.told a1
    have b2 := h.cr.told a2
    have b3 := h.ss.told a3
    have b4 := h.sr.told a4
    have c1 := half_toInt (a := s.timings.CR) (b := s.timings.CS) (by omega) (by omega) (by omega) (by omega)
    have c2 := half_toInt (a := s.timings.SR) (b := s.timings.SS) (by omega) (by omega) (by omega) (by omega)
    have c3 := half_toInt (a := t.timings.CR) (b := t.timings.CS) (by omega) (by omega) (by omega) (by omega)
    have c4 := half_toInt (a := t.timings.SR) (b := t.timings.SS) (by omega) (by omega) (by omega) (by omega)
    rw [← Int64.toInt_inj, toInt_sub_of (by omega) (by omega), toInt_sub_of (by omega) (by omega), c1, c2, c3, c4]
    omega
  · rw [if_neg ha, if_neg (fun x => ha ((moved_all h0 h1 h).mpr x))]
    have : (0 : Int64).toInt = 0 := rfl
    have := h.start
    exact ⟨rfl, by omega, by omega⟩

theorem moved_shift (h0 : 0 < lo) (h1 : 0 < lo + d) (hw : lo ≤ hi) {n : Nat} (r1 : Room n lo hi) (r2 : Room n (lo + d) (hi + d)) {anc anc' : List Span}
    (h : Pairwise₂ (Moved d lo hi) anc anc') (hn : anc.length ≤ n) :
    shift anc' = shift anc ∧ -(anc.length * (hi - lo)) ≤ (shift anc).toInt ∧ (shift anc).toInt ≤ anc.length * (hi - lo) := by
  obtain ⟨_, r1⟩ := r1
  have hpos : 0 ≤ (n : Int) * (hi - lo) := Int.mul_nonneg (by omega) (by omega)
  have h2 : hi < 2 ^ 62 := by omega
  have h3 : hi + d < 2 ^ 62 := by
    have := r2.2
    rw [show hi + d - (lo + d) = hi - lo by omega] at this
    omega
  induction h with
  | nil => exact ⟨rfl, by simp [shift], by simp [shift]⟩
  | @cons a b l l' hab _ ih =>
    rw [List.length_cons] at hn
    obtain ⟨e1, e2, e3⟩ := ih (by omega)
    obtain ⟨k1, k2, k3⟩ := moved_skew h0 h1 h2 h3 hab
    have hm : ((l.length : Int) + 1) * (hi - lo) ≤ n * (hi - lo) := Int.mul_le_mul_of_nonneg_right (by omega) (by omega)
    rw [Int.add_mul, Int.one_mul] at hm
    rw [List.length_cons, Int.natCast_add, Int.natCast_one, Int.add_mul, Int.one_mul]
    unfold shift
    rw [e1, k1, toInt_add_of (by omega) (by omega)]
    exact ⟨rfl, by omega, by omega⟩

theorem moved_corrected (h0 : 0 < lo) (h1 : 0 < lo + d) {n : Nat} (r1 : Room n lo hi) (r2 : Room n (lo + d) (hi + d)) {anc anc' : List Span} {s t : Span}
    (h : Pairwise₂ (Moved d lo hi) anc anc') (hn : anc.length ≤ n) (hs : Moved d lo hi s t) : ShownLater d (corrected anc s) (corrected anc' t) := by
  have hw : lo ≤ hi := by have := hs.start; omega
  obtain ⟨e1, e2, e3⟩ := moved_shift h0 h1 hw r1 r2 h hn
  obtain ⟨q1, q2⟩ := r1
  obtain ⟨q3, q4⟩ := r2
  rw [show hi + d - (lo + d) = hi - lo by omega] at q3 q4
  have hm : (anc.length : Int) * (hi - lo) ≤ n * (hi - lo) := Int.mul_le_mul_of_nonneg_right (by omega) (by omega)
  have hpos : 0 ≤ (anc.length : Int) * (hi - lo) := Int.mul_nonneg (by omega) (by omega)
  have hall := moved_all h0 h1 hs
  -- the start
  have key : 1577836800000000000 ≤ (shiftedStart anc s).toInt ∧ 1577836800000000000 ≤ (shiftedStart anc' t).toInt ∧ (shiftedStart anc' t).toInt = (shiftedStart anc s).toInt + d := by
    unfold shiftedStart
    rw [e1]
    by_cases ha : HasAllTimings s
    · rw [if_pos ha, if_pos (hall.mp ha)]
      have := hs.cs.told ha.1
      rw [toInt_add_of (by omega) (by omega), toInt_add_of (by omega) (by omega)]
      omega
    · rw [if_neg ha, if_neg (fun x => ha (hall.mpr x))]
      have := hs.start
      rw [toInt_add_of (by omega) (by omega), toInt_add_of (by omega) (by omega)]
      omega
  have h2020 : year2020.toInt = 1577836800000000000 := rfl
  have start_eq : ∀ (a : List Span) (x : Span), 1577836800000000000 ≤ (shiftedStart a x).toInt → start a x = shiftedStart a x := by
    intro a x hx
    cases a with
    | nil => rfl
    | cons p a =>
      show (if shiftedStart (p :: a) x < year2020 then _ else _) = _
      rw [if_neg (by rw [Int64.lt_iff_toInt_lt]; omega)]
  refine ⟨?_, ?_, ?_⟩
  · exact { hs.same with timestamp := fun x => x.elim, duration := fun x => x.elim }
  · show (start anc' t).toInt = (start anc s).toInt + d
    rw [start_eq _ _ key.1, start_eq _ _ key.2.1]
    exact key.2.2
  · show (if HasAllTimings t then t.timings.CR - t.timings.CS else t.duration) = (if HasAllTimings s then s.timings.CR - s.timings.CS else s.duration)
    by_cases ha : HasAllTimings s
    · rw [if_pos ha, if_pos (hall.mp ha)]
      have a1 := hs.cs.told ha.1
      have a2 := hs.cr.told ha.2.1
      rw [← Int64.toInt_inj, toInt_sub_of (by omega) (by omega), toInt_sub_of (by omega) (by omega)]
      omega
    · rw [if_neg ha, if_neg (fun x => ha (hall.mpr x))]
      exact hs.duration

theorem moved_sorted {l l' : List Span} (h : Pairwise₂ (Moved d lo hi) l l') (hs : SortedDesc l) : SortedDesc l' := by
  unfold SortedDesc at *
  have := (List.pairwise_map (f := Span.id) (R := fun a b => b < a)).mpr hs
  rw [h.mapEq (g := Span.id) fun _ _ x => x.same.id] at this
  exact List.pairwise_map.mp this

theorem moved_finishTree (h0 : 0 < lo) (h1 : 0 < lo + d) {t t' : Tree} (h : SameTree (Moved d lo hi) t t') (now : Time) (hok : t.Ok)
    (r1 : Room t.spans.length lo hi) (r2 : Room t.spans.length (lo + d) (hi + d)) : SameFate (ShownLater d) (finishTree now t) (finishTree now t') := by
  have hb := withFakeRoot_spec now hok
  by_cases hne : t.spans = []
  · have e : t'.spans = [] := by
      have := h.spans.len
      rw [hne] at this
      exact List.length_eq_zero_iff.mp this.symm
    have w1 : withFakeRoot now t = t := by unfold withFakeRoot; rw [hne]; rfl
    have w2 : withFakeRoot now t' = t' := by unfold withFakeRoot; rw [e]; rfl
    unfold finishTree
    rw [w1, w2]
    dsimp only
    rw [hne, e]
    exact .noRoot
  have hw : lo ≤ hi := by
    obtain ⟨s, hs⟩ := List.exists_mem_of_ne_nil _ hne
    obtain ⟨j, hj⟩ := List.getElem?_of_mem hs
    rcases h.spans.at j with ⟨a, _⟩ | ⟨x, y, _, _, hr⟩
    · rw [hj] at a; cases a
    · have := hr.start; omega
  have hpos : 0 ≤ (t.spans.length : Int) * (hi - lo) := Int.mul_nonneg (by omega) (by omega)
  have h2 : hi < 2 ^ 62 := by have := r1.2; omega
  have h3 : hi + d < 2 ^ 62 := by
    have := r2.2
    rw [show hi + d - (lo + d) = hi - lo by omega] at this
    omega
  have hf := moved_withFakeRoot h0 h1 h2 h3 h now
  have hlen : (withFakeRoot now t).spans.length ≤ t.spans.length + 1 := by
    rcases hb.2.1 with ⟨_, _, _, _, hp, _⟩ | ⟨_, e⟩
    · rw [hp.length_eq, List.length_cons]
    · rw [e]; omega
  have hs := hb.1.sorted
  unfold finishTree
  dsimp only
  generalize withFakeRoot now t = b at *
  generalize withFakeRoot now t' = b' at *
  have hs' := moved_sorted hf.spans hs
  have hroots := same_roots (hf.spans.mono fun _ _ x => x.same)
  rw [hroots]
  split
  · next i hi' =>
    obtain ⟨r, st, g1, _, g3, _, _, g4, g5⟩ := correct_full hs (show i ∈ roots b.spans by rw [hroots, hi']; simp)
    obtain ⟨r', st', g1', _, g3', _, _, g4', g5'⟩ := correct_full hs' (show i ∈ roots b'.spans by rw [hi']; simp)
    rw [g3 _ (Nat.le_refl _), g3' _ (Nat.le_refl _)]
    have hrr : Moved d lo hi r r' := by
      rcases hf.spans.at i with ⟨a, _⟩ | ⟨x, y, a, c, hr⟩
      · rw [g1] at a; cases a
      · rw [g1] at a; rw [g1'] at c; cases a; cases c; exact hr
    refine .emitted (.ofGet (by rw [g4, g4', hf.spans.len]) ?_)
    intro j x y hx hy
    rcases hf.spans.at j with ⟨a, _⟩ | ⟨s, s', a, a', hss⟩
    · have : j < st.spans.length := (List.getElem?_eq_some_iff.mp hx).1
      rw [g4] at this
      rw [List.getElem?_eq_none_iff] at a
      omega
    · by_cases hp : ∃ anc, Path b.spans r anc s
      · obtain ⟨anc, hp⟩ := hp
        obtain ⟨anc', s1, hp', ha, hs1⟩ := path_related (fun _ _ (x : Moved d lo hi _ _) => ⟨x.same.id, x.same.parent⟩) hf.spans hrr hp
        have hr' : r' ∈ b'.spans := List.mem_of_getElem? g1'
        have : s1 = s' := hs'.uniqueIds _ (Path.mem hp' hr') _ (List.mem_of_getElem? a') (by rw [← hs1.same.id, hss.same.id])
        subst this
        rw [(g5 j s a).1 anc hp] at hx
        rw [(g5' j s1 a').1 anc' hp'] at hy
        cases hx
        cases hy
        have hroot : IsRootOf b.spans r := by
          obtain ⟨q, hq, hq'⟩ := mem_roots.mp (show i ∈ roots b.spans by rw [hroots, hi']; simp)
          rw [g1] at hq; cases hq; exact hq'
        have := Path.length_lt hs.uniqueIds hroot hp
        exact moved_corrected h0 h1 r1 r2 ha (by omega) hss
      · have hp' : ∀ anc, ¬ Path b'.spans r' anc s' := by
          intro anc hp'
          obtain ⟨anc1, s1, hp1, _, hs1⟩ := path_related (R := fun x y => Moved d lo hi y x) (fun _ _ x => ⟨x.same.id.symm, x.same.parent.symm⟩) hf.spans.flip hrr hp'
          have hr' : r ∈ b.spans := List.mem_of_getElem? g1
          have : s1 = s := hs.uniqueIds _ (Path.mem hp1 hr') _ (List.mem_of_getElem? a) (by rw [hs1.same.id, hss.same.id])
          subst this
          exact hp ⟨_, hp1⟩
        rw [(g5 j s a).2 (fun anc x => hp ⟨anc, x⟩)] at hx
        rw [(g5' j s' a').2 hp'] at hy
        cases hx
        cases hy
        exact ⟨hss.same, hss.start.2.2, hss.duration⟩
  · exact .noRoot

end

end Verif
