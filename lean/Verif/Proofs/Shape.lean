import Verif.Spec.Shape
import Verif.Proofs.Forward
import Verif.Proofs.Flood

/-!
# Parent links
-/

namespace Verif

open Spec

theorem Spec.Above.mem {spans : List Span} {a s : Span} (h : Above spans a s) : a ∈ spans ∧ s ∈ spans := by
  induction h with
  | parent h1 h2 _ _ => exact ⟨h1, h2⟩
  | step _ h2 _ _ ih => exact ⟨ih.1, h2⟩

theorem Spec.Above.trans {spans : List Span} {a b c : Span} (h : Above spans a b) (h' : Above spans b c) : Above spans a c := by
  induction h' with
  | parent _ h2 h3 h4 => exact .step h h2 h3 h4
  | step _ h2 h3 h4 ih => exact .step ih h2 h3 h4

theorem Spec.Path.mem {spans : List Span} {r s : Span} {anc : List Span} (h : Path spans r anc s) (hr : r ∈ spans) : s ∈ spans := by
  cases h with
  | root => exact hr
  | child _ h _ _ => exact h

theorem mem_eq_of_id {spans : List Span} (hn : (spans.map Span.id).Nodup) {a b : Span} (ha : a ∈ spans) (hb : b ∈ spans) (h : a.id = b.id) : a = b := by
  induction spans with
  | nil => cases ha
  | cons x l ih =>
    rw [List.map_cons, List.nodup_cons] at hn
    rcases List.mem_cons.mp ha with rfl | ha' <;> rcases List.mem_cons.mp hb with rfl | hb'
    · rfl
    · exact absurd (List.mem_map.mpr ⟨b, hb', h.symm⟩) hn.1
    · exact absurd (List.mem_map.mpr ⟨a, ha', h⟩) hn.1
    · exact ih hn.2 ha' hb'

/-- Whatever is above a span with a path to the root is on this path. -/
theorem Spec.Path.above {spans : List Span} {r : Span} (hn : (spans.map Span.id).Nodup) (hr : IsRootOf spans r) {anc : List Span} {s : Span}
    (h : Path spans r anc s) {a : Span} (ha : Above spans a s) : ∃ anc', Path spans r anc' a ∧ anc'.length < anc.length := by
  induction h with
  | root =>
    exfalso
    have : ∃ p ∈ spans, r.parent = p.id ∧ r.parent ≠ r.id := by
      cases ha with
      | parent h1 _ h3 h4 => exact ⟨a, h1, h3, h4⟩
      | @step p _ h1 _ h3 h4 => exact ⟨p, h1.mem.2, h3, h4⟩
    obtain ⟨p, hp, h3, h4⟩ := this
    rcases hr.2 with h | h
    · exact h4 h
    · exact h p hp h3.symm
  | @child anc p c hp hc h3 h4 ih =>
    have hpm := hp.mem hr.1
    cases ha with
    | parent h1 _ h5 _ =>
      have : a = p := mem_eq_of_id hn h1 hpm (h5.symm.trans h3)
      subst this
      exact ⟨anc, hp, by simp⟩
    | @step q _ h1 _ h5 _ =>
      have : q = p := mem_eq_of_id hn h1.mem.2 hpm (h5.symm.trans h3)
      subst this
      obtain ⟨anc', h6, h7⟩ := ih h1
      exact ⟨anc', h6, by simp only [List.length_cons]; omega⟩

theorem Spec.Path.not_cyclic {spans : List Span} {r : Span} (hn : (spans.map Span.id).Nodup) (hr : IsRootOf spans r) :
    ∀ (n : Nat) {anc : List Span} {s : Span}, anc.length ≤ n → Path spans r anc s → ¬ Above spans s s
  | 0, anc, s, hl, h, ha => by
    obtain ⟨anc', _, h2⟩ := h.above hn hr ha
    omega
  | n + 1, anc, s, hl, h, ha => by
    obtain ⟨anc', h1, h2⟩ := h.above hn hr ha
    exact not_cyclic hn hr n (by omega) h1 ha

/-- Following the parent links, one gets to a root candidate or into a cycle. -/
theorem climb {spans : List Span} {r : Span} (hr : UniqueRoot spans r) {s0 : Span} (hs0 : ¬ Lost spans s0) :
    ∀ (n : Nat) (seen : List Span) (s : Span), s ∈ spans → (s = s0 ∨ Above spans s s0) → seen.Nodup → (∀ x ∈ seen, Above spans s x) → s ∉ seen → spans.length ≤ seen.length + n →
      ∃ anc, Path spans r anc s := by
  intro n
  induction n with
  | zero =>
    intro seen s hs h0 hnd hall hnot hlen
    exfalso
    have hsub : ∀ x ∈ s :: seen, x ∈ spans := by
      intro x hx
      rcases List.mem_cons.mp hx with rfl | hx
      · exact hs
      · exact (hall x hx).mem.2
    have := (List.nodup_cons.mpr ⟨hnot, hnd⟩).length_le_of_subset hsub
    simp only [List.length_cons] at this
    omega
  | succ n ih =>
    intro seen s hs h0 hnd hall hnot hlen
    by_cases hroot : IsRootOf spans s
    · rw [hr.2 s hroot]; exact ⟨[], .root⟩
    · have : s.parent ≠ s.id ∧ ∃ p ∈ spans, p.id = s.parent := by
        refine ⟨fun h => hroot ⟨hs, .inl h⟩, Classical.byContradiction fun h => hroot ⟨hs, .inr fun q hq he => h ⟨q, hq, he⟩⟩⟩
      obtain ⟨h4, p, hp, hid⟩ := this
      have hps : Above spans p s := .parent hp hs hid.symm h4
      have hp0 : Above spans p s0 := by
        rcases h0 with rfl | h0
        · exact hps
        · exact hps.trans h0
      have hall' : ∀ x ∈ s :: seen, Above spans p x := by
        intro x hx
        rcases List.mem_cons.mp hx with rfl | hx
        · exact hps
        · exact hps.trans (hall x hx)
      obtain ⟨anc, ha⟩ := ih (s :: seen) p hp (.inr hp0) (List.nodup_cons.mpr ⟨hnot, hnd⟩) hall'
        (fun hm => hs0 ⟨p, hall' p hm, .inr hp0⟩) (by simp only [List.length_cons]; omega)
      exact ⟨_, .child ha hs hid.symm h4⟩

/-- A span descends from the root unless its parent links run into a cycle. -/
theorem path_iff_not_lost {spans : List Span} (hn : (spans.map Span.id).Nodup) {r : Span} (hr : UniqueRoot spans r) {s : Span} (hs : s ∈ spans) :
    (∃ anc, Path spans r anc s) ↔ ¬ Lost spans s := by
  constructor
  · rintro ⟨anc, h⟩ ⟨c, hc, rfl | hcs⟩
    · exact h.not_cyclic hn hr.1 _ (Nat.le_refl _) hc
    · obtain ⟨anc', h', _⟩ := h.above hn hr.1 hcs
      exact h'.not_cyclic hn hr.1 _ (Nat.le_refl _) hc
  · intro h
    exact climb hr h spans.length [] s hs (.inl rfl) List.nodup_nil (by simp) (by simp) (by simp)

/-! ## Lists with the same links -/

theorem link_eq {a b : Span} (h : link a = link b) : a.id = b.id ∧ a.parent = b.parent :=
  ⟨congrArg Prod.fst h, congrArg Prod.snd h⟩

theorem ids_of_links {l l' : List Span} (h : l.map link = l'.map link) : l.map Span.id = l'.map Span.id := by
  have := congrArg (List.map Prod.fst) h
  rwa [List.map_map, List.map_map] at this

theorem links_mem {l l' : List Span} (h : l.map link = l'.map link) {s : Span} (hs : s ∈ l) : ∃ s' ∈ l', link s' = link s := by
  have : link s ∈ l'.map link := by rw [← h]; exact List.mem_map_of_mem hs
  exact List.mem_map.mp this

theorem isRootOf_links {l l' : List Span} (h : l.map link = l'.map link) {s s' : Span} (hs' : s' ∈ l') (he : link s' = link s) (hr : IsRootOf l s) : IsRootOf l' s' := by
  obtain ⟨h1, h2⟩ := link_eq he
  refine ⟨hs', ?_⟩
  rcases hr.2 with h3 | h3
  · left; rw [h1, h2]; exact h3
  · right
    intro q hq
    obtain ⟨q', hq', he'⟩ := links_mem h.symm hq
    rw [h2, ← (link_eq he').1]
    exact h3 q' hq'

theorem uniqueRoot_links {l l' : List Span} (h : l.map link = l'.map link) (hn : (l.map Span.id).Nodup) {r : Span} (hr : UniqueRoot l r) :
    ∃ r', UniqueRoot l' r' ∧ link r' = link r := by
  obtain ⟨r', hr', he⟩ := links_mem h hr.1.1
  refine ⟨r', ⟨isRootOf_links h hr' he hr.1, fun q hq => ?_⟩, he⟩
  obtain ⟨q', hq', he'⟩ := links_mem h.symm hq.1
  have : q' = r := hr.2 q' (isRootOf_links h.symm hq' he' hq)
  subst this
  exact mem_eq_of_id (ids_of_links h ▸ hn) hq.1 hr' ((link_eq he').1.symm.trans (link_eq he).1.symm)

theorem path_links {l l' : List Span} (h : l.map link = l'.map link) (hn : (l.map Span.id).Nodup) {r r' : Span} (hr : r ∈ l) (hr' : r' ∈ l') (her : link r' = link r)
    {anc : List Span} {s : Span} (hp : Path l r anc s) : ∀ {s'}, s' ∈ l' → link s' = link s → ∃ anc', Path l' r' anc' s' := by
  have hn' : (l'.map Span.id).Nodup := ids_of_links h ▸ hn
  induction hp with
  | root =>
    intro s' hs' he
    rw [mem_eq_of_id hn' hs' hr' ((link_eq he).1.trans (link_eq her).1.symm)]
    exact ⟨[], .root⟩
  | @child anc p c hp hc h3 h4 ih =>
    intro s' hs' he
    obtain ⟨p', hp', hep⟩ := links_mem h (hp.mem hr)
    obtain ⟨anc', ha⟩ := ih hp' hep
    obtain ⟨e1, e2⟩ := link_eq he
    exact ⟨_, .child ha hs' (by rw [e2, (link_eq hep).1]; exact h3) (by rw [e1, e2]; exact h4)⟩

theorem above_links {l l' : List Span} (h : l.map link = l'.map link) {a s : Span} (hp : Above l a s) :
    ∀ {a' s'}, a' ∈ l' → s' ∈ l' → link a' = link a → link s' = link s → Above l' a' s' := by
  induction hp with
  | parent h1 h2 h3 h4 =>
    intro a' s' ha hs ea es
    obtain ⟨e1, e2⟩ := link_eq es
    exact .parent ha hs (by rw [e2, (link_eq ea).1]; exact h3) (by rw [e1, e2]; exact h4)
  | @step p s h1 h2 h3 h4 ih =>
    intro a' s' ha hs ea es
    obtain ⟨p', hp', hep⟩ := links_mem h h1.mem.2
    obtain ⟨e1, e2⟩ := link_eq es
    exact .step (ih ha hp' ea hep) hs (by rw [e2, (link_eq hep).1]; exact h3) (by rw [e1, e2]; exact h4)

/-! ## Corrected starts -/

/-- A corrected start is not before 2020 or the one of the root. -/
theorem start_not_broken {spans : List Span} {r : Span} {anc : List Span} {s : Span} (h : Path spans r anc s) :
    year2020 ≤ start anc s ∨ start anc s = start [] r := by
  induction h with
  | root => exact .inr rfl
  | @child anc p c hp _ _ _ ih =>
    by_cases hlt : shiftedStart (p :: anc) c < year2020
    · rw [show start (p :: anc) c = start anc p by rw [start, if_pos hlt]]
      exact ih
    · rw [show start (p :: anc) c = shiftedStart (p :: anc) c by rw [start, if_neg hlt]]
      exact .inl (Int64.not_lt.mp hlt)

/-! ## Converted traces -/

theorem convertAll_transparent {κ : Type} {conv : κ → Span → Option Span × κ} (hc : Transparent conv) (k : κ) (l : List Span) :
    ((convertAll conv k l).1).map link = (l.filter fun s => s.id ≠ 0 ∧ s.trace ≠ 0).map link := by
  induction l generalizing k with
  | nil => rfl
  | cons s l ih =>
    obtain ⟨c, h1, h2, h3⟩ := hc k s
    obtain ⟨e1, e2⟩ := link_eq h2
    simp only [convertAll, h1, Option.toList_some, List.map_append, ih]
    by_cases hs : s.id ≠ 0 ∧ s.trace ≠ 0
    · rw [List.filter_cons_of_pos (by rw [e1, h3]; simpa using hs), List.filter_cons_of_pos (by simpa using hs)]
      simp [h2]
    · rw [List.filter_cons_of_neg (by rw [e1, h3]; simpa using hs), List.filter_cons_of_neg (by simpa using hs)]
      simp

theorem convertTraces_origin {κ : Type} {conv : κ → Span → Option Span × κ} {k : κ} {l : List (List Span)} {t : List Span} (h : t ∈ convertTraces conv k l) :
    ∃ k', ∃ out ∈ l, t = (convertAll conv k' out).1 := by
  induction l generalizing k with
  | nil => cases h
  | cons x l ih =>
    rcases List.mem_cons.mp h with rfl | h
    · exact ⟨k, x, by simp, rfl⟩
    · obtain ⟨k', out, h1, h2⟩ := ih h
      exact ⟨k', out, List.mem_cons_of_mem _ h1, h2⟩

theorem mem_convertTraces {κ : Type} (conv : κ → Span → Option Span × κ) (k : κ) {l : List (List Span)} {out : List Span} (h : out ∈ l) :
    ∃ k', (convertAll conv k' out).1 ∈ convertTraces conv k l := by
  induction l generalizing k with
  | nil => cases h
  | cons x l ih =>
    rcases List.mem_cons.mp h with rfl | h
    · exact ⟨k, by simp [convertTraces]⟩
    · obtain ⟨k', h1⟩ := ih (convertAll conv k x).2 h
      exact ⟨k', List.mem_cons_of_mem _ h1⟩

end Verif
