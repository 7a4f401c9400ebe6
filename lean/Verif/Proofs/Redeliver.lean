import Verif.Proofs.Flood
import Verif.Spec.Redeliver

/-!
# Spans that are received again
-/

namespace Verif

open Spec Std

/-- Strictly ordered lists with the same elements are equal. -/
theorem sorted_ext {α : Type} {f : α → Id} : ∀ {l l' : List α}, l.Pairwise (fun a b => f a > f b) → l'.Pairwise (fun a b => f a > f b) → (∀ x, x ∈ l ↔ x ∈ l') → l = l'
  | [], [], _, _, _ => rfl
  | [], b :: l', _, _, h => by have := (h b).mpr (by simp); cases this
  | a :: l, [], _, _, h => by have := (h a).mp (by simp); cases this
  | a :: l, b :: l', h1, h2, h => by
    rw [List.pairwise_cons] at h1 h2
    have hab : a = b := by
      rcases List.mem_cons.mp ((h a).mp (by simp)) with h3 | h3
      · exact h3
      rcases List.mem_cons.mp ((h b).mpr (by simp)) with h4 | h4
      · exact h4.symm
      · exact absurd (Int64.lt_trans (h2.1 a h3) (h1.1 b h4)) (Int64.lt_irrefl)
    subst hab
    congr 1
    refine sorted_ext h1.2 h2.2 fun x => ?_
    constructor
    · intro hx
      rcases List.mem_cons.mp ((h x).mp (List.mem_cons_of_mem _ hx)) with rfl | h3
      · exact absurd (h1.1 x hx) Int64.lt_irrefl
      · exact h3
    · intro hx
      rcases List.mem_cons.mp ((h x).mpr (List.mem_cons_of_mem _ hx)) with rfl | h3
      · exact absurd (h2.1 x hx) Int64.lt_irrefl
      · exact h3

/-- The spans of a trace are determined by what is held for each id. -/
theorem spans_eq_of_held {t t' : Tree} (h : t.Inv) (h' : t'.Inv) (he : ∀ id, held id t.members = held id t'.members) :
    t.spans.map Span.withTags = t'.spans.map Span.withTags := by
  have key : ∀ {t : Tree}, t.Inv → ∀ x, x ∈ t.spans.map Span.withTags ↔ ∃ id, held id t.members = some x := by
    intro t h x
    rw [List.mem_map]
    constructor
    · rintro ⟨s, hs, rfl⟩; exact ⟨s.id, h.mem_held hs⟩
    · rintro ⟨id, hh⟩
      obtain ⟨s', hs', hid⟩ := (h.ids id).mpr ((held_isSome _ _).mp (by rw [hh]; rfl))
      have h2 := h.mem_held hs'
      rw [hid, hh] at h2
      exact ⟨s', hs', (Option.some.inj h2).symm⟩
  have sorted : ∀ {t : Tree}, t.Inv → (t.spans.map Span.withTags).Pairwise (fun a b => a.id > b.id) := by
    intro t h
    rw [List.pairwise_map]
    exact h.sorted
  refine sorted_ext (sorted h) (sorted h') fun x => ?_
  rw [key h, key h']
  exact exists_congr fun id => by rw [he id]

theorem firstNonEmpty_absorb {a b : Str} (h : a ≠ [] → b = a) : firstNonEmpty a b = b := by
  unfold firstNonEmpty; split
  · rfl
  · next h' => exact (h h').symm

theorem firstNonEmpty_absorb' {a b : Str} (h : a ≠ [] → b ≠ []) : firstNonEmpty b a = b := by
  unfold firstNonEmpty; split
  · next h' =>
    subst h'
    exact Classical.byContradiction fun h' => (h h') rfl
  · rfl

theorem firstValid_absorb {a b : Timestamp} (h : 0 < a → b = a) : firstValid a b = b := by
  unfold firstValid; split
  · next h' => exact (h h').symm
  · rfl

theorem Spec.Absorbed.merged_eq {x a : Span} (h : Absorbed x a) : merged a x = a := by
  obtain ⟨m, hm, ht⟩ := h.tags
  have hp : (if a.parent = 0 then x.parent else a.parent) = a.parent := by
    split
    · next h' => rw [h', h.parent h']
    · rfl
  unfold merged
  by_cases hs : IsServer x
  · simp only [if_pos hs, hp]
    have e1 : firstNonEmpty x.service a.service = a.service := firstNonEmpty_absorb (fun h' => by have := h.service h'; rwa [if_pos hs] at this)
    have e2 : firstNonEmpty x.name a.name = a.name := firstNonEmpty_absorb (fun h' => by have := h.name h'; rwa [if_pos hs] at this)
    have e3 := firstValid_absorb (h.server hs).1
    have e4 := firstValid_absorb (h.server hs).2
    have e5 : (some (a.tags.getD ∅ ∪ x.tags.getD ∅)) = a.tags := by
      rw [hm]
      congr 1
      apply ExtTreeMap.ext_getElem?
      intro k
      rw [Option.getD_some, ExtTreeMap.getElem?_union]
      have := ht k
      rw [if_pos hs] at this
      cases hx : (x.tags.getD ∅)[k]? with
      | none => rfl
      | some v => rw [this (by rw [hx]; rfl), hx]; rfl
    rw [e1, e2, e3, e4, e5]
  · simp only [if_neg hs, hp]
    have e1 : firstNonEmpty a.service x.service = a.service := firstNonEmpty_absorb' (fun h' => by have := h.service h'; rwa [if_neg hs] at this)
    have e2 : firstNonEmpty a.name x.name = a.name := firstNonEmpty_absorb' (fun h' => by have := h.name h'; rwa [if_neg hs] at this)
    have e3 := firstValid_absorb (h.client hs).1
    have e4 := firstValid_absorb (h.client hs).2
    have e5 : (some (x.tags.getD ∅ ∪ a.tags.getD ∅)) = a.tags := by
      rw [hm]
      congr 1
      apply ExtTreeMap.ext_getElem?
      intro k
      rw [Option.getD_some, ExtTreeMap.getElem?_union]
      have := ht k
      rw [if_neg hs] at this
      cases hk : m[k]? with
      | some v => rfl
      | none =>
        cases hx : (x.tags.getD ∅)[k]? with
        | none => rfl
        | some v => have := this (by rw [hx]; rfl); rw [hk] at this; cases this
    rw [e1, e2, e3, e4, e5]

theorem absorbed_first (x : Span) : Absorbed x x.withTags where
  parent h := h
  tags := ⟨_, rfl, fun k hk => by split <;> first | rfl | exact hk⟩
  service h := by split <;> first | rfl | exact h
  name h := by split <;> first | rfl | exact h
  server _ := ⟨fun _ => rfl, fun _ => rfl⟩
  client _ := ⟨fun _ => rfl, fun _ => rfl⟩

theorem absorbed_merged (a x : Span) : Absorbed x (merged a x) := by
  unfold merged
  by_cases hs : IsServer x
  · simp only [if_pos hs]
    constructor
    · dsimp only
      split
      · exact id
      · next h => intro h'; exact absurd h' h
    · refine ⟨_, rfl, fun k hk => ?_⟩
      rw [if_pos hs, ExtTreeMap.getElem?_union]
      obtain ⟨v, hv⟩ := Option.isSome_iff_exists.mp hk
      rw [hv]; rfl
    · intro h; rw [if_pos hs]; exact if_neg h
    · intro h; rw [if_pos hs]; exact if_neg h
    · exact fun _ => ⟨fun h => if_pos h, fun h => if_pos h⟩
    · exact fun h => absurd hs h
  · simp only [if_neg hs]
    constructor
    · dsimp only
      split
      · exact id
      · next h => intro h'; exact absurd h' h
    · refine ⟨_, rfl, fun k hk => ?_⟩
      rw [if_neg hs, ExtTreeMap.getElem?_union]
      obtain ⟨v, hv⟩ := Option.isSome_iff_exists.mp hk
      rw [hv]
      cases (a.tags.getD ∅)[k]? <;> rfl
    · intro h
      rw [if_neg hs]
      dsimp only [firstNonEmpty]
      split
      · exact h
      · assumption
    · intro h
      rw [if_neg hs]
      dsimp only [firstNonEmpty]
      split
      · exact h
      · assumption
    · exact fun h => absurd h hs
    · exact fun _ => ⟨fun h => if_pos h, fun h => if_pos h⟩

theorem Spec.Absorbed.merged {x a y : Span} (h : Absorbed x a) (hc : Compatible x y) : Absorbed x (merged a y) := by
  by_cases hsy : IsServer y
  · by_cases hsx : IsServer x
    · unfold Compatible at hc
      rw [if_pos hsx] at hc
      rw [hc hsy]
      exact absorbed_merged a x
    · obtain ⟨m, hm, ht⟩ := h.tags
      have hsv := h.service
      have hnm := h.name
      simp only [if_neg hsx] at hsv hnm ht
      unfold Spec.merged
      simp only [if_pos hsy]
      constructor
      · dsimp only
        intro h'
        split at h'
        · next h0 => exact h.parent h0
        · next h0 => exact absurd h' h0
      · refine ⟨_, rfl, fun k hk => ?_⟩
        rw [if_neg hsx, ExtTreeMap.getElem?_union, hm, Option.getD_some]
        have := ht k hk
        cases (y.tags.getD ∅)[k]? with
        | none => exact this
        | some v => rfl
      · intro h'
        rw [if_neg hsx]
        dsimp only [firstNonEmpty]
        split
        · exact hsv h'
        · assumption
      · intro h'
        rw [if_neg hsx]
        dsimp only [firstNonEmpty]
        split
        · exact hnm h'
        · assumption
      · exact fun h' => absurd h' hsx
      · exact fun _ => h.client hsx
  · have hpar : (if a.parent = 0 then y.parent else a.parent) = 0 → x.parent = 0 := by
      intro h'
      split at h'
      · next h0 => exact h.parent h0
      · next h0 => exact absurd h' h0
    obtain ⟨m, hm, ht⟩ := h.tags
    unfold Spec.merged
    simp only [if_neg hsy]
    by_cases hsx : IsServer x
    · have hsv := h.service
      have hnm := h.name
      simp only [if_pos hsx] at hsv hnm ht
      constructor
      · exact hpar
      · refine ⟨_, rfl, fun k hk => ?_⟩
        rw [if_pos hsx, ExtTreeMap.getElem?_union, hm, Option.getD_some, ht k hk]
        obtain ⟨v, hv⟩ := Option.isSome_iff_exists.mp hk
        rw [hv]; rfl
      · intro h'
        rw [if_pos hsx]
        dsimp only [firstNonEmpty]
        rw [if_neg (by rw [hsv h']; exact h')]
        exact hsv h'
      · intro h'
        rw [if_pos hsx]
        dsimp only [firstNonEmpty]
        rw [if_neg (by rw [hnm h']; exact h')]
        exact hnm h'
      · exact fun _ => h.server hsx
      · exact fun h' => absurd hsx h'
    · have hsv := h.service
      have hnm := h.name
      simp only [if_neg hsx] at hsv hnm ht
      unfold Compatible at hc
      rw [if_neg hsx] at hc
      obtain ⟨c1, c2⟩ := hc hsy
      constructor
      · exact hpar
      · refine ⟨_, rfl, fun k hk => ?_⟩
        rw [if_neg hsx, ExtTreeMap.getElem?_union, hm, Option.getD_some]
        obtain ⟨v, hv⟩ := Option.isSome_iff_exists.mp (ht k hk)
        rw [hv]; rfl
      · intro h'
        rw [if_neg hsx]
        dsimp only [firstNonEmpty]
        rw [if_neg (hsv h')]
        exact hsv h'
      · intro h'
        rw [if_neg hsx]
        dsimp only [firstNonEmpty]
        rw [if_neg (hnm h')]
        exact hnm h'
      · exact fun h' => absurd h' hsx
      · refine fun _ => ⟨fun h' => ?_, fun h' => ?_⟩
        · dsimp only [firstValid]
          rw [if_pos (by rw [c1]; exact h')]; exact c1
        · dsimp only [firstValid]
          rw [if_pos (by rw [c2]; exact h')]; exact c2

theorem held_append_self {x : Span} {l : List Span} (hx : x ∈ l) (hc : ∀ y ∈ l, y.id = x.id → Compatible x y) (id : Id) :
    held id (l ++ [x]) = held id l := by
  unfold held
  rw [List.filter_append]
  by_cases hid : x.id = id
  · rw [show [x].filter (fun s => s.id == id) = [x] by simp [hid]]
    have hmem : x ∈ l.filter (fun s => s.id == id) := List.mem_filter.mpr ⟨hx, by simp [hid]⟩
    have hc' : ∀ y ∈ l.filter (fun s => s.id == id), Compatible x y := by
      intro y hy
      rw [List.mem_filter] at hy
      exact hc y hy.1 (by rw [hid]; simpa using hy.2)
    generalize l.filter (fun s => s.id == id) = q at *
    match q, hmem with
    | s :: rest, hmem =>
      simp only [List.cons_append, List.foldl_append, List.foldl_cons, List.foldl_nil]
      congr 1
      refine Absorbed.merged_eq ?_
      -- once absorbed, always absorbed
      have keep : ∀ (rest : List Span) (a : Span), (∀ y ∈ rest, Compatible x y) → Absorbed x a → Absorbed x (rest.foldl Spec.merged a) := by
        intro rest
        induction rest with
        | nil => exact fun a _ h => h
        | cons y rest ih =>
          intro a hy h
          exact ih _ (fun z hz => hy z (List.mem_cons_of_mem _ hz)) (h.merged (hy y (by simp)))
      have get : ∀ (rest : List Span) (a : Span), (∀ y ∈ rest, Compatible x y) → x ∈ rest → Absorbed x (rest.foldl Spec.merged a) := by
        intro rest
        induction rest with
        | nil => intro a _ h; cases h
        | cons y rest ih =>
          intro a hy h
          rcases List.mem_cons.mp h with rfl | h
          · exact keep rest _ (fun z hz => hy z (List.mem_cons_of_mem _ hz)) (absorbed_merged a x)
          · exact ih _ (fun z hz => hy z (List.mem_cons_of_mem _ hz)) h
      rcases List.mem_cons.mp hmem with rfl | hmem
      · exact keep rest _ (fun z hz => hc' z (List.mem_cons_of_mem _ hz)) (absorbed_first x)
      · exact get rest _ (fun z hz => hc' z (List.mem_cons_of_mem _ hz)) hmem
  · rw [show [x].filter (fun s => s.id == id) = [] by simp [hid], List.append_nil]

end Verif
