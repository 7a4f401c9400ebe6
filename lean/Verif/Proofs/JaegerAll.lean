import Verif.Proofs.JaegerAny

/-!
# Storing arrays, objects and maps of any request of the jaeger format
-/

namespace Verif

open Spec

/-! ## Arrays -/

theorem currentArrays_snoc (l : List Json) (j : Json) : currentArrays (l ++ [j]) = if elementsOf j = [] then [] else currentArrays l ++ [elementsOf j] := by
  unfold currentArrays
  rw [List.map_append, List.reverse_append]
  show ((elementsOf j :: (l.map elementsOf).reverse).takeWhile fun es => !es.isEmpty).reverse = _
  rw [List.takeWhile_cons]
  cases elementsOf j with
  | nil => rfl
  | cons a es => simp

theorem currentArrays_mem {l : List Json} {es : List Json} (h : es ∈ currentArrays l) : ∃ j ∈ l, elementsOf j = es := by
  unfold currentArrays at h
  have := (List.takeWhile_sublist _).subset (List.mem_reverse.mp h)
  rw [List.mem_reverse] at this
  exact List.mem_map.mp this

theorem elements_fine {j : Json} (h : Fine j) : ∀ e ∈ elementsOf j, Fine e := by
  cases h with
  | array h => exact h
  | _ => simp [elementsOf]

theorem current_fine {l : List Json} (hl : ∀ j ∈ l, Fine j) (i : Nat) : ∀ e ∈ (currentArrays l).filterMap (fun es => es[i]?), Fine e := by
  intro e he
  obtain ⟨es, hes, hi⟩ := List.mem_filterMap.mp he
  obtain ⟨j, hj, rfl⟩ := currentArrays_mem hes
  exact elements_fine (hl j hj) e (List.mem_of_getElem? hi)

theorem storeCells_spec {α : Type} {S : Raw → α → Option α} {zero : α} : ∀ {vs : List Raw} {cells cells' : List α}, storeCells S zero vs cells = some cells' →
    vs.length ≤ cells'.length ∧ (∀ (i : Nat) (v : Raw), vs[i]? = some v → S v (cells[i]?.getD zero) = some (cells'[i]?.getD zero)) ∧ ∀ i : Nat, vs.length ≤ i → cells'[i]? = cells[i]? := by
  intro vs
  induction vs with
  | nil =>
    intro cells cells' h
    cases h
    exact ⟨Nat.zero_le _, fun i v hv => by simp at hv, fun i _ => rfl⟩
  | cons v vs ih =>
    intro cells cells' h
    unfold storeCells at h
    simp only [Option.bind_eq_bind, Option.bind_eq_some_iff] at h
    obtain ⟨a, ha, rest, hr, e⟩ := h
    cases e
    obtain ⟨h1, h2, h3⟩ := ih hr
    refine ⟨by simpa using h1, fun i w hw => ?_, fun i hi => ?_⟩
    · cases i with
      | zero =>
        cases hw
        rw [List.headD_eq_head?_getD, List.head?_eq_getElem?] at ha
        rw [ha]
        rfl
      | succ i =>
        rw [List.getElem?_cons_succ] at hw ⊢
        have := h2 i w hw
        rwa [List.getElem?_tail] at this
    · cases i with
      | zero => simp at hi
      | succ i =>
        rw [List.getElem?_cons_succ, h3 i (by simpa using hi), List.getElem?_tail]

theorem storeCells_some {α : Type} {S : Raw → α → Option α} {zero : α} : ∀ {vs : List Raw} {cells : List α}, (∀ v ∈ vs, ∀ old, (S v old).isSome = true) → ∃ cells', storeCells S zero vs cells = some cells' := by
  intro vs
  induction vs with
  | nil => exact fun _ => ⟨_, rfl⟩
  | cons v vs ih =>
    intro cells h
    obtain ⟨a, ha⟩ := Option.isSome_iff_exists.mp (h v (by simp) (cells.headD zero))
    obtain ⟨rest, hr⟩ := ih (cells := cells.tail) fun w hw => h w (by simp [hw])
    unfold storeCells
    rw [ha, Option.bind_eq_bind, Option.bind_some, hr]
    exact ⟨_, rfl⟩

theorem storeCells_each {α : Type} {S : Raw → α → Option α} {zero : α} {vs : List Raw} {cells cells' : List α} (h : storeCells S zero vs cells = some cells') {v : Raw} (hv : v ∈ vs) :
    ∃ old, (S v old).isSome = true := by
  obtain ⟨i, hi⟩ := List.getElem?_of_mem hv
  exact ⟨_, by rw [(storeCells_spec h).2.1 i v hi]; rfl⟩

section

variable {α β : Type} {S : Raw → α → Option α} {zero : α} {view : α → β} {E : List Json → β → Prop}

/-- What is in the memory of a slice after all these values. -/
structure SliceHolds (S : Raw → α → Option α) (zero : α) (l : List Json) (s : JsonSlice α) : Prop where
  len : s.len = ((currentArrays l).getLast?.getD []).length
  le : s.len ≤ s.cells.length
  cells : ∀ i : Nat, storeAll S ((currentArrays l).filterMap fun es => es[i]?) zero = some (s.cells[i]?.getD zero)

theorem slice_empty (l : List Json) (j : Json) (h : elementsOf j = []) : SliceHolds S zero (l ++ [j]) {} := by
  have e : currentArrays (l ++ [j]) = [] := by rw [currentArrays_snoc, if_pos h]
  refine ⟨by rw [e]; rfl, Nat.le_refl _, fun i => ?_⟩
  rw [e]
  rfl

theorem slice_array {l : List Json} {e : Json} {es : List Json} {s : JsonSlice α} {cells : List α} (hs : SliceHolds S zero l s)
    (h : storeCells S zero (rawsOf (e :: es)) s.cells = some cells) : SliceHolds S zero (l ++ [.array (e :: es)]) { cells, len := (rawsOf (e :: es)).length } := by
  have ec : currentArrays (l ++ [.array (e :: es)]) = currentArrays l ++ [e :: es] := by rw [currentArrays_snoc]; rfl
  have hlen : (rawsOf (e :: es)).length = (e :: es).length := by rw [rawsOf_eq, List.length_map]
  obtain ⟨h1, h2, h3⟩ := storeCells_spec h
  refine ⟨?_, h1, fun i => ?_⟩
  · rw [ec, List.getLast?_concat, Option.getD_some, hlen]
  · rw [ec, List.filterMap_append]
    show storeAll S (_ ++ [e :: es].filterMap fun es => es[i]?) zero = some (cells[i]?.getD zero)
    cases hi : (e :: es)[i]? with
    | none =>
      rw [List.filterMap_cons, hi, List.filterMap_nil, List.append_nil, hs.cells i, h3 i (by rw [hlen]; exact List.getElem?_eq_none_iff.mp hi)]
    | some x =>
      rw [List.filterMap_cons, hi, List.filterMap_nil, storeAll_snoc, hs.cells i, Option.bind_some]
      exact h2 i (rawOf x) (by rw [rawsOf_eq, List.getElem?_map, hi]; rfl)

/-- A value that is stored in a slice. -/
theorem slice_step (hr : ReadsAs S zero view E) {l : List Json} {j : Json} (hj : Fine j) {s s' : JsonSlice α} (hs : SliceHolds S zero l s) (h : storeSlice S zero (rawOf j) s = some s') :
    SliceHolds S zero (l ++ [j]) s' ∧ (IsNull j ∨ ∃ es, j = .array es ∧ ∀ e ∈ es, ∃ a, E [e] a) := by
  cases j with
  | array es =>
    cases es with
    | nil =>
      cases h
      exact ⟨slice_empty l _ rfl, .inr ⟨[], rfl, by simp⟩⟩
    | cons e es =>
      simp only [rawOf, rawsOf, storeSlice] at h
      obtain ⟨cells, hc, rfl⟩ := Option.map_eq_some_iff.mp h
      refine ⟨slice_array hs hc, .inr ⟨_, rfl, fun x hx => ?_⟩⟩
      obtain ⟨old, ho⟩ := storeCells_each hc (v := rawOf x) (by
        have := List.mem_map_of_mem (f := rawOf) hx
        rwa [← rawsOf_eq] at this)
      exact (hr.value (elements_fine hj x hx)).mp ho
  | object ms => cases h
  | word w =>
    by_cases hn : IsNull (.word w)
    · cases hn
      cases h
      exact ⟨slice_empty l _ rfl, .inl rfl⟩
    · simp only [rawOf, storeSlice] at h
      rw [if_neg (not_null hn (by simp only [rawOf]) hj.isNumber)] at h
      cases h
  | number t =>
    simp only [rawOf, storeSlice] at h
    rw [if_neg (not_null (j := .number t) (by simp) (by simp only [rawOf]) hj.isNumber)] at h
    cases h
  | string lit =>
    simp only [rawOf, storeSlice] at h
    rw [if_neg (quoted_ne_null lit)] at h
    cases h

theorem slice_stores (hr : ReadsAs S zero view E) {j : Json} (hj : Fine j) (h : IsNull j ∨ ∃ es, j = .array es ∧ ∀ e ∈ es, ∃ a, E [e] a) (s : JsonSlice α) :
    (storeSlice S zero (rawOf j) s).isSome = true := by
  rcases h with h | ⟨es, rfl, h⟩
  · cases h
    rfl
  · cases es with
    | nil => rfl
    | cons e es =>
      simp only [rawOf, rawsOf, storeSlice]
      obtain ⟨cells', hc⟩ := storeCells_some (S := S) (zero := zero) (vs := rawsOf (e :: es)) (cells := s.cells) (by
        intro v hv old
        rw [rawsOf_eq] at hv
        obtain ⟨x, hx, rfl⟩ := List.mem_map.mp hv
        exact (hr.value (elements_fine hj x hx)).mpr (h x hx))
      rw [rawsOf] at hc
      rw [hc]
      rfl

theorem slice_all (hr : ReadsAs S zero view E) (l : List Json) : ∀ s, (∀ j ∈ l, Fine j) → storeAll (storeSlice S zero) l {} = some s →
    SliceHolds S zero l s ∧ ∀ j ∈ l, IsNull j ∨ ∃ es, j = .array es ∧ ∀ e ∈ es, ∃ a, E [e] a := by
  induction l using snoc_induction with
  | hnil =>
    intro s _ h
    cases h
    exact ⟨⟨rfl, Nat.le_refl _, fun i => rfl⟩, by simp⟩
  | hsnoc l j ih =>
    intro s hl h
    rw [storeAll_snoc] at h
    obtain ⟨s0, h0, h⟩ := Option.bind_eq_some_iff.mp h
    obtain ⟨ih1, ih2⟩ := ih s0 (fun k hk => hl k (by simp [hk])) h0
    obtain ⟨h1, h2⟩ := slice_step hr (hl j (by simp)) ih1 h
    refine ⟨h1, fun k hk => ?_⟩
    rcases List.mem_append.mp hk with hk | hk
    · exact ih2 k hk
    · rw [List.mem_singleton.mp hk]; exact h2

theorem storeAll_some {α : Type} {S : Raw → α → Option α} {l : List Json} (h : ∀ j ∈ l, ∀ old, (S (rawOf j) old).isSome = true) (a : α) : ∃ b, storeAll S l a = some b := by
  induction l generalizing a with
  | nil => exact ⟨a, rfl⟩
  | cons j l ih =>
    obtain ⟨b, hb⟩ := Option.isSome_iff_exists.mp (h j (by simp) a)
    rw [storeAll_cons, hb, Option.bind_some]
    exact ih (fun k hk => h k (by simp [hk])) b

theorem elems_get (s : JsonSlice α) (h : s.len ≤ s.cells.length) (i : Nat) : s.elems[i]? = if i < s.len then some (s.cells[i]?.getD zero) else none := by
  unfold JsonSlice.elems
  rw [List.getElem?_take]
  by_cases hi : i < s.len
  · rw [if_pos hi, if_pos hi, List.getElem?_eq_getElem (by omega)]
    rfl
  · rw [if_neg hi, if_neg hi]

theorem elems_length (s : JsonSlice α) (h : s.len ≤ s.cells.length) : s.elems.length = s.len := by
  unfold JsonSlice.elems
  rw [List.length_take]
  omega

theorem readsAs_slice (hr : ReadsAs S zero view E) : ReadsAs (storeSlice S zero) {} (fun s => s.elems.map view) (Arrays E) := by
  refine ⟨fun l s hl h => ?_, fun l as hl h => ?_, fun j old old' hj h => ?_⟩
  · obtain ⟨h1, h2⟩ := slice_all hr l s hl h
    refine ⟨h2, by rw [List.length_map, elems_length s h1.le, h1.len], fun i a ha => ?_⟩
    rw [List.getElem?_map, elems_get (zero := zero) s h1.le] at ha
    by_cases hi : i < s.len
    · rw [if_pos hi] at ha
      cases ha
      exact hr.sound _ _ (current_fine hl i) (h1.cells i)
    · rw [if_neg hi] at ha
      cases ha
  · obtain ⟨g1, g2, g3⟩ := h
    obtain ⟨s, hs⟩ := storeAll_some (S := storeSlice S zero) (l := l) (fun j hj old => slice_stores hr (hl j hj) (g1 j hj) old) {}
    obtain ⟨h1, _⟩ := slice_all hr l s hl hs
    refine ⟨s, hs, List.ext_getElem? fun i => ?_⟩
    rw [List.getElem?_map, elems_get (zero := zero) s h1.le]
    cases ha : as[i]? with
    | none =>
      rw [if_neg (by rw [h1.len, ← g2]; exact Nat.not_lt.mpr (List.getElem?_eq_none_iff.mp ha))]
      rfl
    | some a =>
      obtain ⟨x, hx, rfl⟩ := hr.complete _ _ (current_fine hl i) (g3 i a ha)
      rw [h1.cells i] at hx
      cases hx
      rw [if_pos (by rw [h1.len, ← g2]; exact (List.getElem?_eq_some_iff.mp ha).1)]
      rfl
  · obtain ⟨s', hs'⟩ := Option.isSome_iff_exists.mp h
    refine slice_stores hr hj ?_ old'
    cases j with
    | array es =>
      cases es with
      | nil => exact .inr ⟨[], rfl, by simp⟩
      | cons e es =>
        simp only [rawOf, rawsOf, storeSlice] at hs'
        obtain ⟨cells, hc, rfl⟩ := Option.map_eq_some_iff.mp hs'
        refine .inr ⟨_, rfl, fun x hx => ?_⟩
        obtain ⟨old, ho⟩ := storeCells_each hc (v := rawOf x) (by
          have := List.mem_map_of_mem (f := rawOf) hx
          rwa [← rawsOf_eq] at this)
        exact (hr.value (elements_fine hj x hx)).mp ho
    | object ms => cases hs'
    | word w =>
      refine .inl (Classical.byContradiction fun hn => ?_)
      simp only [rawOf, storeSlice] at hs'
      rw [if_neg (not_null hn (by simp only [rawOf]) hj.isNumber)] at hs'
      cases hs'
    | number t =>
      simp only [rawOf, storeSlice] at hs'
      rw [if_neg (not_null (j := .number t) (by simp) (by simp only [rawOf]) hj.isNumber)] at hs'
      cases hs'
    | string lit =>
      simp only [rawOf, storeSlice] at hs'
      rw [if_neg (quoted_ne_null lit)] at hs'
      cases hs'

end

end Verif
