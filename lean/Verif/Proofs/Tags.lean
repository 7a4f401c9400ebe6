import Verif.Model.Span

/-!
# Inserting the entries of a map, in any order, into another map
-/

namespace Verif

/-- Inserting a list of entries, one after the other. -/
def insertAll (l : List (Str × Str)) (m : TagMap) : TagMap :=
  l.foldl (fun m e => m.insert e.1 e.2) m

theorem insertAll_get (l : List (Str × Str)) (hnd : (l.map Prod.fst).Nodup) (m : TagMap) (k : Str) :
    (insertAll l m)[k]? = (match l.find? (fun e => e.1 = k) with | some e => some e.2 | none => m[k]?) := by
  induction l generalizing m with
  | nil => rfl
  | cons e l ih =>
    simp only [List.map_cons, List.nodup_cons] at hnd
    show (insertAll l (m.insert e.1 e.2))[k]? = _
    rw [ih hnd.2]
    by_cases hk : e.1 = k
    · have : l.find? (fun e => decide (e.1 = k)) = none := by
        rw [List.find?_eq_none]
        intro x hx; simp only [decide_eq_true_eq]
        intro hxk; apply hnd.1; rw [hk, ← hxk]; exact List.mem_map_of_mem hx
      rw [this]
      simp [hk]
    · simp only [List.find?_cons, hk, decide_false]
      cases l.find? (fun e => decide (e.1 = k)) with
      | some e' => rfl
      | none => simp [Std.ExtTreeMap.getElem?_insert, hk]

theorem isRange_nodup {l : List (Str × Str)} {m : TagMap} (h : IsRange l m) : (l.map Prod.fst).Nodup := by
  have h1 : (m.toList.map Prod.fst).Nodup := by
    rw [Std.ExtTreeMap.map_fst_toList_eq_keys]
    exact Std.ExtTreeMap.nodup_keys
  exact (h.map Prod.fst).nodup_iff.mpr h1

/-- Inserting the entries of `m` in any order into `m0` overrides `m0` by `m`. -/
theorem insertAll_get_range {l : List (Str × Str)} {m : TagMap} (h : IsRange l m) (m0 : TagMap) (k : Str) :
    (insertAll l m0)[k]? = (m[k]?).or m0[k]? := by
  rw [insertAll_get l (isRange_nodup h)]
  cases hf : l.find? (fun e => decide (e.1 = k)) with
  | some e =>
    have h1 := List.find?_some hf
    have h2 := List.mem_of_find?_eq_some hf
    simp only [decide_eq_true_eq] at h1
    have h3 := Std.ExtTreeMap.mem_toList_iff_getElem?_eq_some.mp (h.mem_iff.mp (show (e.1, e.2) ∈ l from h2))
    rw [h1] at h3
    rw [h3]; rfl
  | none =>
    cases hm : m[k]? with
    | none => rfl
    | some v =>
      have h1 := h.mem_iff.mpr (Std.ExtTreeMap.mem_toList_iff_getElem?_eq_some.mpr hm)
      rw [List.find?_eq_none] at hf
      exact absurd (by simp) (hf _ h1)

/-- Inserting the entries of a map in any order rebuilds the map. -/
theorem insertAll_range (l : List (Str × Str)) (m : TagMap) (h : IsRange l m) : insertAll l ∅ = m := by
  apply Std.ExtTreeMap.ext_getElem?
  intro k
  rw [insertAll_get_range h]
  simp

/-- The order does not matter. -/
theorem insertAll_order {l l' : List (Str × Str)} {m : TagMap} (h : IsRange l m) (h' : IsRange l' m)
    (m0 : TagMap) : insertAll l m0 = insertAll l' m0 := by
  apply Std.ExtTreeMap.ext_getElem?
  intro k
  rw [insertAll_get_range h, insertAll_get_range h']

theorem isRange_toList (m : TagMap) : IsRange m.toList m := List.Perm.refl _

theorem isRange_nil_iff {l : List (Str × Str)} {m : TagMap} (h : IsRange l m) : l = [] ↔ m = ∅ := by
  constructor
  · rintro rfl
    have := insertAll_range [] m h
    exact this.symm
  · rintro rfl
    have : (∅ : TagMap).toList = [] := rfl
    unfold IsRange at h
    rw [this] at h
    exact h.eq_nil

end Verif
