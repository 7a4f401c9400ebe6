import Verif.Model.Go

/-!
# Finite maps and their entries as lists, up to order
-/

namespace Verif

open Std

set_option linter.unusedSectionVars false

section
variable {κ ν : Type} [Ord κ] [TransOrd κ] [LawfulEqOrd κ] [DecidableEq κ]

theorem mem_range {l : List (κ × ν)} {m : ExtTreeMap κ ν} (h : IsRange l m) {k : κ} {v : ν} :
    (k, v) ∈ l ↔ m[k]? = some v := by
  rw [h.mem_iff]; exact ExtTreeMap.mem_toList_iff_getElem?_eq_some

theorem range_keys_nodup {l : List (κ × ν)} {m : ExtTreeMap κ ν} (h : IsRange l m) : (l.map Prod.fst).Nodup := by
  have h1 : (m.toList.map Prod.fst).Nodup := by
    rw [ExtTreeMap.map_fst_toList_eq_keys]
    exact ExtTreeMap.nodup_keys
  exact (h.map Prod.fst).nodup_iff.mpr h1

theorem nodup_of_keys {l : List (κ × ν)} (h : (l.map Prod.fst).Nodup) : l.Nodup := by
  rw [List.Nodup, List.pairwise_map] at h
  exact h.imp (fun hne he => hne (by rw [he]))

theorem range_nodup {l : List (κ × ν)} {m : ExtTreeMap κ ν} (h : IsRange l m) : l.Nodup :=
  nodup_of_keys (range_keys_nodup h)

theorem isRange_refl (m : ExtTreeMap κ ν) : IsRange m.toList m := List.Perm.refl _

theorem range_of_mem_iff {l : List (κ × ν)} {m : ExtTreeMap κ ν} (hn : l.Nodup)
    (h : ∀ k v, (k, v) ∈ l ↔ m[k]? = some v) : IsRange l m := by
  refine (List.perm_ext_iff_of_nodup hn (range_nodup (isRange_refl m))).mpr ?_
  rintro ⟨k, v⟩
  rw [h, mem_range (isRange_refl m)]

theorem get_erase (m : ExtTreeMap κ ν) (k a : κ) : (m.erase k)[a]? = if k = a then none else m[a]? := by
  rw [ExtTreeMap.getElem?_erase]
  by_cases h : k = a <;> simp [h]

theorem get_insert (m : ExtTreeMap κ ν) (k a : κ) (v : ν) :
    (m.insert k v)[a]? = if k = a then some v else m[a]? := by
  rw [ExtTreeMap.getElem?_insert]
  by_cases h : k = a <;> simp [h]

/-- Taking out an entry. -/
theorem toList_erase_perm {m : ExtTreeMap κ ν} {k : κ} {v : ν} (h : m[k]? = some v) :
    m.toList.Perm ((k, v) :: (m.erase k).toList) := by
  have hk : (k, v) ∉ (m.erase k).toList := by
    rw [mem_range (isRange_refl _), get_erase]; simp
  refine (List.perm_ext_iff_of_nodup (range_nodup (isRange_refl m))
    (List.nodup_cons.mpr ⟨hk, range_nodup (isRange_refl _)⟩)).mpr ?_
  rintro ⟨a, b⟩
  rw [mem_range (isRange_refl m), List.mem_cons, mem_range (isRange_refl _), get_erase, Prod.mk.injEq]
  by_cases ha : k = a
  · subst ha; simp only [h, Option.some.injEq, if_true, true_and, reduceCtorEq, or_false]; exact eq_comm
  · simp [ha, Ne.symm ha]

theorem toList_insert_perm (m : ExtTreeMap κ ν) (k : κ) (v : ν) :
    (m.insert k v).toList.Perm ((k, v) :: (m.erase k).toList) := by
  have h := toList_erase_perm (m := m.insert k v) (k := k) (v := v) (by rw [get_insert]; simp)
  have e : (m.insert k v).erase k = m.erase k := by
    apply ExtTreeMap.ext_getElem?
    intro a
    rw [get_erase, get_erase, get_insert]
    split <;> rfl
  rwa [e] at h

theorem erase_of_none {m : ExtTreeMap κ ν} {k : κ} (h : m[k]? = none) : m.erase k = m := by
  apply ExtTreeMap.ext_getElem?
  intro a
  rw [get_erase]
  split
  · next e => rw [← e, h]
  · rfl

theorem contains_iff (m : ExtTreeMap κ ν) (k : κ) : m.contains k = true ↔ ∃ v, m[k]? = some v := by
  rw [ExtTreeMap.contains_eq_isSome_getElem?, Option.isSome_iff_exists]

end

theorem list_snoc_induction {α : Type} {P : List α → Prop} (h0 : P []) (h1 : ∀ l a, P l → P (l ++ [a])) (l : List α) : P l := by
  have : ∀ l : List α, P l.reverse := by
    intro l
    induction l with
    | nil => exact h0
    | cons a l ih => rw [List.reverse_cons]; exact h1 _ _ ih
  have h := this l.reverse
  rwa [List.reverse_reverse] at h

end Verif
