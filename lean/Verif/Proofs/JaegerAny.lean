import Verif.Proofs.JaegerText
import Verif.Proofs.JaegerTypes

/-!
# Storing any request of the jaeger format
-/

namespace Verif

open Spec

/-! ## Several values for the same target -/

/-- The values are stored one after another. -/
def storeAll {α : Type} (S : Raw → α → Option α) (l : List Json) (a : α) : Option α := l.foldlM (fun a j => S (rawOf j) a) a

theorem storeAll_cons {α : Type} (S : Raw → α → Option α) (j : Json) (l : List Json) (a : α) : storeAll S (j :: l) a = (S (rawOf j) a).bind (storeAll S l) := rfl

theorem storeAll_snoc {α : Type} (S : Raw → α → Option α) (l : List Json) (j : Json) (a : α) : storeAll S (l ++ [j]) a = (storeAll S l a).bind (S (rawOf j)) := by
  unfold storeAll
  rw [List.foldlM_append]
  show Option.bind _ _ = _
  congr 1
  funext b
  show (S (rawOf j) b).bind some = _
  cases S (rawOf j) b <;> rfl

theorem storeAll_single {α : Type} (S : Raw → α → Option α) (j : Json) (a : α) : storeAll S [j] a = S (rawOf j) a := by
  show (S (rawOf j) a).bind some = _
  cases S (rawOf j) a <;> rfl

/-- Values are stored as the relation says; whether storing succeeds does not depend on what was there. -/
structure ReadsAs {α β : Type} (S : Raw → α → Option α) (zero : α) (view : α → β) (E : List Json → β → Prop) : Prop where
  sound : ∀ l a, (∀ j ∈ l, Fine j) → storeAll S l zero = some a → E l (view a)
  complete : ∀ l b, (∀ j ∈ l, Fine j) → E l b → ∃ a, storeAll S l zero = some a ∧ view a = b
  same : ∀ j old old', Fine j → (S (rawOf j) old).isSome = true → (S (rawOf j) old').isSome = true

theorem ReadsAs.value {α β : Type} {S : Raw → α → Option α} {zero : α} {view : α → β} {E : List Json → β → Prop} (h : ReadsAs S zero view E) {j : Json} (hj : Fine j) {old : α} :
    (S (rawOf j) old).isSome = true ↔ ∃ b, E [j] b := by
  have hf : ∀ k ∈ [j], Fine k := by simpa using hj
  constructor
  · intro hs
    obtain ⟨a, ha⟩ := Option.isSome_iff_exists.mp (h.same j old zero hj hs)
    exact ⟨_, h.sound [j] a hf (by rw [storeAll_single, ha])⟩
  · rintro ⟨b, hb⟩
    obtain ⟨a, ha, _⟩ := h.complete [j] b hf hb
    rw [storeAll_single] at ha
    exact h.same j zero old hj (by rw [ha]; rfl)

theorem snoc_induction {α : Type} {P : List α → Prop} (hnil : P []) (hsnoc : ∀ l a, P l → P (l ++ [a])) (l : List α) : P l := by
  have : ∀ m : List α, P m.reverse := by
    intro m
    induction m with
    | nil => exact hnil
    | cons a m ih => rw [List.reverse_cons]; exact hsnoc _ _ ih
  have := this l.reverse
  rwa [List.reverse_reverse] at this

/-! ### Literals -/

theorem readsAs_last {α : Type} {S : Raw → α → Option α} {R : Json → α → Prop} {ignored : Json → Prop} (zero : α) (h1 : ∀ j, Fine j → ignored j → ∀ old, S (rawOf j) old = some old)
    (h2 : ∀ j, Fine j → ¬ ignored j → ∀ old v, S (rawOf j) old = some v ↔ R j v) : ReadsAs S zero id (LastOf R ignored zero) := by
  refine ⟨fun l a hl h => ?_, fun l b hl h => ⟨b, ?_, rfl⟩, fun j old old' hj h => ?_⟩
  · show LastOf R ignored zero l a
    induction l generalizing zero with
    | nil =>
      cases h
      exact ⟨by simp, .inl ⟨by simp, rfl⟩⟩
    | cons j l ih =>
      rw [storeAll_cons] at h
      obtain ⟨v, hv, h⟩ := Option.bind_eq_some_iff.mp h
      have hj := hl j (by simp)
      obtain ⟨ih1, ih2⟩ := ih v (fun k hk => hl k (by simp [hk])) h
      by_cases hi : ignored j
      · rw [h1 j hj hi] at hv
        cases hv
        refine ⟨fun k hk => ?_, ?_⟩
        · rcases List.mem_cons.mp hk with rfl | hk
          · exact .inl hi
          · exact ih1 k hk
        · rcases ih2 with ⟨ih2, rfl⟩ | ⟨l1, k, l2, rfl, ih2⟩
          · exact .inl ⟨fun k hk => by rcases List.mem_cons.mp hk with rfl | hk; exact hi; exact ih2 k hk, rfl⟩
          · exact .inr ⟨j :: l1, k, l2, rfl, ih2⟩
      · rw [h2 j hj hi] at hv
        refine ⟨fun k hk => ?_, ?_⟩
        · rcases List.mem_cons.mp hk with rfl | hk
          · exact .inr ⟨v, hv⟩
          · exact ih1 k hk
        · rcases ih2 with ⟨ih2, rfl⟩ | ⟨l1, k, l2, rfl, ih2⟩
          · exact .inr ⟨[], j, l, rfl, hi, hv, ih2⟩
          · exact .inr ⟨j :: l1, k, l2, rfl, ih2⟩
  · induction l generalizing zero with
    | nil =>
      obtain ⟨_, ⟨_, rfl⟩ | ⟨l1, j, l2, e, _⟩⟩ := h
      · rfl
      · exact absurd e (by simp)
    | cons j l ih =>
      have hj := hl j (by simp)
      have hl' : ∀ k ∈ l, Fine k := fun k hk => hl k (by simp [hk])
      obtain ⟨g1, g2⟩ := h
      rw [storeAll_cons]
      by_cases hi : ignored j
      · rw [h1 j hj hi, Option.bind_some]
        refine ih zero hl' ⟨fun k hk => g1 k (by simp [hk]), ?_⟩
        rcases g2 with ⟨g2, rfl⟩ | ⟨l1, k, l2, e, g2⟩
        · exact .inl ⟨fun k hk => g2 k (by simp [hk]), rfl⟩
        · cases l1 with
          | nil => exact absurd ((List.cons.inj e).1 ▸ hi) g2.1
          | cons x l1 => exact .inr ⟨l1, k, l2, (List.cons.inj e).2, g2⟩
      · obtain ⟨v, hv⟩ := (g1 j (by simp)).resolve_left hi
        have hbase : ∀ v, R j v → LastOf R ignored v l b → (S (rawOf j) zero).bind (storeAll S l) = some b := by
          intro v hv hb
          rw [(h2 j hj hi zero v).mpr hv, Option.bind_some]
          exact ih v hl' hb
        rcases g2 with ⟨g2, _⟩ | ⟨l1, k, l2, e, g2⟩
        · exact absurd (g2 j (by simp)) hi
        · cases l1 with
          | nil =>
            obtain ⟨rfl, rfl⟩ := List.cons.inj e
            exact hbase b g2.2.1 ⟨fun k hk => g1 k (by simp [hk]), .inl ⟨g2.2.2, rfl⟩⟩
          | cons x l1 => exact hbase v hv ⟨fun k hk => g1 k (by simp [hk]), .inr ⟨l1, k, l2, (List.cons.inj e).2, g2⟩⟩
  · by_cases hi : ignored j
    · rw [h1 j hj hi]; rfl
    · obtain ⟨v, hv⟩ := Option.isSome_iff_exists.mp h
      rw [(h2 j hj hi old' v).mpr ((h2 j hj hi old v).mp hv)]
      rfl

theorem Fine.numbers {j : Json} (h : Fine j) : Numbers JsonNumber j := by
  induction h with
  | word w => exact .word w
  | number h => exact .number h
  | string => exact .string _
  | array _ ih => exact .array ih
  | object _ _ ih => exact .object ih

theorem Fine.isNumber {j : Json} (h : Fine j) (t : Str) (e : j = .number t) : JsonNumber t := by
  subst e
  cases h
  assumption

theorem readsAs_text : ReadsAs storeString [] id Texts := by
  refine readsAs_last [] (fun j _ hi old => by cases hi; rfl) fun j hj hi old v => ?_
  constructor
  · intro h
    have ht : HasType (fun _ => True) .text j := Classical.byContradiction fun hn => by rw [fails_string hj.isNumber hn] at h; cases h
    rcases ht with ht | ⟨lit, rfl⟩
    · exact absurd ht hi
    · simp only [rawOf, storeString] at h
      rw [if_neg (quoted_ne_null _), if_pos (by rfl)] at h
      cases hj with
      | string hl => exact .string ((goUnquote_iff hl).mp h)
  · rintro ⟨hs⟩
    simp only [rawOf, storeString]
    rw [if_neg (quoted_ne_null _), if_pos (by rfl)]
    cases hj with
    | string hl => exact (goUnquote_iff hl).mpr hs

theorem micros_unique {j : Json} {v v' : UInt64} (h : MicrosOf j v) (h' : MicrosOf j v') : v = v' := by
  cases h with
  | number _ h =>
    cases h' with
    | number _ h' => exact UInt64.toNat_inj.mp (by rw [h, h'])

theorem storeUint_old {j : Json} (hj : Fine j) (hi : ¬ IsNull j) (old old' : UInt64) : storeUint (rawOf j) old = storeUint (rawOf j) old' := by
  cases hr : rawOf j with
  | literal item => simp only [storeUint]; rw [if_neg (not_null hi hr hj.isNumber), if_neg (not_null hi hr hj.isNumber)]
  | array l => rfl
  | object l => rfl

theorem readsAs_count : ReadsAs storeUint 0 id Counts := by
  refine readsAs_last 0 (fun j _ hi old => by cases hi; rfl) fun j hj hi old v => ?_
  rw [storeUint_old hj hi old 0]
  constructor
  · intro h
    have ht : HasType (fun _ => True) .micros j := Classical.byContradiction fun hn => by rw [fails_uint hj.isNumber hn] at h; cases h
    rcases ht with ht | ⟨v', hv'⟩
    · exact absurd ht hi
    · rw [storeUint_micros (.value hv')] at h
      cases h
      exact hv'
  · intro h
    exact storeUint_micros (.value h)

theorem readsAs_id : ReadsAs storeId 0 id Ids := by
  refine readsAs_last 0 (fun j _ hi => hi.elim) fun j hj _ old v => ?_
  constructor
  · intro h
    have ht : HasType (fun _ => True) .id j := Classical.byContradiction fun hn => by rw [fails_id hj.isNumber hn] at h; cases h
    obtain ⟨v', hv'⟩ := ht
    rw [storeId_plain hv'] at h
    cases h
    exact hv'
  · intro h
    exact storeId_plain h old

theorem readsAs_any (floatFails : Str → Bool) : ReadsAs (storeAny floatFails) .other id (LastOf (AnyValueOf (GoNumber floatFails)) (fun _ => False) .other) := by
  refine readsAs_last JaegerValue.other (fun j _ hi => hi.elim) fun j hj _ old v => ?_
  by_cases hs : ∃ lit, j = .string lit
  · obtain ⟨lit, rfl⟩ := hs
    cases hj with
    | string hl =>
      simp only [rawOf, storeAny, List.head?_cons, if_true, Option.map_eq_some_iff]
      constructor
      · rintro ⟨x, hx, rfl⟩
        exact .string ((goUnquote_iff hl).mp hx)
      · intro h
        cases h with
        | string h => exact ⟨_, (goUnquote_iff hl).mpr h, rfl⟩
        | other h => exact absurd rfl (h lit)
  · have hns : ∀ lit, j ≠ .string lit := fun lit e => hs ⟨lit, e⟩
    constructor
    · intro h
      have ht : HasType (GoNumber floatFails) .value j := Classical.byContradiction fun hn => by rw [fails_any hj.numbers hn] at h; cases h
      rw [storeAny_value (.other hns ht)] at h
      cases h
      exact .other hns ht
    · intro h
      cases h with
      | string => exact absurd rfl (hns _)
      | other h1 h2 => exact storeAny_value (.other h1 h2) old

end Verif
