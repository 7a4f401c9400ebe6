import Verif.Props.Jaeger

/-!
# Values of the wrong type
-/

namespace Verif

open Spec

/-! ## Depth -/

theorem scan_depth (fuel : Nat) : (∀ d k s r, scanValue fuel d s = some r → scanValue fuel (d + k) s = some r) ∧
    (∀ d k s r, scanElements fuel d s = some r → scanElements fuel (d + k) s = some r) ∧
    (∀ d k s r, scanMembers fuel d s = some r → scanMembers fuel (d + k) s = some r) := by
  induction fuel with
  | zero => exact ⟨fun _ _ _ _ h => (by cases h), fun _ _ _ _ h => (by cases h), fun _ _ _ _ h => (by cases h)⟩
  | succ fuel ih =>
    obtain ⟨ih1, ih2, ih3⟩ := ih
    refine ⟨?_, ?_, ?_⟩
    · intro d k s r h
      cases s with
      | nil => cases h
      | cons c s =>
        rw [scanValue] at h ⊢
        split
        · rename_i hc
          rw [if_pos hc] at h
          by_cases hd : d = 0
          · rw [if_pos hd] at h; cases h
          · rw [if_neg hd] at h
            rw [if_neg (by omega)]
            cases hs : skipSpace s with
            | nil => rw [hs] at h; cases h
            | cons e s' =>
              rw [hs] at h
              simp only at h ⊢
              split
              · rename_i he; rw [if_pos he] at h; exact h
              · rename_i he
                rw [if_neg he] at h
                obtain ⟨x, h1, h2⟩ := Option.map_eq_some_iff.mp h
                rw [show d + k - 1 = d - 1 + k by omega, ih3 _ k _ _ h1, ← h2]
                rfl
        · rename_i hc
          rw [if_neg hc] at h
          split
          · rename_i hc
            rw [if_pos hc] at h
            by_cases hd : d = 0
            · rw [if_pos hd] at h; cases h
            · rw [if_neg hd] at h
              rw [if_neg (by omega)]
              cases hs : skipSpace s with
              | nil => rw [hs] at h; cases h
              | cons e s' =>
                rw [hs] at h
                simp only at h ⊢
                split
                · rename_i he; rw [if_pos he] at h; exact h
                · rename_i he
                  rw [if_neg he] at h
                  obtain ⟨x, h1, h2⟩ := Option.map_eq_some_iff.mp h
                  rw [show d + k - 1 = d - 1 + k by omega, ih2 _ k _ _ h1, ← h2]
                  rfl
          · rename_i hc
            rw [if_neg hc] at h
            exact h
    · intro d k s r h
      rw [scanElements] at h ⊢
      cases hv : scanValue fuel d s with
      | none => rw [hv] at h; cases h
      | some p =>
        rw [hv] at h
        rw [ih1 _ k _ _ hv]
        simp only at h ⊢
        cases hs : skipSpace p.2 with
        | nil => rw [hs] at h; cases h
        | cons e s' =>
          rw [hs] at h
          simp only at h ⊢
          split
          · rename_i he; rw [if_pos he] at h; exact h
          · rename_i he
            rw [if_neg he] at h
            split
            · rename_i he
              rw [if_pos he] at h
              obtain ⟨x, h1, h2⟩ := Option.map_eq_some_iff.mp h
              rw [ih2 _ k _ _ h1, ← h2]
              rfl
            · rename_i he
              rw [if_neg he] at h
              cases h
    · intro d k s r h
      cases s with
      | nil => cases h
      | cons q s =>
        rw [scanMembers] at h ⊢
        by_cases hq : q ≠ c!"\""
        · rw [if_pos hq] at h; cases h
        · rw [if_neg hq] at h ⊢
          cases hl : scanLit s with
          | none => rw [hl] at h; cases h
          | some p =>
            rw [hl] at h
            simp only at h ⊢
            cases hs : skipSpace p.2 with
            | nil => rw [hs] at h; cases h
            | cons e s' =>
              rw [hs] at h
              simp only at h ⊢
              by_cases he : e ≠ c!":"
              · rw [if_pos he] at h; cases h
              · rw [if_neg he] at h ⊢
                cases hv : scanValue fuel d (skipSpace s') with
                | none => rw [hv] at h; cases h
                | some p' =>
                  rw [hv] at h
                  rw [ih1 _ k _ _ hv]
                  simp only at h ⊢
                  cases hs : skipSpace p'.2 with
                  | nil => rw [hs] at h; cases h
                  | cons e s' =>
                    rw [hs] at h
                    simp only at h ⊢
                    split
                    · rename_i he; rw [if_pos he] at h; exact h
                    · rename_i he
                      rw [if_neg he] at h
                      split
                      · rename_i he
                        rw [if_pos he] at h
                        obtain ⟨x, h1, h2⟩ := Option.map_eq_some_iff.mp h
                        rw [ih3 _ k _ _ h1, ← h2]
                        rfl
                      · rename_i he
                        rw [if_neg he] at h
                        cases h

theorem Spec.Nesting.add {n : Nat} {j : Json} (h : Nesting n j) (k : Nat) : Nesting (n + k) j := by
  induction h with
  | word w => exact .word w
  | number t => exact .number t
  | string lit => exact .string lit
  | @array n l _ ih => rw [show n + 1 + k = (n + k) + 1 by omega]; exact .array ih
  | @object n l _ ih => rw [show n + 1 + k = (n + k) + 1 by omega]; exact .object ih

mutual

theorem nesting_exists : (j : Json) → ∃ n, Nesting n j
  | .word w => ⟨0, .word w⟩
  | .number t => ⟨0, .number t⟩
  | .string lit => ⟨0, .string lit⟩
  | .array l => by
    obtain ⟨n, h⟩ := nesting_list l
    exact ⟨n + 1, .array h⟩
  | .object ms => by
    obtain ⟨n, h⟩ := nesting_members ms
    exact ⟨n + 1, .object h⟩

theorem nesting_list : (l : List Json) → ∃ n, ∀ j ∈ l, Nesting n j
  | [] => ⟨0, by simp⟩
  | j :: l => by
    obtain ⟨n, h⟩ := nesting_exists j
    obtain ⟨m, h'⟩ := nesting_list l
    refine ⟨n + m, fun k hk => ?_⟩
    rcases List.mem_cons.mp hk with rfl | hk
    · exact h.add m
    · rw [Nat.add_comm]; exact (h' k hk).add n

theorem nesting_members : (l : List (Str × Json)) → ∃ n, ∀ m ∈ l, Nesting n m.2
  | [] => ⟨0, by simp⟩
  | (a, j) :: l => by
    obtain ⟨n, h⟩ := nesting_exists j
    obtain ⟨m, h'⟩ := nesting_members l
    refine ⟨n + m, fun k hk => ?_⟩
    rcases List.mem_cons.mp hk with rfl | hk
    · exact h.add m
    · rw [Nat.add_comm]; exact (h' k hk).add n

end

/-- A document is scanned as what it is, or not at all if it is too deep. -/
theorem scanValue_result {j : Json} {t : Str} (h : Writes JsonNumber j t) (depth : Nat) {fuel : Nat} {rest : Str} (hf : t.length ≤ fuel)
    (hs : ∀ n, j = .number n → NumStop rest) : scanValue fuel depth (t ++ rest) = none ∨ scanValue fuel depth (t ++ rest) = some (rawOf j, rest) := by
  cases hv : scanValue fuel depth (t ++ rest) with
  | none => exact .inl rfl
  | some r =>
    right
    obtain ⟨n, hn⟩ := nesting_exists j
    have h1 := (scan_depth fuel).1 _ n _ _ hv
    rw [Nat.add_comm, scanValue_writes h fuel (n + depth) rest hf (hn.add depth) hs] at h1
    exact h1.symm

/-! ## Failing -/

/-- The value cannot be stored. -/
def Fails {α : Type} (store : Raw → α → Option α) (j : Json) : Prop := ∀ old, store (rawOf j) old = none

theorem foldlM_fails {α β : Type} {f : β → α → Option β} {l : List α} {a : α} (ha : a ∈ l) (h : ∀ b, f b a = none) (b : β) : l.foldlM f b = none := by
  induction l generalizing b with
  | nil => cases ha
  | cons x l ih =>
    rw [List.foldlM_cons]
    rcases List.mem_cons.mp ha with rfl | ha
    · rw [h]; rfl
    · cases f b x with
      | none => rfl
      | some c => exact ih ha c

theorem fails_member {α : Type} {fields : List (Str × (Raw → α → Option α))} {ms : List (Str × Json)} {lit n : Str} {k : Json} (hm : (lit, k) ∈ ms) (hn : Utf8String lit n)
    {store : Raw → α → Option α} (hf : findField fields n = some store) (h : Fails store k) : Fails (storeStruct fields) (.object ms) := by
  intro old
  simp only [rawOf, storeStruct, rawMembers_eq]
  refine foldlM_fails (List.mem_map.mpr ⟨_, hm, rfl⟩) (fun b => ?_) old
  simp only [goUnquote_json hn, Option.bind_eq_bind, Option.bind_some, hf]
  exact h b

theorem fails_element {α : Type} {store : Raw → α → Option α} {zero : α} {l : List Json} {k : Json} (hk : k ∈ l) (h : Fails store k) : Fails (storeSlice store zero) (.array l) := by
  intro old
  have key : ∀ (l : List Json) (cells : List α), k ∈ l → storeCells store zero (l.map rawOf) cells = none := by
    intro l
    induction l with
    | nil => intro _ h; cases h
    | cons j l ih =>
      intro cells hk
      simp only [List.map_cons, storeCells, Option.bind_eq_bind]
      rcases List.mem_cons.mp hk with rfl | hk
      · rw [h]; rfl
      · rw [ih _ hk]
        cases store (rawOf j) (cells.headD zero) <;> rfl
  simp only [rawOf, rawsOf_eq]
  cases l with
  | nil => cases hk
  | cons j l =>
    rw [List.map_cons, storeSlice, ← List.map_cons (f := rawOf), key _ _ hk]
    rfl

theorem fails_entry {α : Type} {store : Raw → α → Option α} {zero : α} {ms : List (Str × Json)} {lit : Str} {k : Json} (hm : (lit, k) ∈ ms) (h : Fails store k) :
    Fails (storeMap store zero) (.object ms) := by
  intro old
  simp only [rawOf, storeMap, rawMembers_eq]
  rw [foldlM_fails (List.mem_map.mpr ⟨_, hm, rfl⟩) (fun b => ?_) (old.getD ∅)]
  · rfl
  · simp only [Option.bind_eq_bind]
    rw [h zero]
    cases goUnquote (c!"\"" :: (lit ++ [c!"\""])) <;> rfl

/-- Storing in a field. -/
theorem fails_field {α τ : Type} {store : Raw → τ → Option τ} {get : α → τ} {set : α → τ → α} {j : Json} (h : Fails store j) :
    Fails (fun v r => (store v (get r)).map fun x => set r x) j := by
  intro old
  show (store (rawOf j) (get old)).map _ = none
  rw [h]; rfl

/-! ## Types -/

theorem not_null {j : Json} (h : ¬ j = .word .null) {item : Str} (hr : rawOf j = .literal item) (hn : ∀ t, j = .number t → JsonNumber t) : item ≠ nullItem := by
  rintro rfl
  cases j with
  | word w =>
    cases w with
    | null => exact h rfl
    | true => injection hr with hr; exact absurd hr (by decide)
    | false => injection hr with hr; exact absurd hr (by decide)
  | number t =>
    injection hr with hr
    obtain ⟨c, t', e, hc⟩ := number_head (hn t rfl)
    rw [e] at hr
    have := (List.cons.inj hr).1
    subst this
    exact absurd hc (by decide)
  | string lit => injection hr with hr; exact absurd hr (quoted_ne_null lit)
  | array l => cases hr
  | object ms => cases hr

theorem fails_struct {α : Type} (fields : List (Str × (Raw → α → Option α))) {inRange : Str → Prop} {j : Json} (hn : ∀ t, j = .number t → JsonNumber t)
    (h : ¬ HasType inRange .objects j) : Fails (storeStruct fields) j := by
  intro old
  have h1 : ¬ j = .word .null := fun e => h (.inl e)
  have hl := fun item hr => not_null (item := item) h1 hr hn
  cases j with
  | object ms => exact absurd (.inr ⟨ms, rfl⟩) h
  | array l => rfl
  | word w => simp only [rawOf, storeStruct]; rw [if_neg (hl _ (by simp only [rawOf]))]
  | number t => simp only [rawOf, storeStruct]; rw [if_neg (hl _ (by simp only [rawOf]))]
  | string lit => simp only [rawOf, storeStruct]; rw [if_neg (hl _ (by simp only [rawOf]))]

theorem fails_slice {α : Type} (store : Raw → α → Option α) (zero : α) {inRange : Str → Prop} {j : Json} (hn : ∀ t, j = .number t → JsonNumber t)
    (h : ¬ HasType inRange .array j) : Fails (storeSlice store zero) j := by
  intro old
  have h1 : ¬ j = .word .null := fun e => h (.inl e)
  have hl := fun item hr => not_null (item := item) h1 hr hn
  cases j with
  | array l => exact absurd (.inr ⟨l, rfl⟩) h
  | object ms => rfl
  | word w => simp only [rawOf, storeSlice]; rw [if_neg (hl _ (by simp only [rawOf]))]
  | number t => simp only [rawOf, storeSlice]; rw [if_neg (hl _ (by simp only [rawOf]))]
  | string lit => simp only [rawOf, storeSlice]; rw [if_neg (hl _ (by simp only [rawOf]))]

theorem fails_map {α : Type} (store : Raw → α → Option α) (zero : α) {inRange : Str → Prop} {j : Json} (hn : ∀ t, j = .number t → JsonNumber t)
    (h : ¬ HasType inRange .objects j) : Fails (storeMap store zero) j := by
  intro old
  have h1 : ¬ j = .word .null := fun e => h (.inl e)
  have hl := fun item hr => not_null (item := item) h1 hr hn
  cases j with
  | object ms => exact absurd (.inr ⟨ms, rfl⟩) h
  | array l => rfl
  | word w => simp only [rawOf, storeMap]; rw [if_neg (hl _ (by simp only [rawOf]))]
  | number t => simp only [rawOf, storeMap]; rw [if_neg (hl _ (by simp only [rawOf]))]
  | string lit => simp only [rawOf, storeMap]; rw [if_neg (hl _ (by simp only [rawOf]))]

theorem fails_string {inRange : Str → Prop} {j : Json} (hn : ∀ t, j = .number t → JsonNumber t) (h : ¬ HasType inRange .text j) : Fails storeString j := by
  intro old
  have h1 : ¬ j = .word .null := fun e => h (.inl e)
  have hl := fun item hr => not_null (item := item) h1 hr hn
  cases j with
  | string lit => exact absurd (.inr ⟨lit, rfl⟩) h
  | array l => rfl
  | object ms => rfl
  | word w =>
    simp only [rawOf, storeString]
    rw [if_neg (hl _ (by simp only [rawOf])), if_neg (by cases w <;> decide)]
  | number t =>
    simp only [rawOf, storeString]
    obtain ⟨c, t', e, hc⟩ := number_head (hn t rfl)
    obtain ⟨_, _, _, hq, _⟩ := digit_head hc
    rw [if_neg (hl _ (by simp only [rawOf])), if_neg (by rw [e]; simpa using hq)]

theorem fails_id {inRange : Str → Prop} {j : Json} (hn : ∀ t, j = .number t → JsonNumber t) (h : ¬ HasType inRange .id j) : Fails storeId j := by
  intro old
  have quote : ∀ (item : Str), item.head? ≠ some c!"\"" → idUnmarshalJSON item = none := by
    intro item hi
    unfold idUnmarshalJSON
    rw [if_pos]
    refine .inr (.inl ?_)
    rw [← List.head?_eq_getElem?]
    exact hi
  cases j with
  | array l => rfl
  | object ms => rfl
  | word w =>
    simp only [rawOf, storeId]
    exact quote _ (by cases w <;> decide)
  | number t =>
    simp only [rawOf, storeId]
    obtain ⟨c, t', e, hc⟩ := number_head (hn t rfl)
    obtain ⟨_, _, _, hq, _⟩ := digit_head hc
    exact quote _ (by rw [e]; simpa using hq)
  | string s =>
    simp only [rawOf, storeId, idUnmarshalJSON]
    split
    · rfl
    · have e : ((c!"\"" :: (s ++ [c!"\""])).take ((c!"\"" :: (s ++ [c!"\""])).length - 1)).drop 1 = s := by simp
      rw [e]
      cases hp : parseId s with
      | none => rfl
      | some id =>
        obtain ⟨h1, h2⟩ := (C02_parseId_accepts_iff s).mp (by rw [hp]; rfl)
        exact absurd ⟨id, .string h1 h2 (C02_parseId_value _ _ hp)⟩ h

theorem fails_uint {inRange : Str → Prop} {j : Json} (hn : ∀ t, j = .number t → JsonNumber t) (h : ¬ HasType inRange .micros j) : Fails storeUint j := by
  intro old
  have h1 : ¬ j = .word .null := fun e => h (.inl e)
  have hl := fun item hr => not_null (item := item) h1 hr hn
  cases j with
  | array l => rfl
  | object ms => rfl
  | word w =>
    simp only [rawOf, storeUint]
    rw [if_neg (hl _ (by simp only [rawOf]))]
    cases w <;> decide
  | string lit =>
    simp only [rawOf, storeUint]
    rw [if_neg (hl _ (by simp only [rawOf])), parseUint, if_neg]
    rintro ⟨_, h⟩
    rw [List.all_cons] at h
    exact absurd h (by simp)
  | number t =>
    simp only [rawOf, storeUint]
    rw [if_neg (hl _ (by simp only [rawOf])), parseUint]
    split
    · rename_i hd
      have hdig : Digits t := ⟨hd.1, by simpa using hd.2⟩
      have e : t.foldl (fun n c => n * 10 + (c.toNat - 48)) 0 = decimalValue t := by
        unfold decimalValue
        congr 1
        funext n c
        show n * 10 + (c.toNat - 48) = 10 * n + (c.toNat - 48)
        omega
      simp only [e]
      rw [if_neg]
      intro hlt
      exact h (.inr ⟨UInt64.ofNat (decimalValue t), .number hdig (by rw [UInt64.toNat_ofNat', Nat.mod_eq_of_lt hlt])⟩)
    · rfl

mutual

theorem numbers_of_floatsOk {floatFails : Str → Bool} : (j : Json) → Numbers JsonNumber j → (rawOf j).floatsOk floatFails = true → Numbers (GoNumber floatFails) j
  | .word w, _, _ => .word w
  | .string lit, _, _ => .string lit
  | .number t, h, hf => by
    cases h with
    | number h =>
      refine .number ⟨h, ?_⟩
      obtain ⟨c, t', e, hc⟩ := number_head h
      simp only [rawOf, Raw.floatsOk] at hf
      rw [e] at hf
      simp only [List.head?_cons] at hf
      rw [if_pos hc, ← e] at hf
      simpa using hf
  | .array l, h, hf => by
    cases h with
    | array h => exact .array (numbers_of_allFloatsOk l h hf)
  | .object ms, h, hf => by
    cases h with
    | object h => exact .object (numbers_of_membersFloatsOk ms h hf)

theorem numbers_of_allFloatsOk {floatFails : Str → Bool} : (l : List Json) → (∀ j ∈ l, Numbers JsonNumber j) → Raw.allFloatsOk floatFails (rawsOf l) = true →
    ∀ j ∈ l, Numbers (GoNumber floatFails) j
  | [], _, _ => by simp
  | j :: l, h, hf => by
    rw [rawsOf, Raw.allFloatsOk, Bool.and_eq_true] at hf
    intro k hk
    rcases List.mem_cons.mp hk with e | hk
    · rw [e]; exact numbers_of_floatsOk j (h j (by simp)) hf.1
    · exact numbers_of_allFloatsOk l (fun x hx => h x (by simp [hx])) hf.2 k hk

theorem numbers_of_membersFloatsOk {floatFails : Str → Bool} : (l : List (Str × Json)) → (∀ m ∈ l, Numbers JsonNumber m.2) → Raw.membersFloatsOk floatFails (rawMembers l) = true →
    ∀ m ∈ l, Numbers (GoNumber floatFails) m.2
  | [], _, _ => by simp
  | (n, j) :: l, h, hf => by
    rw [rawMembers, Raw.membersFloatsOk, Bool.and_eq_true] at hf
    intro k hk
    rcases List.mem_cons.mp hk with e | hk
    · rw [e]; exact numbers_of_floatsOk j (h (n, j) (by simp)) hf.1
    · exact numbers_of_membersFloatsOk l (fun x hx => h x (by simp [hx])) hf.2 k hk

end

theorem fails_any {floatFails : Str → Bool} {j : Json} (hn : Numbers JsonNumber j) (h : ¬ HasType (GoNumber floatFails) .value j) : Fails (storeAny floatFails) j := by
  intro old
  have hf : ¬ (rawOf j).floatsOk floatFails = true := fun hf => h (numbers_of_floatsOk j hn hf)
  cases j with
  | word w => exact absurd (.word w) h
  | string lit => exact absurd (.string lit) h
  | number t =>
    cases hn with
    | number hn =>
      obtain ⟨c, t', e, hc⟩ := number_head hn
      obtain ⟨_, _, _, hq, _⟩ := digit_head hc
      rw [rawOf] at hf ⊢
      rw [storeAny, if_neg (by rw [e]; simpa using hq), if_neg hf]
  | array l => rw [rawOf] at hf ⊢; simp only [storeAny, if_neg hf]
  | object ms => rw [rawOf] at hf ⊢; simp only [storeAny, if_neg hf]

/-! ## Numbers of a document -/

mutual

theorem writes_numbers {N : Str → Prop} {j : Json} {t : Str} (h : Writes N j t) : Numbers N j :=
  match h with
  | .word w => .word w
  | .number h => .number h
  | .string _ => .string _
  | .array h => .array (writes_numbers_elements h)
  | .object h => .object (writes_numbers_members h)

theorem writes_numbers_elements {N : Str → Prop} {l : List Json} {t : Str} (h : WritesElements N l t) : ∀ j ∈ l, Numbers N j :=
  match h with
  | .empty _ => by simp
  | .last _ h _ => by
    intro k hk
    rw [List.mem_singleton.mp hk]
    exact writes_numbers h
  | .cons _ h _ hl => by
    intro k hk
    rcases List.mem_cons.mp hk with e | hk
    · rw [e]; exact writes_numbers h
    · exact writes_numbers_elements hl k hk

theorem writes_numbers_members {N : Str → Prop} {l : List (Str × Json)} {t : Str} (h : WritesMembers N l t) : ∀ m ∈ l, Numbers N m.2 :=
  match h with
  | .empty _ => by simp
  | .last _ _ _ _ h _ => by
    intro k hk
    rw [List.mem_singleton.mp hk]
    exact writes_numbers h
  | .cons _ _ _ _ h _ hl => by
    intro k hk
    rcases List.mem_cons.mp hk with e | hk
    · rw [e]; exact writes_numbers h
    · exact writes_numbers_members hl k hk

end

theorem numbers_at {N : Str → Prop} {p : List JsonStep} {j v : Json} (h : JsonAt p j v) (hn : Numbers N j) : Numbers N v := by
  induction h with
  | here => exact hn
  | member hm _ _ ih =>
    cases hn with
    | object hn => exact ih (hn _ hm)
  | anyMember hm _ ih =>
    cases hn with
    | object hn => exact ih (hn _ hm)
  | element hk _ ih =>
    cases hn with
    | array hn => exact ih (hn _ hk)

/-! ## Places -/

theorem step_struct {α : Type} {fields : List (Str × (Raw → α → Option α))} {n : Str} {store : Raw → α → Option α} (hf : findField fields n = some store) {p : List JsonStep} {j v : Json}
    (hat : JsonAt (.name n :: p) j v) (hk : ∀ k, JsonAt p k v → Fails store k) : Fails (storeStruct fields) j := by
  cases hat with
  | member hm hn hat => exact fails_member hm hn hf (hk _ hat)

theorem step_slice {α : Type} {store : Raw → α → Option α} {zero : α} {p : List JsonStep} {j v : Json}
    (hat : JsonAt (.element :: p) j v) (hk : ∀ k, JsonAt p k v → Fails store k) : Fails (storeSlice store zero) j := by
  cases hat with
  | element hm hat => exact fails_element hm (hk _ hat)

theorem step_map {α : Type} {store : Raw → α → Option α} {zero : α} {p : List JsonStep} {j v : Json}
    (hat : JsonAt (.anyName :: p) j v) (hk : ∀ k, JsonAt p k v → Fails store k) : Fails (storeMap store zero) j := by
  cases hat with
  | anyMember hm hat => exact fails_entry hm (hk _ hat)

theorem at_here {j v : Json} (h : JsonAt [] j v) : j = v := by cases h; rfl

theorem fails_place {floatFails : Str → Bool} {path : List JsonStep} {ty : JaegerType} (hp : (path, ty) ∈ jaegerPlaces) {j v : Json} (hn : Numbers JsonNumber v)
    (hat : JsonAt path j v) (hty : ¬ HasType (GoNumber floatFails) ty v) : Fails (storeObject floatFails) j := by
  have hnum : ∀ t, v = .number t → JsonNumber t := by rintro t rfl; cases hn with | number h => exact h
  have data : ∀ {p : List JsonStep}, (∀ k, JsonAt p k v → Fails (storeData floatFails) k) → JsonAt (.name b!"data" :: .element :: p) j v → Fails (storeObject floatFails) j :=
    fun h hat => step_struct rfl hat fun k hat => step_slice hat h
  have span : ∀ {p : List JsonStep}, (∀ k, JsonAt p k v → Fails (storeSpan floatFails) k) → JsonAt (.name b!"data" :: .element :: .name b!"spans" :: .element :: p) j v →
      Fails (storeObject floatFails) j :=
    fun h hat => data (fun k hat => step_struct rfl hat fun k hat => fails_field (step_slice hat h)) hat
  have reference : ∀ {p : List JsonStep}, (∀ k, JsonAt p k v → Fails storeReference k) →
      JsonAt (.name b!"data" :: .element :: .name b!"spans" :: .element :: .name b!"references" :: .element :: p) j v → Fails (storeObject floatFails) j :=
    fun h hat => span (fun k hat => step_struct rfl hat fun k hat => fails_field (step_slice hat h)) hat
  have tag : ∀ {p : List JsonStep}, (∀ k, JsonAt p k v → Fails (storeTag floatFails) k) →
      JsonAt (.name b!"data" :: .element :: .name b!"spans" :: .element :: .name b!"tags" :: .element :: p) j v → Fails (storeObject floatFails) j :=
    fun h hat => span (fun k hat => step_struct rfl hat fun k hat => fails_field (step_slice hat h)) hat
  have process : ∀ {p : List JsonStep}, (∀ k, JsonAt p k v → Fails storeProcess k) →
      JsonAt (.name b!"data" :: .element :: .name b!"processes" :: .anyName :: p) j v → Fails (storeObject floatFails) j :=
    fun h hat => data (fun k hat => step_struct rfl hat fun k hat => fails_field (step_map hat h)) hat
  simp only [jaegerPlaces, List.mem_cons, List.not_mem_nil, or_false, Prod.mk.injEq, List.cons_append, List.nil_append] at hp
  rcases hp with ⟨rfl, rfl⟩ | ⟨rfl, rfl⟩ | ⟨rfl, rfl⟩ | ⟨rfl, rfl⟩ | ⟨rfl, rfl⟩ | ⟨rfl, rfl⟩ | ⟨rfl, rfl⟩ | ⟨rfl, rfl⟩ | ⟨rfl, rfl⟩ | ⟨rfl, rfl⟩ | ⟨rfl, rfl⟩ | ⟨rfl, rfl⟩ | ⟨rfl, rfl⟩ |
    ⟨rfl, rfl⟩ | ⟨rfl, rfl⟩ | ⟨rfl, rfl⟩ | ⟨rfl, rfl⟩ | ⟨rfl, rfl⟩ | ⟨rfl, rfl⟩ | ⟨rfl, rfl⟩ | ⟨rfl, rfl⟩ | ⟨rfl, rfl⟩
  · rw [at_here hat]; exact fails_struct _ hnum hty
  · exact step_struct rfl hat fun k hat => by rw [at_here hat]; exact fails_slice _ _ hnum hty
  · exact data (fun k hat => by rw [at_here hat]; exact fails_struct _ hnum hty) hat
  · exact data (fun k hat => step_struct rfl hat fun k hat => fails_field (by rw [at_here hat]; exact fails_slice _ _ hnum hty)) hat
  · exact span (fun k hat => by rw [at_here hat]; exact fails_struct _ hnum hty) hat
  · exact span (fun k hat => step_struct rfl hat fun k hat => fails_field (by rw [at_here hat]; exact fails_id hnum hty)) hat
  · exact span (fun k hat => step_struct rfl hat fun k hat => fails_field (by rw [at_here hat]; exact fails_id hnum hty)) hat
  · exact span (fun k hat => step_struct rfl hat fun k hat => fails_field (by rw [at_here hat]; exact fails_string hnum hty)) hat
  · exact span (fun k hat => step_struct rfl hat fun k hat => fails_field (by rw [at_here hat]; exact fails_slice _ _ hnum hty)) hat
  · exact reference (fun k hat => by rw [at_here hat]; exact fails_struct _ hnum hty) hat
  · exact reference (fun k hat => step_struct rfl hat fun k hat => fails_field (by rw [at_here hat]; exact fails_string hnum hty)) hat
  · exact reference (fun k hat => step_struct rfl hat fun k hat => fails_field (by rw [at_here hat]; exact fails_id hnum hty)) hat
  · exact span (fun k hat => step_struct rfl hat fun k hat => fails_field (by rw [at_here hat]; exact fails_uint hnum hty)) hat
  · exact span (fun k hat => step_struct rfl hat fun k hat => fails_field (by rw [at_here hat]; exact fails_uint hnum hty)) hat
  · exact span (fun k hat => step_struct rfl hat fun k hat => fails_field (by rw [at_here hat]; exact fails_string hnum hty)) hat
  · exact span (fun k hat => step_struct rfl hat fun k hat => fails_field (by rw [at_here hat]; exact fails_slice _ _ hnum hty)) hat
  · exact tag (fun k hat => by rw [at_here hat]; exact fails_struct _ hnum hty) hat
  · exact tag (fun k hat => step_struct rfl hat fun k hat => fails_field (by rw [at_here hat]; exact fails_string hnum hty)) hat
  · exact tag (fun k hat => step_struct rfl hat fun k hat => fails_field (by rw [at_here hat]; exact fails_any hn hty)) hat
  · exact data (fun k hat => step_struct rfl hat fun k hat => fails_field (by rw [at_here hat]; exact fails_map _ _ hnum hty)) hat
  · exact process (fun k hat => by rw [at_here hat]; exact fails_struct _ hnum hty) hat
  · exact process (fun k hat => step_struct rfl hat fun k hat => by rw [at_here hat]; exact fails_string hnum hty) hat

/-- A document with a value of the wrong type is not decoded. -/
theorem goDecodeJaeger_fails {floatFails : Str → Bool} {j v : Json} {w t rest : Str} (hw : Blank w) (ht : Writes JsonNumber j t) (hs : ∀ n, j = .number n → NumStop rest)
    {path : List JsonStep} {ty : JaegerType} (hp : (path, ty) ∈ jaegerPlaces) (hat : JsonAt path j v) (hty : ¬ HasType (GoNumber floatFails) ty v) :
    goDecodeJaeger floatFails (w ++ t ++ rest) = none := by
  have hf := fails_place hp (numbers_at hat (writes_numbers ht)) hat hty
  unfold goDecodeJaeger
  rw [List.append_assoc, skipSpace_blank hw, skipSpace_writes ht]
  rcases scanValue_result ht maxNestingDepth (fuel := (w ++ (t ++ rest)).length + 1) (rest := rest) (by simp; omega) hs with h | h
  · rw [h]; rfl
  · rw [h]
    simp only [Option.bind_eq_bind, Option.bind_some]
    rw [hf]
    rfl

end Verif
