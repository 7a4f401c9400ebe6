import Verif.Proofs.GoJson
import Verif.Proofs.Convert
import Verif.Props.Id

/-!
# Storing a document of the jaeger format
-/

namespace Verif

open Spec

/-! ## Names -/

theorem nameVariant_of_equalFold : ∀ (f key : Str), equalFold key (f.map toLower) = true → NameVariant f key
  | [], key, h => by
    cases key with
    | nil => exact .nil
    | cons c s => simp [equalFold] at h
  | _ :: _, [], h => by simp [equalFold] at h
  | c :: f, k :: key, h => by
    rw [List.map_cons, equalFold.eq_def] at h
    simp only at h
    split at h
    · rename_i hk
      have ih := nameVariant_of_equalFold f key h
      unfold toLower at hk
      split at hk <;> split at hk
      · rename_i h1 h2
        rw [UInt8.add_left_inj] at hk
        subst hk
        exact .same ih
      · rename_i h1 h2
        subst hk
        exact .upper h1.1 h1.2 ih
      · rename_i h1 h2
        subst hk
        exact .lower h2.1 h2.2 ih
      · subst hk
        exact .same ih
    · split at h
      · rename_i hc
        have hcs : c = c!"s" ∨ c = c!"S" := by
          have key : ∀ c : UInt8, toLower c = c!"s" → c = c!"s" ∨ c = c!"S" := byte_forall (by decide +kernel)
          exact key c hc.1
        cases key with
        | nil => exact absurd h (by simp)
        | cons c2 key =>
          simp only [Bool.and_eq_true, decide_eq_true_eq] at h
          rw [hc.2, h.1]
          exact .longS hcs (nameVariant_of_equalFold f key h.2)
      · split at h
        · rename_i hc
          have hcs : c = c!"k" ∨ c = c!"K" := by
            have key : ∀ c : UInt8, toLower c = c!"k" → c = c!"k" ∨ c = c!"K" := byte_forall (by decide +kernel)
            exact key c hc.1
          cases key with
          | nil => exact absurd h (by simp)
          | cons c2 key =>
            cases key with
            | nil => exact absurd h (by simp)
            | cons c3 key =>
              simp only [Bool.and_eq_true, decide_eq_true_eq] at h
              rw [hc.2, h.1.1, h.1.2]
              exact .kelvin hcs (nameVariant_of_equalFold f key h.2)
        · exact absurd h (by simp)

theorem findField_clear {α : Type} {fields : List (Str × α)} {nms : List (Str × Json)} (hc : ClearNames (fields.map (·.1)) nms) {m : Str × Json} (hm : m ∈ nms) :
    (∃ f ∈ fields, f.1 = m.1 ∧ findField fields m.1 = some f.2) ∨ (m.1 ∉ fields.map (·.1) ∧ findField fields m.1 = none) := by
  unfold findField
  rcases h : fields.find? (fun f => f.1 = m.1) with _ | f
  · right
    have hno : ∀ f ∈ fields, f.1 ≠ m.1 := by simpa using h
    have hno2 : fields.find? (fun f => equalFold m.1 (f.1.map toLower)) = none := by
      rw [List.find?_eq_none]
      intro f hf he
      exact hno f hf (hc.2 f.1 (List.mem_map.mpr ⟨f, hf, rfl⟩) m hm (nameVariant_of_equalFold _ _ he)).symm
    refine ⟨fun hin => ?_, ?_⟩
    · obtain ⟨f, hf, e⟩ := List.mem_map.mp hin
      exact hno f hf e
    · simp only [h, hno2, Option.map_none]
  · left
    exact ⟨f, List.mem_of_find?_eq_some h, by simpa using List.find?_some h, by simp only [h]⟩

/-! ## Structs -/

/-- One more name. -/
def withName (P : Str → Bool) (n : Str) : Str → Bool := fun s => decide (s = n) || P s

theorem rawMembers_eq (ms : List (Str × Json)) : rawMembers ms = ms.map fun m => (c!"\"" :: (m.1 ++ [c!"\""]), rawOf m.2) := by
  induction ms with
  | nil => rfl
  | cons m ms ih => rw [rawMembers, ih]; rfl

theorem rawsOf_eq (l : List Json) : rawsOf l = l.map rawOf := by
  induction l with
  | nil => rfl
  | cons m ms ih => rw [rawsOf, ih]; rfl

/-- `part P`: the struct after the members with the names in `P`. -/
theorem storeStruct_object {α : Type} {fields : List (Str × (Raw → α → Option α))} {ms nms : List (Str × Json)} (part : (Str → Bool) → α)
    (hn : Named Utf8String ms nms) (hc : ClearNames (fields.map (·.1)) nms)
    (hskip : ∀ P n, n ∉ fields.map (·.1) → part (withName P n) = part P)
    (hstep : ∀ f ∈ fields, ∀ j, (f.1, j) ∈ nms → ∀ P : Str → Bool, P f.1 = false → f.2 (rawOf j) (part P) = some (part (withName P f.1))) :
    storeStruct fields (rawOf (.object ms)) (part fun _ => false) = some (part fun s => decide (s ∈ nms.map (·.1))) := by
  rw [rawOf, storeStruct, rawMembers_eq]
  suffices h : ∀ (ms l : List (Str × Json)), Named Utf8String ms l → (∀ m ∈ l, m ∈ nms) → (l.map (·.1)).Nodup → ∀ P : Str → Bool, (∀ m ∈ l, P m.1 = false) →
      (ms.map fun m => (c!"\"" :: (m.1 ++ [c!"\""]), rawOf m.2)).foldlM (fun acc m => do
        let key ← goUnquote m.1
        match findField fields key with
        | none => some acc
        | some store => store m.2 acc) (part P) = some (part fun s => decide (s ∈ l.map (·.1)) || P s) by
    have := h ms nms hn (fun m hm => hm) hc.1 (fun _ => false) fun _ _ => rfl
    simp only [Bool.or_false] at this
    exact this
  intro ms l h
  induction h with
  | nil => intro _ _ P _; simp
  | @cons m n ms l hmn _ ih =>
    intro hin hnd P hP
    rw [List.map_cons, List.nodup_cons] at hnd
    rw [List.map_cons, List.foldlM_cons]
    simp only [goUnquote_json hmn.1, Option.bind_eq_bind, Option.bind_some, hmn.2]
    have ih' := ih (fun m hm => hin m (by simp [hm])) hnd.2 (withName P n.1) (fun m hm => by
      unfold withName
      have hne : m.1 ≠ n.1 := fun e => hnd.1 (by rw [← e]; exact List.mem_map.mpr ⟨m, hm, rfl⟩)
      simp [hne, hP m (by simp [hm])])
    have e : (fun s => decide (s ∈ (n :: l).map (·.1)) || P s) = fun s => decide (s ∈ l.map (·.1)) || withName P n.1 s := by
      funext s
      unfold withName
      simp only [List.map_cons, List.mem_cons, Bool.decide_or]
      cases decide (s = n.1) <;> cases decide (s ∈ l.map (·.1)) <;> simp
    rw [e]
    rcases findField_clear hc (hin n (by simp)) with ⟨f, hf, hfn, hfind⟩ | ⟨hnf, hfind⟩
    · rw [hfind]
      simp only
      have := hstep f hf n.2 (by rw [hfn]; exact hin n (by simp)) P (by rw [hfn]; exact hP n (by simp))
      rw [hfn] at this
      rw [this, Option.bind_some]
      exact ih'
    · rw [hfind]
      simp only [Option.bind_some]
      rw [← hskip P n.1 hnf]
      exact ih'

/-- What is stored for the member with this name, or the default without one. -/
def Stored {τ : Type} (store : Raw → τ → Option τ) (default : τ) (nms : List (Str × Json)) (name : Str) (v : τ) : Prop :=
  Member nms name (fun j v => store (rawOf j) default = some v) default v

theorem unique_member {nms : List (Str × Json)} (h : (nms.map (·.1)).Nodup) {n : Str} {j j' : Json} (h1 : (n, j) ∈ nms) (h2 : (n, j') ∈ nms) : j = j' := by
  induction nms with
  | nil => cases h1
  | cons m nms ih =>
    rw [List.map_cons, List.nodup_cons] at h
    rcases List.mem_cons.mp h1 with e1 | e1 <;> rcases List.mem_cons.mp h2 with e2 | e2
    · rw [← e1] at e2; cases e2; rfl
    · rw [← e1] at h; exact absurd (List.mem_map.mpr ⟨_, e2, rfl⟩) h.1
    · rw [← e2] at h; exact absurd (List.mem_map.mpr ⟨_, e1, rfl⟩) h.1
    · exact ih h.2 e1 e2

theorem Stored.value {τ : Type} {store : Raw → τ → Option τ} {default : τ} {nms : List (Str × Json)} {name : Str} {v : τ} (h : Stored store default nms name v)
    (hu : (nms.map (·.1)).Nodup) {j : Json} (hj : (name, j) ∈ nms) : store (rawOf j) default = some v := by
  rcases h with ⟨j', hj', h⟩ | ⟨hno, _⟩
  · rw [unique_member hu hj hj']; exact h
  · exact absurd (List.mem_map.mpr ⟨_, hj, rfl⟩) hno

theorem Stored.final {τ : Type} {store : Raw → τ → Option τ} {default : τ} {nms : List (Str × Json)} {name : Str} {v : τ} (h : Stored store default nms name v) :
    (if decide (name ∈ nms.map (·.1)) = true then v else default) = v := by
  rcases h with ⟨j, hj, _⟩ | ⟨hno, e⟩
  · rw [if_pos (by rw [decide_eq_true_eq]; exact List.mem_map.mpr ⟨_, hj, rfl⟩)]
  · rw [if_neg (by rw [decide_eq_true_eq]; exact hno), e]

/-- From what a member says to what is stored, where `view` is what is seen of it. -/
theorem Member.stored {τ σ : Type} {store : Raw → τ → Option τ} {default : τ} {view : τ → σ} {nms : List (Str × Json)} {name : Str} {R : Json → σ → Prop} {d a : σ}
    (h : Member nms name R d a) (hd : view default = d) (hR : ∀ j a, R j a → ∃ v, store (rawOf j) default = some v ∧ view v = a) :
    ∃ v, Stored store default nms name v ∧ view v = a := by
  rcases h with ⟨j, hj, h⟩ | ⟨hno, e⟩
  · obtain ⟨v, h1, h2⟩ := hR j a h
    exact ⟨v, .inl ⟨j, hj, h1⟩, h2⟩
  · exact ⟨default, .inr ⟨hno, rfl⟩, by rw [hd, e]⟩

theorem Member.stored_id {τ : Type} {store : Raw → τ → Option τ} {nms : List (Str × Json)} {name : Str} {R : Json → τ → Prop} {d a : τ}
    (h : Member nms name R d a) (hR : ∀ j a, R j a → store (rawOf j) d = some a) : Stored store d nms name a := by
  obtain ⟨v, h1, h2⟩ := Member.stored (view := fun x => x) h rfl fun j a hj => ⟨a, hR j a hj, rfl⟩
  rw [← h2]; exact h1

/-! ## Scalars -/

theorem quoted_ne_null (lit : Str) : c!"\"" :: (lit ++ [c!"\""]) ≠ nullItem := by
  intro h
  have := congrArg List.head? h
  revert this
  simp [nullItem]

theorem storeString_text {j : Json} {v : Str} (h : TextOf j v) : storeString (rawOf j) [] = some v := by
  cases h with
  | null => rfl
  | value h =>
    cases h with
    | string hs =>
      simp only [rawOf, storeString]
      rw [if_neg (quoted_ne_null _), if_pos (by rfl), goUnquote_json hs]

theorem storeId_plain {j : Json} {v : Id} (h : PlainHexOf j v) (old : Id) : storeId (rawOf j) old = some v := by
  cases h with
  | @string s id hl hh hx =>
    simp only [rawOf, storeId, idUnmarshalJSON]
    rw [if_neg]
    · have e : ((c!"\"" :: (s ++ [c!"\""])).take ((c!"\"" :: (s ++ [c!"\""])).length - 1)).drop 1 = s := by simp
      rw [e]
      obtain ⟨id', hid⟩ := Option.isSome_iff_exists.mp ((C02_parseId_accepts_iff s).mpr ⟨hl, hh⟩)
      have hval := C02_parseId_value _ _ hid
      have e2 : id' = v := int64_ext (UInt64.toNat_inj.mp (by rw [hval, hx]))
      rw [hid, e2]
    · simp

theorem storeUint_micros {j : Json} {v : UInt64} (h : OrNull MicrosOf 0 j v) : storeUint (rawOf j) 0 = some v := by
  cases h with
  | null => rfl
  | value h =>
    cases h with
    | @number t v hd hv =>
      simp only [rawOf, storeUint]
      rw [if_neg (by
        rintro rfl
        have := hd.2 c!"n" (by simp [nullItem])
        revert this; decide)]
      unfold parseUint
      have hall : t ≠ [] ∧ (t.all fun c => decide (c!"0" ≤ c ∧ c ≤ c!"9")) = true := ⟨hd.1, by simpa using hd.2⟩
      have e : t.foldl (fun n c => n * 10 + (c.toNat - 48)) 0 = decimalValue t := by
        unfold decimalValue
        congr 1
        funext n c
        show n * 10 + (c.toNat - 48) = 10 * n + (c.toNat - 48)
        omega
      rw [if_pos hall]
      simp only [e]
      rw [← hv, if_pos v.toNat_lt, UInt64.ofNat_toNat]

mutual

theorem floatsOk_raw {floatFails : Str → Bool} {inRange : Str → Prop} (hr : ∀ t, inRange t → floatFails t = false) : (j : Json) → Numbers inRange j → (rawOf j).floatsOk floatFails = true
  | .word w, _ => by cases w <;> rfl
  | .number t, h => by
    cases h with
    | number h =>
      simp only [rawOf, Raw.floatsOk, hr t h]
      split
      · split <;> rfl
      · rfl
  | .string lit, _ => by simp only [rawOf, Raw.floatsOk, List.head?_cons]; rfl
  | .array l, h => by
    cases h with
    | array h => exact allFloatsOk_raw hr l h
  | .object ms, h => by
    cases h with
    | object h => exact membersFloatsOk_raw hr ms h

theorem allFloatsOk_raw {floatFails : Str → Bool} {inRange : Str → Prop} (hr : ∀ t, inRange t → floatFails t = false) : (l : List Json) → (∀ j ∈ l, Numbers inRange j) →
    Raw.allFloatsOk floatFails (rawsOf l) = true
  | [], _ => rfl
  | j :: l, h => by
    rw [rawsOf, Raw.allFloatsOk, floatsOk_raw hr j (h j (by simp)), allFloatsOk_raw hr l fun k hk => h k (by simp [hk])]
    rfl

theorem membersFloatsOk_raw {floatFails : Str → Bool} {inRange : Str → Prop} (hr : ∀ t, inRange t → floatFails t = false) : (ms : List (Str × Json)) → (∀ m ∈ ms, Numbers inRange m.2) →
    Raw.membersFloatsOk floatFails (rawMembers ms) = true
  | [], _ => rfl
  | (n, j) :: l, h => by
    rw [rawMembers, Raw.membersFloatsOk, floatsOk_raw hr j (h (n, j) (by simp)), membersFloatsOk_raw hr l fun k hk => h k (by simp [hk])]
    rfl

end

/-- The numbers that `encoding/json` can hold. -/
def GoNumber (floatFails : Str → Bool) (t : Str) : Prop := JsonNumber t ∧ floatFails t = false

theorem storeAny_value {floatFails : Str → Bool} {j : Json} {v : JaegerValue} (h : TagValueOf (GoNumber floatFails) j v) (old : JaegerValue) :
    storeAny floatFails (rawOf j) old = some v := by
  cases h with
  | string hs =>
    simp only [rawOf, storeAny, List.head?_cons, if_true, goUnquote_json hs, Option.map_some]
  | other hns hn =>
    have hf := floatsOk_raw (fun t h => h.2) j hn
    cases j with
    | word w => cases w <;> rfl
    | number t =>
      cases hn with
      | number ht =>
        obtain ⟨c, t', e, hc⟩ := number_head ht.1
        obtain ⟨_, _, _, hq, _⟩ := digit_head hc
        rw [rawOf] at hf ⊢
        rw [storeAny]
        rw [if_neg (by rw [e]; simpa using hq), if_pos hf]
    | string lit => exact absurd rfl (hns lit)
    | array l =>
      simp only [rawOf] at hf
      simp only [rawOf, storeAny, hf, if_true]
    | object l =>
      simp only [rawOf] at hf
      simp only [rawOf, storeAny, hf, if_true]

/-! ## Slices and maps -/

theorem storeCells_pairwise {α β : Type} {store : Raw → α → Option α} {zero : α} {view : α → β} {R : Json → β → Prop}
    (hR : ∀ j b, R j b → ∃ a, store (rawOf j) zero = some a ∧ view a = b) {l : List Json} {bs : List β} (h : Pairwise₂ R l bs) :
    ∃ cells, storeCells store zero (l.map rawOf) [] = some cells ∧ cells.map view = bs := by
  induction h with
  | nil => exact ⟨[], rfl, rfl⟩
  | @cons j b l bs hjb _ ih =>
    obtain ⟨a, h1, h2⟩ := hR j b hjb
    obtain ⟨cells, h3, h4⟩ := ih
    refine ⟨a :: cells, ?_, by rw [List.map_cons, h2, h4]⟩
    simp only [List.map_cons, storeCells, List.headD_nil, List.tail_nil, h1, h3, Option.bind_eq_bind, Option.bind_some]

theorem pairwise_length {α β : Type} {R : α → β → Prop} {l : List α} {l' : List β} (h : Pairwise₂ R l l') : l.length = l'.length := by
  induction h with
  | nil => rfl
  | cons _ _ ih => simp [ih]

theorem storeSlice_array {α β : Type} {store : Raw → α → Option α} {zero : α} {view : α → β} {R : Json → β → Prop}
    (hR : ∀ j b, R j b → ∃ a, store (rawOf j) zero = some a ∧ view a = b) {j : Json} {bs : List β} (h : OrNull (ArrayOf R) [] j bs) :
    ∃ s, storeSlice store zero (rawOf j) {} = some s ∧ s.elems.map view = bs := by
  cases h with
  | null => exact ⟨{}, rfl, rfl⟩
  | value h =>
    cases h with
    | @array l bs h =>
      obtain ⟨cells, h1, h2⟩ := storeCells_pairwise hR h
      simp only [rawOf, rawsOf_eq]
      cases l with
      | nil =>
        cases h
        exact ⟨{}, rfl, rfl⟩
      | cons j l =>
        rw [List.map_cons] at h1 ⊢
        refine ⟨{ cells, len := (j :: l).length }, ?_, ?_⟩
        · simp only [storeSlice, h1, Option.map_some, List.length_cons, List.length_map]
        · have hl := pairwise_length h
          rw [← h2, List.length_map] at hl
          simp only [JsonSlice.elems]
          rw [hl, List.take_length, h2]

theorem storeMap_fold {store : Raw → Str → Option Str} {zero : Str} {R : Json → Str → Prop} (hR : ∀ j b, R j b → store (rawOf j) zero = some b)
    {ms : List (Str × Json)} {pairs : List (Str × Str)} (h : Pairwise₂ (fun m p => Utf8String m.1 p.1 ∧ R m.2 p.2) ms pairs) (acc : TagMap) :
    (ms.map fun m => (c!"\"" :: (m.1 ++ [c!"\""]), rawOf m.2)).foldlM (fun (acc : TagMap) (m : Str × Raw) => do
      let key ← goUnquote m.1
      let a ← store m.2 zero
      some (acc.insert key a)) acc = some (pairs.foldl (fun acc p => acc.insert p.1 p.2) acc) := by
  induction h generalizing acc with
  | nil => rfl
  | @cons m p ms pairs hmp _ ih =>
    rw [List.map_cons, List.foldlM_cons, List.foldl_cons]
    simp only [goUnquote_json hmp.1, hR _ _ hmp.2, Option.bind_eq_bind, Option.bind_some]
    exact ih _

theorem foldl_insert_last (pairs : List (Str × Str)) (key : Str) :
    (pairs.foldl (fun (acc : TagMap) p => acc.insert p.1 p.2) ∅)[key]? = (last? (fun p => p.1 = key) pairs).map (·.2) := by
  induction pairs using list_snoc_induction with
  | h0 => simp [last?]
  | h1 l x ih =>
    rw [List.foldl_append, List.foldl_cons, List.foldl_nil, last?_snoc, get_insert, ih]
    by_cases h : x.1 = key
    · simp [h]
    · simp [h]

theorem storeMap_processes {F : List Str → List (Str × Json) → Prop} (hR : ∀ j b, ProcessOf F j b → storeProcess (rawOf j) [] = some b)
    {j : Json} {procs : TagMap} (h : OrNull (ProcessesOf F) ∅ j procs) :
    ∃ m, storeMap storeProcess [] (rawOf j) none = some m ∧ m.getD ∅ = procs := by
  cases h with
  | null => exact ⟨none, rfl, rfl⟩
  | value h =>
    cases h with
    | @object ms pairs procs h hp =>
      simp only [rawOf, rawMembers_eq, storeMap]
      refine ⟨some (pairs.foldl (fun acc p => acc.insert p.1 p.2) ∅), ?_, ?_⟩
      · rw [Option.getD_none, storeMap_fold hR h]
        rfl
      · apply Std.ExtTreeMap.ext_getElem?
        intro key
        rw [hp, Option.getD_some, foldl_insert_last]

/-! ## The structs of the format -/

theorem storeReference_eq {j : Json} {r : Str × Id} (h : ReferenceOf ClearNames PlainHexOf j r) : storeReference (rawOf j) ([], 0) = some r := by
  cases h with
  | @object ms nms r hn hc h1 h2 =>
    have s1 := Member.stored_id h1 fun _ _ h => storeString_text h
    have s2 := Member.stored_id h2 fun _ _ h => storeId_plain h 0
    have := storeStruct_object (fields := [
      (b!"refType", fun v (r : Str × Id) => (storeString v r.1).map fun x => (x, r.2)),
      (b!"spanID", fun v r => (storeId v r.2).map fun x => (r.1, x))])
      (fun P => (if P b!"refType" = true then r.1 else [], if P b!"spanID" = true then r.2 else 0)) hn hc
      (fun P n hnf => by
        simp only [List.map_cons, List.map_nil, List.mem_cons, not_or] at hnf
        simp [withName, Ne.symm hnf.1, Ne.symm hnf.2.1])
      (by
        simp only [List.mem_cons, List.not_mem_nil, or_false]
        rintro f (rfl | rfl) j hj P hP
        · simp only [hP, Bool.false_eq_true, if_false, s1.value hc.1 hj, Option.map_some]
          simp [withName]
        · simp only [hP, Bool.false_eq_true, if_false, s2.value hc.1 hj, Option.map_some]
          simp [withName])
    unfold storeReference
    simp only [Bool.false_eq_true, if_false] at this
    rw [this, s1.final, s2.final]

theorem storeTag_eq {floatFails : Str → Bool} {j : Json} {r : Str × JaegerValue} (h : JaegerTagOf ClearNames (GoNumber floatFails) j r) :
    storeTag floatFails (rawOf j) ([], .other) = some r := by
  cases h with
  | @object ms nms r hn hc h1 h2 =>
    have s1 := Member.stored_id h1 fun _ _ h => storeString_text h
    have s2 := Member.stored_id h2 fun _ _ h => storeAny_value h .other
    have := storeStruct_object (fields := [
      (b!"key", fun v (r : Str × JaegerValue) => (storeString v r.1).map fun x => (x, r.2)),
      (b!"value", fun v r => (storeAny floatFails v r.2).map fun x => (r.1, x))])
      (fun P => (if P b!"key" = true then r.1 else [], if P b!"value" = true then r.2 else .other)) hn hc
      (fun P n hnf => by
        simp only [List.map_cons, List.map_nil, List.mem_cons, not_or] at hnf
        simp [withName, Ne.symm hnf.1, Ne.symm hnf.2.1])
      (by
        simp only [List.mem_cons, List.not_mem_nil, or_false]
        rintro f (rfl | rfl) j hj P hP
        · simp only [hP, Bool.false_eq_true, if_false, s1.value hc.1 hj, Option.map_some]
          simp [withName]
        · simp only [hP, Bool.false_eq_true, if_false, s2.value hc.1 hj, Option.map_some]
          simp [withName])
    unfold storeTag
    simp only [Bool.false_eq_true, if_false] at this
    rw [this, s1.final, s2.final]

theorem storeProcess_eq {j : Json} {v : Str} (h : ProcessOf ClearNames j v) : storeProcess (rawOf j) [] = some v := by
  cases h with
  | @object ms nms v hn hc h1 =>
    have s1 := Member.stored_id h1 fun _ _ h => storeString_text h
    have := storeStruct_object (fields := [(b!"serviceName", storeString)])
      (fun P => if P b!"serviceName" = true then v else []) hn hc
      (fun P n hnf => by
        simp only [List.map_cons, List.map_nil, List.mem_cons, not_or] at hnf
        simp [withName, Ne.symm hnf.1])
      (by
        simp only [List.mem_cons, List.not_mem_nil, or_false]
        rintro f rfl j hj P hP
        simp only [hP, Bool.false_eq_true, if_false, s1.value hc.1 hj]
        simp [withName])
    unfold storeProcess
    simp only [Bool.false_eq_true, if_false] at this
    rw [this, s1.final]

theorem storeSpan_eq {floatFails : Str → Bool} {j : Json} {v : JaegerSpan} (h : JaegerSpanOf ClearNames PlainHexOf (GoNumber floatFails) j v) :
    ∃ c, storeSpan floatFails (rawOf j) {} = some c ∧ c.toSpan = v := by
  cases h with
  | @object ms nms v hn hc h1 h2 h3 h4 h5 h6 h7 h8 =>
    have s1 := Member.stored_id h1 fun _ _ h => storeId_plain h 0
    have s2 := Member.stored_id h2 fun _ _ h => storeId_plain h 0
    have s3 := Member.stored_id h3 fun _ _ h => storeString_text h
    obtain ⟨refs, s4, e4⟩ := Member.stored (store := storeSlice storeReference ([], 0)) (default := {}) (view := fun s => s.elems.map fun x => x) h4 rfl fun _ _ h =>
      storeSlice_array (fun j b h => ⟨b, storeReference_eq h, rfl⟩) h
    have s5 := Member.stored_id h5 fun _ _ h => storeUint_micros h
    have s6 := Member.stored_id h6 fun _ _ h => storeUint_micros h
    have s7 := Member.stored_id h7 fun _ _ h => storeString_text h
    obtain ⟨tags, s8, e8⟩ := Member.stored (store := storeSlice (storeTag floatFails) ([], .other)) (default := {}) (view := fun s => s.elems.map fun x => x) h8 rfl fun _ _ h =>
      storeSlice_array (fun j b h => ⟨b, storeTag_eq h, rfl⟩) h
    simp only [List.map_id'] at e4 e8
    have := storeStruct_object (fields := [
      (b!"traceID", fun v (r : JaegerCell) => (storeId v r.traceId).map fun x => { r with traceId := x }),
      (b!"spanID", fun v r => (storeId v r.spanId).map fun x => { r with spanId := x }),
      (b!"operationName", fun v r => (storeString v r.operationName).map fun x => { r with operationName := x }),
      (b!"references", fun v r => (storeSlice storeReference ([], 0) v r.references).map fun x => { r with references := x }),
      (b!"startTime", fun v r => (storeUint v r.timestamp).map fun x => { r with timestamp := x }),
      (b!"duration", fun v r => (storeUint v r.duration).map fun x => { r with duration := x }),
      (b!"processID", fun v r => (storeString v r.processId).map fun x => { r with processId := x }),
      (b!"tags", fun v r => (storeSlice (storeTag floatFails) ([], .other) v r.tags).map fun x => { r with tags := x })])
      (fun P => {
        traceId := if P b!"traceID" = true then v.traceId else 0
        spanId := if P b!"spanID" = true then v.spanId else 0
        operationName := if P b!"operationName" = true then v.operationName else []
        references := if P b!"references" = true then refs else {}
        timestamp := if P b!"startTime" = true then v.timestamp else 0
        duration := if P b!"duration" = true then v.duration else 0
        processId := if P b!"processID" = true then v.processId else []
        tags := if P b!"tags" = true then tags else {} : JaegerCell }) hn hc
      (fun P n hnf => by
        simp only [List.map_cons, List.map_nil, List.mem_cons, not_or] at hnf
        obtain ⟨n1, n2, n3, n4, n5, n6, n7, n8, _⟩ := hnf
        simp [withName, Ne.symm n1, Ne.symm n2, Ne.symm n3, Ne.symm n4, Ne.symm n5, Ne.symm n6, Ne.symm n7, Ne.symm n8])
      (by
        simp only [List.mem_cons, List.not_mem_nil, or_false]
        rintro f (rfl | rfl | rfl | rfl | rfl | rfl | rfl | rfl) j hj P hP
        · simp only [hP, Bool.false_eq_true, if_false, s1.value hc.1 hj, Option.map_some]
          simp [withName]
        · simp only [hP, Bool.false_eq_true, if_false, s2.value hc.1 hj, Option.map_some]
          simp [withName]
        · simp only [hP, Bool.false_eq_true, if_false, s3.value hc.1 hj, Option.map_some]
          simp [withName]
        · simp only [hP, Bool.false_eq_true, if_false, s4.value hc.1 hj, Option.map_some]
          simp [withName]
        · simp only [hP, Bool.false_eq_true, if_false, s5.value hc.1 hj, Option.map_some]
          simp [withName]
        · simp only [hP, Bool.false_eq_true, if_false, s6.value hc.1 hj, Option.map_some]
          simp [withName]
        · simp only [hP, Bool.false_eq_true, if_false, s7.value hc.1 hj, Option.map_some]
          simp [withName]
        · simp only [hP, Bool.false_eq_true, if_false, s8.value hc.1 hj, Option.map_some]
          simp [withName])
    unfold storeSpan
    simp only [Bool.false_eq_true, if_false] at this
    refine ⟨_, this, ?_⟩
    rw [s1.final, s2.final, s3.final, s4.final, s5.final, s6.final, s7.final, s8.final]
    simp only [JaegerCell.toSpan, e4, e8]

theorem storeData_eq {floatFails : Str → Bool} {j : Json} {d : JaegerData} (h : JaegerDataOf ClearNames PlainHexOf (GoNumber floatFails) j d) :
    ∃ c, storeData floatFails (rawOf j) {} = some c ∧ c.toData = d := by
  cases h with
  | @object ms nms d hn hc h1 h2 =>
    obtain ⟨spans, s1, e1⟩ := Member.stored (store := storeSlice (storeSpan floatFails) {}) (default := {}) (view := fun s => s.elems.map JaegerCell.toSpan) h1 rfl
      fun _ _ h => storeSlice_array (fun j b h => storeSpan_eq h) h
    obtain ⟨procs, s2, e2⟩ := Member.stored (store := storeMap storeProcess []) (default := none) (view := fun m => m.getD ∅) h2 rfl
      fun _ _ h => storeMap_processes (fun j b h => storeProcess_eq h) h
    have := storeStruct_object (fields := [
      (b!"spans", fun v (r : JaegerDataCell) => (storeSlice (storeSpan floatFails) {} v r.spans).map fun x => { r with spans := x }),
      (b!"processes", fun v r => (storeMap storeProcess [] v r.processes).map fun x => { r with processes := x })])
      (fun P => { spans := if P b!"spans" = true then spans else {}, processes := if P b!"processes" = true then procs else none : JaegerDataCell }) hn hc
      (fun P n hnf => by
        simp only [List.map_cons, List.map_nil, List.mem_cons, not_or] at hnf
        simp [withName, Ne.symm hnf.1, Ne.symm hnf.2.1])
      (by
        simp only [List.mem_cons, List.not_mem_nil, or_false]
        rintro f (rfl | rfl) j hj P hP
        · simp only [hP, Bool.false_eq_true, if_false, s1.value hc.1 hj, Option.map_some]
          simp [withName]
        · simp only [hP, Bool.false_eq_true, if_false, s2.value hc.1 hj, Option.map_some]
          simp [withName])
    unfold storeData
    simp only [Bool.false_eq_true, if_false] at this
    refine ⟨_, this, ?_⟩
    rw [s1.final, s2.final]
    simp only [JaegerDataCell.toData, e1, e2]

theorem storeObject_eq {floatFails : Str → Bool} {j : Json} {l : List JaegerData} (h : JaegerOf ClearNames PlainHexOf (GoNumber floatFails) j l) :
    ∃ s, storeObject floatFails (rawOf j) {} = some s ∧ s.elems.map JaegerDataCell.toData = l := by
  cases h with
  | @object ms nms l hn hc h1 =>
    obtain ⟨data, s1, e1⟩ := Member.stored (store := storeSlice (storeData floatFails) {}) (default := {}) (view := fun s => s.elems.map JaegerDataCell.toData) h1 rfl
      fun _ _ h => storeSlice_array (fun j b h => storeData_eq h) h
    have := storeStruct_object (fields := [(b!"data", storeSlice (storeData floatFails) {})])
      (fun P => if P b!"data" = true then data else {}) hn hc
      (fun P n hnf => by
        simp only [List.map_cons, List.map_nil, List.mem_cons, not_or] at hnf
        simp [withName, Ne.symm hnf.1])
      (by
        simp only [List.mem_cons, List.not_mem_nil, or_false]
        rintro f rfl j hj P hP
        simp only [hP, Bool.false_eq_true, if_false, s1.value hc.1 hj]
        simp [withName])
    unfold storeObject
    simp only [Bool.false_eq_true, if_false] at this
    refine ⟨_, this, ?_⟩
    rw [s1.final]
    exact e1

/-- A document decodes to its data. Blanks may come before it, and anything after it. -/
theorem goDecodeJaeger_eq {floatFails : Str → Bool} {j : Json} {l : List JaegerData} {w t rest : Str} (hw : Blank w) (ht : Writes JsonNumber j t)
    (hd : Nesting maxNestingDepth j) (h : JaegerOf ClearNames PlainHexOf (GoNumber floatFails) j l) : goDecodeJaeger floatFails (w ++ t ++ rest) = some l := by
  obtain ⟨s, h1, h2⟩ := storeObject_eq h
  unfold goDecodeJaeger
  rw [List.append_assoc, skipSpace_blank hw, skipSpace_writes ht]
  rw [scanValue_writes ht _ _ _ (by simp; omega) hd (by cases h; intro n hn; cases hn)]
  simp only [Option.bind_eq_bind, Option.bind_some, h1, h2]

end Verif
