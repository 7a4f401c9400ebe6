import Verif.Model.ErrorText
import Verif.Props.Accept

/-!
# The texts of errors
-/

namespace Verif

open Spec

/-! ## Decoders with and without memory -/

/-- The decoder without memory does the same operations as the one with memory, and ends in the same way; with this memory if it is successful. -/
inductive Texts.Of {σ : Type} (P : σ → Prop) : Texts → Prog σ → Prop
  | done {m : σ} : P m → Texts.Of P .done (.done m)
  | fail {text : Str} {m : σ} : Texts.Of P (.fail text) (.fail m)
  | timeout : Texts.Of P .timeout .timeout
  | op {o : Op} {context : Str} {m : σ} {k : o.Res → Texts} {k' : o.Res → Prog σ} : (∀ a, Texts.Of P (k a) (k' a)) → Texts.Of P (.op o context k) (.op o m k')

namespace Texts

section
variable {σ τ : Type} {P : σ → Prop} {Q : τ → Prop}

theorem Of.withMessage {t : Texts} {p : Prog σ} (h : t.Of P p) (message : Str) : (t.withMessage message).Of P p := by
  induction h with
  | done h => exact .done h
  | fail => exact .fail
  | timeout => exact .timeout
  | op _ ih => exact .op ih

theorem Of.andThen {t t' : Texts} {p : Prog τ} {f : τ → σ} {k : τ → Prog σ} (h : t.Of Q p) (hk : ∀ m, Q m → t'.Of P (k m)) : (t.andThen t').Of P (p.andThen f k) := by
  induction h with
  | done h => exact hk _ h
  | fail => exact .fail
  | timeout => exact .timeout
  | op _ ih => exact .op ih

theorem of_nextType {m : σ} {k : JType → Texts} {k' : JType → Prog σ} (h : ∀ next, (k next).Of P (k' next)) : (nextType k).Of P (Verif.nextType m k') := by
  refine .op fun _ => .op fun c => ?_
  split
  · exact .fail
  · exact h _

theorem of_begin {t : Punct} {m : σ} {next : Texts} {k : Prog σ} (message : Str) (h : next.Of P k) :
    (((consume t).withMessage message).andThen next).Of P (Verif.consume t m k) := .op fun _ => .op fun _ => h

theorem of_end {t : Punct} {m m' : σ} (h : P m') : (consume t).Of P (Verif.consume t m (.done m')) := .op fun _ => .op fun _ => .done h

theorem of_readBoolean {m : σ} {k : Str → Prog σ} (h : ∀ a, done.Of P (k a)) : readBoolean.Of P (Verif.readBoolean m k) := by
  refine .op fun c => ?_
  by_cases hc : c = c!"t"
  · simp only [hc, if_true]
    exact .op h
  · simp only [if_neg hc]
    exact .op h

/-- No condition. -/
abbrev Any {σ : Type} : σ → Prop := fun _ => True

theorem of_skip (fuel : Nat) : (∀ next, (skip fuel next).Of Any (Verif.skip fuel next)) ∧ (skipArrayLoop fuel).Of Any (Verif.skipArrayLoop fuel) ∧
    (skipObjectLoop fuel).Of Any (Verif.skipObjectLoop fuel) := by
  induction fuel with
  | zero => exact ⟨fun next => by simp only [skip, Verif.skip]; exact .timeout, by simp only [skipArrayLoop, Verif.skipArrayLoop]; exact .timeout,
      by simp only [skipObjectLoop, Verif.skipObjectLoop]; exact .timeout⟩
  | succ fuel ih =>
    obtain ⟨h1, h2, h3⟩ := ih
    refine ⟨fun next => ?_, ?_, ?_⟩
    · unfold skip Verif.skip
      cases next with
      | string => exact .op fun _ => .done trivial
      | number => exact .op fun _ => .done trivial
      | boolean => exact of_readBoolean fun _ => .done trivial
      | null => exact .op fun _ => .done trivial
      | objectBegin => exact .op fun _ => h3
      | arrayBegin => exact .op fun _ => h2
      | _ => exact .fail
    · unfold skipArrayLoop Verif.skipArrayLoop
      refine of_nextType fun next => ?_
      split
      · exact .op fun _ => .done trivial
      · exact (h1 next).andThen fun _ _ => h2
    · unfold skipObjectLoop Verif.skipObjectLoop
      refine of_nextType fun next => ?_
      split
      · exact .op fun _ => .done trivial
      · exact .op fun _ => (of_nextType fun next => h1 next).andThen fun _ _ => h3

theorem of_skipValue (fuel : Nat) : (skipValue fuel).Of Any (Verif.skipValue fuel) := of_nextType (of_skip fuel).1

/-- A decoder for all contents of its memory. -/
def Reads (P : σ → Prop) (t : Texts) (d : ValueDecoder σ) : Prop := ∀ m, P m → t.Of P (d m)

theorem andThen_done (t : Texts) : t.andThen .done = t := by
  induction t with
  | op o c k ih => simp only [Texts.andThen, ih]
  | _ => rfl

theorem Reads.field {t : Texts} {d : ValueDecoder τ} (h : t.Reads Q d) {get : σ → τ} {set : τ → σ → σ} (h1 : ∀ m, P m → Q (get m)) (h2 : ∀ v m, Q v → P m → P (set v m)) :
    t.Reads P (d.field get set) := by
  intro m hm
  rw [← andThen_done t]
  exact (h _ (h1 m hm)).andThen fun v hv => .done (h2 v m hv hm)

/-- A field that has nothing to do with the condition. -/
theorem Reads.field' {t : Texts} {d : ValueDecoder τ} (h : t.Reads Any d) {get : σ → τ} {set : τ → σ → σ} (h2 : ∀ v m, P m → P (set v m)) : t.Reads P (d.field get set) :=
  h.field (fun _ _ => trivial) fun v m _ hm => h2 v m hm

theorem reads_uint64 : uint64Value.Reads Any uint64ValueDecoder := by
  refine fun m _ => .op fun _ => .op fun tok => ?_
  have hbad : ∀ c : UInt8, (decide (c < c!"0") || decide (c > c!"9")) = true ↔ ¬ (c!"0" ≤ c ∧ c ≤ c!"9") := byte_forall (by decide +kernel)
  cases hf : (List.find? (fun c => decide (c < c!"0") || decide (c > c!"9")) tok) with
  | none =>
    have h : ∀ c ∈ tok, c!"0" ≤ c ∧ c ≤ c!"9" := by
      intro c hc
      have := List.find?_eq_none.mp hf c hc
      rw [hbad] at this
      exact Decidable.not_not.mp this
    rw [decimal_digits h]
    exact .done trivial
  | some c =>
    have h1 := List.mem_of_find?_eq_some hf
    have h2 := List.find?_some hf
    rw [decimal_none h1 ((hbad c).mp h2)]
    exact .fail

theorem reads_string : stringValue.Reads Any stringValueDecoder := fun _ _ => .op fun _ => .op fun _ => .done trivial

theorem reads_any : anyValue.Reads Any anyValueDecoder := by
  intro m _
  unfold anyValue anyValueDecoder
  refine Of.withMessage ?_ _
  unfold readLiteral Verif.readLiteral
  refine of_nextType fun next => ?_
  cases next with
  | string => exact .op fun _ => .done trivial
  | number => exact .op fun _ => .done trivial
  | boolean => exact of_readBoolean fun _ => .done trivial
  | null => exact .op fun _ => .done trivial
  | _ => exact .fail

theorem parseIdError_iff (tok : Str) : parseIdError tok = none ↔ ∃ id, parseId tok = some id := by
  rw [← Option.isSome_iff_exists, C02_parseId_accepts_iff]
  unfold parseIdError
  have hbad : ∀ c : UInt8, (!((decide (c!"0" ≤ c) && decide (c ≤ c!"9")) || (decide (c!"a" ≤ c) && decide (c ≤ c!"f")) || (decide (c!"A" ≤ c) && decide (c ≤ c!"F")))) = true ↔ ¬ IsHexDigit c :=
    byte_forall (by decide +kernel)
  split
  · simp
    omega
  · simp only [Option.map_eq_none_iff, List.find?_eq_none, hbad, Decidable.not_not]
    exact ⟨fun h => ⟨by omega, h⟩, fun h => h.2⟩

theorem reads_id (fuel : Nat) : (idValue fuel).Reads Any (idValueDecoder fuel) := by
  refine fun m _ => of_nextType fun next => ?_
  split
  · rw [← andThen_done (skipValue fuel)]
    exact (of_skipValue fuel).andThen fun _ _ => .done trivial
  · refine .op fun _ => .op fun tok => ?_
    have := parseIdError_iff tok
    cases hp : parseId tok with
    | none =>
      cases he : parseIdError tok with
      | none => obtain ⟨_, h⟩ := this.mp he; rw [hp] at h; cases h
      | some text => exact .fail
    | some id =>
      rw [this.mpr ⟨id, hp⟩]
      exact .done trivial

theorem reads_map {key value : Texts} {k v : ValueDecoder Str} (hk : key.Reads Any k) (hv : value.Reads Any v) (fuel : Nat) :
    (makeMap fuel key value).Reads Any (makeMapDecoder fuel k v) := by
  intro m _
  refine of_begin _ ?_
  have : ∀ fuel' result, (mapLoop key value fuel').Of Any (Verif.mapLoop k v m fuel' result) := by
    intro fuel'
    induction fuel' with
    | zero => exact fun _ => .timeout
    | succ fuel' ih =>
      refine fun result => of_nextType fun next => ?_
      split
      · exact of_end trivial
      · exact (hk [] trivial).andThen fun a _ => (hv [] trivial).andThen fun b _ => ih _
  exact this fuel none

theorem reads_slice {decoder : Texts} {d : ValueDecoder σ} (hd : ∀ m, ∃ P : σ → Prop, decoder.Of P (d m)) (newCap : Nat → Nat → Nat) (fuel : Nat) (zero : σ) (name element : Str) :
    (makeSlice fuel name element decoder).Reads Any (makeSliceDecoder newCap fuel zero d) := by
  intro m _
  refine of_begin _ ?_
  have : ∀ fuel' idx s, (sliceLoop name element decoder fuel').Of Any (Verif.sliceLoop newCap zero d fuel' idx s) := by
    intro fuel'
    induction fuel' with
    | zero => exact fun _ _ => .timeout
    | succ fuel' ih =>
      refine fun idx s => of_nextType fun next => ?_
      split
      · exact (of_end trivial).withMessage _
      · obtain ⟨Q, hQ⟩ := hd ((s.grow newCap zero (idx + 1)).cells.getD idx zero)
        exact (hQ.withMessage _).andThen fun a _ => ih _ _
  exact this fuel 0 m

theorem reads_array {decoder : Texts} {d : ValueDecoder σ} (hd : decoder.Reads Any d) (fuel len : Nat) (zero : σ) (name element : Str) :
    (makeArray fuel name element len decoder).Reads (fun a => a.length = len) (makeArrayDecoder fuel zero d) := by
  intro m hm
  refine of_begin _ ?_
  have : ∀ fuel' idx (a : List σ), a.length = len → (arrayLoop fuel name element len decoder fuel' idx).Of (fun a => a.length = len) (Verif.arrayLoop fuel zero d fuel' idx a) := by
    intro fuel'
    induction fuel' with
    | zero => exact fun _ _ _ => .timeout
    | succ fuel' ih =>
      refine fun idx a ha => of_nextType fun next => ?_
      split
      · exact Of.withMessage (of_end (P := fun a : List σ => a.length = len) ha) _
      · rw [ha]
        split
        · exact ((hd _ trivial).withMessage _).andThen fun b _ => ih _ _ (by simp [ha])
        · exact ((of_skipValue fuel).withMessage _).andThen fun _ _ => ih _ _ ha
  exact this fuel 0 m hm

/-- Fields with the same names. -/
inductive ReadsFields (P : σ → Prop) : List (Str × Texts) → List (Str × ValueDecoder σ) → Prop
  | nil : ReadsFields P [] []
  | cons {name : Str} {t : Texts} {d : ValueDecoder σ} {l : List (Str × Texts)} {l' : List (Str × ValueDecoder σ)} : t.Reads P d → ReadsFields P l l' →
      ReadsFields P ((name, t) :: l) ((name, d) :: l')

theorem ReadsFields.lookup {l : List (Str × Texts)} {l' : List (Str × ValueDecoder σ)} (h : ReadsFields P l l') (key : Str) :
    (l.lookup key = none ∧ l'.lookup key = none) ∨ ∃ t d, l.lookup key = some t ∧ l'.lookup key = some d ∧ t.Reads P d := by
  induction h with
  | nil => exact .inl ⟨rfl, rfl⟩
  | cons ht _ ih =>
    rename_i name t d l l' _
    simp only [List.lookup_cons]
    cases hk : key == name with
    | true => exact .inr ⟨_, _, rfl, rfl, ht⟩
    | false => exact ih

theorem reads_struct {l : List (Str × Texts)} {l' : List (Str × ValueDecoder σ)} (h : ReadsFields P l l') (fuel : Nat) : (makeStruct fuel l).Reads P (makeStructDecoder fuel l') := by
  intro m hm
  refine of_begin _ ?_
  have : ∀ fuel' m, P m → (structLoop fuel l fuel').Of P (Verif.structLoop fuel l' fuel' m) := by
    intro fuel'
    induction fuel' with
    | zero => exact fun _ _ => .timeout
    | succ fuel' ih =>
      refine fun m hm => of_nextType fun next => ?_
      split
      · exact of_end hm
      · refine .op fun _ => .op fun key => ?_
        rcases h.lookup key with ⟨h1, h2⟩ | ⟨t, d, h1, h2, h3⟩
        · rw [h1, h2]
          exact (of_skipValue fuel).andThen fun _ _ => ih _ hm
        · rw [h1, h2]
          exact (h3 m hm).andThen fun m hm => ih m hm
  exact this fuel m hm

end

section
variable (fuel : Nat)

theorem reads_endpoint : (endpointValue fuel).Reads Any (endpointValueDecoder fuel) :=
  reads_struct (.cons (reads_string.field' fun _ _ _ => trivial) .nil) fuel

theorem reads_spanV2 (m : SpanV2) : (spanV2Value fuel).Of Any (spanV2ValueDecoder fuel m) := by
  refine reads_struct ?_ fuel _ trivial
  have free : ∀ {τ : Type} {t : Texts} {d : ValueDecoder τ}, t.Reads Any d → ∀ {get : SpanV2 → τ} {set : τ → SpanV2 → SpanV2}, t.Reads Any (d.field get set) :=
    fun h _ _ => h.field' fun _ _ _ => trivial
  exact .cons (free (reads_id fuel)) (.cons (free (reads_id fuel)) (.cons (free (reads_id fuel)) (.cons (free reads_uint64) (.cons (free reads_uint64) (.cons (free reads_string)
    (.cons (free (reads_map reads_string reads_string fuel)) (.cons (free reads_string) (.cons (free (reads_endpoint fuel)) .nil))))))))

theorem reads_sliceV2 (newCap : Nat → Nat → Nat) : (sliceSpanV2 fuel).Reads Any (decoderSliceSpanV2 newCap fuel) :=
  reads_slice (fun m => ⟨Any, reads_spanV2 fuel m⟩) newCap fuel _ _ _

theorem reads_spanV1 (newCap : Nat → Nat → Nat) (m : SpanV1) : (spanV1Value fuel).Of (fun m => m.annotations.length = 4) (spanV1ValueDecoder newCap fuel m) := by
  refine reads_struct ?_ fuel _ rfl
  have free : ∀ {τ : Type} {t : Texts} {d : ValueDecoder τ}, t.Reads Any d → ∀ {σ : Type} {get : σ → τ} {set : τ → σ → σ}, t.Reads Any (d.field get set) :=
    fun h _ _ _ => h.field' fun _ _ _ => trivial
  refine .cons ((reads_id fuel).field' fun _ _ h => h) (.cons ((reads_id fuel).field' fun _ _ h => h) (.cons ((reads_id fuel).field' fun _ _ h => h)
    (.cons (reads_uint64.field' fun _ _ h => h) (.cons (reads_uint64.field' fun _ _ h => h) (.cons (reads_string.field' fun _ _ h => h)
    (.cons (Reads.field' (reads_slice (fun m => ⟨Any, reads_struct ?_ fuel m trivial⟩) newCap fuel _ _ _) fun _ _ h => h)
    (.cons (Reads.field (reads_array (reads_struct ?_ fuel) fuel 4 _ _ _) (fun _ h => h) fun _ _ h _ => h) .nil)))))))
  · exact .cons (free reads_string) (.cons (free reads_any) (.cons (free (reads_endpoint fuel)) .nil))
  · exact .cons (free reads_uint64) (.cons (free reads_string) (.cons (free (reads_endpoint fuel)) .nil))

theorem reads_sliceV1 (newCap : Nat → Nat → Nat) : (sliceSpanV1 fuel).Reads Any (decoderSliceSpanV1 newCap fuel) :=
  reads_slice (fun m => ⟨_, reads_spanV1 fuel newCap m⟩) newCap fuel _ _ _

end

end Texts

end Verif
