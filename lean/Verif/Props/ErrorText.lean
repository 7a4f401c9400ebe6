import Verif.Proofs.TextForm
import Verif.Props.Answer
import Verif.Proofs.View
import Verif.Props.Truncate

/-!
# The texts of refusals (C95, C96)
-/

namespace Verif

open Spec

/-! ### C95: there is a text exactly if there is an error -/

theorem withMessage_run (t : Texts) (message readErr : Str) (fuel : Nat) (p : Parser) :
    (t.withMessage message).run readErr fuel p = (t.run readErr fuel p).map fun text => message ++ b!": " ++ text := by
  induction t generalizing p with
  | done => rfl
  | fail => rfl
  | timeout => rfl
  | op o context k ih =>
    simp only [Texts.withMessage, Texts.run]
    cases o.run fuel p with
    | ok a p => exact ih a p
    | err p => simp
    | panic => rfl
    | timeout => rfl

/-- C95: version 2 returns a text exactly when it returns an error, for every input. -/
theorem C95_iff_v2 (readErr : Str) (newCap : Nat → Nat → Nat) (fuel : Nat) (r : Reader) (buf : List UInt8) :
    (∃ text, errorJsonV2 readErr fuel r buf = some text) ↔ parseJsonV2 newCap fuel r buf = .err := by
  have h := (Texts.reads_sliceV2 fuel newCap { cells := [], len := 0 } trivial).run_iff readErr fuel (Parser.newWithReader r buf)
  unfold errorJsonV2 parseJsonV2
  rw [withMessage_run]
  simp only [Option.map_eq_some_iff]
  constructor
  · rintro ⟨_, text, ht, _⟩
    obtain ⟨m, p', hp⟩ := h.mp ⟨text, ht⟩
    rw [hp]
  · intro hp
    split at hp
    · cases hp
    · rename_i m p' he
      obtain ⟨text, ht⟩ := h.mpr ⟨m, p', he⟩
      exact ⟨_, text, ht, rfl⟩
    · cases hp
    · cases hp

/-- C95: the same for version 1, whatever the pooled slice is. -/
theorem C95_iff_v1 (readErr : Str) (newCap : Nat → Nat → Nat) (fuel : Nat) (r : Reader) (buf : List UInt8) (pool : List SpanV1) :
    (∃ text, errorJsonV1 readErr fuel r buf = some text) ↔ (parseJsonV1 newCap fuel r buf pool).1 = .err := by
  have h := (Texts.reads_sliceV1 fuel newCap { cells := pool, len := 0 } trivial).run_iff readErr fuel (Parser.newWithReader r buf)
  unfold errorJsonV1 parseJsonV1
  rw [withMessage_run]
  simp only [Option.map_eq_some_iff]
  constructor
  · rintro ⟨_, text, ht, _⟩
    obtain ⟨m, p', hp⟩ := h.mp ⟨text, ht⟩
    rw [hp]
  · intro hp
    split at hp
    · cases hp
    · rename_i m p' he
      obtain ⟨text, ht⟩ := h.mpr ⟨m, p', he⟩
      exact ⟨_, text, ht, rfl⟩
    · cases hp
    · cases hp

/-! ### C95: what the text says -/

/-- What is said when the body has ended: that it has, or the error of the connection (or of the decompression). -/
def Reader.ending (r : Reader) (readErr : Str) : Str := endingText readErr r.failing

theorem newWithReader_ends (r : Reader) (buf : List UInt8) : (Parser.newWithReader r buf).Ends r.failing := ⟨rfl, by simp [Parser.newWithReader]⟩

theorem withMessage_of {σ : Type} {P : σ → Prop} {t : Texts} {prog : Prog σ} (h : t.Of P prog) (message : Str) : (t.withMessage message).Of P prog := h.withMessage message

/-- The text of a decoder for a finite document. -/
theorem text_returns {σ : Type} {P : σ → Prop} {d : Nat → Prog σ} {t : Nat → Texts} (hof : ∀ fuel, (t fuel).Of P (d fuel)) (hle : ∀ fuel fuel', fuel ≤ fuel' → (t fuel).Le (t fuel'))
    (hd : Decodes d) (readErr data : Str) (failing : Bool) :
    ∀ fuel, 2 * data.length + 1 ≤ fuel → (t fuel).stream (endingText readErr failing) data = (t (2 * data.length + 1)).stream (endingText readErr failing) data := by
  intro fuel hf
  have hb := (hd.safe (2 * data.length + 1)).stream data (by simp)
  have ht := (hd.ends data.length _ (Nat.lt_succ_self _) false data (Nat.le_refl _)).1
  have hst := (hd.le (2 * data.length + 1) fuel hf).stream _ _ ht
  have i1 := (hof (2 * data.length + 1)).stream_iff (endingText readErr failing) false data hb
  have i2 := (hof fuel).stream_iff (endingText readErr failing) false data (by rw [hst]; exact hb)
  rw [hst, ← i1] at i2
  cases h1 : (t (2 * data.length + 1)).stream (endingText readErr failing) data with
  | some text => exact (hle _ _ hf).stream h1
  | none =>
    cases h2 : (t fuel).stream (endingText readErr failing) data with
    | none => rfl
    | some text =>
      obtain ⟨_, h⟩ := i2.mp ⟨text, h2⟩
      rw [h1] at h
      cases h

theorem text_run {σ : Type} {P : σ → Prop} {d : Nat → Prog σ} {t : Nat → Texts} (hof : ∀ fuel, (t fuel).Of P (d fuel)) (hd : Decodes d) (readErr : Str) {r : Reader} {buf : List UInt8}
    (hfit : TokensFit buf.length r.data) (h0 : 0 < buf.length) {fuel : Nat} (hf : (Parser.newWithReader r buf).work < fuel) :
    (t fuel).run readErr fuel (Parser.newWithReader r buf) = (t fuel).stream (r.ending readErr) r.data := by
  have := Texts.run_eq (readErr := readErr) h0 (hof fuel) fuel (Parser.newWithReader r buf) false (newWithReader_ok r buf) (newWithReader_ends r buf) (Nat.le_refl _) hf
    (by rw [newWithReader_rest]; exact (d fuel).fits_tokens h0 hfit) (by simp) (by rw [newWithReader_rest]; exact (hd.safe fuel).stream _ (by simp))
  rw [newWithReader_rest] at this
  exact this

def textsV2 (fuel : Nat) : Texts := (Texts.sliceSpanV2 fuel).withMessage b!"parse spans for json v2"

def textsV1 (fuel : Nat) : Texts := (Texts.sliceSpanV1 fuel).withMessage b!"parse spans for json v1"

theorem of_v2 (newCap : Nat → Nat → Nat) (fuel : Nat) : (textsV2 fuel).Of Texts.Any (decoderSliceSpanV2 newCap fuel { cells := [], len := 0 }) :=
  Texts.Of.withMessage (Texts.reads_sliceV2 fuel newCap _ trivial) _

theorem of_v1 (newCap : Nat → Nat → Nat) (pool : List SpanV1) (fuel : Nat) : (textsV1 fuel).Of Texts.Any (decoderSliceSpanV1 newCap fuel { cells := pool, len := 0 }) :=
  Texts.Of.withMessage (Texts.reads_sliceV1 fuel newCap _ trivial) _

/-- What is said about a body of version 2 (nothing, if it is accepted), however it is delivered and whatever was in the buffer. -/
def ToldV2 (readErr data : Str) (failing : Bool) (told : Option Str) : Prop :=
  ∀ (r : Reader) (buf : List UInt8), r.data = data → r.failing = failing → TokensFit buf.length data → 0 < buf.length → Returns (fun fuel => errorJsonV2 readErr fuel r buf) told

def ToldV1 (readErr data : Str) (failing : Bool) (told : Option Str) : Prop :=
  ∀ (r : Reader) (buf : List UInt8), r.data = data → r.failing = failing → TokensFit buf.length data → 0 < buf.length → Returns (fun fuel => errorJsonV1 readErr fuel r buf) told

/-- C95: what is said about a body of version 2 depends on the body and its end only, and is in the grammar. -/
theorem C95_v2 (readErr data : Str) (failing : Bool) :
    ∃ told, ToldV2 readErr data failing told ∧ ∀ text, told = some text → RefusalV2 (endingText readErr failing) data text := by
  have hd := decodesV2 (fun _ n => n)
  refine ⟨(textsV2 (2 * data.length + 1)).stream (endingText readErr failing) data, ?_, fun text ht => ?_⟩
  · intro r buf hr hfl hfit h0
    refine ⟨2 * data.length + 1 + (Parser.newWithReader r buf).work + 1, fun fuel hf => ?_⟩
    have h1 := text_run (of_v2 fun _ n => n) hd readErr (r := r) (by rw [hr]; exact hfit) h0 (fuel := fuel) (by omega)
    have h2 := text_returns (of_v2 fun _ n => n) (fun _ _ h => (Texts.le_v2 h).withMessage _) hd readErr data failing fuel (by omega)
    unfold Reader.ending at h1
    rw [hr, hfl] at h1
    exact h1.trans h2
  · exact (says_v2 _).sound (List.suffix_refl _) (by intro c hc; cases hc) ht

/-- C95: the same for version 1. -/
theorem C95_v1 (readErr data : Str) (failing : Bool) :
    ∃ told, ToldV1 readErr data failing told ∧ ∀ text, told = some text → RefusalV1 (endingText readErr failing) data text := by
  have hd := decodesV1 (fun _ n => n) []
  refine ⟨(textsV1 (2 * data.length + 1)).stream (endingText readErr failing) data, ?_, fun text ht => ?_⟩
  · intro r buf hr hfl hfit h0
    refine ⟨2 * data.length + 1 + (Parser.newWithReader r buf).work + 1, fun fuel hf => ?_⟩
    have h1 := text_run (of_v1 (fun _ n => n) []) hd readErr (r := r) (by rw [hr]; exact hfit) h0 (fuel := fuel) (by omega)
    have h2 := text_returns (of_v1 (fun _ n => n) []) (fun _ _ h => (Texts.le_v1 h).withMessage _) hd readErr data failing fuel (by omega)
    unfold Reader.ending at h1
    rw [hr, hfl] at h1
    exact h1.trans h2
  · exact (says_v1 _).sound (List.suffix_refl _) (by intro c hc; cases hc) ht

/-! ### C95: the length of the text -/

theorem quotedByte_length (c : UInt8) : (quotedByte c).length ≤ 4 := by
  have : ∀ c : UInt8, (quotedByte c).length ≤ 4 := byte_forall (by decide +kernel)
  exact this c

theorem Spec.Starts.length {c : UInt8} {t : Str} (h : Starts c t) : t.length ≤ 15 := by
  obtain ⟨x, hx, _, rfl⟩ := h
  have : ∀ t ∈ tokens, t.2.length ≤ 15 := by decide +kernel
  exact this _ hx

section
variable {ending body text : Str}

theorem Spec.WrongText.length {expected : Str} (h : WrongText body expected text) : text.length ≤ 58 + expected.length := by
  have hq := quotedByte_length
  cases h with
  | token _ ht _ =>
    have := ht.length
    simp only [List.length_append, List.length_cons, List.length_nil]
    omega
  | character hc hno =>
    rename_i c
    have := hq c
    simp only [List.length_append, List.length_cons, List.length_nil]
    omega

theorem Spec.NextText.length (h : NextText ending body text) : text.length ≤ 26 + ending.length := by
  cases h with
  | ended => omega
  | character hc hno =>
    rename_i c
    have := quotedByte_length c
    simp only [List.length_append, List.length_cons, List.length_nil]
    omega

theorem Spec.BeginText.length {expected : Str} (h : BeginText ending body expected text) : text.length ≤ 58 + expected.length + ending.length := by
  cases h with
  | ended => omega
  | wrong h => have := h.length; omega

theorem Spec.EscapeText.length (h : EscapeText body text) : text.length ≤ 55 := by
  cases h with
  | short => decide +kernel
  | digit hc hno =>
    rename_i c
    have := quotedByte_length c
    simp only [List.length_append, List.length_cons, List.length_nil]
    omega

theorem Spec.StringText.length (h : StringText ending body text) : text.length ≤ 68 + ending.length := by
  cases h with
  | ended => omega
  | wrong h => have := h.length; simp only [List.length_cons, List.length_nil] at this; omega
  | escape h => have := h.length; omega

theorem Spec.NumberText.length (h : NumberText ending body text) : text.length ≤ 68 + ending.length := by
  cases h with
  | ended => omega
  | wrong h => have := h.length; simp only [List.length_cons, List.length_nil] at this; omega

theorem Spec.WordText.length (h : WordText ending text) : text.length ≤ 12 + ending.length := by
  cases h <;> simp <;> omega

theorem Spec.SkipText.length (h : SkipText ending body text) : text.length ≤ 68 + ending.length := by
  cases h with
  | next h => have := h.length; omega
  | string h => have := h.length; omega
  | word h => have := h.length; omega
  | stray _ _ ht =>
    have := ht.length
    simp only [List.length_append, List.length_cons, List.length_nil]
    omega

theorem Spec.ScalarText.length (h : ScalarText ending body text) : text.length ≤ 55 + ending.length := by
  cases h with
  | next h => have := h.length; omega
  | escape h => have := h.length; omega
  | word h => have := h.length; omega
  | other _ _ ht =>
    have := ht.length
    simp only [List.length_append, List.length_cons, List.length_nil]
    omega

theorem Spec.UintText.length (h : UintText ending body text) : text.length ≤ 89 + ending.length := by
  cases h with
  | number h => have := h.length; simp; omega
  | character hc hno =>
    rename_i c
    have := quotedByte_length c
    simp only [List.length_append, List.length_cons, List.length_nil]
    omega

theorem Spec.ValueText.length (h : ValueText ending body text) : text.length ≤ 82 + ending.length := by
  cases h with
  | string h => have := h.length; simp; omega

theorem Spec.AnyText.length (h : AnyText ending body text) : text.length ≤ 69 + ending.length := by
  cases h with
  | literal h => have := h.length; simp; omega

theorem Spec.RefText.length (h : RefText ending body text) : text.length ≤ 85 + ending.length := by
  cases h with
  | next h => have := h.length; omega
  | null => simp; omega
  | string h => have := h.length; simp; omega
  | large _ _ _ => simp; omega
  | digit _ _ _ _ =>
    rename_i c _ _ _ _
    have := quotedByte_length c
    simp only [List.length_append, List.length_cons, List.length_nil]
    omega

theorem Spec.MapText.length {K V : Str → Prop} {n : Nat} (h : MapText ending body K V text) (hn : 87 ≤ n) (hk : ∀ t, K t → t.length ≤ n + ending.length) (hv : ∀ t, V t → t.length ≤ n + ending.length) :
    text.length ≤ n + ending.length := by
  cases h with
  | begins h => have := h.length; simp only [List.length_append, List.length_cons, List.length_nil] at this ⊢; omega
  | next h => have := h.length; omega
  | key h => exact hk _ h
  | value h => exact hv _ h

theorem Spec.StructText.length {F : Str → Prop} {n : Nat} (h : StructText ending body F text) (hn : 87 ≤ n) (hf : ∀ t, F t → t.length ≤ n + ending.length) : text.length ≤ n + ending.length := by
  cases h with
  | begins h => have := h.length; simp only [List.length_append, List.length_cons, List.length_nil] at this ⊢; omega
  | next h => have := h.length; omega
  | key h => have := h.length; omega
  | field h => exact hf _ h
  | unknown h => have := h.length; omega

theorem Spec.EndpointText.length (h : EndpointText ending body text) : text.length ≤ 87 + ending.length :=
  Spec.StructText.length h (Nat.le_refl _) fun _ h => by have := h.length; omega

theorem Spec.FieldTextV2.length (h : FieldTextV2 ending body text) : text.length ≤ 89 + ending.length := by
  cases h with
  | id h => have := h.length; omega
  | uint h => have := h.length; omega
  | string h => have := h.length; omega
  | tags h => exact h.length (by omega) (fun _ h => by have := h.length; omega) fun _ h => by have := h.length; omega
  | endpoint h => have := h.length; omega

/-- C95: texts for version 2 are short. -/
theorem C95_length_v2 (h : RefusalV2 ending body text) : text.length ≤ 155 + ending.length := by
  cases h with
  | mk h =>
    cases h with
    | begins h => have := h.length; simp only [List.length_append, List.length_cons, List.length_nil] at this ⊢; omega
    | next h => have := h.length; simp only [List.length_append, List.length_cons, List.length_nil] at this ⊢; omega
    | item h =>
      have := h.length (n := 89) (by omega) fun _ h => h.length
      simp only [List.length_append, List.length_cons, List.length_nil] at this ⊢
      omega

theorem Spec.FieldTextV1.length (h : FieldTextV1 ending body text) : text.length ≤ 142 + ending.length := by
  cases h with
  | id h => have := h.length; omega
  | uint h => have := h.length; omega
  | string h => have := h.length; omega
  | binary h =>
    cases h with
    | begins h => have := h.length; simp only [List.length_append, List.length_cons, List.length_nil] at this ⊢; omega
    | next h => have := h.length; omega
    | item h =>
      have := h.length (n := 87) (by omega) fun _ h => by
        cases h with
        | key h => have := h.length; omega
        | value h => have := h.length; omega
        | endpoint h => exact h.length
      simp only [List.length_append, List.length_cons, List.length_nil] at this ⊢
      omega
  | annotations h =>
    cases h with
    | begins h => have := h.length; simp only [List.length_append, List.length_cons, List.length_nil] at this ⊢; omega
    | next h => have := h.length; omega
    | item h =>
      have := h.length (n := 89) (by omega) fun _ h => by
        cases h with
        | timestamp h => exact h.length
        | value h => have := h.length; omega
        | endpoint h => have := h.length; omega
      simp only [List.length_append, List.length_cons, List.length_nil] at this ⊢
      omega
    | surplus h => have := h.length; simp only [List.length_append, List.length_cons, List.length_nil] at this ⊢; omega

/-- C95: and for version 1. -/
theorem C95_length_v1 (h : RefusalV1 ending body text) : text.length ≤ 210 + ending.length := by
  cases h with
  | mk h =>
    cases h with
    | begins h => have := h.length; simp only [List.length_append, List.length_cons, List.length_nil] at this ⊢; omega
    | next h => have := h.length; simp only [List.length_append, List.length_cons, List.length_nil] at this ⊢; omega
    | item h =>
      have := h.length (n := 142) (by omega) fun _ h => h.length
      simp only [List.length_append, List.length_cons, List.length_nil] at this ⊢
      omega

end

/-! ### C95: the text is text -/

theorem utf8_quoted (c : UInt8) : Utf8Text (quotedByte c) := by
  have hc := c.toNat_lt
  refine utf8Text_append (utf8Text_append (utf8Text_bytes (by decide +kernel)) (utf8Text_rune ⟨by omega, by unfold Surrogate; omega⟩)) (utf8Text_bytes (by decide +kernel))

local macro "texts" : tactic => `(tactic| repeat' first | assumption | exact utf8_quoted _ | exact utf8Text_bytes (by decide +kernel) | apply utf8Text_append)

theorem Spec.Starts.utf8 {c : UInt8} {t : Str} (h : Starts c t) : Utf8Text t := by
  obtain ⟨x, hx, _, rfl⟩ := h
  have : ∀ t ∈ tokens, ∀ c ∈ t.2, c < 0x80 := by decide +kernel
  exact utf8Text_bytes (this _ hx)

section
variable {ending body text : Str}

theorem Spec.WrongText.utf8 {expected : Str} (h : WrongText body expected text) (he : Utf8Text expected) : Utf8Text text := by
  cases h with
  | token _ ht _ => have := ht.utf8; texts
  | character _ _ => texts

theorem Spec.NextText.utf8 (hu : Utf8Text ending) (h : NextText ending body text) : Utf8Text text := by
  cases h <;> texts

theorem Spec.BeginText.utf8 (hu : Utf8Text ending) {expected : Str} (h : BeginText ending body expected text) (he : Utf8Text expected) : Utf8Text text := by
  cases h with
  | ended => texts
  | wrong h => exact h.utf8 he

theorem Spec.EscapeText.utf8 (h : EscapeText body text) : Utf8Text text := by
  cases h <;> texts

theorem Spec.StringText.utf8 (hu : Utf8Text ending) (h : StringText ending body text) : Utf8Text text := by
  cases h with
  | ended => texts
  | wrong h => exact h.utf8 (by texts)
  | escape h => exact h.utf8

theorem Spec.NumberText.utf8 (hu : Utf8Text ending) (h : NumberText ending body text) : Utf8Text text := by
  cases h with
  | ended => texts
  | wrong h => exact h.utf8 (by texts)

theorem Spec.WordText.utf8 (hu : Utf8Text ending) (h : WordText ending text) : Utf8Text text := by
  cases h <;> texts

theorem Spec.SkipText.utf8 (hu : Utf8Text ending) (h : SkipText ending body text) : Utf8Text text := by
  cases h with
  | next h => exact h.utf8 hu
  | string h => exact h.utf8 hu
  | word h => exact h.utf8 hu
  | stray _ _ h => have := h.utf8; texts

theorem Spec.ScalarText.utf8 (hu : Utf8Text ending) (h : ScalarText ending body text) : Utf8Text text := by
  cases h with
  | next h => exact h.utf8 hu
  | escape h => exact h.utf8
  | word h => exact h.utf8 hu
  | other _ _ h => have := h.utf8; texts

theorem Spec.UintText.utf8 (hu : Utf8Text ending) (h : UintText ending body text) : Utf8Text text := by
  cases h with
  | number h => have := h.utf8 hu; texts
  | character _ _ => texts

theorem Spec.ValueText.utf8 (hu : Utf8Text ending) (h : ValueText ending body text) : Utf8Text text := by
  cases h with
  | string h => have := h.utf8 hu; texts

theorem Spec.AnyText.utf8 (hu : Utf8Text ending) (h : AnyText ending body text) : Utf8Text text := by
  cases h with
  | literal h => have := h.utf8 hu; texts

theorem Spec.RefText.utf8 (hu : Utf8Text ending) (h : RefText ending body text) : Utf8Text text := by
  cases h with
  | next h => exact h.utf8 hu
  | null => texts
  | string h => have := h.utf8 hu; texts
  | large _ _ _ => texts
  | digit _ _ _ _ => texts

theorem Spec.MapText.utf8 (hu : Utf8Text ending) {K V : Str → Prop} (h : MapText ending body K V text) (hk : ∀ t, K t → Utf8Text t) (hv : ∀ t, V t → Utf8Text t) : Utf8Text text := by
  cases h with
  | begins h => have := h.utf8 hu (by texts); texts
  | next h => exact h.utf8 hu
  | key h => exact hk _ h
  | value h => exact hv _ h

theorem Spec.StructText.utf8 (hu : Utf8Text ending) {F : Str → Prop} (h : StructText ending body F text) (hf : ∀ t, F t → Utf8Text t) : Utf8Text text := by
  cases h with
  | begins h => have := h.utf8 hu (by texts); texts
  | next h => exact h.utf8 hu
  | key h => exact h.utf8 hu
  | field h => exact hf _ h
  | unknown h => exact h.utf8 hu

theorem Spec.ListText.utf8 (hu : Utf8Text ending) {name element : Str} {I : Str → Prop} (h : ListText ending body name element I text) (hn : Utf8Text name) (he : Utf8Text element)
    (hi : ∀ t, I t → Utf8Text t) : Utf8Text text := by
  cases h with
  | begins h => have := h.utf8 hu (by texts); texts
  | next h => exact h.utf8 hu
  | item h => have := hi _ h; texts

theorem Spec.ArrayText.utf8 (hu : Utf8Text ending) {name element : Str} {I : Str → Prop} (h : ArrayText ending body name element I text) (hn : Utf8Text name) (he : Utf8Text element)
    (hi : ∀ t, I t → Utf8Text t) : Utf8Text text := by
  cases h with
  | begins h => have := h.utf8 hu (by texts); texts
  | next h => exact h.utf8 hu
  | item h => have := hi _ h; texts
  | surplus h => have := h.utf8 hu; texts

theorem Spec.EndpointText.utf8 (hu : Utf8Text ending) (h : EndpointText ending body text) : Utf8Text text := Spec.StructText.utf8 hu h fun _ h => h.utf8 hu

/-- C95: texts for version 2 are valid UTF-8, whatever bytes there are in the body. -/
theorem C95_utf8_v2 (hu : Utf8Text ending) (h : RefusalV2 ending body text) : Utf8Text text := by
  cases h with
  | mk h =>
    have := h.utf8 hu (by texts) (by texts) fun _ h => h.utf8 hu fun _ h => by
      cases h with
      | id h => exact h.utf8 hu
      | uint h => exact h.utf8 hu
      | string h => exact h.utf8 hu
      | tags h => exact h.utf8 hu (fun _ h => h.utf8 hu) fun _ h => h.utf8 hu
      | endpoint h => exact h.utf8 hu
    texts

/-- C95: and for version 1. -/
theorem C95_utf8_v1 (hu : Utf8Text ending) (h : RefusalV1 ending body text) : Utf8Text text := by
  cases h with
  | mk h =>
    have := h.utf8 hu (by texts) (by texts) fun _ h => h.utf8 hu fun _ h => by
      cases h with
      | id h => exact h.utf8 hu
      | uint h => exact h.utf8 hu
      | string h => exact h.utf8 hu
      | binary h =>
        exact h.utf8 hu (by texts) (by texts) fun _ h => h.utf8 hu fun _ h => by
          cases h with
          | key h => exact h.utf8 hu
          | value h => exact h.utf8 hu
          | endpoint h => exact h.utf8 hu
      | annotations h =>
        exact h.utf8 hu (by texts) (by texts) fun _ h => h.utf8 hu fun _ h => by
          cases h with
          | timestamp h => exact h.utf8 hu
          | value h => exact h.utf8 hu
          | endpoint h => exact h.utf8 hu
    texts

end

/-! ### C95: what the client reads -/

theorem delivers_unique {req : Request} {r r' : Reader} (h : req.Delivers r) (h' : req.Delivers r') : r = r' := by
  unfold Request.Delivers at h h'
  split at h
  · rw [if_pos ‹_›] at h'
    exact Option.some.inj (h.symm.trans h')
  · rw [if_neg ‹_›] at h'
    exact h.trans h'.symm

/-- C95: a client of version 2 that is not told that the request was accepted reads a text of the grammar, if handlers answer with the text that the parser returns. -/
theorem C95_answer_v2 {capacity arrivals log taken h} (hr : Handlers.Reachable capacity arrivals log taken h) {i : Nat} {a : Arrival} {x : Answer} (ha : arrivals[i]? = some a)
    (hx : h.stages[i]? = some (.answered x)) (hroute : a.req.route = .v2) {r : Reader} (hd : a.req.Delivers r) {readErr : Str}
    (htext : ∀ text, errorJsonV2 readErr a.fuel r a.env.buf = some text → a.text = text) (hfit : TokensFit a.env.buf.length r.data) (h0 : 0 < a.env.buf.length)
    (hf : (Parser.newWithReader r a.env.buf).work < a.fuel) (hs : x.status ≠ 202) :
    x.status = 400 ∧ ∃ text, RefusalV2 (r.ending readErr) r.data text ∧ x.body = b!"parsing spans from json: " ++ text ++ b!"\n" := by
  cases C93_answer hr ha hx with
  | accepted => exact absurd rfl hs
  | unzippable h => exact absurd hd (h r)
  | unsupported _ _ h => exact absurd (fun h' => by rw [hroute] at h'; cases h') h
  | invalid close h1 _ h2 =>
    cases delivers_unique h1 hd
    refine ⟨rfl, a.text, ?_, rfl⟩
    rcases h2 with ⟨h, _⟩ | ⟨_, h⟩ | ⟨h, _⟩
    · rw [hroute] at h; cases h
    · obtain ⟨text, ht⟩ := (C95_iff_v2 readErr _ _ _ _).mpr h
      rw [htext text ht]
      have he := text_run (of_v2 fun _ n => n) (decodesV2 fun _ n => n) readErr hfit h0 hf
      exact (says_v2 _).sound (List.suffix_refl _) (by intro c hc; cases hc) (he.symm.trans ht)
    · rw [hroute] at h; cases h

/-- C95: the same for version 1, of a request of the right type. -/
theorem C95_answer_v1 {capacity arrivals log taken h} (hr : Handlers.Reachable capacity arrivals log taken h) {i : Nat} {a : Arrival} {x : Answer} (ha : arrivals[i]? = some a)
    (hx : h.stages[i]? = some (.answered x)) (hroute : a.req.route = .v1) (htype : a.req.TypeOk) {r : Reader} (hd : a.req.Delivers r) {readErr : Str}
    (htext : ∀ text, errorJsonV1 readErr a.fuel r a.env.buf = some text → a.text = text) (hfit : TokensFit a.env.buf.length r.data) (h0 : 0 < a.env.buf.length)
    (hf : (Parser.newWithReader r a.env.buf).work < a.fuel) (hs : x.status ≠ 202) :
    x.status = 400 ∧ ∃ text, RefusalV1 (r.ending readErr) r.data text ∧ x.body = b!"parsing spans from json: " ++ text ++ b!"\n" := by
  cases C93_answer hr ha hx with
  | accepted => exact absurd rfl hs
  | unzippable h => exact absurd hd (h r)
  | unsupported _ _ h => exact absurd htype h
  | invalid close h1 _ h2 =>
    cases delivers_unique h1 hd
    refine ⟨rfl, a.text, ?_, rfl⟩
    rcases h2 with ⟨_, pool, h⟩ | ⟨h, _⟩ | ⟨h, _⟩
    · obtain ⟨text, ht⟩ := (C95_iff_v1 readErr _ _ _ _ _).mpr (congrArg Prod.fst h)
      rw [htext text ht]
      have he := text_run (of_v1 (fun _ n => n) []) (decodesV1 (fun _ n => n) []) readErr hfit h0 hf
      exact (says_v1 _).sound (List.suffix_refl _) (by intro c hc; cases hc) (he.symm.trans ht)
    · rw [hroute] at h; cases h
    · rw [hroute] at h; cases h

/-! ### C96: requests of which the end is missing -/

theorem cut_v2 {newCap : Nat → Nat → Nat} {size : Nat} (h0 : 0 < size) {data : Str} (hfit : TokensFit size data) {r : Reader} {buf : List UInt8} {spans : List Span}
    (hr : r.data = data) (hb : size ≤ buf.length) (h : Returns (fun fuel => parseJsonV2 newCap fuel r buf) (.spans spans)) :
    ∃ p q, data = p ++ q ∧ p.getLast? = some c!"]" ∧
      ∀ readErr failing x y, p = x ++ y → y ≠ [] → ∃ pre, ToldV2 readErr x failing (some (pre ++ endingText readErr failing)) := by
  have hd := decodesV2 newCap
  have hs := hd.settles data
  have hout := Returns.unique h (outcomeV2_returns h0 hfit hs r buf hr hb)
  cases ho : (decoderSliceSpanV2 newCap (2 * data.length + 1) { cells := [], len := 0 }).stream false data with
  | ok m b q =>
    rw [ho] at hs
    obtain ⟨p, e⟩ := hd.splits hs
    have e' : data = (p ++ [c!"]"]) ++ q := by rw [e]; simp
    refine ⟨p ++ [c!"]"], q, e', by simp, fun readErr failing x y hxy hy => ?_⟩
    rw [e'] at hs
    obtain ⟨m', hm⟩ := (hd.needs hs).2 x y hxy hy
    have hlen : 2 * x.length + 1 ≤ 2 * data.length + 1 := by rw [e', hxy]; simp only [List.length_append]; omega
    have h1 := hm.later _ hlen
    obtain ⟨text, ht⟩ := ((of_v2 newCap (2 * data.length + 1)).stream_iff (endingText readErr failing) false x (by rw [h1]; simp)).mpr ⟨m', h1⟩
    have hok : (decoderSliceSpanV2 newCap (2 * data.length + 1) { cells := [], len := 0 }).stream false (x ++ (y ++ q)) = .ok m b q := by
      rw [← List.append_assoc, ← hxy, ← e']; exact ho
    obtain ⟨pre, rfl⟩ := (of_v2 newCap _).stream_cut hok ht
    refine ⟨pre, fun r' buf' hr' hfl hfit' h0' => ⟨2 * data.length + 1 + (Parser.newWithReader r' buf').work + 1, fun fuel hf => ?_⟩⟩
    have k1 := text_run (of_v2 newCap) hd readErr (r := r') (by rw [hr']; exact hfit') h0' (fuel := fuel) (by omega)
    have k2 := text_returns (of_v2 newCap) (fun _ _ h => (Texts.le_v2 h).withMessage _) hd readErr x failing
    unfold Reader.ending at k1
    rw [hr', hfl] at k1
    exact k1.trans ((k2 fuel (by omega)).trans ((k2 _ hlen).symm.trans ht))
  | err m => rw [ho, outcomeV2] at hout; cases hout
  | bad => rw [ho, outcomeV2] at hout; cases hout
  | timeout => rw [ho, outcomeV2] at hout; cases hout

theorem cut_v1 {newCap : Nat → Nat → Nat} {pool : List SpanV1} {size : Nat} (h0 : 0 < size) {data : Str} (hfit : TokensFit size data) {r : Reader} {buf : List UInt8} {spans : List Span}
    {pool' : List SpanV1} (hr : r.data = data) (hb : size ≤ buf.length) (h : Returns (fun fuel => parseJsonV1 newCap fuel r buf pool) (.spans spans, pool')) :
    ∃ p q, data = p ++ q ∧ p.getLast? = some c!"]" ∧
      ∀ readErr failing x y, p = x ++ y → y ≠ [] → ∃ pre, ToldV1 readErr x failing (some (pre ++ endingText readErr failing)) := by
  have hd := decodesV1 newCap pool
  have hs := hd.settles data
  have hout := Returns.unique h (outcomeV1_returns h0 hfit hs r buf hr hb)
  cases ho : (decoderSliceSpanV1 newCap (2 * data.length + 1) { cells := pool, len := 0 }).stream false data with
  | ok m b q =>
    rw [ho] at hs
    obtain ⟨p, e⟩ := hd.splits hs
    have e' : data = (p ++ [c!"]"]) ++ q := by rw [e]; simp
    refine ⟨p ++ [c!"]"], q, e', by simp, fun readErr failing x y hxy hy => ?_⟩
    rw [e'] at hs
    obtain ⟨m', hm⟩ := (hd.needs hs).2 x y hxy hy
    have hlen : 2 * x.length + 1 ≤ 2 * data.length + 1 := by rw [e', hxy]; simp only [List.length_append]; omega
    have h1 := hm.later _ hlen
    obtain ⟨text, ht⟩ := ((of_v1 newCap pool (2 * data.length + 1)).stream_iff (endingText readErr failing) false x (by rw [h1]; simp)).mpr ⟨m', h1⟩
    have hok : (decoderSliceSpanV1 newCap (2 * data.length + 1) { cells := pool, len := 0 }).stream false (x ++ (y ++ q)) = .ok m b q := by
      rw [← List.append_assoc, ← hxy, ← e']; exact ho
    obtain ⟨pre, rfl⟩ := (of_v1 newCap pool _).stream_cut hok ht
    refine ⟨pre, fun r' buf' hr' hfl hfit' h0' => ⟨2 * data.length + 1 + (Parser.newWithReader r' buf').work + 1, fun fuel hf => ?_⟩⟩
    have k1 := text_run (of_v1 newCap pool) hd readErr (r := r') (by rw [hr']; exact hfit') h0' (fuel := fuel) (by omega)
    have k2 := text_returns (of_v1 newCap pool) (fun _ _ h => (Texts.le_v1 h).withMessage _) hd readErr x failing
    unfold Reader.ending at k1
    rw [hr', hfl] at k1
    exact k1.trans ((k2 fuel (by omega)).trans ((k2 _ hlen).symm.trans ht))
  | err m => rw [ho, outcomeV1] at hout; cases hout
  | bad => rw [ho, outcomeV1] at hout; cases hout
  | timeout => rw [ho, outcomeV1] at hout; cases hout

/-- C96: of a body of version 2 that is accepted, a part is needed, which fits into the buffer; if the end of that is missing, the text of the error ends with what is said about the end
of data. -/
theorem C96_v2 {newCap : Nat → Nat → Nat} {r : Reader} {buf : List UInt8} (h5 : 5 ≤ buf.length) {spans : List Span}
    (h : Returns (fun fuel => parseJsonV2 newCap fuel r buf) (.spans spans)) :
    ∃ p q, r.data = p ++ q ∧ p.getLast? = some c!"]" ∧ TokensFit buf.length p ∧
      ∀ readErr failing x y, p = x ++ y → y ≠ [] → ∃ pre, ToldV2 readErr x failing (some (pre ++ endingText readErr failing)) := by
  obtain ⟨data, rest, hdata, hfit, r1, hr1, h⟩ := accepted_v2 h5 h
  obtain ⟨p, q, e, h1, h2⟩ := cut_v2 (by omega) hfit hr1 (Nat.le_refl _) h
  refine ⟨p, q ++ rest, by rw [hdata, e, List.append_assoc], h1, ?_, h2⟩
  rw [e] at hfit
  exact fitsFrom_append hfit

/-- C96: the same for version 1, whatever the pooled slice is. -/
theorem C96_v1 {newCap : Nat → Nat → Nat} {pool : List SpanV1} {r : Reader} {buf : List UInt8} (h5 : 5 ≤ buf.length) {spans : List Span} {pool' : List SpanV1}
    (h : Returns (fun fuel => parseJsonV1 newCap fuel r buf pool) (.spans spans, pool')) :
    ∃ p q, r.data = p ++ q ∧ p.getLast? = some c!"]" ∧ TokensFit buf.length p ∧
      ∀ readErr failing x y, p = x ++ y → y ≠ [] → ∃ pre, ToldV1 readErr x failing (some (pre ++ endingText readErr failing)) := by
  obtain ⟨data, rest, hdata, hfit, r1, hr1, h⟩ := accepted_v1 h5 h
  obtain ⟨p, q, e, h1, h2⟩ := cut_v1 (by omega) hfit hr1 (Nat.le_refl _) h
  refine ⟨p, q ++ rest, by rw [hdata, e, List.append_assoc], h1, ?_, h2⟩
  rw [e] at hfit
  exact fitsFrom_append hfit

/-! ### Cases -/

/-- A body, read with a buffer of 64 bytes; its connection ends, or fails. -/
def saysV2 (failing : Bool) (data : Str) : Option Str := errorJsonV2 b!"unexpected EOF" 200 { data, script := [], failing, idle := false } (List.replicate 64 0)

def saysV1 (failing : Bool) (data : Str) : Option Str := errorJsonV1 b!"unexpected EOF" 200 { data, script := [], failing, idle := false } (List.replicate 64 0)

theorem C95_witness_v2 :
    saysV2 false b!"[{\"id\":1}]" = some b!"parse spans for json v2: decoding element of type codec.spanV2: decode id value: expected token of type 'TypeString', but found 'TypeNumber'" ∧
    saysV2 false b!"{}" = some b!"parse spans for json v2: decoding []codec.spanV2: expected token of type 'TypeArrayBegin', but found 'TypeObjectBegin'" ∧
    saysV2 false b!"*" = some b!"parse spans for json v2: decoding []codec.spanV2: expected token of type 'TypeArrayBegin', but found character '*'" ∧
    saysV2 false b!"[{\"id\":\"12" = some b!"parse spans for json v2: decoding element of type codec.spanV2: decode id value: EOF" ∧
    saysV2 false b!"[{\"id\":nul" = some b!"parse spans for json v2: decoding element of type codec.spanV2: require(4): EOF" ∧
    saysV2 false b!"[{\"id\":\"xyz\"}]" = some b!"parse spans for json v2: decoding element of type codec.spanV2: hex value must only contain [0-9a-f], got 'x'" ∧
    saysV2 false b!"[{\"id\":\"01234567890123456\"}]" = some b!"parse spans for json v2: decoding element of type codec.spanV2: hex value too large" ∧
    saysV2 false b!"[{\"duration\":1.5}]" = some b!"parse spans for json v2: decoding element of type codec.spanV2: Unexpected character in number: '.'" ∧
    saysV2 false b!"[{\"duration\":true}]" = some b!"parse spans for json v2: decoding element of type codec.spanV2: decode uint64 value: expected token of type 'TypeNumber', but found 'TypeBoolean'" ∧
    saysV2 false b!"[{\"name\":\"\\u12\"}]" = some b!"parse spans for json v2: decoding element of type codec.spanV2: decode value: premature end of input while decoding unicode character" ∧
    saysV2 false b!"[{\"name\":\"\\u12G4\"}]" = some b!"parse spans for json v2: decoding element of type codec.spanV2: decode value: expected hexadecimal character but got 'G'" ∧
    saysV2 false b!"[{\"tags\":{\"a\":[]}}]" = some b!"parse spans for json v2: decoding element of type codec.spanV2: decode value: expected token of type 'TypeString', but found 'TypeArrayBegin'" ∧
    saysV2 false b!"[{\"tags\":null}]" = some b!"parse spans for json v2: decoding element of type codec.spanV2: begin object: expected token of type 'TypeObjectBegin', but found 'TypeNull'" ∧
    saysV2 false b!"[{\"x\":[}]}]" = some b!"parse spans for json v2: decoding element of type codec.spanV2: can not skip unexpected symbol of type 'TypeObjectEnd'" ∧
    saysV2 false b!"[{\"x\":!}]" = some b!"parse spans for json v2: decoding element of type codec.spanV2: unexpected character: '!'" ∧
    saysV2 false b!"[{\"x\":fals" = some b!"parse spans for json v2: decoding element of type codec.spanV2: require(5): EOF" := by
  decide +kernel

theorem C95_witness_v1 :
    saysV1 false b!"[{\"binaryAnnotations\":[{\"value\":{}}]}]" = some b!"parse spans for json v1: decoding element of type codec.spanV1: decoding element of type codec.binaryAnnotationV1: decode value: expected literal, got 'TypeObjectBegin'" ∧
    saysV1 false b!"[{\"binaryAnnotations\":7}]" = some b!"parse spans for json v1: decoding element of type codec.spanV1: decoding []codec.binaryAnnotationV1: expected token of type 'TypeArrayBegin', but found 'TypeNumber'" ∧
    saysV1 false b!"[{\"annotations\":[{\"timestamp\":\"1\"}]}]" = some b!"parse spans for json v1: decoding element of type codec.spanV1: decoding array element of type codec.annotationV1: decode uint64 value: expected token of type 'TypeNumber', but found 'TypeString'" ∧
    saysV1 false b!"[{\"annotations\":[{},{},{},{},{\"a\":]}]}]" = some b!"parse spans for json v1: decoding element of type codec.spanV1: skipping out of range array element of type codec.annotationV1: can not skip unexpected symbol of type 'TypeArrayEnd'" ∧
    saysV1 false b!"[{\"annotations\":{}}]" = some b!"parse spans for json v1: decoding element of type codec.spanV1: decoding [4]codec.annotationV1: expected token of type 'TypeArrayBegin', but found 'TypeObjectBegin'" ∧
    saysV1 false b!"[{}}" = some b!"parse spans for json v1: decoding element of type codec.spanV1: begin object: expected token of type 'TypeObjectBegin', but found 'TypeObjectEnd'" ∧
    saysV1 false b!"[{" = some b!"parse spans for json v1: decoding element of type codec.spanV1: EOF" := by
  decide +kernel

/-- C96: a body that ends too early, and one whose connection fails. That the text ends with `EOF` does not mean that bytes are missing at the end of an acceptable body: with the next
bytes, there would be another error. -/
theorem C96_witness : TokensFit 64 b!"[{\"id\":\"1\"}]" ∧ saysV2 false b!"[{\"id\":\"1\"}]" = none ∧
    saysV2 false b!"[{\"id\":\"1" = some b!"parse spans for json v2: decoding element of type codec.spanV2: decode id value: EOF" ∧
    saysV2 true b!"[{\"id\":\"1" = some b!"parse spans for json v2: decoding element of type codec.spanV2: decode id value: buffer more data: unexpected EOF" ∧
    saysV2 false b!"[{\"timestamp\":1.5" = some b!"parse spans for json v2: decoding element of type codec.spanV2: decode uint64 value: EOF" ∧
    saysV2 false b!"[{\"timestamp\":1.5}]" = some b!"parse spans for json v2: decoding element of type codec.spanV2: Unexpected character in number: '.'" := by
  decide +kernel

end Verif
