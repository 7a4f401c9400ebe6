import Verif.Props.Parser
import Verif.Spec.Json

/-!
# Reading values of the JSON standard
-/

namespace Verif

open Spec

/-- What the parser skips between tokens. -/
def Sep (w : Str) : Prop := ∀ c ∈ w, isCharSpace c = true

/-- A token for a number ends here. -/
def Delim (s : Str) : Prop := ∀ c, s.head? = some c → numberChar c = false

theorem Sep.nil : Sep [] := by simp [Sep]

theorem Sep.append {w w' : Str} (h : Sep w) (h' : Sep w') : Sep (w ++ w') := by
  intro c hc
  rcases List.mem_append.mp hc with hc | hc
  · exact h c hc
  · exact h' c hc

theorem sep_blank {w : Str} (h : Blank w) : Sep w := by
  intro c hc
  rcases h c hc with rfl | rfl | rfl | rfl <;> decide

theorem sep_comma : Sep [c!","] := fun _ h => by rw [List.mem_singleton.mp h]; decide
theorem sep_colon : Sep [c!":"] := fun _ h => by rw [List.mem_singleton.mp h]; decide

theorem dropWhile_sep {w : Str} (h : Sep w) {c : UInt8} (hc : isCharSpace c = false) (s : Str) : (w ++ c :: s).dropWhile isCharSpace = c :: s := by
  induction w with
  | nil => simp [hc]
  | cons d w ih =>
    have := h d (by simp)
    simp only [List.cons_append, List.dropWhile_cons, this, if_true]
    exact ih (fun x hx => h x (by simp [hx]))

theorem delim_cons {c : UInt8} (h : numberChar c = false) (s : Str) : Delim (c :: s) := by
  intro d hd
  injection hd with hd
  exact hd ▸ h

theorem delim_sep {w s : Str} (h : Sep w) (hs : Delim s) : Delim (w ++ s) := by
  cases w with
  | nil => exact hs
  | cons c w =>
    have key : ∀ c : UInt8, isCharSpace c = true → numberChar c = false := byte_forall (by decide +kernel)
    exact delim_cons (key c (h c (by simp))) _

section
variable {σ : Type}

theorem stream_skipWhitespace {w : Str} (hw : Sep w) {c : UInt8} (hc : isCharSpace c = false) (s : Str) (r : Bool) {m : σ} {k : Unit → Prog σ} :
    (Prog.op .skipWhitespace m k).stream r (w ++ c :: s) = (k ()).stream true (c :: s) := by
  simp only [Prog.stream, Op.needsByte, Bool.false_and, Bool.false_eq_true, if_false, Op.stream, dropWhile_sep hw hc, Op.readyAfter]

theorem stream_nextType {w : Str} (hw : Sep w) {c : UInt8} (hc : isCharSpace c = false) (he : symbolTable c ≠ .error) (s : Str) (r : Bool) {m : σ}
    {k : JType → Prog σ} : (nextType m k).stream r (w ++ c :: s) = (k (symbolTable c)).stream true (c :: s) := by
  unfold nextType
  rw [stream_skipWhitespace hw hc]
  simp only [Prog.stream, Op.needsByte, Bool.not_true, Bool.and_false, Bool.false_eq_true, if_false, Op.stream, if_neg he, Op.readyAfter]

theorem stream_consumeOp {c : UInt8} {t : Punct} (ht : symbolTable c = t.type) (s : Str) {m : σ} {k : Unit → Prog σ} :
    (Prog.op (.consume t) m k).stream true (c :: s) = (k ()).stream false s := by
  simp only [Prog.stream, Op.needsByte, Bool.not_true, Bool.and_false, Bool.false_eq_true, if_false, Op.stream, if_pos ht, Op.readyAfter]

theorem stream_consume {w : Str} (hw : Sep w) {c : UInt8} (hc : isCharSpace c = false) {t : Punct} (ht : symbolTable c = t.type) (s : Str) (r : Bool)
    {m : σ} {k : Prog σ} : (consume t m k).stream r (w ++ c :: s) = k.stream false s := by
  unfold consume
  rw [stream_skipWhitespace hw hc, stream_consumeOp ht]

theorem stream_readStringOp {lit v : Str} (hl : JsonLiteral lit) (hv : unescape lit = some v) (s : Str) {m : σ} {k : Str → Prog σ} :
    (Prog.op .readString m k).stream true (c!"\"" :: (lit ++ c!"\"" :: s)) = (k v).stream false s := by
  obtain ⟨v', hj⟩ := hl
  simp only [Prog.stream, Op.needsByte, Bool.not_true, Bool.and_false, Bool.false_eq_true, if_false, Op.stream, ne_eq, not_true_eq_false,
    scanString_json hj s, hv, Op.readyAfter]

theorem stream_readString {w : Str} (hw : Sep w) {lit v : Str} (hl : JsonLiteral lit) (hv : unescape lit = some v) (s : Str) (r : Bool)
    {m : σ} {k : Str → Prog σ} : (readString m k).stream r (w ++ c!"\"" :: (lit ++ c!"\"" :: s)) = (k v).stream false s := by
  unfold readString
  rw [stream_skipWhitespace hw (by decide), stream_readStringOp hl hv]

theorem stream_readString0 {lit v : Str} (hl : JsonLiteral lit) (hv : unescape lit = some v) (s : Str) (r : Bool)
    {m : σ} {k : Str → Prog σ} : (readString m k).stream r (c!"\"" :: (lit ++ c!"\"" :: s)) = (k v).stream false s :=
  stream_readString Sep.nil hl hv s r

/-- The token of a number. -/
def NumberToken (t : Str) : Prop := ∃ c t', t = c :: t' ∧ isCharDigit c = true ∧ ∀ d ∈ t', numberChar d = true

theorem takeWhile_number {t s : Str} (ht : ∀ d ∈ t, numberChar d = true) (hs : Delim s) :
    (t ++ s).takeWhile numberChar = t ∧ (t ++ s).dropWhile numberChar = s := by
  induction t with
  | nil =>
    cases s with
    | nil => exact ⟨rfl, rfl⟩
    | cons c s => simp [hs c rfl]
  | cons d t ih =>
    have := ih (fun x hx => ht x (by simp [hx]))
    simp [ht d (by simp), this]

theorem stream_readNumberOp {t : Str} (ht : NumberToken t) {s : Str} (hs : Delim s) (hne : s ≠ []) {m : σ} {k : Str → Prog σ} :
    (Prog.op .readNumber m k).stream true (t ++ s) = (k t).stream false s := by
  obtain ⟨c, t', rfl, hc, ht'⟩ := ht
  obtain ⟨h1, h2⟩ := takeWhile_number ht' hs
  cases s with
  | nil => exact absurd rfl hne
  | cons d s =>
    simp only [Prog.stream, Op.needsByte, Bool.not_true, Bool.and_false, Bool.false_eq_true, if_false, List.cons_append, Op.stream, hc, h1, h2,
      Op.readyAfter]

theorem stream_readNumber {w : Str} (hw : Sep w) {t : Str} (ht : NumberToken t) {s : Str} (hs : Delim s) (hne : s ≠ []) (r : Bool)
    {m : σ} {k : Str → Prog σ} : (readNumber m k).stream r (w ++ (t ++ s)) = (k t).stream false s := by
  unfold readNumber
  have ht' := ht
  obtain ⟨c, t', rfl, hc, _⟩ := ht'
  have key : ∀ c : UInt8, isCharDigit c = true → isCharSpace c = false := byte_forall (by decide +kernel)
  rw [List.cons_append, stream_skipWhitespace hw (key c hc), ← List.cons_append, stream_readNumberOp ht hs hne]

/-- The names as the parser knows them. -/
def wordOf : JsonWord → Word
  | .null => .null
  | .true => .true
  | .false => .false

theorem stream_readWord (w : JsonWord) (s : Str) {m : σ} {k : Str → Prog σ} :
    (Prog.op (.readWord (wordOf w)) m k).stream true (w.text ++ s) = (k w.text).stream false s := by
  cases w <;> simp [Prog.stream, Op.needsByte, Op.stream, JsonWord.text, wordOf, Word.length, Word.first, Op.readyAfter,
    show ∀ n, ¬ (n + 1 + 1 + 1 + 1 < 4) from by omega, show ∀ n, ¬ (n + 1 + 1 + 1 + 1 + 1 < 5) from by omega]

theorem stream_readBoolean {w : JsonWord} (hw : w ≠ .null) (s : Str) {m : σ} {k : Str → Prog σ} :
    (readBoolean m k).stream true (w.text ++ s) = (k w.text).stream false s := by
  unfold readBoolean
  cases w with
  | null => exact absurd rfl hw
  | true =>
    have := stream_readWord .true s (m := m) (k := k)
    simp only [JsonWord.text, List.cons_append] at this ⊢
    rw [Prog.stream]
    simp only [Op.needsByte, Bool.not_true, Bool.and_false, Bool.false_eq_true, if_false, Op.stream, Op.readyAfter, if_true]
    exact this
  | false =>
    have := stream_readWord .false s (m := m) (k := k)
    simp only [JsonWord.text, List.cons_append] at this ⊢
    rw [Prog.stream]
    simp only [Op.needsByte, Bool.not_true, Bool.and_false, Bool.false_eq_true, if_false, Op.stream, Op.readyAfter,
      show ¬ ((102 : UInt8) = 116) from by decide]
    exact this

end

/-! ## Numbers -/

theorem digits_number {d : Str} (h : Digits d) : ∀ c ∈ d, isCharDigit c = true := by
  intro c hc
  have key : ∀ c : UInt8, c!"0" ≤ c ∧ c ≤ c!"9" → isCharDigit c = true := byte_forall (by decide +kernel)
  exact key c (h.2 c hc)

theorem numberToken_plain {t : Str} (h : PlainNumber t) : NumberToken t := by
  obtain ⟨⟨minus, int, frac, exp, rfl, hm, ⟨hi, _⟩, hf, he⟩, hE, hP⟩ := h
  have dn : ∀ c : UInt8, isCharDigit c = true → numberChar c = true := byte_forall (by decide +kernel)
  have hint := digits_number hi
  have hfrac : ∀ c ∈ frac, numberChar c = true := by
    rcases hf with rfl | ⟨d, rfl, hd⟩
    · simp
    · intro c hc
      rcases List.mem_cons.mp hc with rfl | hc
      · decide
      · exact dn c (digits_number hd c hc)
  have hexp : ∀ c ∈ exp, numberChar c = true := by
    rcases he with rfl | ⟨e, sign, d, rfl, he, hs, hd⟩
    · simp
    · intro c hc
      rcases List.mem_cons.mp hc with rfl | hc
      · rcases he with rfl | rfl
        · decide
        · exact absurd (by simp) hE
      · rcases List.mem_append.mp hc with hc | hc
        · rcases hs with rfl | rfl | rfl
          · simp at hc
          · exact absurd (by simp) hP
          · rw [List.mem_singleton.mp hc]; decide
        · exact dn c (digits_number hd c hc)
  cases int with
  | nil => exact absurd rfl hi.1
  | cons i int =>
    have hrest : ∀ c ∈ int ++ (frac ++ exp), numberChar c = true := by
      intro c hc
      rcases List.mem_append.mp hc with hc | hc
      · exact dn c (hint c (by simp [hc]))
      · rcases List.mem_append.mp hc with hc | hc
        · exact hfrac c hc
        · exact hexp c hc
    rcases hm with rfl | rfl
    · exact ⟨i, int ++ (frac ++ exp), by simp, hint i (by simp), hrest⟩
    · refine ⟨c!"-", (i :: int) ++ (frac ++ exp), by simp, by decide, ?_⟩
      intro c hc
      rw [List.cons_append] at hc
      rcases List.mem_cons.mp hc with rfl | hc
      · exact dn _ (hint _ (by simp))
      · exact hrest c hc

/-! ## Skipping -/

/-- The first byte of a value. -/
def valueStart (t : JType) : Bool := t = .string ∨ t = .number ∨ t = .boolean ∨ t = .null ∨ t = .objectBegin ∨ t = .arrayBegin

/-- What may follow a value that begins with `c`: the end of a number must be visible. -/
def NumberEnds (c : UInt8) (s : Str) : Prop := symbolTable c = .number → Delim s ∧ s ≠ []

/-- The text of a value is skipped. -/
def Skips (t : Str) : Prop :=
  ∃ c t', t = c :: t' ∧ valueStart (symbolTable c) ∧
    ∃ N, ∀ fuel, N ≤ fuel → ∀ s, NumberEnds c s → (skip fuel (symbolTable c)).stream true (t ++ s) = .ok () false s

theorem start_notSpace {c : UInt8} (h : valueStart (symbolTable c) = true) :
    isCharSpace c = false ∧ symbolTable c ≠ .error ∧ symbolTable c ≠ .arrayEnd ∧ symbolTable c ≠ .objectEnd := by
  revert h
  exact byte_forall (P := fun c => valueStart (symbolTable c) = true →
    isCharSpace c = false ∧ symbolTable c ≠ .error ∧ symbolTable c ≠ .arrayEnd ∧ symbolTable c ≠ .objectEnd) (by decide +kernel) c

/-- The text of elements, up to the closing bracket. -/
def SkipsElements (t : Str) : Prop :=
  ∃ N, ∀ fuel, N ≤ fuel → ∀ w s r, Sep w → (skipArrayLoop fuel).stream r (w ++ (t ++ c!"]" :: s)) = .ok () false s

/-- The text of members, up to the closing brace. -/
def SkipsMembers (t : Str) : Prop :=
  ∃ N, ∀ fuel, N ≤ fuel → ∀ w s r, Sep w → (skipObjectLoop fuel).stream r (w ++ (t ++ c!"}" :: s)) = .ok () false s

theorem skipsElements_blank {w : Str} (hw : Blank w) : SkipsElements w := by
  refine ⟨1, fun fuel hf v s r hv => ?_⟩
  obtain ⟨fuel, rfl⟩ : ∃ n, fuel = n + 1 := ⟨fuel - 1, by omega⟩
  unfold skipArrayLoop
  rw [← List.append_assoc, stream_nextType (hv.append (sep_blank hw)) (by decide) (by decide),
    if_pos (by decide), stream_consumeOp (by decide)]
  rfl

/-- One element, and then the others. -/
theorem skipsElements_cons {w t u : Str} (hw : Blank w) (ht : Skips t) (hu : SkipsElements u) (hd : ∀ s, Delim (u ++ c!"]" :: s)) :
    SkipsElements (w ++ (t ++ u)) := by
  obtain ⟨c, t', rfl, hc, N, hN⟩ := ht
  obtain ⟨M, hM⟩ := hu
  obtain ⟨h1, h2, h3, _⟩ := start_notSpace hc
  refine ⟨N + M + 1, fun fuel hf v s r hv => ?_⟩
  obtain ⟨fuel, rfl⟩ : ∃ n, fuel = n + 1 := ⟨fuel - 1, by omega⟩
  unfold skipArrayLoop
  simp only [List.append_assoc, List.cons_append]
  rw [← List.append_assoc, stream_nextType (hv.append (sep_blank hw)) h1 h2, if_neg h3, Prog.stream_andThen, ← List.cons_append,
    hN fuel (by omega) _ fun _ => ⟨hd s, by simp⟩]
  exact hM fuel (by omega) [] s false Sep.nil

theorem skipsMembers_blank {w : Str} (hw : Blank w) : SkipsMembers w := by
  refine ⟨1, fun fuel hf v s r hv => ?_⟩
  obtain ⟨fuel, rfl⟩ : ∃ n, fuel = n + 1 := ⟨fuel - 1, by omega⟩
  unfold skipObjectLoop
  rw [← List.append_assoc, stream_nextType (hv.append (sep_blank hw)) (by decide) (by decide),
    if_pos (by decide), stream_consumeOp (by decide)]
  rfl

theorem skipsMembers_cons {w lit w1 w2 t u : Str} (hw : Blank w) (hl : JsonLiteral lit) (hw1 : Blank w1) (hw2 : Blank w2) (ht : Skips t)
    (hu : SkipsMembers u) (hd : ∀ s, Delim (u ++ c!"}" :: s)) :
    SkipsMembers (w ++ c!"\"" :: (lit ++ c!"\"" :: (w1 ++ c!":" :: (w2 ++ (t ++ u))))) := by
  obtain ⟨c, t', rfl, hc, N, hN⟩ := ht
  obtain ⟨M, hM⟩ := hu
  obtain ⟨h1, h2, _, h3⟩ := start_notSpace hc
  obtain ⟨v, hv⟩ := unescape_json hl.choose_spec
  refine ⟨N + M + 1, fun fuel hf p s r hp => ?_⟩
  obtain ⟨fuel, rfl⟩ : ∃ n, fuel = n + 1 := ⟨fuel - 1, by omega⟩
  unfold skipObjectLoop
  simp only [List.append_assoc, List.cons_append]
  rw [← List.append_assoc, stream_nextType (hp.append (sep_blank hw)) (by decide) (by decide), if_neg (by decide), stream_readStringOp hl hv,
    Prog.stream_andThen]
  have hsep : Sep (w1 ++ ([c!":"] ++ w2)) := (sep_blank hw1).append (sep_colon.append (sep_blank hw2))
  have he : w1 ++ c!":" :: (w2 ++ c :: (t' ++ (u ++ c!"}" :: s))) = (w1 ++ ([c!":"] ++ w2)) ++ c :: (t' ++ (u ++ c!"}" :: s)) := by simp
  rw [he, stream_nextType hsep h1 h2, ← List.cons_append, hN fuel (by omega) _ fun _ => ⟨hd s, by simp⟩]
  exact hM fuel (by omega) [] s false Sep.nil

theorem SkipsElements.sep {w t : Str} (hw : Sep w) (h : SkipsElements t) : SkipsElements (w ++ t) := by
  obtain ⟨N, hN⟩ := h
  refine ⟨N, fun fuel hf v s r hv => ?_⟩
  have := hN fuel hf (v ++ w) s r (hv.append hw)
  simpa using this

theorem SkipsMembers.sep {w t : Str} (hw : Sep w) (h : SkipsMembers t) : SkipsMembers (w ++ t) := by
  obtain ⟨N, hN⟩ := h
  refine ⟨N, fun fuel hf v s r hv => ?_⟩
  have := hN fuel hf (v ++ w) s r (hv.append hw)
  simpa using this

theorem skips_string {lit : Str} (hl : JsonLiteral lit) : Skips (c!"\"" :: (lit ++ [c!"\""])) := by
  obtain ⟨v, hv⟩ := unescape_json hl.choose_spec
  refine ⟨_, _, rfl, by decide, 1, fun fuel hf s _ => ?_⟩
  obtain ⟨fuel, rfl⟩ : ∃ n, fuel = n + 1 := ⟨fuel - 1, by omega⟩
  simp only [show symbolTable 34 = .string from by decide, skip, List.cons_append, List.append_assoc, List.nil_append]
  rw [stream_readStringOp hl hv]
  rfl

theorem skips_number {t : Str} (ht : NumberToken t) : Skips t := by
  obtain ⟨c, t', e, hc, hr⟩ := ht
  have hty : symbolTable c = .number := by simpa [isCharDigit] using hc
  refine ⟨c, t', e, by rw [hty]; rfl, 1, fun fuel hf s hs => ?_⟩
  obtain ⟨fuel, rfl⟩ : ∃ n, fuel = n + 1 := ⟨fuel - 1, by omega⟩
  rw [hty]
  unfold skip
  rw [stream_readNumberOp ⟨c, t', e, hc, hr⟩ (hs hty).1 (hs hty).2]
  rfl

theorem skips_word (w : JsonWord) : Skips w.text := by
  obtain ⟨c, t', e⟩ : ∃ c t', w.text = c :: t' := by cases w <;> exact ⟨_, _, rfl⟩
  refine ⟨c, t', e, by cases w <;> (injection e with e _; subst e; decide), 1, fun fuel hf s _ => ?_⟩
  obtain ⟨fuel, rfl⟩ : ∃ n, fuel = n + 1 := ⟨fuel - 1, by omega⟩
  cases w with
  | null =>
    injection e with e _
    subst e
    exact stream_readWord .null s (m := ()) (k := fun _ => .done ())
  | true =>
    injection e with e _
    subst e
    exact stream_readBoolean (w := .true) (by simp) s (m := ()) (k := fun _ => .done ())
  | false =>
    injection e with e _
    subst e
    exact stream_readBoolean (w := .false) (by simp) s (m := ()) (k := fun _ => .done ())

theorem skips_array {t : Str} (h : SkipsElements t) : Skips (c!"[" :: (t ++ [c!"]"])) := by
  obtain ⟨N, hN⟩ := h
  refine ⟨_, _, rfl, by decide, N + 1, fun fuel hf s _ => ?_⟩
  obtain ⟨fuel, rfl⟩ : ∃ n, fuel = n + 1 := ⟨fuel - 1, by omega⟩
  have := hN fuel (by omega) [] s false Sep.nil
  simp only [show symbolTable 91 = .arrayBegin from by decide, skip, List.cons_append, List.append_assoc, List.nil_append]
  rw [stream_consumeOp (by decide)]
  exact this

theorem skips_object {t : Str} (h : SkipsMembers t) : Skips (c!"{" :: (t ++ [c!"}"])) := by
  obtain ⟨N, hN⟩ := h
  refine ⟨_, _, rfl, by decide, N + 1, fun fuel hf s _ => ?_⟩
  obtain ⟨fuel, rfl⟩ : ∃ n, fuel = n + 1 := ⟨fuel - 1, by omega⟩
  have := hN fuel (by omega) [] s false Sep.nil
  simp only [show symbolTable 123 = .objectBegin from by decide, skip, List.cons_append, List.append_assoc, List.nil_append]
  rw [stream_consumeOp (by decide)]
  exact this

mutual

theorem skips_writes : ∀ {j : Json} {t : Str}, Writes PlainNumber j t → Skips t
  | _, _, .word w => skips_word w
  | _, _, .number h => skips_number (numberToken_plain h)
  | _, _, .string h => skips_string h
  | _, _, .array h => skips_array (skips_elements h)
  | _, _, .object h => skips_object (skips_members h)

theorem skips_elements : ∀ {l : List Json} {t : Str}, WritesElements PlainNumber l t → SkipsElements t
  | _, _, .empty hw => skipsElements_blank hw
  | _, _, .last hw h hw' =>
    skipsElements_cons hw (skips_writes h) (skipsElements_blank hw') fun s => delim_sep (sep_blank hw') (delim_cons (by decide) s)
  | _, _, .cons (u := u) hw h hw' hu =>
    skipsElements_cons hw (skips_writes h) (by
      have := (skips_elements hu).sep ((sep_blank hw').append sep_comma)
      simpa using this) fun s => by
        have := delim_sep (sep_blank hw') (delim_cons (c := c!",") (by decide) (u ++ c!"]" :: s))
        simpa using this

theorem skips_members : ∀ {l : List (Str × Json)} {t : Str}, WritesMembers PlainNumber l t → SkipsMembers t
  | _, _, .empty hw => skipsMembers_blank hw
  | _, _, .last hw hl hw1 hw2 h hw' =>
    skipsMembers_cons hw hl hw1 hw2 (skips_writes h) (skipsMembers_blank hw') fun s => delim_sep (sep_blank hw') (delim_cons (by decide) s)
  | _, _, .cons (u := u) hw hl hw1 hw2 h hw' hu =>
    skipsMembers_cons hw hl hw1 hw2 (skips_writes h) (by
      have := (skips_members hu).sep ((sep_blank hw').append sep_comma)
      simpa using this) fun s => by
        have := delim_sep (sep_blank hw') (delim_cons (c := c!",") (by decide) (u ++ c!"}" :: s))
        simpa using this

end

/-- `Skip` with white space in front. -/
theorem skipValue_stream {t : Str} (h : Skips t) :
    ∃ N, ∀ fuel, N ≤ fuel → ∀ w s r, Sep w → (∀ c, t.head? = some c → NumberEnds c s) → (skipValue fuel).stream r (w ++ (t ++ s)) = .ok () false s := by
  obtain ⟨c, t', rfl, hc, N, hN⟩ := h
  obtain ⟨h1, h2, _, _⟩ := start_notSpace hc
  refine ⟨N, fun fuel hf w s r hw hs => ?_⟩
  unfold skipValue
  rw [List.cons_append, stream_nextType hw h1 h2, ← List.cons_append]
  exact hN fuel hf s (hs c rfl)

/-- What a decoder does to a stream it does to a reader that delivers these bytes. -/
theorem runs_of_stream {σ : Type} (d : Nat → Prog σ) {data s : Str} {m : σ} {b : Bool} {N : Nat} (h : ∀ fuel, N ≤ fuel → (d fuel).stream false data = .ok m b s)
    (r : Reader) (buf : List UInt8) (hr : r.data = data) (hfit : TokensFit buf.length data) (h0 : 0 < buf.length) :
    ∃ enough, ∀ fuel, enough ≤ fuel → ∃ p, (d fuel).run fuel (Parser.newWithReader r buf) = .ok m p ∧ p.rest = s := by
  refine ⟨N + (Parser.newWithReader r buf).work + 1, fun fuel hf => ?_⟩
  have := Prog.run_agrees h0 (d fuel) fuel (Parser.newWithReader r buf) false (newWithReader_ok r buf) (Nat.le_refl _) (by omega)
    (by rw [newWithReader_rest, hr]; exact hfit) (by simp)
  rw [newWithReader_rest, hr, h fuel (by omega)] at this
  obtain ⟨p', e1, _, e3, _⟩ := this
  exact ⟨p', e1, e3⟩

/-- The same for errors. -/
theorem fails_of_stream {σ : Type} (d : Nat → Prog σ) {data : Str} {m : σ} {N : Nat} (h : ∀ fuel, N ≤ fuel → (d fuel).stream false data = .err m)
    (r : Reader) (buf : List UInt8) (hr : r.data = data) (hfit : TokensFit buf.length data) (h0 : 0 < buf.length) :
    ∃ enough, ∀ fuel, enough ≤ fuel → ∃ p, (d fuel).run fuel (Parser.newWithReader r buf) = .err m p := by
  refine ⟨N + (Parser.newWithReader r buf).work + 1, fun fuel hf => ?_⟩
  have := Prog.run_agrees h0 (d fuel) fuel (Parser.newWithReader r buf) false (newWithReader_ok r buf) (Nat.le_refl _) (by omega)
    (by rw [newWithReader_rest, hr]; exact hfit) (by simp)
  rw [newWithReader_rest, hr, h fuel (by omega)] at this
  exact this

end Verif
