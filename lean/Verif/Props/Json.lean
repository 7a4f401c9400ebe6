import Verif.Proofs.Skip

/-!
# Properties of skipping and of numbers (C24, C25)
-/

namespace Verif

open Spec

/-! ## C24: Skip -/

/-- A call of `Skip` in front of `data` (however delivered) returns nil, with `s` still to be read. -/
def SkipLeaves (data s : Str) : Prop :=
  ∀ (r : Reader) (buf : List UInt8), r.data = data → TokensFit buf.length data → 0 < buf.length →
    ∃ enough, ∀ fuel, enough ≤ fuel → ∃ p, (skipValue fuel).run fuel (Parser.newWithReader r buf) = .ok () p ∧ p.rest = s

/-- A call of `Skip` in front of `data` returns an error. -/
def SkipFails (data : Str) : Prop :=
  ∀ (r : Reader) (buf : List UInt8), r.data = data → TokensFit buf.length data → 0 < buf.length →
    ∃ enough, ∀ fuel, enough ≤ fuel → ∃ p, (skipValue fuel).run fuel (Parser.newWithReader r buf) = .err () p

/-- What can come after a number in a document: white space, a comma, or a closing bracket or brace. -/
def AfterNumber (s : Str) : Prop := ∃ c s', s = c :: s' ∧ (Blank [c] ∨ c = c!"," ∨ c = c!"]" ∨ c = c!"}")

theorem AfterNumber.delim {s : Str} (h : AfterNumber s) : Delim s ∧ s ≠ [] := by
  obtain ⟨c, s', rfl, h⟩ := h
  refine ⟨delim_cons ?_ _, by simp⟩
  rcases h with h | rfl | rfl | rfl
  · rcases h c (by simp) with rfl | rfl | rfl | rfl <;> decide
  all_goals decide

/-- `Skip` consumes white space and exactly the text of one value, however nested, if no number in it is written with `E` or `+`; after a
number, something must follow. -/
theorem C24_skip_partial {j : Json} {w t s : Str} (hw : Blank w) (ht : Writes PlainNumber j t) (hs : (∃ n, j = .number n) → AfterNumber s) :
    SkipLeaves (w ++ (t ++ s)) s := by
  intro r buf hr hfit h0
  obtain ⟨N, hN⟩ := skipValue_stream (skips_writes ht)
  refine runs_of_stream (fun fuel => skipValue fuel) (fun fuel hf => hN fuel hf w s false (sep_blank hw) ?_) r buf hr hfit h0
  intro c hc hn
  refine (hs ?_).delim
  -- only numbers begin like numbers
  cases ht with
  | number h => exact ⟨_, rfl⟩
  | word v => cases v <;> (injection hc with hc; subst hc; exact absurd hn (by decide))
  | string h => injection hc with hc; subst hc; exact absurd hn (by decide)
  | array h => injection hc with hc; subst hc; exact absurd hn (by decide)
  | object h => injection hc with hc; subst hc; exact absurd hn (by decide)

/-- The property as stated does not hold. Of the number `1E5`, only the `1` is consumed; an array with this number, or with `1e+5`, cannot be skipped
at all; neither can a number at the end of the input. -/
theorem C24_fails :
    Writes JsonNumber (.number b!"1E5") b!"1E5" ∧ SkipLeaves b!"1E5," b!"E5," ∧
    Writes JsonNumber (.array [.number b!"1E5"]) b!"[1E5]" ∧ SkipFails b!"[1E5]" ∧
    Writes JsonNumber (.array [.number b!"1e+5"]) b!"[1e+5]" ∧ SkipFails b!"[1e+5]" ∧
    Writes PlainNumber (.number b!"1") b!"1" ∧ SkipFails b!"1" := by
  have n1 : JsonNumber b!"1E5" := ⟨[], b!"1", [], b!"E5", rfl, .inl rfl, ⟨by decide, .inr (by decide)⟩, .inl rfl,
    .inr ⟨c!"E", [], b!"5", rfl, .inr rfl, .inl rfl, by decide⟩⟩
  have n2 : JsonNumber b!"1e+5" := ⟨[], b!"1", [], b!"e+5", rfl, .inl rfl, ⟨by decide, .inr (by decide)⟩, .inl rfl,
    .inr ⟨c!"e", b!"+", b!"5", rfl, .inl rfl, .inr (.inl rfl), by decide⟩⟩
  have n3 : JsonNumber b!"1" := ⟨[], b!"1", [], [], rfl, .inl rfl, ⟨by decide, .inr (by decide)⟩, .inl rfl, .inl rfl⟩
  have one : ∀ {n : Str}, JsonNumber n → Writes JsonNumber (.array [.number n]) (c!"[" :: (([] ++ (n ++ [])) ++ [c!"]"])) := fun h =>
    .array (.last (w := []) (w' := []) (by decide) (.number h) (by decide))
  refine ⟨.number n1, ?_, one n1, ?_, one n2, ?_, .number ⟨n3, by decide, by decide⟩, ?_⟩
  · intro r buf hr hfit h0
    refine runs_of_stream (N := 1) (b := false) (fun fuel => skipValue fuel) (fun fuel hf => ?_) r buf hr hfit h0
    obtain ⟨fuel, rfl⟩ : ∃ n, fuel = n + 1 := ⟨fuel - 1, by omega⟩
    rfl
  · intro r buf hr hfit h0
    refine fails_of_stream (N := 3) (fun fuel => skipValue fuel) (fun fuel hf => ?_) r buf hr hfit h0
    obtain ⟨fuel, rfl⟩ : ∃ n, fuel = n + 3 := ⟨fuel - 3, by omega⟩
    rfl
  · intro r buf hr hfit h0
    refine fails_of_stream (N := 3) (fun fuel => skipValue fuel) (fun fuel hf => ?_) r buf hr hfit h0
    obtain ⟨fuel, rfl⟩ : ∃ n, fuel = n + 3 := ⟨fuel - 3, by omega⟩
    rfl
  · intro r buf hr hfit h0
    refine fails_of_stream (N := 1) (fun fuel => skipValue fuel) (fun fuel hf => ?_) r buf hr hfit h0
    obtain ⟨fuel, rfl⟩ : ∃ n, fuel = n + 1 := ⟨fuel - 1, by omega⟩
    rfl

/-- A nested value with white space: `{"a" : [1, {}], "b":-1.5e3}`, then a comma. -/
theorem C24_witness :
    ∃ j, Writes PlainNumber j b!"{\"a\" : [1, {}], \"b\":-1.5e3}" ∧ SkipLeaves b!" {\"a\" : [1, {}], \"b\":-1.5e3}," b!"," := by
  have n1 : PlainNumber b!"1" := ⟨⟨[], b!"1", [], [], rfl, .inl rfl, ⟨by decide, .inr (by decide)⟩, .inl rfl, .inl rfl⟩, by decide, by decide⟩
  have n2 : PlainNumber b!"-1.5e3" := ⟨⟨b!"-", b!"1", b!".5", b!"e3", rfl, .inr rfl, ⟨by decide, .inr (by decide)⟩, .inr ⟨b!"5", rfl, by decide⟩,
    .inr ⟨c!"e", [], b!"3", rfl, .inl rfl, .inl rfl, by decide⟩⟩, by decide, by decide⟩
  have ka : JsonLiteral b!"a" := ⟨b!"a", .char (by decide) (by decide) (by decide) .nil⟩
  have kb : JsonLiteral b!"b" := ⟨b!"b", .char (by decide) (by decide) (by decide) .nil⟩
  have arr : Writes PlainNumber (.array [.number b!"1", .object []]) b!"[1, {}]" :=
    .array (t := b!"1, {}") (.cons (w := []) (t := b!"1") (w' := []) (u := b!" {}") (by decide) (.number n1) (by decide)
      (.last (w := b!" ") (t := b!"{}") (w' := []) (by decide) (.object (t := []) (.empty (by decide))) (by decide)))
  have h : Writes PlainNumber (.object [(b!"a", .array [.number b!"1", .object []]), (b!"b", .number b!"-1.5e3")]) b!"{\"a\" : [1, {}], \"b\":-1.5e3}" :=
    .object (t := b!"\"a\" : [1, {}], \"b\":-1.5e3")
      (.cons (w := []) (w1 := b!" ") (w2 := b!" ") (t := b!"[1, {}]") (w' := []) (u := b!" \"b\":-1.5e3") (by decide) ka (by decide) (by decide) arr (by decide)
        (.last (w := b!" ") (w1 := []) (w2 := []) (t := b!"-1.5e3") (w' := []) (by decide) kb (by decide) (by decide) (.number n2) (by decide)))
  exact ⟨_, h, C24_skip_partial (w := b!" ") (s := b!",") (by decide) h (fun ⟨_, hn⟩ => by cases hn)⟩

/-! ## C25: numbers -/

/-- A call of the decoder for unsigned numbers with `data` to be read sets its target to `v` and leaves `s`. -/
def ReadsUint (data : Str) (v : UInt64) (s : Str) : Prop :=
  ∀ (r : Reader) (buf : List UInt8) (m : UInt64), r.data = data → TokensFit buf.length data → 0 < buf.length →
    ∃ enough, ∀ fuel, enough ≤ fuel → ∃ p, (uint64ValueDecoder m).run fuel (Parser.newWithReader r buf) = .ok v p ∧ p.rest = s

/-- A call of the decoder for unsigned numbers with `data` to be read returns an error, and leaves its target alone. -/
def RejectsUint (data : Str) : Prop :=
  ∀ (r : Reader) (buf : List UInt8) (m : UInt64), r.data = data → TokensFit buf.length data → 0 < buf.length →
    ∃ enough, ∀ fuel, enough ≤ fuel → ∃ p, (uint64ValueDecoder m).run fuel (Parser.newWithReader r buf) = .err m p

theorem decimal_foldl (t : Str) (r : Option UInt64) (n : Nat) (hr : r = some (UInt64.ofNat n)) (h : ∀ c ∈ t, c!"0" ≤ c ∧ c ≤ c!"9") :
    t.foldl (fun r c => r.bind fun r => if c < c!"0" ∨ c > c!"9" then none else some (r * 10 + (c - c!"0").toUInt64)) r =
      some (UInt64.ofNat (t.foldl (fun n c => 10 * n + (c.toNat - c!"0".toNat)) n)) := by
  induction t generalizing r n with
  | nil => exact hr
  | cons c t ih =>
    simp only [List.foldl_cons]
    refine ih _ _ ?_ (fun x hx => h x (by simp [hx]))
    obtain ⟨h1, h2⟩ := h c (by simp)
    rw [hr]
    simp only [Option.bind_some]
    rw [if_neg (by simp only [UInt8.lt_iff_toNat_lt, UInt8.le_iff_toNat_le, gt_iff_lt] at *; omega)]
    congr 1
    apply UInt64.toNat_inj.mp
    have e1 : (c - c!"0").toUInt64.toNat = c.toNat - 48 := by
      rw [UInt8.toNat_toUInt64, UInt8.toNat_sub_of_le _ _ h1]
      rfl
    have e2 : c!"0".toNat = 48 := rfl
    rw [UInt64.toNat_add, UInt64.toNat_mul, e1, e2, UInt64.toNat_ofNat', UInt64.toNat_ofNat', show (10 : UInt64).toNat = 10 from rfl]
    omega

theorem decimal_digits {t : Str} (h : ∀ c ∈ t, c!"0" ≤ c ∧ c ≤ c!"9") : decimal t = some (UInt64.ofNat (decimalValue t)) :=
  decimal_foldl t (some 0) 0 rfl h

theorem decimal_none {t : Str} {c : UInt8} (hc : c ∈ t) (h : ¬ (c!"0" ≤ c ∧ c ≤ c!"9")) : decimal t = none := by
  have none_fold : ∀ t : Str, t.foldl (fun (r : Option UInt64) c => r.bind fun r =>
      if c < c!"0" ∨ c > c!"9" then none else some (r * 10 + (c - c!"0").toUInt64)) none = none := by
    intro t
    induction t with
    | nil => rfl
    | cons c t ih => exact ih
  obtain ⟨a, b, rfl⟩ := List.append_of_mem hc
  unfold decimal
  rw [List.foldl_append, List.foldl_cons]
  have : ∀ r : Option UInt64, (r.bind fun r => if c < c!"0" ∨ c > c!"9" then none else some (r * 10 + (c - c!"0").toUInt64)) = none := by
    intro r
    cases r with
    | none => rfl
    | some r =>
      simp only [Option.bind_some]
      rw [if_pos (by simp only [UInt8.lt_iff_toNat_lt, UInt8.le_iff_toNat_le, gt_iff_lt] at *; omega)]
  rw [this, none_fold]

/-- A sequence of digits in front of a byte that is not part of a number. -/
theorem reads_digits {w t s : Str} (hw : Blank w) (ht : Digits t) (hs : Delim s) (hne : s ≠ []) :
    ReadsUint (w ++ (t ++ s)) (UInt64.ofNat (decimalValue t)) s := by
  intro r buf m hr hfit h0
  refine runs_of_stream (N := 0) (b := false) (fun _ => uint64ValueDecoder m) (fun fuel _ => ?_) r buf hr hfit h0
  unfold uint64ValueDecoder
  have hd := digits_number ht
  have hn : NumberToken t := by
    cases t with
    | nil => exact absurd rfl ht.1
    | cons c t =>
      have key : ∀ c : UInt8, isCharDigit c = true → numberChar c = true := byte_forall (by decide +kernel)
      exact ⟨c, t, rfl, hd c (by simp), fun d hd' => key d (hd d (by simp [hd']))⟩
  rw [stream_readNumber (sep_blank hw) hn hs hne, decimal_digits ht.2]
  rfl

/-- A sequence of digits is read as its value modulo 2 ^ 64. -/
theorem C25_value {w t s : Str} (hw : Blank w) (ht : Digits t) (hs : AfterNumber s) :
    ReadsUint (w ++ (t ++ s)) (UInt64.ofNat (decimalValue t)) s := reads_digits hw ht hs.delim.1 hs.delim.2

/-- The case that is missing in `C25_rejects_partial`: of a number without sign and fraction and with an exponent after `E`, the digits before the exponent are read. -/
theorem C25_capital {w t s : Str} (hw : Blank w) (ht : Digits t) :
    ReadsUint (w ++ (t ++ c!"E" :: s)) (UInt64.ofNat (decimalValue t)) (c!"E" :: s) :=
  reads_digits hw ht (by intro c hc; cases hc; decide) (List.cons_ne_nil _ _)

/-- The value of a number that fits is exact. -/
theorem C25_exact {t : Str} (h : decimalValue t < 2 ^ 64) : (UInt64.ofNat (decimalValue t)).toNat = decimalValue t := by
  rw [UInt64.toNat_ofNat']
  exact Nat.mod_eq_of_lt h

theorem mem_takeWhile {α : Type} {p : α → Bool} {a : List α} {c : α} {b : List α} (ha : ∀ x ∈ a, p x = true) (hc : p c = true) :
    c ∈ (a ++ c :: b).takeWhile p := by
  induction a with
  | nil => simp [hc]
  | cons x a ih =>
    simp only [List.cons_append, List.takeWhile_cons, ha x (by simp), if_true]
    exact List.mem_cons_of_mem _ (ih fun y hy => ha y (by simp [hy]))

/-- Numbers with a sign, a fraction, or an exponent after `e` are rejected, whatever follows. Missing: exponents after `E`, see `C25_capital`. -/
theorem C25_rejects_partial {w t s : Str} (hw : Blank w) (ht : JsonNumber t) (h : t.head? = some c!"-" ∨ c!"." ∈ t ∨ c!"e" ∈ t) :
    RejectsUint (w ++ (t ++ s)) := by
  intro r buf m hr hfit h0
  refine fails_of_stream (N := 0) (fun _ => uint64ValueDecoder m) (fun fuel _ => ?_) r buf hr hfit h0
  -- the bytes before the first one that is wrong
  obtain ⟨a, c, b, e, ha, hc, hbad⟩ : ∃ a c b, t = a ++ c :: b ∧ (∀ x ∈ a, isCharDigit x = true) ∧ numberChar c = true ∧
      (¬ (c!"0" ≤ c ∧ c ≤ c!"9") ∧ (a = [] → isCharDigit c = true)) := by
    obtain ⟨minus, int, frac, exp, rfl, hm, ⟨hi, _⟩, hf, he⟩ := ht
    have hint := digits_number hi
    have nondigit : ∀ {d : Str} {x : UInt8}, Digits d → ¬ (c!"0" ≤ x ∧ x ≤ c!"9") → x ∉ d := fun hd hx hm => hx (hd.2 _ hm)
    rcases hm with rfl | rfl
    · rw [List.nil_append] at h ⊢
      have hne : int ≠ [] := hi.1
      rcases hf with rfl | ⟨d, rfl, hd⟩
      · rcases he with rfl | ⟨x, sign, d, rfl, hx, hs, hd⟩
        · simp only [List.append_nil] at h
          rcases h with h | h | h
          · exact absurd (List.mem_of_mem_head? h) (nondigit hi (by decide))
          · exact absurd h (nondigit hi (by decide))
          · exact absurd h (nondigit hi (by decide))
        · rcases hx with rfl | rfl
          · exact ⟨int, c!"e", sign ++ d, by simp, hint, by decide, by decide, fun h => absurd h hne⟩
          · exfalso
            simp only [List.nil_append, List.mem_append, List.mem_cons] at h
            rcases h with h | h | h
            · cases int with
              | nil => exact hne rfl
              | cons i int =>
                injection h with h
                exact nondigit hi (x := i) (by rw [h]; decide) (by simp)
            · rcases h with h | h | h | h
              · exact nondigit hi (by decide) h
              · exact absurd h (by decide)
              · rcases hs with rfl | rfl | rfl
                · simp at h
                · exact absurd (List.mem_singleton.mp h) (by decide)
                · exact absurd (List.mem_singleton.mp h) (by decide)
              · exact nondigit hd (by decide) h
            · rcases h with h | h | h | h
              · exact nondigit hi (by decide) h
              · exact absurd h (by decide)
              · rcases hs with rfl | rfl | rfl
                · simp at h
                · exact absurd (List.mem_singleton.mp h) (by decide)
                · exact absurd (List.mem_singleton.mp h) (by decide)
              · exact nondigit hd (by decide) h
      · exact ⟨int, c!".", d ++ exp, by simp, hint, by decide, by decide, fun h => absurd h hne⟩
    · exact ⟨[], c!"-", int ++ (frac ++ exp), rfl, by simp, by decide, by decide, fun _ => by decide⟩
  have dn : ∀ c : UInt8, isCharDigit c = true → numberChar c = true ∧ isCharSpace c = false := byte_forall (by decide +kernel)
  unfold uint64ValueDecoder readNumber
  subst e
  cases a with
  | nil =>
    have hd := hbad.2 rfl
    simp only [List.nil_append, List.cons_append]
    rw [stream_skipWhitespace (sep_blank hw) (dn c hd).2]
    simp only [Prog.stream, Op.needsByte, Bool.not_true, Bool.and_false, Bool.false_eq_true, if_false, Op.stream, hd]
    cases hdw : (b ++ s).dropWhile numberChar with
    | nil => rfl
    | cons x y =>
      simp only
      rw [decimal_none (c := c) (by simp) hbad.1]
      rfl
  | cons x a =>
    have hd := ha x (by simp)
    simp only [List.cons_append, List.append_assoc]
    rw [stream_skipWhitespace (sep_blank hw) (dn x hd).2]
    simp only [Prog.stream, Op.needsByte, Bool.not_true, Bool.and_false, Bool.false_eq_true, if_false, Op.stream, hd]
    have hin : c ∈ (a ++ c :: (b ++ s)).takeWhile numberChar := mem_takeWhile (fun y hy => (dn y (ha y (by simp [hy]))).1) hc
    cases hdw : (a ++ c :: (b ++ s)).dropWhile numberChar with
    | nil => rfl
    | cons y z =>
      simp only
      rw [decimal_none (c := c) (by simp [hin]) hbad.1]
      rfl

/-- A number with an exponent after `E` is not rejected by the decoder: it reads the digits before the exponent. (The rest of the number is no token, so the
document is rejected later.) -/
theorem C25_capital_exponent : JsonNumber b!"12E3" ∧ ReadsUint b!"12E3," 12 b!"E3," ∧ SkipFails b!"E3," := by
  refine ⟨⟨[], b!"12", [], b!"E3", rfl, .inl rfl, ⟨by decide, .inr (by decide)⟩, .inl rfl,
    .inr ⟨c!"E", [], b!"3", rfl, .inr rfl, .inl rfl, by decide⟩⟩, ?_, ?_⟩
  · intro r buf m hr hfit h0
    exact runs_of_stream (N := 0) (b := false) (fun _ => uint64ValueDecoder m) (fun fuel _ => rfl) r buf hr hfit h0
  · intro r buf hr hfit h0
    exact fails_of_stream (N := 0) (fun fuel => skipValue fuel) (fun fuel hf => rfl) r buf hr hfit h0

theorem C25_witness : decimalValue b!"0123456789" = 123456789 ∧ UInt64.ofNat (decimalValue b!"18446744073709551617") = 1 := by decide +kernel

end Verif
