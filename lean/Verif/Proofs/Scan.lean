import Verif.Proofs.JaegerTypes
import Verif.Spec.Syntax

/-!
# The scanner of encoding/json accepts JSON texts only
-/

namespace Verif

open Spec

theorem takeWhile_sound {f : UInt8 → Bool} {s : Str} : ∀ c ∈ s.takeWhile f, f c = true := by
  induction s with
  | nil => intro c hc; cases hc
  | cons x s ih =>
    intro c hc
    rw [List.takeWhile_cons] at hc
    split at hc
    · rcases List.mem_cons.mp hc with rfl | hc
      · assumption
      · exact ih c hc
    · cases hc

theorem skipSpace_split {s rest : Str} {c : UInt8} (h : skipSpace s = c :: rest) : ∃ w, s = w ++ c :: rest ∧ Blank w ∧ goSpace c = false := by
  refine ⟨s.takeWhile goSpace, ?_, ?_, ?_⟩
  · rw [← h]; exact List.takeWhile_append_dropWhile.symm
  · intro d hd
    exact goSpace_iff.mp (takeWhile_sound d hd)
  · have := List.head?_dropWhile_not goSpace s
    rw [skipSpace] at h
    rw [h] at this
    simpa using this

theorem skipSpace_append {w : Str} (hw : Blank w) {c : UInt8} (hc : goSpace c = false) (s : Str) : skipSpace (w ++ c :: s) = c :: s := by
  rw [skipSpace_blank hw, skipSpace_cons hc]

theorem lookup_of_goHex {c : UInt8} (h : goHex c = true) : ∃ d, hexDigits.lookup c = some d := by
  have key : ∀ c : UInt8, goHex c = true → (hexDigits.lookup c).isSome = true := byte_forall (by decide +kernel)
  exact Option.isSome_iff_exists.mp (key c h)

theorem hex4_of_goHex {a b c d : UInt8} (ha : goHex a = true) (hb : goHex b = true) (hc : goHex c = true) (hd : goHex d = true) : ∃ r, hex4 a b c d = some r := by
  obtain ⟨a', ha⟩ := lookup_of_goHex ha
  obtain ⟨b', hb⟩ := lookup_of_goHex hb
  obtain ⟨c', hc⟩ := lookup_of_goHex hc
  obtain ⟨d', hd⟩ := lookup_of_goHex hd
  exact ⟨_, by simp only [hex4, ha, hb, hc, hd]; rfl⟩

theorem escape_of_mem {e : UInt8} (h : e ∈ b!"bfnrt\\/\"") : ∃ c, (e, c) ∈ shortEscapes := by
  have key : ∀ e : UInt8, e ∈ b!"bfnrt\\/\"" → (shortEscapes.lookup e).isSome = true := byte_forall (by decide +kernel)
  obtain ⟨c, hc⟩ := Option.isSome_iff_exists.mp (key e h)
  refine ⟨c, ?_⟩
  obtain ⟨l1, l2, e1, _⟩ := List.lookup_eq_some_iff.mp hc
  rw [e1]; simp

theorem scanLit_sound (n : Nat) : ∀ {s lit rest : Str}, s.length ≤ n → scanLit s = some (lit, rest) → s = lit ++ c!"\"" :: rest ∧ LiteralText lit ∧ ∀ q, scanLit (lit ++ c!"\"" :: q) = some (lit, q) := by
  induction n with
  | zero =>
    intro s lit rest hn h
    cases s with
    | nil => rw [scanLit.eq_def] at h; cases h
    | cons c s => simp at hn
  | succ n ih =>
    intro s lit rest hn h
    cases s with
    | nil => rw [scanLit.eq_def] at h; cases h
    | cons c s =>
      rw [List.length_cons] at hn
      rw [scanLit.eq_def] at h
      dsimp only at h
      split at h
      · rename_i hc
        simp only [Option.some.injEq, Prod.mk.injEq] at h
        obtain ⟨rfl, rfl⟩ := h
        subst hc
        exact ⟨rfl, .nil, fun q => by rw [scanLit.eq_def]; simp⟩
      · rename_i hc
        split at h
        · rename_i hc2
          subst hc2
          cases s with
          | nil => cases h
          | cons e s =>
            rw [List.length_cons] at hn
            dsimp only at h
            split at h
            · rename_i he
              subst he
              split at h
              · rename_i a b c d s
                simp only [List.length_cons] at hn
                split at h
                · rename_i hx
                  obtain ⟨⟨l, r⟩, h1, h2⟩ := Option.map_eq_some_iff.mp h
                  simp only [Prod.mk.injEq] at h2
                  obtain ⟨rfl, rfl⟩ := h2
                  obtain ⟨e1, e2, e3⟩ := ih (by omega) h1
                  simp only [Bool.and_eq_true] at hx
                  obtain ⟨r', hr⟩ := hex4_of_goHex hx.1.1.1 hx.1.1.2 hx.1.2 hx.2
                  refine ⟨by rw [e1]; rfl, .unicode hr e2, fun q => ?_⟩
                  simp only [List.cons_append]
                  rw [scanLit.eq_def]
                  dsimp only
                  rw [if_neg (by decide), if_pos rfl, if_pos rfl, if_pos (by simp [hx]), e3]
                  rfl
                · cases h
              · cases h
            · rename_i he
              split at h
              · rename_i hm
                obtain ⟨⟨l, r⟩, h1, h2⟩ := Option.map_eq_some_iff.mp h
                simp only [Prod.mk.injEq] at h2
                obtain ⟨rfl, rfl⟩ := h2
                obtain ⟨e1, e2, e3⟩ := ih (by omega) h1
                obtain ⟨c', hc'⟩ := escape_of_mem hm
                refine ⟨by rw [e1]; rfl, .short hc' e2, fun q => ?_⟩
                simp only [List.cons_append]
                rw [scanLit.eq_def]
                dsimp only
                rw [if_neg (by decide), if_pos rfl, if_neg he, if_pos hm, e3]
                rfl
              · cases h
        · rename_i hc2
          split at h
          · cases h
          · rename_i hc3
            obtain ⟨⟨l, r⟩, h1, h2⟩ := Option.map_eq_some_iff.mp h
            simp only [Prod.mk.injEq] at h2
            obtain ⟨rfl, rfl⟩ := h2
            obtain ⟨e1, e2, e3⟩ := ih (by omega) h1
            refine ⟨by rw [e1]; rfl, .char hc hc2 (by simpa using hc3) e2, fun q => ?_⟩
            rw [List.cons_append, scanLit.eq_def]
            dsimp only
            rw [if_neg hc, if_neg hc2, if_neg hc3, e3]
            rfl

theorem spanDigits_sound (s : Str) : s = (spanDigits s).1 ++ (spanDigits s).2 ∧ (∀ c ∈ (spanDigits s).1, c!"0" ≤ c ∧ c ≤ c!"9") := by
  refine ⟨List.takeWhile_append_dropWhile.symm, fun c hc => ?_⟩
  simpa using takeWhile_sound c hc

/-- What the scanner takes for a number is a number. -/
theorem scanNumber_sound {s t rest : Str} (h : scanNumber s = some (t, rest)) : s = t ++ rest ∧ JsonNumber t := by
  have hexp : ∀ {s e r : Str}, scanExponent s = some (e, r) → s = e ++ r ∧ (e = [] ∨ ∃ e' sign d, e = e' :: (sign ++ d) ∧ (e' = c!"e" ∨ e' = c!"E") ∧ (sign = [] ∨ sign = b!"+" ∨ sign = b!"-") ∧ Digits d) := by
    intro s e r h
    cases s with
    | nil =>
      simp only [scanExponent, Option.some.injEq, Prod.mk.injEq] at h
      obtain ⟨rfl, rfl⟩ := h
      exact ⟨rfl, .inl rfl⟩
    | cons c s =>
      simp only [scanExponent] at h
      split at h
      · rename_i hc
        have key : ∀ (sign s' : Str), s = sign ++ s' → (sign = [] ∨ sign = b!"+" ∨ sign = b!"-") →
            (if (spanDigits s').1 = [] then none else some (c :: (sign ++ (spanDigits s').1), (spanDigits s').2)) = some (e, r) →
            c :: s = e ++ r ∧ (e = [] ∨ ∃ e' sign d, e = e' :: (sign ++ d) ∧ (e' = c!"e" ∨ e' = c!"E") ∧ (sign = [] ∨ sign = b!"+" ∨ sign = b!"-") ∧ Digits d) := by
          intro sign s' hs hsign h
          obtain ⟨e1, e2⟩ := spanDigits_sound s'
          split at h
          · cases h
          · rename_i hd
            simp only [Option.some.injEq, Prod.mk.injEq] at h
            obtain ⟨rfl, rfl⟩ := h
            refine ⟨?_, .inr ⟨_, _, _, rfl, hc, hsign, hd, e2⟩⟩
            rw [List.cons_append, List.append_assoc, ← e1, hs]
        cases s with
        | nil => exact key [] [] rfl (.inl rfl) h
        | cons d s =>
          dsimp only at h
          by_cases hd : d = c!"+" ∨ d = c!"-"
          · simp only [if_pos hd] at h
            refine key [d] s rfl (.inr ?_) h
            rcases hd with rfl | rfl <;> simp
          · simp only [if_neg hd] at h
            exact key [] (d :: s) rfl (.inl rfl) h
      · simp only [Option.some.injEq, Prod.mk.injEq] at h
        obtain ⟨rfl, rfl⟩ := h
        exact ⟨rfl, .inl rfl⟩
  have hfrac : ∀ {s e r : Str}, scanFraction s = some (e, r) → s = e ++ r ∧ (e = [] ∨ ∃ d, e = c!"." :: d ∧ Digits d) := by
    intro s e r h
    cases s with
    | nil =>
      simp only [scanFraction, Option.some.injEq, Prod.mk.injEq] at h
      obtain ⟨rfl, rfl⟩ := h
      exact ⟨rfl, .inl rfl⟩
    | cons c s =>
      simp only [scanFraction] at h
      obtain ⟨e1, e2⟩ := spanDigits_sound s
      split at h
      · rename_i hc
        split at h
        · cases h
        · rename_i hd
          simp only [Option.some.injEq, Prod.mk.injEq] at h
          obtain ⟨rfl, rfl⟩ := h
          exact ⟨by rw [List.cons_append, ← e1], .inr ⟨_, by rw [hc], hd, e2⟩⟩
      · simp only [Option.some.injEq, Prod.mk.injEq] at h
        obtain ⟨rfl, rfl⟩ := h
        exact ⟨rfl, .inl rfl⟩
  have hint : ∀ {s e r : Str}, scanInteger s = some (e, r) → s = e ++ r ∧ Digits e ∧ (e = b!"0" ∨ e.head? ≠ some c!"0") := by
    intro s e r h
    cases s with
    | nil => cases h
    | cons c s =>
      simp only [scanInteger] at h
      obtain ⟨e1, e2⟩ := spanDigits_sound s
      split at h
      · rename_i hc
        simp only [Option.some.injEq, Prod.mk.injEq] at h
        obtain ⟨rfl, rfl⟩ := h
        subst hc
        exact ⟨rfl, by decide, .inl rfl⟩
      · rename_i hc0
        split at h
        · rename_i hc
          simp only [Option.some.injEq, Prod.mk.injEq] at h
          obtain ⟨rfl, rfl⟩ := h
          refine ⟨by rw [List.cons_append, ← e1], ⟨by simp, ?_⟩, .inr (by simpa using hc0)⟩
          intro d hd
          rcases List.mem_cons.mp hd with rfl | hd
          · have key : ∀ d : UInt8, c!"1" ≤ d ∧ d ≤ c!"9" → c!"0" ≤ d ∧ d ≤ c!"9" := byte_forall (by decide +kernel)
            exact key _ hc
          · exact e2 d hd
        · cases h
  have key : ∀ minus s', s = minus ++ s' → (minus = [] ∨ minus = b!"-") → (do
      let (int, s) ← scanInteger s'
      let (frac, s) ← scanFraction s
      let (exp, s) ← scanExponent s
      some (minus ++ (int ++ (frac ++ exp)), s)) = some (t, rest) → s = t ++ rest ∧ JsonNumber t := by
    intro minus s' hs hm h
    simp only [Option.bind_eq_bind, Option.bind_eq_some_iff] at h
    obtain ⟨⟨i, s1⟩, h1, ⟨f, s2⟩, h2, ⟨e, s3⟩, h3, h4⟩ := h
    simp only [Option.some.injEq, Prod.mk.injEq] at h4
    obtain ⟨rfl, rfl⟩ := h4
    obtain ⟨e1, p1⟩ := hint h1
    obtain ⟨e2, p2⟩ := hfrac h2
    obtain ⟨e3, p3⟩ := hexp h3
    dsimp only at e2 e3
    exact ⟨by rw [hs, e1, e2, e3]; simp, minus, i, f, e, rfl, hm, p1, p2, p3⟩
  unfold scanNumber at h
  cases s with
  | nil => exact key [] [] rfl (.inl rfl) h
  | cons c s =>
    dsimp only at h
    by_cases hc : c = c!"-"
    · rw [if_pos hc] at h
      subst hc
      exact key b!"-" s rfl (.inr rfl) h
    · rw [if_neg hc] at h
      exact key [] (c :: s) rfl (.inl rfl) h

/-- The text begins like a number. -/
def Numeric (t : Str) : Prop := ∃ c t', t = c :: t' ∧ (c = c!"-" ∨ (c!"0" ≤ c ∧ c ≤ c!"9"))

theorem scanWord_sound {word s rest : Str} {v : Raw} (h : scanWord word s = some (v, rest)) : s = word ++ rest ∧ v = .literal word := by
  simp only [scanWord] at h
  split at h
  · rename_i hp
    simp only [Option.some.injEq, Prod.mk.injEq] at h
    obtain ⟨u, hu⟩ := List.isPrefixOf_iff_prefix.mp hp
    subst hu
    rw [List.drop_left] at h
    exact ⟨by rw [h.2], h.1.symm⟩
  · cases h

theorem jsonText_ne {n : Nat} {t : Str} (h : JsonText n t) : t ≠ [] := by
  cases h with
  | word w => cases w <;> simp [JsonWord.text]
  | number h => obtain ⟨c, t', e, _⟩ := number_head h; rw [e]; simp
  | string _ => simp
  | emptyArray _ => simp
  | array _ _ => simp
  | emptyObject _ => simp
  | object _ _ => simp

/-- The first byte tells what kind of value it is. -/
def Shape : Raw → Str → Prop
  | .literal item, t => item = t
  | .array _, t => t.head? = some c!"["
  | .object _, t => t.head? = some c!"{"

/-- What is scanned as a value is a JSON text, and it is scanned like this whatever follows it. -/
def ScansValue (depth : Nat) (v : Raw) (t : Str) : Prop :=
  JsonText depth t ∧ Shape v t ∧ (∃ c t', t = c :: t' ∧ goSpace c = false) ∧
    ∀ fuel q, t.length ≤ fuel → (Numeric t → NumStop q) → scanValue fuel depth (t ++ q) = some (v, q)

def ScansElements (depth : Nat) (l : List Raw) (u : Str) : Prop :=
  ElementsText depth u ∧ (∃ c t', u = c :: t' ∧ goSpace c = false ∧ c ≠ c!"]") ∧
    ∀ fuel q, u.length + 1 ≤ fuel → scanElements fuel depth (u ++ c!"]" :: q) = some (l, q)

def ScansMembers (depth : Nat) (l : List (Str × Raw)) (u : Str) : Prop :=
  MembersText depth u ∧ (∃ t', u = c!"\"" :: t') ∧
    ∀ fuel q, u.length + 1 ≤ fuel → scanMembers fuel depth (u ++ c!"}" :: q) = some (l, q)

theorem not_numeric {c : UInt8} {t : Str} (h : c ≠ c!"-" ∧ ¬ (c!"0" ≤ c ∧ c ≤ c!"9")) : ¬ Numeric (c :: t) := by
  rintro ⟨c', t', e, h'⟩
  injection e with e1 e2
  subst e1
  rcases h' with h' | h'
  · exact h.1 h'
  · exact h.2 h'

theorem scans_string {s lit rest : Str} (depth : Nat) (h : scanLit s = some (lit, rest)) : ScansValue depth (.literal (c!"\"" :: (lit ++ [c!"\""]))) (c!"\"" :: (lit ++ [c!"\""])) := by
  obtain ⟨_, h2, h3⟩ := scanLit_sound _ (Nat.le_refl _) h
  refine ⟨.string h2, rfl, ⟨_, _, rfl, by decide⟩, fun fuel q hf _ => ?_⟩
  cases fuel with
  | zero => simp at hf
  | succ fuel =>
    have e : c!"\"" :: (lit ++ [c!"\""]) ++ q = c!"\"" :: (lit ++ c!"\"" :: q) := by simp
    rw [e, scanValue.eq_def]
    dsimp only
    rw [if_neg (by decide), if_neg (by decide), if_pos rfl, h3]
    rfl

theorem scans_word {c : UInt8} {t : Str} (depth : Nat) (w : JsonWord) (hw : w.text = c :: t) (hc : c ≠ c!"-" ∧ ¬ (c!"0" ≤ c ∧ c ≤ c!"9")) (hsp : goSpace c = false)
    (hs : ∀ fuel q, scanValue (fuel + 1) depth (c :: q) = scanWord w.text (c :: q)) : ScansValue depth (.literal w.text) w.text := by
  refine ⟨.word w, rfl, ⟨c, t, hw, hsp⟩, fun fuel q hf _ => ?_⟩
  cases fuel with
  | zero => rw [hw] at hf; simp at hf
  | succ fuel =>
    have := hs fuel (t ++ q)
    rw [← List.cons_append, ← hw] at this
    rw [this, scanWord_eq]

theorem scans_number {s t rest : Str} (depth : Nat) (h : scanNumber s = some (t, rest)) : ScansValue depth (.literal t) t := by
  obtain ⟨_, hn⟩ := scanNumber_sound h
  obtain ⟨c, t', e, hc⟩ := number_head hn
  obtain ⟨h1, h2, h3, h4, h5, h6, h7⟩ : goSpace c = false ∧ c ≠ c!"{" ∧ c ≠ c!"[" ∧ c ≠ c!"\"" ∧ c ≠ c!"t" ∧ c ≠ c!"f" ∧ c ≠ c!"n" := by
    have key : ∀ c : UInt8, c = c!"-" ∨ (c!"0" ≤ c ∧ c ≤ c!"9") → goSpace c = false ∧ c ≠ c!"{" ∧ c ≠ c!"[" ∧ c ≠ c!"\"" ∧ c ≠ c!"t" ∧ c ≠ c!"f" ∧ c ≠ c!"n" :=
      byte_forall (by decide +kernel)
    exact key c hc
  refine ⟨.number hn, rfl, ⟨c, t', e, h1⟩, fun fuel q hf hq => ?_⟩
  cases fuel with
  | zero => rw [e] at hf; simp at hf
  | succ fuel =>
    have hs := scanNumber_json hn (hq ⟨c, t', e, hc⟩)
    subst e
    rw [List.cons_append] at hs ⊢
    rw [scanValue.eq_def]
    dsimp only
    rw [if_neg h2, if_neg h3, if_neg h4, if_neg h5, if_neg h6, if_neg h7, hs]
    rfl

theorem numStop_sep {w q : Str} {c : UInt8} (hw : Blank w) (hc : c = c!"," ∨ c = c!"]" ∨ c = c!"}") : NumStop (w ++ c :: q) := by
  refine numStop_blank hw (numStop_of ?_)
  rcases hc with rfl | rfl | rfl <;> decide

/-- The scanner of encoding/json: what it accepts is a JSON text, and the bytes behind it do not matter. -/
theorem scan_sound (fuel : Nat) :
    (∀ depth s v rest, scanValue fuel depth s = some (v, rest) → ∃ t, s = t ++ rest ∧ ScansValue depth v t) ∧
    (∀ depth s l rest, (∀ c s', s = c :: s' → goSpace c = false ∧ c ≠ c!"]") → scanElements fuel depth s = some (l, rest) → ∃ u, s = u ++ c!"]" :: rest ∧ ScansElements depth l u) ∧
    (∀ depth s l rest, scanMembers fuel depth s = some (l, rest) → ∃ u, s = u ++ c!"}" :: rest ∧ ScansMembers depth l u) := by
  induction fuel with
  | zero =>
    refine ⟨fun _ _ _ _ h => ?_, fun _ _ _ _ _ h => ?_, fun _ _ _ _ h => ?_⟩
    · rw [scanValue.eq_def] at h; cases h
    · rw [scanElements.eq_def] at h; cases h
    · rw [scanMembers.eq_def] at h; cases h
  | succ fuel ih =>
    obtain ⟨ihV, ihE, ihM⟩ := ih
    refine ⟨fun depth s v rest h => ?_, fun depth s l rest hh h => ?_, fun depth s l rest h => ?_⟩
    · cases s with
      | nil => rw [scanValue.eq_def] at h; cases h
      | cons c s =>
        rw [scanValue.eq_def] at h
        dsimp only at h
        split at h
        · rename_i hc
          subst hc
          split at h
          · cases h
          · rename_i hd
            obtain ⟨depth, rfl⟩ : ∃ d, depth = d + 1 := ⟨depth - 1, by omega⟩
            split at h
            · rename_i d r hsp
              obtain ⟨w, e1, hw, hd2⟩ := skipSpace_split hsp
              split at h
              · rename_i hdd
                subst hdd
                simp only [Option.some.injEq, Prod.mk.injEq] at h
                obtain ⟨rfl, rfl⟩ := h
                refine ⟨c!"{" :: (w ++ [c!"}"]), by rw [e1]; simp, .emptyObject hw, rfl, ⟨_, _, rfl, by decide⟩, fun f q hf _ => ?_⟩
                cases f with
                | zero => simp at hf
                | succ f =>
                  have e : c!"{" :: (w ++ [c!"}"]) ++ q = c!"{" :: (w ++ c!"}" :: q) := by simp
                  rw [e, scanValue.eq_def]
                  dsimp only
                  rw [if_pos rfl, if_neg (by omega), skipSpace_append hw (by decide)]
                  dsimp only
                  rw [if_pos rfl]
              · rename_i hdd
                obtain ⟨⟨ms, r'⟩, h1, h2⟩ := Option.map_eq_some_iff.mp h
                simp only [Prod.mk.injEq] at h2
                obtain ⟨rfl, rfl⟩ := h2
                obtain ⟨u, e2, g1, ⟨u', g2⟩, g3⟩ := ihM _ _ _ _ h1
                refine ⟨c!"{" :: (w ++ (u ++ [c!"}"])), by rw [e1, e2]; simp, .object hw g1, rfl, ⟨_, _, rfl, by decide⟩, fun f q hf _ => ?_⟩
                cases f with
                | zero => simp at hf
                | succ f =>
                  have e : c!"{" :: (w ++ (u ++ [c!"}"])) ++ q = c!"{" :: (w ++ c!"\"" :: (u' ++ c!"}" :: q)) := by rw [g2]; simp
                  have g4 := g3 f q (by simp only [List.length_cons, List.length_append] at hf; omega)
                  rw [g2, List.cons_append] at g4
                  rw [e, scanValue.eq_def]
                  dsimp only
                  rw [if_pos rfl, if_neg (by omega), skipSpace_append hw (by decide)]
                  dsimp only
                  rw [if_neg (by decide), g4]
                  rfl
            · cases h
        · rename_i hc0
          split at h
          · rename_i hc
            subst hc
            split at h
            · cases h
            · rename_i hd
              obtain ⟨depth, rfl⟩ : ∃ d, depth = d + 1 := ⟨depth - 1, by omega⟩
              split at h
              · rename_i d r hsp
                obtain ⟨w, e1, hw, hd2⟩ := skipSpace_split hsp
                split at h
                · rename_i hdd
                  subst hdd
                  simp only [Option.some.injEq, Prod.mk.injEq] at h
                  obtain ⟨rfl, rfl⟩ := h
                  refine ⟨c!"[" :: (w ++ [c!"]"]), by rw [e1]; simp, .emptyArray hw, rfl, ⟨_, _, rfl, by decide⟩, fun f q hf _ => ?_⟩
                  cases f with
                  | zero => simp at hf
                  | succ f =>
                    have e : c!"[" :: (w ++ [c!"]"]) ++ q = c!"[" :: (w ++ c!"]" :: q) := by simp
                    rw [e, scanValue.eq_def]
                    dsimp only
                    rw [if_neg (by decide), if_pos rfl, if_neg (by omega), skipSpace_append hw (by decide)]
                    dsimp only
                    rw [if_pos rfl]
                · rename_i hdd
                  obtain ⟨⟨ms, r'⟩, h1, h2⟩ := Option.map_eq_some_iff.mp h
                  simp only [Prod.mk.injEq] at h2
                  obtain ⟨rfl, rfl⟩ := h2
                  obtain ⟨u, e2, g1, ⟨c, u', g2, g5, g6⟩, g3⟩ := ihE _ _ _ _ (by
                    intro c s' e
                    injection e with e e'
                    subst e
                    exact ⟨hd2, hdd⟩) h1
                  refine ⟨c!"[" :: (w ++ (u ++ [c!"]"])), by rw [e1, e2]; simp, .array hw g1, rfl, ⟨_, _, rfl, by decide⟩, fun f q hf _ => ?_⟩
                  cases f with
                  | zero => simp at hf
                  | succ f =>
                    have e : c!"[" :: (w ++ (u ++ [c!"]"])) ++ q = c!"[" :: (w ++ c :: (u' ++ c!"]" :: q)) := by rw [g2]; simp
                    have g4 := g3 f q (by simp only [List.length_cons, List.length_append] at hf; omega)
                    rw [g2, List.cons_append] at g4
                    rw [e, scanValue.eq_def]
                    dsimp only
                    rw [if_neg (by decide), if_pos rfl, if_neg (by omega), skipSpace_append hw g5]
                    dsimp only
                    rw [if_neg g6, g4]
                    rfl
              · cases h
          · rename_i hc1
            split at h
            · rename_i hc
              subst hc
              obtain ⟨⟨lit, r⟩, h1, h2⟩ := Option.map_eq_some_iff.mp h
              simp only [Prod.mk.injEq] at h2
              obtain ⟨rfl, rfl⟩ := h2
              refine ⟨_, ?_, scans_string depth h1⟩
              rw [(scanLit_sound _ (Nat.le_refl _) h1).1]
              simp
            · rename_i hc2
              split at h
              · rename_i hc
                subst hc
                obtain ⟨e1, rfl⟩ := scanWord_sound h
                refine ⟨_, e1, scans_word (c := c!"t") (t := b!"rue") depth .true rfl (by decide) (by decide) ?_⟩
                intro f q
                rw [scanValue.eq_def]
                rfl
              · rename_i hc3
                split at h
                · rename_i hc
                  subst hc
                  obtain ⟨e1, rfl⟩ := scanWord_sound h
                  refine ⟨_, e1, scans_word (c := c!"f") (t := b!"alse") depth .false rfl (by decide) (by decide) ?_⟩
                  intro f q
                  rw [scanValue.eq_def]
                  rfl
                · rename_i hc4
                  split at h
                  · rename_i hc
                    subst hc
                    obtain ⟨e1, rfl⟩ := scanWord_sound h
                    refine ⟨_, e1, scans_word (c := c!"n") (t := b!"ull") depth .null rfl (by decide) (by decide) ?_⟩
                    intro f q
                    rw [scanValue.eq_def]
                    rfl
                  · obtain ⟨⟨t, r⟩, h1, h2⟩ := Option.map_eq_some_iff.mp h
                    simp only [Prod.mk.injEq] at h2
                    obtain ⟨rfl, rfl⟩ := h2
                    exact ⟨t, (scanNumber_sound h1).1, scans_number depth h1⟩
    · rw [scanElements.eq_def] at h
      dsimp only at h
      cases hv : scanValue fuel depth s with
      | none => rw [hv] at h; cases h
      | some r =>
        obtain ⟨v, s1⟩ := r
        rw [hv] at h
        dsimp only at h
        obtain ⟨t, e1, g1, _, ⟨c0, t0, g2, g3⟩, g4⟩ := ihV _ _ _ _ hv
        have hhead : ∀ u, ∃ c t', t ++ u = c :: t' ∧ goSpace c = false ∧ c ≠ c!"]" := by
          intro u
          refine ⟨c0, t0 ++ u, by rw [g2]; rfl, g3, (hh c0 (t0 ++ s1) (by rw [e1, g2]; rfl)).2⟩
        have hlen : 1 ≤ t.length := by rw [g2]; simp
        split at h
        · rename_i c r hsp
          obtain ⟨w, e2, hw, hc⟩ := skipSpace_split hsp
          split at h
          · rename_i hcc
            subst hcc
            simp only [Option.some.injEq, Prod.mk.injEq] at h
            obtain ⟨rfl, rfl⟩ := h
            refine ⟨t ++ w, by rw [e1, e2]; simp, .last g1 hw, hhead w, fun f q hf => ?_⟩
            rw [List.length_append] at hf
            cases f with
            | zero => omega
            | succ f =>
              rw [List.append_assoc, scanElements.eq_def]
              dsimp only
              rw [g4 f _ (by omega) (fun _ => numStop_sep hw (by simp))]
              dsimp only
              rw [skipSpace_append hw (by decide)]
              dsimp only
              rw [if_pos rfl]
          · rename_i hcc
            split at h
            · rename_i hcc
              subst hcc
              obtain ⟨⟨l', r'⟩, h1, h2⟩ := Option.map_eq_some_iff.mp h
              simp only [Prod.mk.injEq] at h2
              obtain ⟨rfl, rfl⟩ := h2
              -- the next element: it begins with a value
              obtain ⟨d, r2, hd⟩ : ∃ d r2, skipSpace r = d :: r2 := by
                cases hsr : skipSpace r with
                | nil =>
                  rw [hsr] at h1
                  cases fuel with
                  | zero => rw [scanElements.eq_def] at h1; cases h1
                  | succ fuel =>
                    rw [scanElements.eq_def] at h1
                    dsimp only at h1
                    cases fuel with
                    | zero => rw [scanValue.eq_def] at h1; cases h1
                    | succ fuel => rw [scanValue.eq_def] at h1; cases h1
                | cons d r2 => exact ⟨d, r2, rfl⟩
              obtain ⟨w', e3, hw', hd2⟩ := skipSpace_split hd
              have hd3 : d ≠ c!"]" := by
                intro hd3
                subst hd3
                rw [hd] at h1
                cases fuel with
                | zero => rw [scanElements.eq_def] at h1; cases h1
                | succ fuel =>
                  rw [scanElements.eq_def] at h1
                  dsimp only at h1
                  cases fuel with
                  | zero => rw [scanValue.eq_def] at h1; cases h1
                  | succ fuel => rw [scanValue.eq_def] at h1; cases h1
              obtain ⟨u, e4, k1, ⟨c1, u', k2, k3, k4⟩, k5⟩ := ihE _ _ _ _ (by
                intro c s' e
                rw [hd] at e
                injection e with e e'
                subst e
                exact ⟨hd2, hd3⟩) h1
              refine ⟨t ++ (w ++ c!"," :: (w' ++ u)), ?_, .cons g1 hw hw' k1, hhead _, fun f q hf => ?_⟩
              · rw [e1, e2, e3, ← hd, e4]; simp
              · simp only [List.length_append, List.length_cons] at hf
                cases f with
                | zero => omega
                | succ f =>
                  have e : t ++ (w ++ c!"," :: (w' ++ u)) ++ c!"]" :: q = t ++ (w ++ c!"," :: (w' ++ (u ++ c!"]" :: q))) := by simp
                  rw [e, scanElements.eq_def]
                  dsimp only
                  rw [g4 f _ (by omega) (fun _ => numStop_sep hw (by simp))]
                  dsimp only
                  rw [skipSpace_append hw (by decide)]
                  dsimp only
                  have e5 : skipSpace (w' ++ (u ++ c!"]" :: q)) = u ++ c!"]" :: q := by
                    rw [k2, List.cons_append]
                    exact skipSpace_append hw' k3 _
                  rw [if_neg (by decide), if_pos rfl, e5, k5 f q (by omega)]
                  rfl
            · cases h
        · cases h
    · cases s with
      | nil => rw [scanMembers.eq_def] at h; cases h
      | cons c s =>
        rw [scanMembers.eq_def] at h
        dsimp only at h
        split at h
        · cases h
        · rename_i hq
          have hq : c = c!"\"" := by simpa using hq
          subst hq
          cases hl : scanLit s with
          | none => rw [hl] at h; cases h
          | some r =>
            obtain ⟨lit, s0⟩ := r
            rw [hl] at h
            dsimp only at h
            obtain ⟨e0, j1, j2⟩ := scanLit_sound _ (Nat.le_refl _) hl
            cases hc : skipSpace s0 with
            | nil => rw [hc] at h; cases h
            | cons colon s1 =>
              rw [hc] at h
              dsimp only at h
              obtain ⟨w1, e1, hw1, _⟩ := skipSpace_split hc
              split at h
              · cases h
              · rename_i hcol
                have hcol : colon = c!":" := by simpa using hcol
                subst hcol
                cases hv : scanValue fuel depth (skipSpace s1) with
                | none => rw [hv] at h; cases h
                | some r =>
                  obtain ⟨v, s3⟩ := r
                  rw [hv] at h
                  dsimp only at h
                  obtain ⟨t, e3, g1, _, ⟨c0, t0, g2, g3⟩, g4⟩ := ihV _ _ _ _ hv
                  obtain ⟨w2, e2, hw2, _⟩ : ∃ w, s1 = w ++ skipSpace s1 ∧ Blank w ∧ True := by
                    obtain ⟨w, k1, k2, _⟩ := skipSpace_split (s := s1) (c := c0) (rest := t0 ++ s3) (by rw [e3, g2]; rfl)
                    exact ⟨w, by rw [e3, g2]; exact k1, k2, trivial⟩
                  have hskip : ∀ q, skipSpace (w2 ++ (t ++ q)) = t ++ q := by
                    intro q
                    rw [g2, List.cons_append]
                    exact skipSpace_append hw2 g3 _
                  split at h
                  · rename_i c r hsp
                    obtain ⟨w, e4, hw, _⟩ := skipSpace_split hsp
                    split at h
                    · rename_i hcc
                      subst hcc
                      simp only [Option.some.injEq, Prod.mk.injEq] at h
                      obtain ⟨rfl, rfl⟩ := h
                      refine ⟨c!"\"" :: (lit ++ c!"\"" :: (w1 ++ c!":" :: (w2 ++ (t ++ w)))), ?_, .last j1 hw1 hw2 g1 hw, ⟨_, rfl⟩, fun f q hf => ?_⟩
                      · rw [e0, e1, e2, e3, e4]; simp
                      · simp only [List.length_append, List.length_cons] at hf
                        cases f with
                        | zero => omega
                        | succ f =>
                          have e : c!"\"" :: (lit ++ c!"\"" :: (w1 ++ c!":" :: (w2 ++ (t ++ w)))) ++ c!"}" :: q =
                            c!"\"" :: (lit ++ c!"\"" :: (w1 ++ c!":" :: (w2 ++ (t ++ (w ++ c!"}" :: q))))) := by simp
                          rw [e, scanMembers.eq_def]
                          dsimp only
                          rw [if_neg (by decide), j2]
                          dsimp only
                          rw [skipSpace_append hw1 (by decide)]
                          dsimp only
                          rw [if_neg (by decide), hskip, g4 f _ (by omega) (fun _ => numStop_sep hw (by simp))]
                          dsimp only
                          rw [skipSpace_append hw (by decide)]
                          dsimp only
                          rw [if_pos rfl]
                    · rename_i hcc
                      split at h
                      · rename_i hcc
                        subst hcc
                        obtain ⟨⟨l', r'⟩, h1, h2⟩ := Option.map_eq_some_iff.mp h
                        simp only [Prod.mk.injEq] at h2
                        obtain ⟨rfl, rfl⟩ := h2
                        obtain ⟨u, e6, k1, ⟨u', k2⟩, k5⟩ := ihM _ _ _ _ h1
                        obtain ⟨w', e5, hw', _⟩ := skipSpace_split (s := r) (c := c!"\"") (rest := u' ++ c!"}" :: r') (by rw [e6, k2]; rfl)
                        refine ⟨c!"\"" :: (lit ++ c!"\"" :: (w1 ++ c!":" :: (w2 ++ (t ++ (w ++ c!"," :: (w' ++ u)))))), ?_, .cons j1 hw1 hw2 g1 hw hw' k1, ⟨_, rfl⟩, fun f q hf => ?_⟩
                        · rw [e0, e1, e2, e3, e4, e5, k2]; simp
                        · simp only [List.length_append, List.length_cons] at hf
                          cases f with
                          | zero => omega
                          | succ f =>
                            have e : c!"\"" :: (lit ++ c!"\"" :: (w1 ++ c!":" :: (w2 ++ (t ++ (w ++ c!"," :: (w' ++ u)))))) ++ c!"}" :: q =
                              c!"\"" :: (lit ++ c!"\"" :: (w1 ++ c!":" :: (w2 ++ (t ++ (w ++ c!"," :: (w' ++ (u ++ c!"}" :: q))))))) := by simp
                            rw [e, scanMembers.eq_def]
                            dsimp only
                            rw [if_neg (by decide), j2]
                            dsimp only
                            rw [skipSpace_append hw1 (by decide)]
                            dsimp only
                            rw [if_neg (by decide), hskip, g4 f _ (by omega) (fun _ => numStop_sep hw (by simp))]
                            dsimp only
                            rw [skipSpace_append hw (by decide)]
                            dsimp only
                            have e7 : skipSpace (w' ++ (u ++ c!"}" :: q)) = u ++ c!"}" :: q := by
                              rw [k2, List.cons_append]
                              exact skipSpace_append hw' (by decide) _
                            rw [if_neg (by decide), if_pos rfl, e7, k5 f q (by omega)]
                            rfl
                      · cases h
                  · cases h

/-! ## All JSON texts are scanned -/

theorem scanLit_text {lit : Str} (h : LiteralText lit) (q : Str) : scanLit (lit ++ c!"\"" :: q) = some (lit, q) := by
  induction h with
  | nil => rw [List.nil_append, scanLit.eq_def]; simp
  | @char c t h1 h2 h3 _ ih =>
    rw [List.cons_append, scanLit.eq_def]
    dsimp only
    rw [if_neg h1, if_neg h2, if_neg (by simpa using h3), ih]
    rfl
  | @short e c t h1 _ ih =>
    have key : ∀ e ∈ shortEscapes.map (·.1), e ≠ c!"u" ∧ e ∈ b!"bfnrt\\/\"" := by decide
    obtain ⟨k1, k2⟩ := key e (List.mem_map_of_mem h1)
    rw [List.cons_append, List.cons_append, scanLit.eq_def]
    dsimp only
    rw [if_neg (by decide), if_pos rfl, if_neg k1, if_pos k2, ih]
    rfl
  | @unicode a b c d r t h1 _ ih =>
    obtain ⟨k1, k2, k3, k4⟩ := goHex_of_hex4 h1
    simp only [List.cons_append]
    rw [scanLit.eq_def]
    dsimp only
    rw [if_neg (by decide), if_pos rfl, if_pos rfl, if_pos (by simp [k1, k2, k3, k4]), ih]
    rfl

theorem jsonText_head {n : Nat} {t : Str} (h : JsonText n t) : ∃ c t', t = c :: t' ∧ goSpace c = false ∧ c ≠ c!"]" ∧ c ≠ c!"}" := by
  cases h with
  | word w => cases w <;> exact ⟨_, _, rfl, by decide⟩
  | number h =>
    obtain ⟨c, t', e, hc⟩ := number_head h
    have key : ∀ c : UInt8, c = c!"-" ∨ (c!"0" ≤ c ∧ c ≤ c!"9") → goSpace c = false ∧ c ≠ c!"]" ∧ c ≠ c!"}" := byte_forall (by decide +kernel)
    exact ⟨c, t', e, key c hc⟩
  | string _ => exact ⟨_, _, rfl, by decide⟩
  | emptyArray _ => exact ⟨_, _, rfl, by decide⟩
  | array _ _ => exact ⟨_, _, rfl, by decide⟩
  | emptyObject _ => exact ⟨_, _, rfl, by decide⟩
  | object _ _ => exact ⟨_, _, rfl, by decide⟩

theorem elementsText_head {n : Nat} {u : Str} (h : ElementsText n u) : ∃ c t', u = c :: t' ∧ goSpace c = false ∧ c ≠ c!"]" := by
  cases h with
  | last h _ =>
    obtain ⟨c, t', e, h1, h2, _⟩ := jsonText_head h
    exact ⟨c, _, by rw [e]; rfl, h1, h2⟩
  | cons h _ _ _ =>
    obtain ⟨c, t', e, h1, h2, _⟩ := jsonText_head h
    exact ⟨c, _, by rw [e]; rfl, h1, h2⟩

theorem membersText_head {n : Nat} {u : Str} (h : MembersText n u) : ∃ t', u = c!"\"" :: t' := by
  cases h with
  | last => exact ⟨_, rfl⟩
  | cons => exact ⟨_, rfl⟩

mutual

/-- The scanner accepts every JSON text that is not nested too deep, whatever follows it. -/
theorem scanValue_text {n : Nat} {t : Str} (h : JsonText n t) : ∃ v, ScansValue n v t :=
  match h with
  | .word w => by
    cases w with
    | null => exact ⟨_, scans_word (c := c!"n") (t := b!"ull") n .null rfl (by decide) (by decide) fun f q => by rw [scanValue.eq_def]; rfl⟩
    | true => exact ⟨_, scans_word (c := c!"t") (t := b!"rue") n .true rfl (by decide) (by decide) fun f q => by rw [scanValue.eq_def]; rfl⟩
    | false => exact ⟨_, scans_word (c := c!"f") (t := b!"alse") n .false rfl (by decide) (by decide) fun f q => by rw [scanValue.eq_def]; rfl⟩
  | .number h => by
    have := scanNumber_json h (rest := []) (by intro c hc; cases hc)
    exact ⟨_, scans_number n this⟩
  | .string h => ⟨_, scans_string n (scanLit_text h [])⟩
  | .emptyArray (n := n) (w := w) hw => by
    refine ⟨.array [], .emptyArray hw, rfl, ⟨_, _, rfl, by decide⟩, fun f q hf _ => ?_⟩
    cases f with
    | zero => simp at hf
    | succ f =>
      have e : c!"[" :: (w ++ [c!"]"]) ++ q = c!"[" :: (w ++ c!"]" :: q) := by simp
      rw [e, scanValue.eq_def]
      dsimp only
      rw [if_neg (by decide), if_pos rfl, if_neg (by omega), skipSpace_append hw (by decide)]
      dsimp only
      rw [if_pos rfl]
  | .array (n := n) (w := w) (u := u) hw hu => by
    obtain ⟨l, g1, ⟨c, u', g2, g5, g6⟩, g3⟩ := scanElements_text hu
    refine ⟨.array l, .array hw hu, rfl, ⟨_, _, rfl, by decide⟩, fun f q hf _ => ?_⟩
    cases f with
    | zero => simp at hf
    | succ f =>
      have e : c!"[" :: (w ++ (u ++ [c!"]"])) ++ q = c!"[" :: (w ++ c :: (u' ++ c!"]" :: q)) := by rw [g2]; simp
      have g4 := g3 f q (by simp only [List.length_cons, List.length_append] at hf; omega)
      rw [g2, List.cons_append] at g4
      rw [e, scanValue.eq_def]
      dsimp only
      rw [if_neg (by decide), if_pos rfl, if_neg (by omega), skipSpace_append hw g5]
      dsimp only
      rw [if_neg g6, Nat.add_sub_cancel, g4]
      rfl
  | .emptyObject (n := n) (w := w) hw => by
    refine ⟨.object [], .emptyObject hw, rfl, ⟨_, _, rfl, by decide⟩, fun f q hf _ => ?_⟩
    cases f with
    | zero => simp at hf
    | succ f =>
      have e : c!"{" :: (w ++ [c!"}"]) ++ q = c!"{" :: (w ++ c!"}" :: q) := by simp
      rw [e, scanValue.eq_def]
      dsimp only
      rw [if_pos rfl, if_neg (by omega), skipSpace_append hw (by decide)]
      dsimp only
      rw [if_pos rfl]
  | .object (n := n) (w := w) (u := u) hw hu => by
    obtain ⟨l, g1, ⟨u', g2⟩, g3⟩ := scanMembers_text hu
    refine ⟨.object l, .object hw hu, rfl, ⟨_, _, rfl, by decide⟩, fun f q hf _ => ?_⟩
    cases f with
    | zero => simp at hf
    | succ f =>
      have e : c!"{" :: (w ++ (u ++ [c!"}"])) ++ q = c!"{" :: (w ++ c!"\"" :: (u' ++ c!"}" :: q)) := by rw [g2]; simp
      have g4 := g3 f q (by simp only [List.length_cons, List.length_append] at hf; omega)
      rw [g2, List.cons_append] at g4
      rw [e, scanValue.eq_def]
      dsimp only
      rw [if_pos rfl, if_neg (by omega), skipSpace_append hw (by decide)]
      dsimp only
      rw [if_neg (by decide), Nat.add_sub_cancel, g4]
      rfl

theorem scanElements_text {n : Nat} {u : Str} (h : ElementsText n u) : ∃ l, ScansElements n l u :=
  match h with
  | .last (t := t) (w := w) ht hw => by
    obtain ⟨v, g1, _, ⟨c0, t0, g2, g3⟩, g4⟩ := scanValue_text ht
    refine ⟨[v], .last ht hw, elementsText_head (.last ht hw), fun f q hf => ?_⟩
    rw [List.length_append] at hf
    cases f with
    | zero => omega
    | succ f =>
      rw [List.append_assoc, scanElements.eq_def]
      dsimp only
      rw [g4 f _ (by omega) (fun _ => numStop_sep hw (by simp))]
      dsimp only
      rw [skipSpace_append hw (by decide)]
      dsimp only
      rw [if_pos rfl]
  | .cons (t := t) (w := w) (w' := w') (u := u) ht hw hw' hu => by
    obtain ⟨v, g1, _, ⟨c0, t0, g2, g3⟩, g4⟩ := scanValue_text ht
    obtain ⟨l, _, ⟨c1, u', k2, k3, k4⟩, k5⟩ := scanElements_text hu
    refine ⟨v :: l, .cons ht hw hw' hu, elementsText_head (.cons ht hw hw' hu), fun f q hf => ?_⟩
    simp only [List.length_append, List.length_cons] at hf
    cases f with
    | zero => omega
    | succ f =>
      have e : t ++ (w ++ c!"," :: (w' ++ u)) ++ c!"]" :: q = t ++ (w ++ c!"," :: (w' ++ (u ++ c!"]" :: q))) := by simp
      rw [e, scanElements.eq_def]
      dsimp only
      rw [g4 f _ (by omega) (fun _ => numStop_sep hw (by simp))]
      dsimp only
      rw [skipSpace_append hw (by decide)]
      dsimp only
      have e5 : skipSpace (w' ++ (u ++ c!"]" :: q)) = u ++ c!"]" :: q := by
        rw [k2, List.cons_append]
        exact skipSpace_append hw' k3 _
      rw [if_neg (by decide), if_pos rfl, e5, k5 f q (by omega)]
      rfl

theorem scanMembers_text {n : Nat} {u : Str} (h : MembersText n u) : ∃ l, ScansMembers n l u :=
  match h with
  | .last (key := lit) (w1 := w1) (w2 := w2) (t := t) (w := w) hk hw1 hw2 ht hw => by
    obtain ⟨v, g1, _, ⟨c0, t0, g2, g3⟩, g4⟩ := scanValue_text ht
    refine ⟨[(c!"\"" :: (lit ++ [c!"\""]), v)], .last hk hw1 hw2 ht hw, membersText_head (.last hk hw1 hw2 ht hw), fun f q hf => ?_⟩
    simp only [List.length_append, List.length_cons] at hf
    cases f with
    | zero => omega
    | succ f =>
      have e : c!"\"" :: (lit ++ c!"\"" :: (w1 ++ c!":" :: (w2 ++ (t ++ w)))) ++ c!"}" :: q =
        c!"\"" :: (lit ++ c!"\"" :: (w1 ++ c!":" :: (w2 ++ (t ++ (w ++ c!"}" :: q))))) := by simp
      have hskip : ∀ q, skipSpace (w2 ++ (t ++ q)) = t ++ q := by
        intro q
        rw [g2, List.cons_append]
        exact skipSpace_append hw2 g3 _
      rw [e, scanMembers.eq_def]
      dsimp only
      rw [if_neg (by decide), scanLit_text hk]
      dsimp only
      rw [skipSpace_append hw1 (by decide)]
      dsimp only
      rw [if_neg (by decide), hskip, g4 f _ (by omega) (fun _ => numStop_sep hw (by simp))]
      dsimp only
      rw [skipSpace_append hw (by decide)]
      dsimp only
      rw [if_pos rfl]
  | .cons (key := lit) (w1 := w1) (w2 := w2) (t := t) (w := w) (w' := w') (u := u) hk hw1 hw2 ht hw hw' hu => by
    obtain ⟨v, g1, _, ⟨c0, t0, g2, g3⟩, g4⟩ := scanValue_text ht
    obtain ⟨l, _, ⟨u', k2⟩, k5⟩ := scanMembers_text hu
    refine ⟨(c!"\"" :: (lit ++ [c!"\""]), v) :: l, .cons hk hw1 hw2 ht hw hw' hu, membersText_head (.cons hk hw1 hw2 ht hw hw' hu), fun f q hf => ?_⟩
    simp only [List.length_append, List.length_cons] at hf
    cases f with
    | zero => omega
    | succ f =>
      have e : c!"\"" :: (lit ++ c!"\"" :: (w1 ++ c!":" :: (w2 ++ (t ++ (w ++ c!"," :: (w' ++ u)))))) ++ c!"}" :: q =
        c!"\"" :: (lit ++ c!"\"" :: (w1 ++ c!":" :: (w2 ++ (t ++ (w ++ c!"," :: (w' ++ (u ++ c!"}" :: q))))))) := by simp
      have hskip : ∀ q, skipSpace (w2 ++ (t ++ q)) = t ++ q := by
        intro q
        rw [g2, List.cons_append]
        exact skipSpace_append hw2 g3 _
      rw [e, scanMembers.eq_def]
      dsimp only
      rw [if_neg (by decide), scanLit_text hk]
      dsimp only
      rw [skipSpace_append hw1 (by decide)]
      dsimp only
      rw [if_neg (by decide), hskip, g4 f _ (by omega) (fun _ => numStop_sep hw (by simp))]
      dsimp only
      rw [skipSpace_append hw (by decide)]
      dsimp only
      have e7 : skipSpace (w' ++ (u ++ c!"}" :: q)) = u ++ c!"}" :: q := by
        rw [k2, List.cons_append]
        exact skipSpace_append hw' (by decide) _
      rw [if_neg (by decide), if_pos rfl, e7, k5 f q (by omega)]
      rfl

end

/-! ## Decoding -/

theorem numeric_shape {v : Raw} {t : Str} (hn : Numeric t) (hs : Shape v t) : v = .literal t := by
  obtain ⟨c, t', e, hc⟩ := hn
  have key : ∀ c : UInt8, c = c!"-" ∨ (c!"0" ≤ c ∧ c ≤ c!"9") → c ≠ c!"[" ∧ c ≠ c!"{" := byte_forall (by decide +kernel)
  have := key c hc
  cases v with
  | literal item => rw [Shape] at hs; rw [hs]
  | array l => rw [Shape, e] at hs; simp at hs; exact absurd hs this.1
  | object l => rw [Shape, e] at hs; simp at hs; exact absurd hs this.2

/-- A request that is accepted: white space, an object or `null`, and anything. -/
structure JaegerAccepted (floatFails : Str → Bool) (w t : Str) (l : List JaegerData) : Prop where
  blank : Blank w
  text : JsonText maxNestingDepth t
  shape : t.head? = some c!"{" ∨ t = b!"null"
  scans : ∃ v, ∀ q, scanValue ((w ++ (t ++ q)).length + 1) maxNestingDepth (skipSpace (w ++ (t ++ q))) = some (v, q)
  decodes : ∀ q, goDecodeJaeger floatFails (w ++ (t ++ q)) = some l

theorem storeObject_shape {floatFails : Str → Bool} {v : Raw} {t : Str} {old d : JsonSlice JaegerDataCell} (hs : Shape v t) (h : storeObject floatFails v old = some d) :
    t.head? = some c!"{" ∨ t = b!"null" := by
  cases v with
  | literal item =>
    rw [Shape] at hs
    subst hs
    right
    simp only [storeObject, storeStruct] at h
    split at h
    · assumption
    · cases h
  | array l =>
    simp only [storeObject, storeStruct] at h
    cases h
  | object l => exact .inl hs

theorem jaeger_accepted {floatFails : Str → Bool} {data : Str} {l : List JaegerData} (h : goDecodeJaeger floatFails data = some l) :
    ∃ w t q, data = w ++ (t ++ q) ∧ JaegerAccepted floatFails w t l := by
  simp only [goDecodeJaeger, Option.bind_eq_bind, Option.bind_eq_some_iff] at h
  obtain ⟨⟨v, q⟩, h1, d, h2, h3⟩ := h
  obtain ⟨t, e1, g1, g2, ⟨c, t', g3, g4⟩, g5⟩ := (scan_sound _).1 _ _ _ _ h1
  obtain ⟨w, e2, hw, _⟩ := skipSpace_split (s := data) (c := c) (rest := t' ++ q) (by rw [e1, g3]; rfl)
  have hshape := storeObject_shape g2 h2
  have hnum : ¬ Numeric t := by
    rintro ⟨c1, t1, e, hc⟩
    subst e
    have key : ∀ c : UInt8, c = c!"-" ∨ (c!"0" ≤ c ∧ c ≤ c!"9") → c ≠ c!"{" ∧ c ≠ c!"n" := byte_forall (by decide +kernel)
    have := key c1 hc
    rcases hshape with hs | hs
    · simp at hs; exact this.1 hs
    · injection hs with hs; exact this.2 hs
  have hscan : ∀ q, scanValue ((w ++ (t ++ q)).length + 1) maxNestingDepth (skipSpace (w ++ (t ++ q))) = some (v, q) := by
    intro q
    have e3 : skipSpace (w ++ (t ++ q)) = t ++ q := by
      rw [g3, List.cons_append]
      exact skipSpace_append hw g4 _
    rw [e3]
    exact g5 _ q (by simp only [List.length_append]; omega) (fun hn => absurd hn hnum)
  refine ⟨w, t, q, by rw [e2, g3]; rfl, hw, g1, hshape, ⟨v, hscan⟩, fun q => ?_⟩
  simp only [goDecodeJaeger, hscan q, Option.bind_eq_bind, Option.bind_some, h2]
  exact h3

/-- Without its last bytes, a request that is accepted is not. -/
theorem JaegerAccepted.prefix_fails {floatFails : Str → Bool} {w t x y : Str} {l : List JaegerData} (h : JaegerAccepted floatFails w t l) (hx : w ++ t = x ++ y) (hy : y ≠ []) :
    goDecodeJaeger floatFails x = none := by
  cases hd : goDecodeJaeger floatFails x with
  | none => rfl
  | some l' =>
    exfalso
    obtain ⟨w', t', q', e, h'⟩ := jaeger_accepted hd
    obtain ⟨v, hv⟩ := h.scans
    obtain ⟨v', hv'⟩ := h'.scans
    have h1 := hv []
    have h2 := hv' (q' ++ y)
    have e2 : w ++ (t ++ []) = w' ++ (t' ++ (q' ++ y)) := by
      rw [List.append_nil, hx, e]; simp
    rw [e2, h2] at h1
    simp only [Option.some.injEq, Prod.mk.injEq, List.append_eq_nil_iff] at h1
    exact hy h1.2.2

end Verif
