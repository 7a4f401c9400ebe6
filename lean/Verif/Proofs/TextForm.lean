import Verif.Proofs.StreamText
import Verif.Spec.ErrorText

/-!
# The form of the texts of errors
-/

namespace Verif

open Spec

/-! ## Names and characters -/

theorem charText_eq (c : UInt8) : b!"'" ++ charText c ++ b!"'" = quotedByte c := by
  have : ∀ c : UInt8, charText c = utf8 c.toNat := byte_forall (by decide +kernel)
  unfold quotedByte
  rw [this]

theorem stray_of_error {c : UInt8} (h : symbolTable c = .error) (hw : isCharSpace c = false) : Stray c := by
  have : ∀ c : UInt8, symbolTable c = .error → isCharSpace c = false → Stray c := byte_forall (by decide +kernel)
  exact this c h hw

theorem starts_text {c : UInt8} (hw : isCharSpace c = false) (he : symbolTable c ≠ .error) : Starts c (symbolTable c).text := by
  have : ∀ c : UInt8, isCharSpace c = false → symbolTable c ≠ .error → Starts c (symbolTable c).text := byte_forall (by decide +kernel)
  exact this c hw he

theorem wrongType_form {body : Str} {c : UInt8} {t : JType} (hc : c ∈ body) (hw : isCharSpace c = false) (hne : symbolTable c ≠ t) (name : Str) (hn : t.text = name) :
    WrongText body name (wrongTypeText t c) := by
  subst hn
  unfold wrongTypeText
  split
  · rename_i he
    have := WrongText.character (expected := t.text) hc (stray_of_error he hw)
    rw [← charText_eq] at this
    simpa only [List.append_assoc, List.cons_append, List.nil_append] using this
  · rename_i he
    refine .token hc (starts_text hw he) ?_
    · have : ∀ a b : JType, a ≠ b → a.text ≠ b.text := by
        intro a b
        cases a <;> cases b <;> decide +kernel
      exact this _ _ hne

/-! ## Escapes -/

/-- Every backslash is followed by something. -/
inductive Paired : Str → Prop
  | nil : Paired []
  | char {c : UInt8} {t : Str} : c ≠ c!"\\" → Paired t → Paired (c :: t)
  | escape {e : UInt8} {t : Str} : Paired t → Paired (c!"\\" :: e :: t)

theorem scan_paired (n : Nat) : ∀ {s lit rest : Str}, s.length ≤ n → scanString false s = some (lit, rest) → Paired lit ∧ s = lit ++ c!"\"" :: rest := by
  induction n with
  | zero =>
    intro s lit rest hn h
    cases s with
    | nil => simp [scanString] at h
    | cons c s => simp at hn
  | succ n ih =>
    intro s lit rest hn h
    cases s with
    | nil => simp [scanString] at h
    | cons c s =>
      rw [List.length_cons] at hn
      simp only [scanString] at h
      split at h
      · rename_i hc
        cases s with
        | nil => simp [scanString] at h
        | cons e s =>
          rw [List.length_cons] at hn
          simp only [scanString, Option.map_map] at h
          obtain ⟨⟨b, r⟩, h1, h2⟩ := Option.map_eq_some_iff.mp h
          simp only [Function.comp, Prod.mk.injEq] at h2
          obtain ⟨rfl, rfl⟩ := h2
          obtain ⟨g1, g2⟩ := ih (by omega) h1
          exact ⟨by rw [hc]; exact .escape g1, by rw [g2]; rfl⟩
      · rename_i hc
        split at h
        · rename_i hq
          simp only [Option.some.injEq, Prod.mk.injEq] at h
          obtain ⟨rfl, rfl⟩ := h
          exact ⟨.nil, by rw [hq]; rfl⟩
        · obtain ⟨⟨b, r⟩, h1, h2⟩ := Option.map_eq_some_iff.mp h
          simp only [Prod.mk.injEq] at h2
          obtain ⟨rfl, rfl⟩ := h2
          obtain ⟨g1, g2⟩ := ih (by omega) h1
          exact ⟨.char hc g1, by rw [g2]; rfl⟩

theorem paired_char {c : UInt8} {t : Str} (h : Paired (c :: t)) (hc : c ≠ c!"\\") : Paired t := by
  cases h with
  | char _ h => exact h
  | escape _ => exact absurd rfl hc

theorem escapeText_form {body : Str} (n : Nat) : ∀ {lit : Str}, lit.length ≤ n → Paired lit → (∀ c ∈ lit, c ∈ body) → unescape lit = none → EscapeText body (escapeText lit) := by
  induction n with
  | zero =>
    intro lit hn _ _ hu
    cases lit with
    | nil => simp [unescape] at hu
    | cons c t => simp at hn
  | succ n ih =>
    intro lit hn hp hm hu
    cases hp with
    | nil => simp [unescape] at hu
    | char hc hp =>
      rename_i c t
      rw [unescape.eq_def] at hu
      dsimp only at hu
      rw [if_pos hc, Option.map_eq_none_iff] at hu
      rw [escapeText.eq_def]
      dsimp only
      rw [if_pos hc]
      exact ih (by simp at hn; omega) hp (fun x hx => hm x (.tail _ hx)) hu
    | escape hp =>
      rename_i e t
      rw [unescape.eq_def] at hu
      dsimp only at hu
      rw [if_neg (by simp)] at hu
      rw [escapeText.eq_def]
      dsimp only
      rw [if_neg (by simp)]
      by_cases he : e = c!"u"
      · rw [if_neg (by simpa using he)] at hu ⊢
        rcases t with _ | ⟨h1, _ | ⟨h2, _ | ⟨h3, _ | ⟨h4, rest⟩⟩⟩⟩
        · exact .short
        · exact .short
        · exact .short
        · exact .short
        · dsimp only at hu ⊢
          cases hf : firstNoHex [h1, h2, h3, h4] with
          | some c =>
            have hmem := List.mem_of_find?_eq_some hf
            have hc : c ∈ body := hm c (by
              simp only [List.mem_cons, List.not_mem_nil, or_false] at hmem ⊢
              rcases hmem with h | h | h | h <;> simp [h])
            have hno := List.find?_some hf
            have hd : ∀ c : UInt8, (hexDigit? c).isNone = true → c ∉ hexChars := byte_forall (by decide +kernel)
            have := EscapeText.digit hc (hd c hno)
            rw [← charText_eq] at this
            simpa only [List.append_assoc, List.cons_append, List.nil_append] using this
          | none =>
            have hx := (firstNoHex_iff h1 h2 h3 h4).mp hf
            rw [hexRune_eq] at hx
            cases hh : hex4 h1 h2 h3 h4 with
            | none => exact absurd hh hx
            | some r =>
              rw [hh] at hu
              simp only [Option.map_eq_none_iff] at hu
              obtain ⟨k1, k2, k3, k4⟩ := goHex_of_hex4 hh
              have key : ∀ c : UInt8, goHex c = true → c ≠ c!"\\" := byte_forall (by decide +kernel)
              exact ih (by simp at hn; omega) (paired_char (paired_char (paired_char (paired_char hp (key _ k1)) (key _ k2)) (key _ k3)) (key _ k4))
                (fun x hx => hm x (by simp [hx])) hu
      · rw [if_pos he] at hu ⊢
        rw [Option.map_eq_none_iff] at hu
        exact ih (by simp at hn; omega) hp (fun x hx => hm x (by simp [hx])) hu

/-! ## Decoders -/

/-- The first byte is known. -/
def Sees (known : Option UInt8) (s : Str) : Prop := ∀ c, known = some c → s.head? = some c

/-- Whatever a decoder says about an end of the body is as described; `known`: the next byte, if it was looked at. -/
inductive Says (ending body : Str) (P : Str → Prop) : Option UInt8 → Texts → Prop
  | done {known : Option UInt8} : Says ending body P known .done
  | timeout {known : Option UInt8} : Says ending body P known .timeout
  | fail {known : Option UInt8} {text : Str} : P text → Says ending body P known (.fail text)
  | op {known : Option UInt8} {o : Op} {context : Str} {k : o.Res → Texts} :
      (∀ s, s <:+ body → Sees known s → o.stream s = .err → P (context ++ o.streamText ending s)) →
      (∀ s a s', s <:+ body → Sees known s → o.stream s = .ok a s' → Says ending body P (if o.readyAfter then s'.head? else none) (k a)) →
      Says ending body P known (.op o context k)

section
variable {ending body : Str} {P Q : Str → Prop} {known : Option UInt8}

theorem Says.sound {t : Texts} (h : Says ending body P known t) {s text : Str} (hs : s <:+ body) (hk : Sees known s) (ht : t.stream ending s = some text) : P text := by
  induction h generalizing s with
  | done => cases ht
  | timeout => cases ht
  | fail h => injection ht with ht; exact ht ▸ h
  | op h1 _ ih =>
    simp only [Texts.stream] at ht
    split at ht
    · rename_i a s' ho
      refine ih s a s' hs hk ho (List.IsSuffix.trans (Op.stream_suffix _ ho) hs) ?_ ht
      intro c hc
      split at hc
      · exact hc
      · cases hc
    · rename_i ho
      injection ht with ht
      exact ht ▸ h1 s hs hk ho
    · cases ht

theorem Says.any {t : Texts} (h : Says ending body P none t) (next : Option UInt8) : Says ending body P next t := by
  cases h with
  | done => exact .done
  | timeout => exact .timeout
  | fail h => exact .fail h
  | op h1 h2 => exact .op (fun s hs _ ho => h1 s hs (by intro c hc; cases hc) ho) fun s a s' hs _ ho => h2 s a s' hs (by intro c hc; cases hc) ho

theorem Says.andThen {t t' : Texts} (h : Says ending body P known t) (h' : Says ending body P none t') : Says ending body P known (t.andThen t') := by
  induction h with
  | done => exact h'.any _
  | timeout => exact .timeout
  | fail h => exact .fail h
  | op h1 _ ih => exact .op h1 ih

theorem Says.withMessage {t : Texts} (h : Says ending body P known t) {message : Str} (hq : ∀ text, P text → Q (message ++ b!": " ++ text)) :
    Says ending body Q known (t.withMessage message) := by
  induction h with
  | done => exact .done
  | timeout => exact .timeout
  | fail h => exact .fail (hq _ h)
  | op h1 _ ih =>
    refine .op (fun s hs hk ho => ?_) ih
    have := hq _ (h1 s hs hk ho)
    simpa only [List.append_assoc] using this

theorem Says.mono {t : Texts} (h : Says ending body P known t) (hq : ∀ text, P text → Q text) : Says ending body Q known t := by
  induction h with
  | done => exact .done
  | timeout => exact .timeout
  | fail h => exact .fail (hq _ h)
  | op h1 _ ih => exact .op (fun s hs hk ho => hq _ (h1 s hs hk ho)) ih

theorem dropWhile_head {s : Str} {c : UInt8} (h : (s.dropWhile isCharSpace).head? = some c) : isCharSpace c = false := by
  induction s with
  | nil => simp at h
  | cons d s ih =>
    rw [List.dropWhile_cons] at h
    split at h
    · exact ih h
    · rename_i hd
      simp only [List.head?_cons, Option.some.injEq] at h
      rw [← h]
      simpa using hd

theorem mem_of_head {s : Str} (hs : s <:+ body) {c : UInt8} (h : s.head? = some c) : c ∈ body := by
  cases s with
  | nil => simp at h
  | cons d s =>
    simp only [List.head?_cons, Option.some.injEq] at h
    subst h
    exact hs.subset (.head _)

theorem says_skip {context : Str} {k : Unit → Texts} (h1 : P (context ++ ending)) (h2 : ∀ c ∈ body, isCharSpace c = false → Says ending body P (some c) (k ())) :
    Says ending body P known (.op .skipWhitespace context k) := by
  refine .op (fun _ _ _ _ => h1) fun s a s' hs _ ho => ?_
  have hs' := List.IsSuffix.trans (Op.stream_suffix _ ho) hs
  simp only [Op.stream] at ho
  split at ho
  · cases ho
  · rename_i heq
    injection ho with _ ho
    cases hs1 : s' with
    | nil => exact absurd (ho.trans hs1) heq
    | cons c u =>
      exact h2 c (mem_of_head hs' (by rw [hs1]; rfl)) (dropWhile_head (s := s) (by rw [ho, hs1]; rfl))

/-- White space is skipped, but there is none. -/
theorem says_skip_known {context : Str} {k : Unit → Texts} {c : UInt8} (hc : isCharSpace c = false) (h : Says ending body P (some c) (k ())) :
    Says ending body P (some c) (.op .skipWhitespace context k) := by
  have key : ∀ s, Sees (some c) s → s.dropWhile isCharSpace = s ∧ ∃ u, s = c :: u := by
    intro s hk
    have := hk c rfl
    cases s with
    | nil => simp at this
    | cons d s =>
      simp only [List.head?_cons, Option.some.injEq] at this
      subst this
      rw [List.dropWhile_cons, if_neg (by simp [hc])]
      exact ⟨rfl, s, rfl⟩
  refine .op (fun s _ hk ho => ?_) fun s a s' hs hk ho => ?_
  · obtain ⟨h1, u, rfl⟩ := key s hk
    simp only [Op.stream, h1] at ho
    cases ho
  · obtain ⟨h1, u, rfl⟩ := key s hk
    simp only [Op.stream, h1] at ho
    injection ho with _ ho
    subst ho
    exact h

theorem sees_cons {c : UInt8} {s : Str} (h : Sees (some c) s) : ∃ u, s = c :: u := by
  have := h c rfl
  cases s with
  | nil => simp at this
  | cons d s =>
    simp only [List.head?_cons, Option.some.injEq] at this
    exact ⟨s, by rw [this]⟩

theorem says_current {context : Str} {k : UInt8 → Texts} {c : UInt8} (h : Says ending body P (some c) (k c)) : Says ending body P (some c) (.op .current context k) := by
  refine .op (fun s _ hk ho => ?_) fun s a s' hs hk ho => ?_
  · obtain ⟨u, rfl⟩ := sees_cons hk
    simp [Op.stream] at ho
  · obtain ⟨u, rfl⟩ := sees_cons hk
    simp only [Op.stream] at ho
    injection ho with h1 h2
    subst h1 h2
    exact h

theorem says_nextType {k : JType → Texts} (h1 : ∀ text, NextText ending body text → P text)
    (h2 : ∀ c ∈ body, isCharSpace c = false → symbolTable c ≠ .error → Says ending body P (some c) (k (symbolTable c))) : Says ending body P known (Texts.nextType k) := by
  refine says_skip (h1 _ .ended) fun c hc hw => says_current ?_
  split
  · refine .fail (h1 _ ?_)
    have := NextText.character (ending := ending) hc (stray_of_error ‹_› hw)
    rw [← charText_eq] at this
    simpa only [List.append_assoc, List.cons_append, List.nil_append] using this
  · exact h2 c hc hw ‹_›

theorem says_nextType_known {k : JType → Texts} {c : UInt8} (hw : isCharSpace c = false) (he : symbolTable c ≠ .error)
    (h : Says ending body P (some c) (k (symbolTable c))) : Says ending body P (some c) (Texts.nextType k) := by
  refine says_skip_known hw (says_current ?_)
  rw [if_neg he]
  exact h

theorem says_punct {t : Punct} {context : Str} {k : Unit → Texts} {c : UInt8} (hw : symbolTable c ≠ t.type → P (context ++ wrongTypeText t.type c))
    (h : Says ending body P none (k ())) : Says ending body P (some c) (.op (.consume t) context k) := by
  refine .op (fun s _ hk ho => ?_) fun s a s' hs hk ho => h.any _
  obtain ⟨u, rfl⟩ := sees_cons hk
  refine hw ?_
  simp only [Op.stream] at ho
  split at ho
  · cases ho
  · assumption

theorem says_begin {t : Punct} (name : Str) (hn : t.type.text = name) (h : ∀ text, BeginText ending body name text → P text) : Says ending body P known (Texts.consume t) :=
  says_skip (h _ .ended) fun _ hc hw => says_punct (fun hne => h _ (.wrong (wrongType_form hc hw hne name hn))) .done

theorem says_end {t : Punct} {c : UInt8} (hw : isCharSpace c = false) (h : symbolTable c = t.type) : Says ending body P (some c) (Texts.consume t) :=
  says_skip_known hw (says_punct (fun hne => absurd h hne) .done)

/-- The value of a string in the body. -/
def InBody (body v : Str) : Prop := ∃ lit, lit <:+: body ∧ unescape lit = some v

theorem says_string {context : Str} {k : Str → Texts} {c : UInt8} (hc : c ∈ body) (hw : isCharSpace c = false) (h1 : P (context ++ ending))
    (h2 : ∀ text, EscapeText body text → P (context ++ text)) (h3 : symbolTable c ≠ .string → ∀ text, WrongText body b!"TypeString" text → P (context ++ text))
    (h : ∀ v, InBody body v → Says ending body P none (k v)) : Says ending body P (some c) (.op .readString context k) := by
  refine .op (fun s hs hk ho => ?_) fun s a s' hs hk ho => (h _ ?_).any _
  · obtain ⟨u, rfl⟩ := sees_cons hk
    simp only [Op.streamText]
    by_cases hq : c = c!"\""
    · rw [if_neg (show ¬ c ≠ c!"\"" by simpa using hq)]
      simp only [Op.stream, if_neg (show ¬ c ≠ c!"\"" by simpa using hq)] at ho
      split at ho
      · rename_i hsc
        rw [hsc]
        exact h1
      · rename_i lit r hsc
        rw [hsc]
        split at ho
        · rename_i hu
          obtain ⟨g1, g2⟩ := scan_paired _ (Nat.le_refl _) hsc
          refine h2 _ (escapeText_form _ (Nat.le_refl _) g1 ?_ hu)
          intro x hx
          have : x ∈ u := by rw [g2]; exact List.mem_append_left _ hx
          exact hs.subset (.tail _ this)
        · cases ho
    · rw [if_pos hq]
      have : ∀ c : UInt8, c ≠ c!"\"" → symbolTable c ≠ .string := byte_forall (by decide +kernel)
      exact h3 (this c hq) _ (wrongType_form hc hw (this c hq) _ (by decide +kernel))
  · obtain ⟨u, rfl⟩ := sees_cons hk
    simp only [Op.stream] at ho
    split at ho
    · cases ho
    · split at ho
      · cases ho
      · rename_i lit r hsc
        split at ho
        · cases ho
        · rename_i v hu
          injection ho with h1 h2
          subst h1
          obtain ⟨_, g2⟩ := scan_paired _ (Nat.le_refl _) hsc
          obtain ⟨pre, hpre⟩ := hs
          exact ⟨lit, ⟨pre ++ [c], c!"\"" :: r, by rw [← hpre, g2]; simp⟩, hu⟩

theorem says_number {context : Str} {k : Str → Texts} {c : UInt8} (hc : c ∈ body) (hw : isCharSpace c = false) (h1 : P (context ++ ending))
    (h3 : symbolTable c ≠ .number → ∀ text, WrongText body b!"TypeNumber" text → P (context ++ text))
    (h : ∀ tok : Str, (∀ x ∈ tok, x ∈ body) → Says ending body P none (k tok)) : Says ending body P (some c) (.op .readNumber context k) := by
  refine .op (fun s hs hk ho => ?_) fun s a s' hs hk ho => (h _ ?_).any _
  · obtain ⟨u, rfl⟩ := sees_cons hk
    simp only [Op.streamText]
    split
    · rename_i hq
      have hne : symbolTable c ≠ .number := by
        simp only [isCharDigit, Bool.not_eq_true', decide_eq_false_iff_not] at hq
        exact hq
      exact h3 hne _ (wrongType_form hc hw hne _ (by decide +kernel))
    · exact h1
  · obtain ⟨u, rfl⟩ := sees_cons hk
    simp only [Op.stream] at ho
    split at ho
    · cases ho
    · split at ho
      · cases ho
      · injection ho with h1 _
        subst h1
        intro x hx
        rcases List.mem_cons.mp hx with rfl | hx
        · exact hc
        · exact hs.subset (.tail _ (List.takeWhile_subset _ hx))

theorem says_word {w : Word} {context : Str} {k : Str → Texts} (h1 : ∀ text, WordText ending text → (w = .null → text = b!"require(4): " ++ ending) → P (context ++ text))
    (h : ∀ tok, Says ending body P none (k tok)) : Says ending body P (some w.first) (.op (.readWord w) context k) := by
  refine .op (fun s hs hk ho => ?_) fun s a s' hs hk ho => (h _).any _
  obtain ⟨u, rfl⟩ := sees_cons hk
  simp only [Op.stream] at ho
  simp only [Op.streamText]
  split at ho
  · rename_i hl
    rw [if_pos hl]
    cases w with
    | null => exact h1 _ .four fun _ => rfl
    | true => exact h1 _ .four (by simp)
    | false => exact h1 _ .five (by simp)
  · simp at ho

theorem says_boolean {c : UInt8} (hc : symbolTable c = .boolean) (h : ∀ text, WordText ending text → P text) : Says ending body P (some c) Texts.readBoolean := by
  refine says_current ?_
  have : ∀ c : UInt8, symbolTable c = .boolean → c = c!"t" ∨ c = c!"f" := byte_forall (by decide +kernel)
  rcases this c hc with rfl | rfl
  · exact says_word (w := .true) (fun _ ht _ => h _ ht) fun _ => .done
  · exact says_word (w := .false) (fun _ ht _ => h _ ht) fun _ => .done

theorem says_null {c : UInt8} (hc : symbolTable c = .null) (h : P (b!"require(4): " ++ ending)) : Says ending body P (some c) Texts.readNull := by
  have : ∀ c : UInt8, symbolTable c = .null → c = c!"n" := byte_forall (by decide +kernel)
  rw [this c hc]
  exact says_word (w := .null) (fun _ _ ht => ht rfl ▸ h) fun _ => .done

theorem says_skips (fuel : Nat) :
    (∀ c ∈ body, isCharSpace c = false → symbolTable c ≠ .error → Says ending body (SkipText ending body) (some c) (Texts.skip fuel (symbolTable c))) ∧
    Says ending body (SkipText ending body) none (Texts.skipArrayLoop fuel) ∧ Says ending body (SkipText ending body) none (Texts.skipObjectLoop fuel) := by
  induction fuel with
  | zero => exact ⟨fun _ _ _ _ => by simp only [Texts.skip]; exact .timeout, by simp only [Texts.skipArrayLoop]; exact .timeout, by simp only [Texts.skipObjectLoop]; exact .timeout⟩
  | succ fuel ih =>
    obtain ⟨i1, i2, i3⟩ := ih
    refine ⟨fun c hc hw he => ?_, ?_, ?_⟩
    · unfold Texts.skip
      split
      · exact says_string hc hw (.next .ended) (fun _ h => .string (.escape h)) (fun _ _ h => .string (.wrong h)) fun _ _ => .done
      · exact says_number hc hw (.next .ended) (fun h => absurd ‹_› h) fun _ _ => .done
      · exact says_boolean ‹_› fun _ h => .word h
      · exact says_null ‹_› (.word .four)
      · exact says_punct (fun h => absurd ‹_› h) i3
      · exact says_punct (fun h => absurd ‹_› h) i2
      · rename_i h1 h2 h3 h4 h5 h6
        refine .fail (.stray hc ?_ (starts_text hw he))
        have : symbolTable c = .objectEnd ∨ symbolTable c = .arrayEnd := by
          simp only [isCharSpace, decide_eq_false_iff_not] at hw
          cases hs : symbolTable c with
          | objectEnd => exact .inl rfl
          | arrayEnd => exact .inr rfl
          | string => exact absurd hs h1
          | number => exact absurd hs h2
          | boolean => exact absurd hs h3
          | null => exact absurd hs h4
          | objectBegin => exact absurd hs h5
          | arrayBegin => exact absurd hs h6
          | error => exact absurd hs he
          | whitespace => exact absurd hs hw
        have hb : ∀ c : UInt8, symbolTable c = .objectEnd ∨ symbolTable c = .arrayEnd → c ∈ b!"}]" := byte_forall (by decide +kernel)
        exact hb c this
    · unfold Texts.skipArrayLoop
      refine says_nextType (fun _ h => .next h) fun c hc hw he => ?_
      split
      · exact says_punct (fun h => absurd ‹_› h) .done
      · exact (i1 c hc hw he).andThen i2
    · unfold Texts.skipObjectLoop
      refine says_nextType (fun _ h => .next h) fun c hc hw he => ?_
      split
      · exact says_punct (fun h => absurd ‹_› h) .done
      · exact says_string hc hw (.next .ended) (fun _ h => .string (.escape h)) (fun _ _ h => .string (.wrong h)) fun _ _ =>
          (says_nextType (fun _ h => .next h) i1).andThen i3

theorem says_skipValue (fuel : Nat) : Says ending body (SkipText ending body) known (Texts.skipValue fuel) := says_nextType (fun _ h => .next h) (says_skips fuel).1

theorem says_readString {context : Str} {k : Str → Texts} (h1 : ∀ text, StringText ending body text → P (context ++ text)) (h : ∀ v, InBody body v → Says ending body P none (k v)) :
    Says ending body P known (Texts.readString context k) :=
  says_skip (h1 _ .ended) fun _ hc hw => says_string hc hw (h1 _ .ended) (fun _ h => h1 _ (.escape h)) (fun _ _ h => h1 _ (.wrong h)) h

theorem noDigit (c : UInt8) (h : (decide (c < c!"0") || decide (c > c!"9")) = true) : c ∉ b!"0123456789" := by
  have : ∀ c : UInt8, (decide (c < c!"0") || decide (c > c!"9")) = true → c ∉ b!"0123456789" := byte_forall (by decide +kernel)
  exact this c h

theorem noHex (c : UInt8) (h : (!((c!"0" ≤ c && c ≤ c!"9") || (c!"a" ≤ c && c ≤ c!"f") || (c!"A" ≤ c && c ≤ c!"F"))) = true) : c ∉ hexChars := by
  have : ∀ c : UInt8, (!((c!"0" ≤ c && c ≤ c!"9") || (c!"a" ≤ c && c ≤ c!"f") || (c!"A" ≤ c && c ≤ c!"F"))) = true → c ∉ hexChars := byte_forall (by decide +kernel)
  exact this c h

theorem says_uint64 : Says ending body (UintText ending body) known Texts.uint64Value := by
  refine says_skip (.number .ended) fun c hc hw => says_number hc hw (.number .ended) (fun _ _ h => .number (.wrong h)) fun tok ht => ?_
  split
  · rename_i x hx
    refine .fail ?_
    have := UintText.character (ending := ending) (ht x (List.mem_of_find?_eq_some hx)) (noDigit x (by have h := List.find?_some hx; exact h))
    rw [← charText_eq] at this
    simpa only [List.append_assoc, List.cons_append, List.nil_append] using this
  · exact .done

theorem says_value : Says ending body (ValueText ending body) known Texts.stringValue := says_readString (fun _ h => .string h) fun _ _ => .done

theorem says_any : Says ending body (AnyText ending body) known Texts.anyValue := by
  refine Says.withMessage (P := ScalarText ending body) ?_ fun _ h => .literal h
  refine says_nextType (fun _ h => .next h) fun c hc hw he => ?_
  split
  · exact says_string hc hw (.next .ended) (fun _ h => .escape h) (fun h => absurd ‹_› h) fun _ _ => .done
  · exact says_number hc hw (.next .ended) (fun h => absurd ‹_› h) fun _ _ => .done
  · exact says_boolean ‹_› fun _ h => .word h
  · exact says_null ‹_› (.word .four)
  · rename_i h1 h2 h3 h4
    refine .fail (.other hc ?_ (starts_text hw he))
    have : ∀ c : UInt8, isCharSpace c = false → symbolTable c ≠ .error → symbolTable c ≠ .string → symbolTable c ≠ .number → symbolTable c ≠ .boolean → symbolTable c ≠ .null →
        c ∈ b!"{}[]" := byte_forall (by decide +kernel)
    exact this c hw he (fun h => h1 h) (fun h => h2 h) (fun h => h3 h) (fun h => h4 h)

theorem says_id (fuel : Nat) : Says ending body (RefText ending body) known (Texts.idValue fuel) := by
  refine says_nextType (fun _ h => .next h) fun c hc hw he => ?_
  split
  · rename_i hn
    refine says_nextType_known hw he ?_
    cases fuel with
    | zero => simp only [Texts.skip]; exact .timeout
    | succ fuel =>
      unfold Texts.skip
      rw [hn]
      exact says_null hn .null
  · refine says_readString (fun _ h => .string h) fun v hv => ?_
    split
    · rename_i text ht
      refine .fail ?_
      unfold Texts.parseIdError at ht
      split at ht
      · injection ht with ht
        rw [← ht]
        obtain ⟨lit, hl, hu⟩ := hv
        exact .large hl hu ‹_›
      · obtain ⟨x, hx, hxt⟩ := Option.map_eq_some_iff.mp ht
        obtain ⟨lit, hl, hu⟩ := hv
        have := RefText.digit (ending := ending) hl hu (List.mem_of_find?_eq_some hx) (noHex x (by have h := List.find?_some hx; exact h))
        rw [← charText_eq] at this
        rw [← hxt]
        simpa only [List.append_assoc, List.cons_append, List.nil_append] using this
    · exact .done

theorem says_map {key value : Texts} {K V : Str → Prop} (hk : ∀ known, Says ending body K known key) (hv : ∀ known, Says ending body V known value) (fuel : Nat) :
    Says ending body (MapText ending body K V) known (Texts.makeMap fuel key value) := by
  refine Says.andThen (Says.withMessage (says_begin _ rfl fun _ h => h) fun _ h => .begins h) ?_
  induction fuel with
  | zero => exact .timeout
  | succ fuel ih =>
    refine says_nextType (fun _ h => .next h) fun c hc hw he => ?_
    split
    · exact says_end hw ‹_›
    · exact ((hk _).mono fun _ h => .key h).andThen (((hv _).mono fun _ h => .value h).andThen ih)

theorem says_slice {decoder : Texts} {I : Str → Prop} (hd : ∀ known, Says ending body I known decoder) (fuel : Nat) (name element : Str) :
    Says ending body (ListText ending body name element I) known (Texts.makeSlice fuel name element decoder) := by
  refine Says.andThen (Says.withMessage (says_begin _ rfl fun _ h => h) fun _ h => .begins h) ?_
  induction fuel with
  | zero => exact .timeout
  | succ fuel ih =>
    refine says_nextType (fun _ h => .next h) fun c hc hw he => ?_
    split
    · exact Says.withMessage (P := fun _ => False) (says_end hw ‹_›) fun _ h => h.elim
    · exact ((hd _).withMessage fun _ h => .item h).andThen ih

theorem says_array {decoder : Texts} {I : Str → Prop} (hd : ∀ known, Says ending body I known decoder) (fuel len : Nat) (name element : Str) :
    Says ending body (ArrayText ending body name element I) known (Texts.makeArray fuel name element len decoder) := by
  refine Says.andThen (Says.withMessage (says_begin _ rfl fun _ h => h) fun _ h => .begins h) ?_
  have : ∀ fuel' idx, Says ending body (ArrayText ending body name element I) none (Texts.arrayLoop fuel name element len decoder fuel' idx) := by
    intro fuel'
    induction fuel' with
    | zero => exact fun _ => .timeout
    | succ fuel' ih =>
      refine fun idx => says_nextType (fun _ h => .next h) fun c hc hw he => ?_
      split
      · exact Says.withMessage (P := fun _ => False) (says_end hw ‹_›) fun _ h => h.elim
      · split
        · exact ((hd _).withMessage fun _ h => .item h).andThen (ih _)
        · exact (Says.withMessage (says_skipValue fuel) fun _ h => .surplus h).andThen (ih _)
  exact this fuel 0

theorem mem_of_lookup {α : Type} {l : List (Str × α)} {key : Str} {a : α} (h : l.lookup key = some a) : (key, a) ∈ l := by
  induction l with
  | nil => simp at h
  | cons x l ih =>
    rw [List.lookup_cons] at h
    split at h
    · rename_i hk
      injection h with h
      rw [← h, eq_of_beq hk]
      exact .head _
    · exact .tail _ (ih h)

theorem says_struct {fields : List (Str × Texts)} {F : Str → Prop} (hd : ∀ f ∈ fields, ∀ known, Says ending body F known f.2) (fuel : Nat) :
    Says ending body (StructText ending body F) known (Texts.makeStruct fuel fields) := by
  refine Says.andThen (Says.withMessage (says_begin _ rfl fun _ h => h) fun _ h => .begins h) ?_
  have : ∀ fuel', Says ending body (StructText ending body F) none (Texts.structLoop fuel fields fuel') := by
    intro fuel'
    induction fuel' with
    | zero => exact .timeout
    | succ fuel' ih =>
      refine says_nextType (fun _ h => .next h) fun c hc hw he => ?_
      split
      · exact says_end hw ‹_›
      · refine says_readString (fun _ h => .key h) fun key _ => ?_
        split
        · rename_i decoder hl
          exact ((hd (key, decoder) (mem_of_lookup hl) _).mono fun _ h => .field h).andThen ih
        · exact ((says_skipValue fuel).mono fun _ h => .unknown h).andThen ih
  exact this fuel

section
variable (fuel : Nat)

theorem says_endpoint : Says ending body (EndpointText ending body) known (Texts.endpointValue fuel) := by
  refine says_struct ?_ fuel
  simp only [List.mem_cons, List.not_mem_nil, or_false, forall_eq]
  exact fun _ => says_value

theorem says_spanV2 : Says ending body (StructText ending body (FieldTextV2 ending body)) known (Texts.spanV2Value fuel) := by
  refine says_struct ?_ fuel
  simp only [List.mem_cons, List.not_mem_nil, or_false, forall_eq_or_imp, forall_eq]
  exact ⟨fun _ => (says_id fuel).mono fun _ => .id, fun _ => (says_id fuel).mono fun _ => .id, fun _ => (says_id fuel).mono fun _ => .id,
    fun _ => says_uint64.mono fun _ => .uint, fun _ => says_uint64.mono fun _ => .uint, fun _ => says_value.mono fun _ => .string,
    fun _ => (says_map (fun _ => says_value) (fun _ => says_value) fuel).mono fun _ => .tags, fun _ => says_value.mono fun _ => .string,
    fun _ => (says_endpoint fuel).mono fun _ => .endpoint⟩

theorem says_spanV1 : Says ending body (StructText ending body (FieldTextV1 ending body)) known (Texts.spanV1Value fuel) := by
  refine says_struct ?_ fuel
  simp only [List.mem_cons, List.not_mem_nil, or_false, forall_eq_or_imp, forall_eq]
  refine ⟨fun _ => (says_id fuel).mono fun _ => .id, fun _ => (says_id fuel).mono fun _ => .id, fun _ => (says_id fuel).mono fun _ => .id,
    fun _ => says_uint64.mono fun _ => .uint, fun _ => says_uint64.mono fun _ => .uint, fun _ => says_value.mono fun _ => .string,
    fun _ => (says_slice (fun _ => says_struct ?_ fuel) fuel _ _).mono fun _ => .binary, fun _ => (says_array (fun _ => says_struct ?_ fuel) fuel 4 _ _).mono fun _ => .annotations⟩
  · simp only [List.mem_cons, List.not_mem_nil, or_false, forall_eq_or_imp, forall_eq]
    exact ⟨fun _ => says_value.mono fun _ => .key, fun _ => says_any.mono fun _ => .value, fun _ => (says_endpoint fuel).mono fun _ => .endpoint⟩
  · simp only [List.mem_cons, List.not_mem_nil, or_false, forall_eq_or_imp, forall_eq]
    exact ⟨fun _ => says_uint64.mono fun _ => .timestamp, fun _ => says_value.mono fun _ => .value, fun _ => (says_endpoint fuel).mono fun _ => .endpoint⟩

theorem says_v2 : Says ending body (RefusalV2 ending body) none ((Texts.sliceSpanV2 fuel).withMessage b!"parse spans for json v2") :=
  Says.withMessage (says_slice (fun _ => says_spanV2 fuel) fuel _ _) fun _ h => .mk h

theorem says_v1 : Says ending body (RefusalV1 ending body) none ((Texts.sliceSpanV1 fuel).withMessage b!"parse spans for json v1") :=
  Says.withMessage (says_slice (fun _ => says_spanV1 fuel) fuel _ _) fun _ h => .mk h

end

end

/-! ## More iterations -/

/-- The same, except that the second one may go on where the first one has no more iterations. -/
inductive Texts.Le : Texts → Texts → Prop
  | timeout {t : Texts} : Texts.Le .timeout t
  | done : Texts.Le .done .done
  | fail {text : Str} : Texts.Le (.fail text) (.fail text)
  | op {o : Op} {context : Str} {k k' : o.Res → Texts} : (∀ a, Texts.Le (k a) (k' a)) → Texts.Le (.op o context k) (.op o context k')

namespace Texts

theorem Le.refl (t : Texts) : t.Le t := by
  induction t with
  | done => exact .done
  | fail => exact .fail
  | timeout => exact .timeout
  | op _ _ _ ih => exact .op ih

theorem Le.andThen {a b c d : Texts} (h : a.Le b) (h' : c.Le d) : (a.andThen c).Le (b.andThen d) := by
  induction h with
  | timeout => exact .timeout
  | done => exact h'
  | fail => exact .fail
  | op _ ih => exact .op ih

theorem Le.withMessage {a b : Texts} (h : a.Le b) (message : Str) : (a.withMessage message).Le (b.withMessage message) := by
  induction h with
  | timeout => exact .timeout
  | done => exact .done
  | fail => exact .fail
  | op _ ih => exact .op ih

theorem Le.stream {a b : Texts} (h : a.Le b) {ending s text : Str} (ht : a.stream ending s = some text) : b.stream ending s = some text := by
  induction h generalizing s with
  | timeout => cases ht
  | done => cases ht
  | fail => exact ht
  | op _ ih =>
    simp only [Texts.stream] at ht ⊢
    split at ht
    · exact ih _ ht
    · exact ht
    · cases ht

theorem le_nextType {k k' : JType → Texts} (h : ∀ t, (k t).Le (k' t)) : (nextType k).Le (nextType k') := by
  refine .op fun _ => .op fun c => ?_
  split
  · exact .fail
  · exact h _

theorem le_skips (fuel : Nat) : ∀ fuel', fuel ≤ fuel' → (∀ t, (skip fuel t).Le (skip fuel' t)) ∧ (skipArrayLoop fuel).Le (skipArrayLoop fuel') ∧ (skipObjectLoop fuel).Le (skipObjectLoop fuel') := by
  induction fuel with
  | zero => exact fun _ _ => ⟨fun t => by rw [skip]; exact .timeout, by rw [skipArrayLoop]; exact .timeout, by rw [skipObjectLoop]; exact .timeout⟩
  | succ fuel ih =>
    intro fuel' hf
    cases fuel' with
    | zero => omega
    | succ fuel' =>
      obtain ⟨h1, h2, h3⟩ := ih fuel' (by omega)
      refine ⟨fun t => ?_, ?_, ?_⟩
      · unfold skip
        cases t with
        | objectBegin => exact .op fun _ => h3
        | arrayBegin => exact .op fun _ => h2
        | _ => exact .refl _
      · unfold skipArrayLoop
        refine le_nextType fun t => ?_
        split
        · exact .refl _
        · exact (h1 t).andThen h2
      · unfold skipObjectLoop
        refine le_nextType fun t => ?_
        split
        · exact .refl _
        · exact .op fun _ => (le_nextType h1).andThen h3

section
variable {fuel fuel' : Nat} (hf : fuel ≤ fuel')
include hf

theorem le_skipValue : (skipValue fuel).Le (skipValue fuel') := le_nextType (le_skips fuel fuel' hf).1

theorem le_id : (idValue fuel).Le (idValue fuel') := by
  refine le_nextType fun t => ?_
  split
  · exact le_skipValue hf
  · exact .refl _

theorem le_map {key value : Texts} : (makeMap fuel key value).Le (makeMap fuel' key value) := by
  refine (Le.refl _).andThen ?_
  induction fuel generalizing fuel' with
  | zero => exact .timeout
  | succ fuel ih =>
    cases fuel' with
    | zero => omega
    | succ fuel' =>
      refine le_nextType fun t => ?_
      split
      · exact .refl _
      · exact (Le.refl _).andThen ((Le.refl _).andThen (ih (by omega)))

theorem le_slice {d d' : Texts} (hd : d.Le d') (name element : Str) : (makeSlice fuel name element d).Le (makeSlice fuel' name element d') := by
  refine (Le.refl _).andThen ?_
  induction fuel generalizing fuel' with
  | zero => exact .timeout
  | succ fuel ih =>
    cases fuel' with
    | zero => omega
    | succ fuel' =>
      refine le_nextType fun t => ?_
      split
      · exact .refl _
      · exact (hd.withMessage _).andThen (ih (by omega))

theorem le_array {d d' : Texts} (hd : d.Le d') (name element : Str) (len : Nat) : (makeArray fuel name element len d).Le (makeArray fuel' name element len d') := by
  refine (Le.refl _).andThen ?_
  have : ∀ n n' idx, n ≤ n' → (arrayLoop fuel name element len d n idx).Le (arrayLoop fuel' name element len d' n' idx) := by
    intro n
    induction n with
    | zero => exact fun _ _ _ => .timeout
    | succ n ih =>
      intro n' idx hn
      cases n' with
      | zero => omega
      | succ n' =>
        refine le_nextType fun t => ?_
        split
        · exact .refl _
        · split
          · exact (hd.withMessage _).andThen (ih _ _ (by omega))
          · exact ((le_skipValue hf).withMessage _).andThen (ih _ _ (by omega))
  exact this _ _ _ hf

/-- Field by field. -/
inductive FieldsLe : List (Str × Texts) → List (Str × Texts) → Prop
  | nil : FieldsLe [] []
  | cons {name : Str} {d d' : Texts} {l l' : List (Str × Texts)} : d.Le d' → FieldsLe l l' → FieldsLe ((name, d) :: l) ((name, d') :: l')

omit hf in
theorem FieldsLe.lookup {l l' : List (Str × Texts)} (h : FieldsLe l l') (key : Str) :
    (l.lookup key = none ∧ l'.lookup key = none) ∨ ∃ d d', l.lookup key = some d ∧ l'.lookup key = some d' ∧ d.Le d' := by
  induction h with
  | nil => exact .inl ⟨rfl, rfl⟩
  | cons hd _ ih =>
    rename_i name d d' l l' _
    simp only [List.lookup_cons]
    cases key == name with
    | true => exact .inr ⟨_, _, rfl, rfl, hd⟩
    | false => exact ih

theorem le_struct {l l' : List (Str × Texts)} (hl : FieldsLe l l') : (makeStruct fuel l).Le (makeStruct fuel' l') := by
  refine (Le.refl _).andThen ?_
  have : ∀ n n', n ≤ n' → (structLoop fuel l n).Le (structLoop fuel' l' n') := by
    intro n
    induction n with
    | zero => exact fun _ _ => .timeout
    | succ n ih =>
      intro n' hn
      cases n' with
      | zero => omega
      | succ n' =>
        refine le_nextType fun t => ?_
        split
        · exact .refl _
        · refine .op fun _ => .op fun key => ?_
          rcases hl.lookup key with ⟨h1, h2⟩ | ⟨d, d', h1, h2, h3⟩
          · rw [h1, h2]
            exact (le_skipValue hf).andThen (ih _ (by omega))
          · rw [h1, h2]
            exact h3.andThen (ih _ (by omega))
  exact this _ _ hf

theorem le_endpoint : (endpointValue fuel).Le (endpointValue fuel') := le_struct hf (.cons (.refl _) .nil)

theorem le_v2 : (sliceSpanV2 fuel).Le (sliceSpanV2 fuel') :=
  le_slice hf (le_struct hf (.cons (le_id hf) (.cons (le_id hf) (.cons (le_id hf) (.cons (.refl _) (.cons (.refl _) (.cons (.refl _) (.cons (le_map hf) (.cons (.refl _)
    (.cons (le_endpoint hf) .nil)))))))))) _ _

theorem le_v1 : (sliceSpanV1 fuel).Le (sliceSpanV1 fuel') :=
  le_slice hf (le_struct hf (.cons (le_id hf) (.cons (le_id hf) (.cons (le_id hf) (.cons (.refl _) (.cons (.refl _) (.cons (.refl _)
    (.cons (le_slice hf (le_struct hf (.cons (.refl _) (.cons (.refl _) (.cons (le_endpoint hf) .nil)))) _ _)
    (.cons (le_array hf (le_struct hf (.cons (.refl _) (.cons (.refl _) (.cons (le_endpoint hf) .nil)))) _ _ _) .nil))))))))) _ _

end

/-! ## Whether there is an error -/

/-- There is a text exactly if there is an error. -/
theorem Of.run_iff {σ : Type} {P : σ → Prop} {t : Texts} {prog : Prog σ} (h : t.Of P prog) (readErr : Str) (fuel : Nat) (p : Parser) :
    (∃ text, t.run readErr fuel p = some text) ↔ ∃ m p', prog.run fuel p = .err m p' := by
  induction h generalizing p with
  | done _ => simp [Texts.run, Prog.run]
  | fail => simp [Texts.run, Prog.run]
  | timeout => simp [Texts.run, Prog.run]
  | op _ ih =>
    rename_i o _ _ _ _ _
    simp only [Texts.run, Prog.run]
    cases o.run fuel p with
    | ok a p => exact ih a p
    | err p => simp
    | panic => simp
    | timeout => simp

theorem Of.stream_iff {σ : Type} {P : σ → Prop} {t : Texts} {prog : Prog σ} (h : t.Of P prog) (ending : Str) (r : Bool) (s : Str) (hb : prog.stream r s ≠ .bad) :
    (∃ text, t.stream ending s = some text) ↔ ∃ m, prog.stream r s = .err m := by
  induction h generalizing r s with
  | done _ => simp [Texts.stream, Prog.stream]
  | fail => simp [Texts.stream, Prog.stream]
  | timeout => simp [Texts.stream, Prog.stream]
  | op _ ih =>
    rename_i o _ _ _ _ _
    simp only [Texts.stream, Prog.stream] at hb ⊢
    split at hb
    · exact absurd rfl hb
    · rename_i hn
      rw [if_neg hn]
      cases ho : o.stream s with
      | ok a s' =>
        rw [ho] at hb
        exact ih _ _ _ hb
      | err => simp
      | bad =>
        rw [ho] at hb
        exact absurd rfl hb

end Texts

/-! ## Bodies that are cut off -/

theorem dropWhile_append_cut {p : UInt8 → Bool} (s q : Str) : s.dropWhile p = [] ∨ ((s ++ q).dropWhile p = s.dropWhile p ++ q ∧ (s ++ q).takeWhile p = s.takeWhile p) := by
  induction s with
  | nil => exact .inl rfl
  | cons c s ih =>
    simp only [List.cons_append, List.dropWhile_cons, List.takeWhile_cons]
    split
    · rcases ih with h | ⟨h1, h2⟩
      · exact .inl h
      · exact .inr ⟨h1, by rw [h2]⟩
    · exact .inr ⟨rfl, rfl⟩

theorem scanString_cut (s q : Str) : ∀ esc, scanString esc s = none ∨ ∃ lit r, scanString esc s = some (lit, r) ∧ scanString esc (s ++ q) = some (lit, r ++ q) := by
  induction s with
  | nil => exact fun esc => .inl (by cases esc <;> rfl)
  | cons c s ih =>
    intro esc
    have go : ∀ e, (scanString e s).map (fun r => (c :: r.1, r.2)) = none ∨
        ∃ lit r, (scanString e s).map (fun r => (c :: r.1, r.2)) = some (lit, r) ∧ (scanString e (s ++ q)).map (fun r => (c :: r.1, r.2)) = some (lit, r ++ q) := by
      intro e
      rcases ih e with h | ⟨lit, r, h1, h2⟩
      · exact .inl (by rw [h]; rfl)
      · exact .inr ⟨c :: lit, r, by rw [h1]; rfl, by rw [h2]; rfl⟩
    cases esc with
    | true =>
      simp only [List.cons_append, scanString]
      exact go false
    | false =>
      simp only [List.cons_append, scanString]
      split
      · exact go true
      · split
        · exact .inr ⟨[], s, rfl, rfl⟩
        · exact go false

/-- An operation on a beginning of the data: the same, or an error that says that the data ended. -/
theorem Op.stream_cut (o : Op) {s q s' : Str} {a : o.Res} (ending : Str) (h : o.stream (s ++ q) = .ok a s') :
    (∃ s1, o.stream s = .ok a s1 ∧ s' = s1 ++ q) ∨ (o.stream s = .err ∧ ∃ pre, o.streamText ending s = pre ++ ending) ∨ o.stream s = .bad := by
  cases o with
  | skipWhitespace =>
    simp only [Op.stream] at h ⊢
    rcases dropWhile_append_cut (p := isCharSpace) s q with hd | ⟨hd, _⟩
    · rw [hd]
      exact .inr (.inl ⟨rfl, [], rfl⟩)
    · rw [hd] at h
      cases hs : s.dropWhile isCharSpace with
      | nil => exact .inr (.inl ⟨rfl, [], rfl⟩)
      | cons c u =>
        rw [hs] at h
        injection h with _ h
        exact .inl ⟨c :: u, rfl, h.symm⟩
  | current =>
    cases s with
    | nil => exact .inr (.inr rfl)
    | cons c s =>
      simp only [List.cons_append, Op.stream] at h ⊢
      injection h with h1 h2
      exact .inl ⟨c :: s, by rw [h1], h2.symm⟩
  | consume t =>
    cases s with
    | nil => exact .inr (.inr rfl)
    | cons c s =>
      simp only [List.cons_append, Op.stream] at h ⊢
      split at h
      · rename_i hc
        injection h with _ h
        rw [if_pos hc]
        exact .inl ⟨s, rfl, h.symm⟩
      · cases h
  | readString =>
    cases s with
    | nil => exact .inr (.inr rfl)
    | cons c s =>
      simp only [List.cons_append, Op.stream, Op.streamText] at h ⊢
      split at h
      · cases h
      · rename_i hc
        rw [if_neg hc]
        rcases scanString_cut s q false with hs | ⟨lit, r, h1, h2⟩
        · rw [hs]
          exact .inr (.inl ⟨rfl, [], by rw [if_neg hc]; rfl⟩)
        · rw [h1]
          rw [h2] at h
          simp only at h ⊢
          split at h
          · cases h
          · injection h with e1 e2
            rename_i v hu
            exact .inl ⟨r, by rw [e1], e2.symm⟩
  | readNumber =>
    cases s with
    | nil => exact .inr (.inr rfl)
    | cons c s =>
      simp only [List.cons_append, Op.stream, Op.streamText] at h ⊢
      split at h
      · cases h
      · rename_i hc
        rw [if_neg hc]
        rcases dropWhile_append_cut (p := numberChar) s q with hd | ⟨hd, ht⟩
        · rw [hd]
          exact .inr (.inl ⟨rfl, [], by rw [if_neg hc]; rfl⟩)
        · rw [hd, ht] at h
          cases hs : s.dropWhile numberChar with
          | nil => exact .inr (.inl ⟨rfl, [], by rw [if_neg hc]; rfl⟩)
          | cons d u =>
            rw [hs] at h
            injection h with e1 e2
            exact .inl ⟨d :: u, by rw [← e1], e2.symm⟩
  | readWord w =>
    cases s with
    | nil => exact .inr (.inr rfl)
    | cons c s =>
      simp only [Op.stream, Op.streamText] at h ⊢
      by_cases hl : (c :: s).length < w.length
      · rw [if_pos hl, if_pos hl]
        exact .inr (.inl ⟨rfl, _, rfl⟩)
      · simp only [List.cons_append] at h
        split at h
        · cases h
        · rw [if_neg hl]
          split at h
          · cases h
          · rename_i hc
            rw [if_neg hc]
            injection h with e1 e2
            rw [← List.cons_append, List.take_append_of_le_length (by omega)] at e1
            rw [← List.cons_append, List.drop_append_of_le_length (by omega)] at e2
            exact .inl ⟨_, by rw [← e1], e2.symm⟩

/-- A decoder on a beginning of what it accepts: no error, or one that says that the data ended. -/
theorem Texts.Of.stream_cut {σ : Type} {P : σ → Prop} {t : Texts} {prog : Prog σ} (h : t.Of P prog) {ending : Str} {r r' : Bool} {s q s' text : Str} {m : σ}
    (hok : prog.stream r (s ++ q) = .ok m r' s') (ht : t.stream ending s = some text) : ∃ pre, text = pre ++ ending := by
  induction h generalizing r s with
  | done _ => cases ht
  | fail => cases hok
  | timeout => cases hok
  | op _ ih =>
    obtain ⟨a, s1, h1, h2⟩ := stream_op_ok hok
    simp only [Texts.stream] at ht
    rcases Op.stream_cut _ ending h1 with ⟨u, hu, rfl⟩ | ⟨he, pre, hp⟩ | hb
    · rw [hu] at ht
      exact ih a h2 ht
    · rw [he] at ht
      injection ht with ht
      exact ⟨_, by rw [← ht, hp, ← List.append_assoc]⟩
    · rw [hb] at ht
      cases ht

end Verif
